import Verif.Proofs.ColCollection

/-!
# Exchanging containers of columnar updates
-/

namespace DD
set_option linter.unusedSectionVars false
variable {K V T R : Type*}

theorem route_spec {n : Nat} (hn : n ≠ 0) (h : Nat) : RecUpd.route n h = some (h % n) := by
  rw [RecUpd.route]
  split_ifs with h2
  · congr 1
    conv_lhs => rw [h2]
    conv_rhs => rw [h2]
    rw [Nat.and_two_pow_sub_one_eq_mod]
  · rfl

/-- The keys of a forest selected by a predicate. -/
def selF (p : K → Bool) (F : Forest K V T R) : Forest K V T R := (F.map fun g => g.filter fun k => p k.1).filter fun g => !g.isEmpty

theorem selF_append (p : K → Bool) (F G : Forest K V T R) : selF p (F ++ G) = selF p F ++ selF p G := by simp [selF]

theorem filter_ne_flatten {A : Type*} (l : List (List A)) : (l.filter fun g => !g.isEmpty).flatten = l.flatten := by
  induction l with
  | nil => rfl
  | cons x l ih =>
    rw [List.filter_cons]
    cases x with
    | nil => simpa using ih
    | cons a x => simp [ih]

theorem selF_flatten (p : K → Bool) (F : Forest K V T R) : (selF p F).flatten = F.flatten.filter fun k => p k.1 := by
  rw [selF, filter_ne_flatten, List.filter_flatten]

theorem selF_noEmpty (p : K → Bool) {F : Forest K V T R} (h : F.NoEmpty) : (selF p F).NoEmpty := by
  refine ⟨?_, ?_, ?_, ?_⟩
  · intro g hg
    have := (List.mem_filter.1 hg).2
    simpa using this
  · rw [selF_flatten]; intro k hk; exact h.keys k (List.mem_filter.1 hk).1
  · rw [selF_flatten]; intro v hv
    obtain ⟨k, hk, hv⟩ := List.mem_flatMap.1 hv
    exact h.vals v (List.mem_flatMap.2 ⟨k, (List.mem_filter.1 hk).1, hv⟩)
  · rw [selF_flatten]; intro t ht
    obtain ⟨v, hv, ht⟩ := List.mem_flatMap.1 ht
    obtain ⟨k, hk, hv⟩ := List.mem_flatMap.1 hv
    exact h.times t (List.mem_flatMap.2 ⟨v, List.mem_flatMap.2 ⟨k, (List.mem_filter.1 hk).1, hv⟩, ht⟩)

theorem flatMap_filter_key {A B : Type*} (l : List A) (p : A → Bool) (f : A → List B) (q : B → Bool) (h : ∀ a ∈ l, ∀ b ∈ f a, q b = p a) :
    (l.filter p).flatMap f = (l.flatMap f).filter q := by
  induction l with
  | nil => rfl
  | cons a l ih =>
    rw [List.flatMap_cons, List.filter_append, List.filter_cons, ← ih fun x hx => h x (List.mem_cons_of_mem _ hx)]
    have ha := h a List.mem_cons_self
    split_ifs with hp
    · rw [List.flatMap_cons]
      congr 1
      exact (List.filter_eq_self.2 fun b hb => by rw [ha b hb, hp]).symm
    · have : (f a).filter q = [] := List.filter_eq_nil_iff.2 fun b hb => by rw [ha b hb]; exact hp
      rw [this]; rfl

theorem selF_upds (p : K → Bool) (F : Forest K V T R) : (selF p F).upds = F.upds.filter fun u => p (ofLex u.1).1 := by
  rw [Forest.upds, selF_flatten, Forest.upds]
  apply flatMap_filter_key
  intro k _ u hu
  simp only [List.mem_flatMap, List.mem_map] at hu
  obtain ⟨v, -, t, -, d, -, rfl⟩ := hu
  rfl

theorem map_range_set {A : Type*} (n j : Nat) (f : Nat → A) (x : A) : ((List.range n).map f).set j x = (List.range n).map fun i => if i = j then x else f i := by
  apply List.ext_getElem (by simp)
  intro i h1 h2
  simp only [List.getElem_set, List.getElem_map, List.getElem_range]
  by_cases h : i = j
  · subst h; simp
  · rw [if_neg (Ne.symm h), if_neg h]

theorem openF_nil (f : Forest K V T R) : openF f [] = f.layout := by
  simp [openF, Forest.layout, Lists.opened_nil]

theorem openF_close (f : Forest K V T R) (g : List (K × List (V × List (T × List R)))) : { openF f g with keys := (openF f g).keys.close } = Forest.layout (f ++ [g]) := by
  simp [openF, Forest.layout]

theorem keys_openF (f : Forest K V T R) (g : List (K × List (V × List (T × List R)))) : (openF f g).keys.values.length = f.flatten.length + g.length := by
  simp [openF, Forest.layout, Lists.reopen, Lists.of, List.length_flatten, Function.comp_def]

theorem keys_layout (f : Forest K V T R) : f.layout.keys.values = f.flatten.map Prod.fst := by simp [Forest.layout, Lists.of, List.map_flatten]

/-- The loop over the keys of a group. -/
theorem partitionKeys_loop (hash : K → Nat) {n : Nat} (hn : n ≠ 0) (F : Forest K V T R) (s : Nat → Forest K V T R) :
    ∀ (g pre post : List (K × List (V × List (T × List R)))) (part : Nat → List (K × List (V × List (T × List R)))), F.flatten = pre ++ g ++ post →
      (List.range' pre.length g.length).foldlM (RecUpd.partitionKeys hash F.layout) ((List.range n).map fun i => openF (s i) (part i)) =
        some ((List.range n).map fun i => openF (s i) (part i ++ g.filter fun k => hash k.1 % n == i)) := by
  intro g
  induction g with
  | nil => intro pre post part h; simp
  | cons k g ih =>
    intro pre post part h
    have hk : F.flatten[pre.length]? = some k := by rw [h]; simp
    have hlt : pre.length < F.flatten.length := by rw [h]; simp
    rw [List.length_cons, List.range'_succ, List.foldlM_cons, RecUpd.partitionKeys, keys_layout, List.getElem?_map, hk]
    simp only [Option.map_some, Option.bind_some, List.length_map, List.length_range]
    rw [route_spec hn]
    simp only [Option.bind_some, List.getElem?_map]
    have hm := Nat.mod_lt (hash k.1) (Nat.pos_of_ne_zero hn)
    rw [List.getElem?_range hm]
    simp only [Option.map_some, Option.bind_some]
    have hs : slice F.flatten pre.length (pre.length + 1) = [k] := by
      rw [slice_succ _ le_rfl hlt]
      have : F.flatten[pre.length] = k := by rw [List.getElem?_eq_getElem hlt] at hk; exact Option.some.inj hk
      rw [this]; simp [slice]
    rw [extendFromKeys_spec _ F _ _ _ (Nat.le_succ _) hlt, hs]
    simp only [Option.map_some, Option.bind_eq_bind, Option.bind_some]
    rw [map_range_set]
    have e1 : ((List.range n).map fun i => if i = hash k.1 % n then openF (s (hash k.1 % n)) (part (hash k.1 % n) ++ [k]) else openF (s i) (part i)) =
        (List.range n).map fun i => openF (s i) (part i ++ if hash k.1 % n == i then [k] else []) := by
      refine List.map_congr_left fun i _ => ?_
      by_cases hi : i = hash k.1 % n
      · subst hi; simp
      · rw [if_neg hi, if_neg (by simpa using fun h => hi h.symm)]; simp
    rw [e1]
    have := ih (pre ++ [k]) post (fun i => part i ++ if hash k.1 % n == i then [k] else []) (by rw [h]; simp)
    rw [List.length_append, List.length_singleton] at this
    rw [this]
    congr 1
    refine List.map_congr_left fun i _ => ?_
    rw [List.filter_cons]
    split_ifs <;> simp

theorem partitionGroup_spec (hash : K → Nat) {n : Nat} (hn : n ≠ 0) (done rest : Forest K V T R) (g : List (K × List (V × List (T × List R)))) :
    RecUpd.partitionGroup hash (Forest.layout (done ++ g :: rest)) ((List.range n).map fun i => (selF (fun k => hash k % n == i) done).layout) done.length =
      some ((List.range n).map fun i => (selF (fun k => hash k % n == i) (done ++ [g])).layout) := by
  rw [RecUpd.partitionGroup]
  simp only
  have hr : (Forest.layout (done ++ g :: rest)).keys.range done.length = some (done.flatten.length, done.flatten.length + g.length) := by
    rw [Forest.layout, Lists.range_of _ _ (by simp)]
    have e1 : startAt ((done ++ g :: rest).map fun g => g.map Prod.fst) done.length = done.flatten.length := by
      simp [startAt, List.length_flatten, Function.comp_def]
    rw [startAt_succ _ (by simp), e1]
    simp
  rw [hr]
  simp only [Option.bind_some, Nat.add_sub_cancel_left]
  have h1 := partitionKeys_loop hash hn (done ++ g :: rest) (fun i => selF (fun k => hash k % n == i) done) g done.flatten rest.flatten (fun _ => []) (by simp)
  simp only [openF_nil, List.nil_append] at h1
  rw [h1]
  simp only [Option.map_some, List.map_map, Option.some.injEq]
  rw [List.zip_map', List.map_map]
  refine List.map_congr_left fun i _ => ?_
  simp only [Function.comp_apply, keys_openF, keys_layout, List.length_map]
  rw [selF_append]
  by_cases hg : (g.filter fun k => hash k.1 % n == i) = []
  · have : selF (fun k => hash k % n == i) [g] = [] := by simp [selF, hg]
    rw [hg, this, if_neg (by simp), openF_nil, List.append_nil]
  · have : selF (fun k => hash k % n == i) [g] = [g.filter fun k => hash k.1 % n == i] := by
      rw [selF]; simp only [List.map_cons, List.map_nil]; rw [List.filter_singleton]; have : (g.filter fun k => hash k.1 % n == i).isEmpty = false := by simpa using hg
      rw [this]; rfl
    have hl := List.length_pos_iff.2 hg
    rw [this, if_pos (by omega), openF_close]

theorem partitionGroups_spec (hash : K → Nat) {n : Nat} (hn : n ≠ 0) : ∀ (rest done : Forest K V T R),
    (List.range' done.length rest.length).foldlM (RecUpd.partitionGroup hash (Forest.layout (done ++ rest))) ((List.range n).map fun i => (selF (fun k => hash k % n == i) done).layout) =
      some ((List.range n).map fun i => (selF (fun k => hash k % n == i) (done ++ rest)).layout) := by
  intro rest
  induction rest with
  | nil => intro done; simp
  | cons g rest ih =>
    intro done
    rw [List.length_cons, List.range'_succ, List.foldlM_cons, partitionGroup_spec hash hn done rest g]
    have := ih (done ++ [g])
    rw [List.length_append, List.length_singleton, List.append_assoc, List.singleton_append] at this
    exact this

/-- What is sent, and how many records it accounts for. -/
theorem sendAll_spec (b : Bool) : ∀ (outs : List (ColTrie K V T R)) (m : Nat),
    (RecUpd.sendAll b m outs).length = outs.length ∧
    (∀ (i : Nat) (o : ColTrie K V T R), outs[i]? = some o → ∃ r, (RecUpd.sendAll b m outs)[i]? = some (if o.keys.values.isEmpty then none else some ⟨o, r, b⟩)) ∧
    ((RecUpd.sendAll b m outs).map fun x => (x.elim 0 RecUpd.records)).sum =
      if (outs.countP fun o => !o.keys.values.isEmpty) = 0 then 0 else m + ((outs.countP fun o => !o.keys.values.isEmpty) - 1) := by
  intro outs
  induction outs with
  | nil => intro m; simp [RecUpd.sendAll]
  | cons o outs ih =>
    intro m
    rw [RecUpd.sendAll]
    cases ho : o.keys.values.isEmpty with
    | true =>
      obtain ⟨i1, i2, i3⟩ := ih m
      refine ⟨by simp [i1], ?_, ?_⟩
      · intro i o' hi
        cases i with
        | zero => simp at hi; subst hi; exact ⟨0, by simp [ho]⟩
        | succ i => simpa using i2 i o' (by simpa using hi)
      · simp only [if_true, List.map_cons, List.sum_cons, Option.elim_none, i3, List.countP_cons, ho]
        simp
    | false =>
      obtain ⟨i1, i2, i3⟩ := ih 1
      refine ⟨by simp [i1], ?_, ?_⟩
      · intro i o' hi
        cases i with
        | zero => simp at hi; subst hi; exact ⟨m, by simp [ho]⟩
        | succ i => simpa using i2 i o' (by simpa using hi)
      · simp only [Bool.false_eq_true, if_false, List.map_cons, List.sum_cons, Option.elim_some, i3, List.countP_cons, ho]
        simp only [Bool.not_false, if_true]
        generalize List.countP (fun o => !o.keys.values.isEmpty) outs = c
        rw [if_neg (Nat.succ_ne_zero c)]
        split_ifs <;> omega

end DD
