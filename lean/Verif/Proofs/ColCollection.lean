import Verif.Model.ColCollection
import Verif.Proofs.ColBasic

/-!
# Containers of columnar updates, their builder and chunker
-/

namespace DD
set_option linter.unusedSectionVars false

/-! ### Applying functions to times and differences -/

section map
variable {K V T T' R R' : Type*}

/-- A forest with functions applied to times and differences. -/
def Forest.mapTR (f : T → T') (g : R → R') (F : Forest K V T R) : Forest K V T' R' :=
  F.map fun grp => grp.map fun k => (k.1, k.2.map fun v => (v.1, v.2.map fun t => (f t.1, t.2.map g)))

theorem Lists.of_map {A B : Type*} (ls : List (List A)) (f : A → B) : Lists.of (ls.map (List.map f)) = ⟨(Lists.of ls).values.map f, (Lists.of ls).bounds⟩ := by
  rw [Lists.of, Lists.of, ends_map_map, List.map_flatten]

theorem flatten_mapTR (f : T → T') (g : R → R') (F : Forest K V T R) :
    (F.mapTR f g).flatten = F.flatten.map fun k => (k.1, k.2.map fun v => (v.1, v.2.map fun t => (f t.1, t.2.map g))) := by
  rw [Forest.mapTR, List.map_flatten]

theorem vals_mapTR (f : T → T') (g : R → R') (F : Forest K V T R) :
    (F.mapTR f g).flatten.flatMap Prod.snd = (F.flatten.flatMap Prod.snd).map fun v => (v.1, v.2.map fun t => (f t.1, t.2.map g)) := by
  rw [flatten_mapTR, List.flatMap_map, List.map_flatMap]

theorem times_mapTR (f : T → T') (g : R → R') (F : Forest K V T R) :
    ((F.mapTR f g).flatten.flatMap Prod.snd).flatMap Prod.snd = ((F.flatten.flatMap Prod.snd).flatMap Prod.snd).map fun t => (f t.1, t.2.map g) := by
  rw [vals_mapTR, List.flatMap_map, List.map_flatMap]

theorem layout_mapTR (f : T → T') (g : R → R') (F : Forest K V T R) :
    (F.mapTR f g).layout = { keys := F.layout.keys, vals := F.layout.vals, times := ⟨F.layout.times.values.map f, F.layout.times.bounds⟩, diffs := ⟨F.layout.diffs.values.map g, F.layout.diffs.bounds⟩ } := by
  have hk : (F.mapTR f g).map (fun x => x.map Prod.fst) = F.map fun x => x.map Prod.fst := by
    rw [Forest.mapTR, List.map_map]; refine List.map_congr_left fun x _ => ?_
    simp [Function.comp_def]
  have hv : (F.mapTR f g).flatten.map (fun k => k.2.map Prod.fst) = F.flatten.map fun k => k.2.map Prod.fst := by
    rw [flatten_mapTR, List.map_map]; refine List.map_congr_left fun x _ => ?_
    simp [Function.comp_def]
  have ht : ((F.mapTR f g).flatten.flatMap Prod.snd).map (fun v => v.2.map Prod.fst) = ((F.flatten.flatMap Prod.snd).map fun v => v.2.map Prod.fst).map (List.map f) := by
    rw [vals_mapTR, List.map_map, List.map_map]; refine List.map_congr_left fun x _ => ?_
    simp [Function.comp_def]
  have hd : (((F.mapTR f g).flatten.flatMap Prod.snd).flatMap Prod.snd).map Prod.snd = (((F.flatten.flatMap Prod.snd).flatMap Prod.snd).map Prod.snd).map (List.map g) := by
    rw [times_mapTR, List.map_map, List.map_map]; rfl
  simp only [Forest.layout, hk, hv, ht, hd, Lists.of_map]

theorem upds_mapTR (f : T → T') (g : R → R') (F : Forest K V T R) : (F.mapTR f g).upds = F.upds.map fun u => (u.1, f u.2.1, g u.2.2) := by
  rw [Forest.upds, Forest.upds, flatten_mapTR]
  simp only [List.flatMap_map, List.map_flatMap, List.map_map, Function.comp_def]

theorem noEmpty_mapTR (f : T → T') (g : R → R') {F : Forest K V T R} (h : F.NoEmpty) : (F.mapTR f g).NoEmpty := by
  refine ⟨?_, ?_, ?_, ?_⟩
  · intro x hx
    obtain ⟨y, hy, rfl⟩ := List.mem_map.1 hx
    simpa using h.groups y hy
  · rw [flatten_mapTR]
    intro x hx
    obtain ⟨y, hy, rfl⟩ := List.mem_map.1 hx
    simpa using h.keys y hy
  · rw [vals_mapTR]
    intro x hx
    obtain ⟨y, hy, rfl⟩ := List.mem_map.1 hx
    simpa using h.vals y hy
  · rw [times_mapTR]
    intro x hx
    obtain ⟨y, hy, rfl⟩ := List.mem_map.1 hx
    simpa using h.times y hy

/-- Contents with functions applied to times and differences. -/
def Contents.mapTR (f : T → T') (g : R → R') (c : Contents K V T R) : Contents K V T' R' := c.map fun k => (k.1, k.2.map fun v => (v.1, v.2.map fun u => (f u.1, g u.2)))

theorem forest_mapTR (f : T → T') (g : R → R') (c : Contents K V T R) : (c.mapTR f g).forest = c.forest.mapTR f g := by
  rw [Contents.forest, Contents.forest]
  have : (c.mapTR f g).isEmpty = c.isEmpty := by cases c <;> rfl
  rw [this]
  split_ifs
  · rfl
  · simp [Contents.mapTR, Forest.mapTR, Function.comp_def]

theorem holds_mapTR [LT K] [LT V] (f : T → T') (g : R → R') {t : ColTrie K V T R} {us : Upds (K ×ₗ V) T R} (h : t.Holds us) :
    ColTrie.Holds { keys := t.keys, vals := t.vals, times := ⟨t.times.values.map f, t.times.bounds⟩, diffs := ⟨t.diffs.values.map g, t.diffs.bounds⟩ } (us.map fun u => (u.1, f u.2.1, g u.2.2)) := by
  obtain ⟨c, h1, h2, rfl, rfl⟩ := h
  refine ⟨c.mapTR f g, ⟨?_, ?_⟩, ?_, ?_, ?_⟩
  · rw [Contents.mapTR, List.pairwise_map]; exact h1.keys
  · intro kv hkv
    obtain ⟨x, hx, rfl⟩ := List.mem_map.1 hkv
    simp only [List.pairwise_map]; exact h1.vals x hx
  · intro kv hkv
    obtain ⟨x, hx, rfl⟩ := List.mem_map.1 hkv
    refine ⟨by simpa using (h2 x hx).1, ?_⟩
    intro vu hvu
    obtain ⟨y, hy, rfl⟩ := List.mem_map.1 hvu
    simpa using (h2 x hx).2 y hy
  · rw [forest_mapTR, layout_mapTR]
  · simp [Contents.upds, Contents.mapTR, List.flatMap_map, List.map_flatMap, Function.comp_def]

end map

/-! ### Carrying updates -/

section carries
variable {K V T R : Type*} [LinearOrder K] [LinearOrder V] [LinearOrder (Lin T)] [AddCommMonoid R]

theorem iter_noEmpty {f : Forest K V T R} (h : f.NoEmpty) : f.layout.iter = some f.upds := by
  apply iter_layout
  · intro k hk; exact h.keys k (List.mem_of_mem_head? hk)
  · intro v hv; exact h.vals v (List.mem_of_mem_head? hv)

theorem RecUpd.Carries.iter {c : RecUpd K V T R} {us : Upds (K ×ₗ V) T R} (h : c.Carries us) : c.updates.iter = some us := by
  obtain ⟨f, h1, h2, h3⟩ := h.layout
  rw [h2, iter_noEmpty h1, h3]

theorem RecUpd.Carries.len {c : RecUpd K V T R} {us : Upds (K ×ₗ V) T R} (h : c.Carries us) : c.updates.len = us.length := by
  obtain ⟨f, h1, h2, h3⟩ := h.layout
  rw [h2, ← h3, length_upds]; rfl

theorem forest_noEmpty {c : Contents K V T R} (h : NoEmpty c) : c.forest.NoEmpty := by
  rw [Contents.forest]
  split_ifs with h0
  · exact ⟨by simp, by simp, by simp, by simp⟩
  · refine ⟨?_, ?_, ?_, ?_⟩
    · intro g hg
      rw [List.mem_singleton] at hg; subst hg
      simpa using h0
    · simp only [List.flatten_singleton]
      intro k hk
      obtain ⟨x, hx, rfl⟩ := List.mem_map.1 hk
      simpa using (h x hx).1
    · simp only [List.flatten_singleton]
      intro v hv
      obtain ⟨k, hk, hv⟩ := List.mem_flatMap.1 hv
      obtain ⟨x, hx, rfl⟩ := List.mem_map.1 hk
      obtain ⟨y, hy, rfl⟩ := List.mem_map.1 hv
      simpa using (h x hx).2 y hy
    · simp only [List.flatten_singleton]
      intro t ht
      obtain ⟨v, hv, ht⟩ := List.mem_flatMap.1 ht
      obtain ⟨k, hk, hv⟩ := List.mem_flatMap.1 hv
      obtain ⟨x, hx, rfl⟩ := List.mem_map.1 hk
      obtain ⟨y, hy, rfl⟩ := List.mem_map.1 hv
      obtain ⟨z, hz, rfl⟩ := List.mem_map.1 ht
      simp

theorem holds_carries {t : ColTrie K V T R} {us : Upds (K ×ₗ V) T R} (h : t.Holds us) (hc : Consolidated us) (n : Nat) (b : Bool) : RecUpd.Carries ⟨t, n, b⟩ us := by
  refine ⟨?_, fun _ => ⟨h, hc⟩⟩
  obtain ⟨c, h1, h2, rfl, rfl⟩ := h
  exact ⟨_, forest_noEmpty h2, rfl, upds_forest c⟩

theorem carries_nil {c : RecUpd K V T R} (h : c.Carries []) : c.updates = ColTrie.empty := by
  obtain ⟨f, h1, h2, h3⟩ := h.layout
  have : f = [] := by
    rcases f with _ | ⟨g, f⟩
    · rfl
    · exfalso
      have hg := h1.groups g List.mem_cons_self
      obtain ⟨k, g', rfl⟩ := List.exists_cons_of_ne_nil hg
      have hk := h1.keys k (by simp)
      obtain ⟨v, vs, e⟩ := List.exists_cons_of_ne_nil hk
      have hv := h1.vals v (by simp [e])
      obtain ⟨t, ts, e'⟩ := List.exists_cons_of_ne_nil hv
      have ht := h1.times t (by simp [e, e'])
      obtain ⟨d, ds, e''⟩ := List.exists_cons_of_ne_nil ht
      simp [Forest.upds, e, e', e''] at h3
  subst this
  exact h2

variable [DecidableEq R] [DecidableEq T]

theorem consolidating_sub (us : Upds (K ×ₗ V) T R) :
    (ColTrie.consolidating us).length ≤ us.length ∧ ∀ w ∈ ColTrie.consolidating us, ∃ u ∈ us, u.1 = w.1 ∧ u.2.1 = w.2.1 := by
  generalize hn : us.length = n
  induction n using Nat.strong_induction_on generalizing us with
  | _ n ih =>
  subst hn
  cases us with
  | nil => simp [ColTrie.consolidating]
  | cons u us =>
    obtain ⟨ih1, ih2⟩ := ih _ (Nat.lt_succ_of_le (List.dropWhile_sublist (fun w => decide (w.1 = u.1 ∧ toLin w.2.1 = toLin u.2.1))).length_le) (us.dropWhile fun w => decide (w.1 = u.1 ∧ toLin w.2.1 = toLin u.2.1)) rfl
    have hl : (us.dropWhile fun w => decide (w.1 = u.1 ∧ toLin w.2.1 = toLin u.2.1)).length ≤ us.length := (List.dropWhile_sublist _).length_le
    have hr : ∀ w ∈ ColTrie.consolidating (us.dropWhile fun w => decide (w.1 = u.1 ∧ toLin w.2.1 = toLin u.2.1)), ∃ x ∈ u :: us, x.1 = w.1 ∧ x.2.1 = w.2.1 := by
      intro w hw
      obtain ⟨x, hx, e⟩ := ih2 w hw
      exact ⟨x, List.mem_cons_of_mem _ ((List.dropWhile_sublist _).subset hx), e⟩
    rw [ColTrie.consolidating]
    split_ifs with hd
    · refine ⟨by simp only [List.length_cons]; omega, ?_⟩
      intro w hw
      rcases List.mem_cons.1 hw with rfl | hw
      · exact ⟨u, List.mem_cons_self, rfl, rfl⟩
      · exact hr w hw
    · exact ⟨by simp only [List.length_cons]; omega, hr⟩

theorem formUnsorted_forms (us : Upds (K ×ₗ V) T R) (n : Nat) :
    ∃ t ws, ColTrie.formUnsorted us = some t ∧ RecUpd.Carries ⟨t, n, true⟩ ws ∧ (∀ d q, total ws d q = total us d q) ∧ ∀ w ∈ ws, ∃ u ∈ us, u.1 = w.1 ∧ u.2.1 = w.2.1 := by
  have hs := sortedU_sort us
  obtain ⟨t, h1, h2⟩ := form_holds hs
  have hp := List.perm_insertionSort ColTrie.updLe us
  have hsub := consolidating_sub (us.insertionSort ColTrie.updLe)
  refine ⟨t, _, h1, holds_carries h2 (consolidated_consolidating hs) n true, fun d q => ?_, ?_⟩
  · rw [total_consolidating]
    exact List.Perm.sum_eq (hp.map _)
  · intro w hw
    obtain ⟨u, hu, e⟩ := hsub.2 w hw
    exact ⟨u, hp.subset hu, e⟩

/-! ### Containers -/

theorem resultsIn_fold (step : T → Option T) (us : Upds (K ×ₗ V) T R) (acc : ColTrie K V T R) :
    us.foldl (fun output u => match step u.2.1 with
      | some new_time => output.push (u.1, new_time, u.2.2)
      | none => output) acc = (us.filterMap fun u => (step u.2.1).map fun t => (u.1, t, u.2.2)).foldl ColTrie.push acc := by
  induction us generalizing acc with
  | nil => rfl
  | cons u us ih =>
    rw [List.foldl_cons, ih, List.filterMap_cons]
    cases step u.2.1 <;> rfl

theorem pushedF_noEmpty (us : Upds (K ×ₗ V) T R) : (pushedF us).NoEmpty := by
  refine ⟨?_, ?_, ?_, ?_⟩ <;> · intro x hx; simp [pushedF] at hx; obtain ⟨a, b, c, d, -, hx⟩ := hx; subst hx; simp


/-! ### The builder -/

/-- What a builder has been given, has handed out, and holds. -/
def ColBInv (pushed : Upds (K ×ₗ V) T R) (sent : List (RecUpd K V T R)) (b : ColBuilder K V T R) : Prop :=
  ∃ pieces, List.Forall₂ RecUpd.Forms (sent ++ b.pending) pieces ∧ pieces.flatten ++ b.current = pushed ∧ ∀ p ∈ pieces, p ≠ []

theorem ColBInv.seal_ {pushed : Upds (K ×ₗ V) T R} {sent : List (RecUpd K V T R)} {b : ColBuilder K V T R} (h : ColBInv pushed sent b) (hc : b.current ≠ []) :
    ∃ c, b.seal_ = some ⟨[], b.pending ++ [c]⟩ ∧ ColBInv pushed sent ⟨[], b.pending ++ [c]⟩ := by
  obtain ⟨pieces, h1, h2, h3⟩ := h
  obtain ⟨t, ws, e, f1, f2, f3⟩ := formUnsorted_forms b.current b.current.length
  refine ⟨⟨t, b.current.length, true⟩, by rw [ColBuilder.seal_, e]; rfl, pieces ++ [b.current], ?_, by simpa using h2, ?_⟩
  · rw [← List.append_assoc]
    exact List.rel_append h1 (.cons ⟨rfl, rfl, ws, f1, f2, f3⟩ .nil)
  · intro p hp
    rcases List.mem_append.1 hp with hp | hp
    · exact h3 p hp
    · rw [List.mem_singleton] at hp; rw [hp]; exact hc

theorem ColBInv.pushInto {pushed : Upds (K ×ₗ V) T R} {sent : List (RecUpd K V T R)} {b : ColBuilder K V T R} (h : ColBInv pushed sent b) (target : Nat) (item : (K ×ₗ V) × T × R) :
    ∃ b', b.pushInto target item = some b' ∧ ColBInv (pushed ++ [item]) sent b' := by
  have h' : ColBInv (pushed ++ [item]) sent { b with current := b.current ++ [item] } := by
    obtain ⟨pieces, h1, h2, h3⟩ := h
    exact ⟨pieces, h1, by simp only; rw [← List.append_assoc, h2], h3⟩
  rw [ColBuilder.pushInto]
  simp only
  split_ifs
  · obtain ⟨c, e, g⟩ := h'.seal_ (by simp)
    exact ⟨_, e, g⟩
  · exact ⟨_, rfl, h'⟩

theorem ColBInv.extract {pushed : Upds (K ×ₗ V) T R} {sent : List (RecUpd K V T R)} {b : ColBuilder K V T R} (h : ColBInv pushed sent b) :
    ColBInv pushed (sent ++ b.extract.1.toList) b.extract.2 := by
  rw [ColBuilder.extract]
  cases hp : b.pending with
  | nil => simpa using h
  | cons c pending =>
    obtain ⟨pieces, h1, h2, h3⟩ := h
    refine ⟨pieces, ?_, h2, h3⟩
    rw [hp] at h1
    simpa using h1

theorem ColBInv.finish {pushed : Upds (K ×ₗ V) T R} {sent : List (RecUpd K V T R)} {b : ColBuilder K V T R} (h : ColBInv pushed sent b) :
    ∃ o b', b.finish = some (o, b') ∧ ColBInv pushed (sent ++ o.toList) b' ∧ b'.current = [] ∧ (o = none → b'.pending = []) ∧
      (o.isSome → b'.pending.length + 1 = b.pending.length + (if b.current = [] then 0 else 1)) := by
  rw [ColBuilder.finish]
  split_ifs with hc
  · refine ⟨b.extract.1, b.extract.2, rfl, h.extract, ?_, ?_, ?_⟩
    · rw [ColBuilder.extract]; cases b.pending <;> simpa using hc
    · rw [ColBuilder.extract]; cases hp : b.pending <;> simp [hp]
    · rw [ColBuilder.extract]; cases hp : b.pending <;> simp
  · rename_i hc'; exact absurd (List.isEmpty_iff.1 hc) hc'
  · rename_i hc'; exact absurd (List.isEmpty_iff.2 hc') hc
  · rename_i hc'
    obtain ⟨c, e, g⟩ := h.seal_ hc'
    rw [e]
    refine ⟨(ColBuilder.extract ⟨[], b.pending ++ [c]⟩).1, (ColBuilder.extract ⟨[], b.pending ++ [c]⟩).2, rfl, g.extract, ?_, ?_, ?_⟩
    · rw [ColBuilder.extract]; simp only; cases b.pending <;> rfl
    · rw [ColBuilder.extract]; simp only; cases b.pending <;> simp
    · rw [ColBuilder.extract]; simp only; cases b.pending <;> simp

theorem ColBInv.extractAll {pushed : Upds (K ×ₗ V) T R} {sent : List (RecUpd K V T R)} {b : ColBuilder K V T R} (h : ColBInv pushed sent b) :
    ColBInv pushed (b.extractAll sent).1 (b.extractAll sent).2 := by
  rw [ColBuilder.extractAll]
  generalize b.pending.length = n
  induction n generalizing b sent with
  | zero => exact h
  | succ n ih =>
    rw [ColBuilder.extractAll.go]
    have he := h.extract
    rcases hb : b.extract with ⟨o, b'⟩
    rw [hb] at he
    cases o with
    | none => simpa using he
    | some c => simp only; exact ih (by simpa using he)

theorem ColBInv.finishAll {pushed : Upds (K ×ₗ V) T R} : ∀ (n : Nat) {sent : List (RecUpd K V T R)} {b : ColBuilder K V T R}, ColBInv pushed sent b →
    b.pending.length + (if b.current = [] then 0 else 1) < n →
    ∃ sent' pieces, b.finishAll n sent = some (sent', ColBuilder.empty) ∧ List.Forall₂ RecUpd.Forms sent' pieces ∧ pieces.flatten = pushed ∧ ∀ p ∈ pieces, p ≠ [] := by
  intro n
  induction n with
  | zero => intro sent b _ h; omega
  | succ n ih =>
    intro sent b h hn
    obtain ⟨o, b', e, g1, g2, g3, g4⟩ := h.finish
    rw [ColBuilder.finishAll, e]
    cases o with
    | none =>
      obtain ⟨pieces, k1, k2, k3⟩ := g1
      have hp := g3 rfl
      rcases b' with ⟨cur, pend⟩
      simp only at g2 hp
      subst g2 hp
      exact ⟨sent, pieces, rfl, by simpa using k1, by simpa using k2, k3⟩
    | some c =>
      have := g4 rfl
      exact ih (by simpa using g1) (by rw [if_pos g2]; omega)

theorem ColBInv.session_fold {target : Nat} {pushed : Upds (K ×ₗ V) T R} : ∀ (items : Upds (K ×ₗ V) T R) {s : List (RecUpd K V T R) × ColBuilder K V T R}, ColBInv pushed s.1 s.2 →
    ∃ s', items.foldlM (ColBuilder.give target) s = some s' ∧ ColBInv (pushed ++ items) s'.1 s'.2 := by
  intro items
  induction items generalizing pushed with
  | nil => intro s h; exact ⟨s, rfl, by simpa using h⟩
  | cons u items ih =>
    intro s h
    obtain ⟨b', e, g⟩ := h.pushInto target u
    obtain ⟨s', e', g'⟩ := ih (s := b'.extractAll s.1) g.extractAll
    refine ⟨s', ?_, by simpa using g'⟩
    rw [List.foldlM_cons, ColBuilder.give, e]
    exact e'

theorem session_spec (target : Nat) (items : Upds (K ×ₗ V) T R) :
    ∃ sent pieces, ColBuilder.session target .empty items = some (sent, ColBuilder.empty) ∧ List.Forall₂ RecUpd.Forms sent pieces ∧ pieces.flatten = items ∧ ∀ p ∈ pieces, p ≠ [] := by
  obtain ⟨s, e, g⟩ := ColBInv.session_fold (target := target) (pushed := []) items (s := ([], ColBuilder.empty)) ⟨[], .nil, rfl, by simp⟩
  obtain ⟨sent, pieces, e', g'⟩ := g.finishAll (s.2.pending.length + 2) (by split_ifs <;> omega)
  refine ⟨sent, pieces, ?_, g'⟩
  rw [ColBuilder.session, e]
  exact e'

end carries

end DD
