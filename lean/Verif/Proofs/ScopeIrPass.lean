import Verif.Proofs.ScopeIr

/-! # The optimizer of scope trees: passes -/

namespace DD.Ir
set_option linter.unusedSectionVars false
variable {L P Q N : Type*} {Col Arr : Type*} {sem : Sem L P Q N Col Arr} {R : L → L → Prop}

/-- A state of a pass: sound, and if something changed there are fewer live items. -/
def Pass (sem : Sem L P Q N Col Arr) (R : L → L → Prop) (s : Scope L P Q N) (dead : List Bool) (st : OptState L P Q N) : Prop :=
  Le sem R s dead st.1 st.2.1 ∧ (st.2.2 = true → st.2.1.count false < dead.count false)

theorem foldlM_inv {A : Type*} (g : A → Nat → Option A) (I : A → Prop) (l : List Nat) (hl : ∀ a, I a → ∀ i ∈ l, ∃ a', g a i = some a' ∧ I a') : ∀ a, I a → ∃ a', l.foldlM g a = some a' ∧ I a' := by
  induction l with
  | nil => intro a h; exact ⟨a, rfl, h⟩
  | cons i l ih =>
    intro a h
    obtain ⟨a1, h1, h2⟩ := hl a h i List.mem_cons_self
    obtain ⟨a2, h3, h4⟩ := ih (fun a ha i hi => hl a ha i (List.mem_cons_of_mem _ hi)) a1 h2
    exact ⟨a2, by rw [List.foldlM_cons, h1]; exact h3, h4⟩

theorem get_of_lt {A : Type*} {l : List A} {i : Nat} (h : i < l.length) : ∃ x, l[i]? = some x := ⟨l[i], List.getElem?_eq_getElem h⟩

section
variable {s : Scope L P Q N} {dead : List Bool}

theorem Pass.step {st : OptState L P Q N} {s' : Scope L P Q N} {dead' : List Bool} (h : Pass sem R s dead st) (h1 : Le sem R st.1 st.2.1 s' dead')
    (h2 : dead'.count false < st.2.1.count false) : Pass sem R s dead (s', dead', true) :=
  ⟨h.1.trans h1, fun _ => lt_of_lt_of_le h2 h.1.live⟩

theorem collapseStep_ok {st : OptState L P Q N} {i : Nat} (h : Pass sem R s dead st) (hi : i < s.items.length) : ∃ st', collapseStep st i = some st' ∧ Pass sem R s dead st' := by
  have hinv := h.1.inv
  have hi' : i < st.1.items.length := by rw [h.1.length]; exact hi
  obtain ⟨it, hit⟩ := get_of_lt hi'
  obtain ⟨di, hdi⟩ := get_of_lt (l := st.2.1) (i := i) (by rw [hinv.len]; exact hi')
  rw [collapseStep, hdi, Option.bind_some]
  cases di with
  | true => exact ⟨st, rfl, h⟩
  | false =>
    rw [if_neg (by simp), hit, Option.bind_some]
    cases ha : it.arrangeOf with
    | none => exact ⟨st, rfl, h⟩
    | some j =>
      have hit' : it = .op (.arrange (.loc j)) := by
        cases it with
        | sub c => cases ha
        | op n =>
          cases n with
          | arrange r => cases r with
            | loc k => cases ha; rfl
            | _ => cases ha
          | _ => cases ha
      subst hit'
      obtain ⟨hji, nj, hj⟩ := hinv.refs.items i _ hit (.loc j) List.mem_cons_self
      obtain ⟨dj, hdj⟩ := get_of_lt (l := st.2.1) (i := j) (by rw [hinv.len]; omega)
      rw [Option.elim_some, hdj, Option.bind_some, hj, Option.bind_some]
      cases dj with
      | true => exact ⟨st, rfl, h⟩
      | false =>
        by_cases harr : (Item.op nj).isArrangement = true
        · rw [if_pos (by simp [harr])]
          refine ⟨_, rfl, ?_⟩
          have hno : ∀ r ops, nj ≠ .linear r ops := by rintro r ops rfl; cases harr
          have := redirect_ok (sem := sem) (a := i) (b := j) hinv hji hit hj hdi hdj
            (by rintro k ⟨ops, hk⟩; rw [hj] at hk; cases hk; exact absurd rfl (hno _ _))
            (by
              simp only [opsAt, hit, hj, Option.bind_some]
              cases nj <;> first | rfl | exact absurd rfl (hno _ _))
            (by
              intro depth res r h1 h2
              simp only [renderNode, h2, Option.map_some]
              cases nj with
              | arrange x =>
                simp only [renderNode] at h1
                obtain ⟨c, -, rfl⟩ := Option.map_eq_some_iff.1 h1
                rfl
              | reduce x q =>
                simp only [renderNode] at h1
                obtain ⟨c, -, rfl⟩ := Option.map_eq_some_iff.1 h1
                rfl
              | _ => cases harr)
          exact h.step this.1 this.2
        · rw [if_neg (by simp [harr])]
          exact ⟨st, rfl, h⟩

theorem collapseArranges_ok (h : Inv R s dead) : ∃ st', collapseArranges s dead = some st' ∧ Pass sem R s dead st' :=
  foldlM_inv _ (Pass sem R s dead) _ (fun _ ha _ hi => collapseStep_ok ha (List.mem_range.1 hi)) _ ⟨Le.refl h, fun h => by cases h⟩

theorem useCounts_ok (h : Inv R s dead) : ∃ counts, useCounts s dead = some counts ∧ ∀ k, k < s.items.length → counts[k]? = some (uses s dead k) := by
  rw [useCounts]
  rw [if_pos]
  · refine ⟨_, rfl, fun k hk => ?_⟩
    rw [List.getElem?_map, List.getElem?_range hk]; rfl
  · intro i hi
    obtain ⟨r, h1, h2⟩ := List.mem_filterMap.1 hi
    have := (List.getElem?_eq_some_iff.1 (h.live r h1 i h2)).1
    rw [h.len] at this
    exact this

theorem linearOf_eq {it : Item L P Q N} {j : Nat} {ops : List L} (h : it.linearOf = some (j, ops)) : it = .op (.linear (.loc j) ops) := by
  cases it with
  | sub c => cases h
  | op n =>
    cases n with
    | linear r o =>
      cases r with
      | loc k => cases h; rfl
      | _ => cases h
    | _ => cases h

theorem linear?_eq {it : Item L P Q N} {r : Ref} {ops : List L} (h : it.linear? = some (r, ops)) : it = .op (.linear r ops) := by
  cases it with
  | sub c => cases h
  | op n =>
    cases n with
    | linear r o => cases h; rfl
    | _ => cases h

theorem fuseStep_ok (hF : sem.Fuses R) {counts : List Nat} {st : OptState L P Q N} {i : Nat}
    (h : Pass sem R s dead st ∧ ∀ k, st.2.1[k]? = some false → counts[k]? = some (uses st.1 st.2.1 k)) (hi : i < s.items.length) :
    ∃ st', fuseStep counts st i = some st' ∧ Pass sem R s dead st' ∧ ∀ k, st'.2.1[k]? = some false → counts[k]? = some (uses st'.1 st'.2.1 k) := by
  obtain ⟨h, hcounts⟩ := h
  have hinv := h.1.inv
  have hi' : i < st.1.items.length := by rw [h.1.length]; exact hi
  obtain ⟨it, hit⟩ := get_of_lt hi'
  obtain ⟨di, hdi⟩ := get_of_lt (l := st.2.1) (i := i) (by rw [hinv.len]; exact hi')
  rw [fuseStep, hdi, Option.bind_some]
  cases di with
  | true => exact ⟨st, rfl, h, hcounts⟩
  | false =>
    rw [if_neg (by simp), hit, Option.bind_some]
    cases ha : it.linearOf with
    | none => exact ⟨st, rfl, h, hcounts⟩
    | some p =>
      obtain ⟨j, ops⟩ := p
      have hit' := linearOf_eq ha
      subst hit'
      obtain ⟨hji, nj, hj⟩ := hinv.refs.items i _ hit (.loc j) List.mem_cons_self
      obtain ⟨dj, hdj⟩ := get_of_lt (l := st.2.1) (i := j) (by rw [hinv.len]; omega)
      rw [Option.elim_some, hdj, Option.bind_some]
      cases dj with
      | true => exact ⟨st, rfl, h, hcounts⟩
      | false =>
        rw [if_neg (by simp), hcounts j hdj, Option.bind_some]
        by_cases hone : uses st.1 st.2.1 j = 1
        · rw [if_neg (by simp [hone]), hj, Option.bind_some]
          cases hl : (Item.op nj).linear? with
          | none => exact ⟨st, rfl, h, hcounts⟩
          | some inner =>
            obtain ⟨inner, inops⟩ := inner
            rw [linear?_eq hl] at hj
            refine ⟨_, rfl, ?_, ?_⟩
            · have := fuse_ok hF hinv hit hj hdi hdj hone
              exact h.step this.1 this.2
            · intro k hk
              by_cases hkj : k = j
              · subst hkj
                rw [List.getElem?_set_self (List.getElem?_eq_some_iff.1 hdj).1] at hk
                cases hk
              · rw [List.getElem?_set_ne (Ne.symm hkj)] at hk
                rw [hcounts k hk]
                exact congrArg some (uses_fused (by omega) hit hj hdi hdj hkj).symm
        · rw [if_pos hone]
          exact ⟨st, rfl, h, hcounts⟩

theorem fuseLinear_ok (hF : sem.Fuses R) (h : Inv R s dead) : ∃ st', fuseLinear s dead = some st' ∧ Pass sem R s dead st' := by
  rw [fuseLinear]
  obtain ⟨counts, h1, h2⟩ := useCounts_ok h
  rw [h1, Option.bind_some]
  obtain ⟨st', h3, h4, -⟩ := foldlM_inv (fuseStep counts) (fun st => Pass sem R s dead st ∧ ∀ k, st.2.1[k]? = some false → counts[k]? = some (uses st.1 st.2.1 k))
    (List.range s.items.length) (fun _ ha _ hi => fuseStep_ok hF ha (List.mem_range.1 hi)) (s, dead, false)
    ⟨⟨Le.refl h, fun h => by cases h⟩, fun k hk => h2 k (by rw [← h.len]; exact (List.getElem?_eq_some_iff.1 hk).1)⟩
  exact ⟨st', h3, h4⟩

end

section
variable {s : Scope L P Q N} {dead : List Bool}

/-- The redirects of duplicates, to be applied in order. -/
structure Dups (s : Scope L P Q N) (dead : List Bool) (rs : List (Nat × Nat)) : Prop where
  same : ∀ p ∈ rs, p.2 < p.1 ∧ ∃ n, s.items[p.1]? = some (.op n) ∧ s.items[p.2]? = some (.op n) ∧ dead[p.1]? = some false ∧ dead[p.2]? = some false
  nodup : (rs.map Prod.fst).Nodup
  apart : ∀ p ∈ rs, ∀ q ∈ rs, p.1 ≠ q.2

theorem dups_ok {rs : List (Nat × Nat)} : ∀ {s : Scope L P Q N} {dead : List Bool}, Inv R s dead → Dups s dead rs →
    Le sem R s dead (rs.foldl (fun r p => redirect p.1 (.loc p.2) r.1 r.2) (s, dead)).1 (rs.foldl (fun r p => redirect p.1 (.loc p.2) r.1 r.2) (s, dead)).2 ∧
      (rs ≠ [] → (rs.foldl (fun r p => redirect p.1 (.loc p.2) r.1 r.2) (s, dead)).2.count false < dead.count false) := by
  induction rs with
  | nil => intro s dead h _; exact ⟨Le.refl h, fun h => absurd rfl h⟩
  | cons p rs ih =>
    intro s dead h hd
    obtain ⟨a, b⟩ := p
    obtain ⟨hab, n, ha, hb, da, db⟩ := hd.same _ List.mem_cons_self
    have h1 := redirect_ok (sem := sem) h hab ha hb da db
      (by rintro j ⟨ops, hj⟩; exact ⟨ops, by rw [ha, ← hb]; exact hj⟩)
      (by simp only [opsAt, ha, hb]) (fun _ _ _ h _ => h)
    have h2 : Dups (redirect a (.loc b) s dead).1 (redirect a (.loc b) s dead).2 rs := by
      have hnd := List.nodup_cons.1 hd.nodup
      refine ⟨?_, hnd.2, fun p hp q hq => hd.apart p (List.mem_cons_of_mem _ hp) q (List.mem_cons_of_mem _ hq)⟩
      intro p hp
      obtain ⟨e1, m, e2, e3, e4, e5⟩ := hd.same p (List.mem_cons_of_mem _ hp)
      refine ⟨e1, m.mapRefs (fun r => if r = .loc a then .loc b else r), ?_, ?_, ?_, ?_⟩
      · simp only [redirect, mapRefs, List.getElem?_map, e2, Option.map_some]; rfl
      · simp only [redirect, mapRefs, List.getElem?_map, e3, Option.map_some]; rfl
      · have : a ≠ p.1 := by rintro rfl; exact hnd.1 (List.mem_map.2 ⟨p, hp, rfl⟩)
        simp only [redirect]; rw [List.getElem?_set_ne this]; exact e4
      · have : a ≠ p.2 := hd.apart (a, b) List.mem_cons_self p (List.mem_cons_of_mem _ hp)
        simp only [redirect]; rw [List.getElem?_set_ne this]; exact e5
    have h3 := ih h1.1.inv h2
    rw [List.foldl_cons]
    exact ⟨h1.1.trans h3.1, fun _ => lt_of_le_of_lt h3.1.live h1.2⟩

variable [DecidableEq L] [DecidableEq P] [DecidableEq Q] [DecidableEq N]

theorem mem_of_lookup {A B : Type*} [BEq A] [LawfulBEq A] {l : List (A × B)} {a : A} {b : B} (h : l.lookup a = some b) : (a, b) ∈ l := by
  induction l with
  | nil => cases h
  | cons p l ih =>
    obtain ⟨x, y⟩ := p
    rw [List.lookup_cons] at h
    cases hx : a == x with
    | true =>
      rw [hx] at h
      cases h
      rw [eq_of_beq hx]
      exact List.mem_cons_self
    | false =>
      rw [hx] at h
      exact List.mem_cons_of_mem _ (ih h)

/-- The state of the first loop of `dedup` after the items before `n`. -/
structure DedupInv (s : Scope L P Q N) (dead : List Bool) (n : Nat) (st : List (Node L P Q N × Nat) × List (Nat × Nat)) : Prop where
  seen : ∀ p ∈ st.1, s.items[p.2]? = some (.op p.1) ∧ dead[p.2]? = some false ∧ p.2 < n
  before : ∀ p ∈ st.2, p.1 < n
  dups : Dups s dead st.2
  target : ∀ p ∈ st.2, ∃ m, (m, p.2) ∈ st.1
  apart : ∀ p ∈ st.2, ∀ q ∈ st.1, p.1 ≠ q.2

theorem dedupStep_ok (h : Inv R s dead) {n : Nat} (hn : n < s.items.length) {st : List (Node L P Q N × Nat) × List (Nat × Nat)} (hst : DedupInv s dead n st) :
    ∃ st', dedupStep s dead st n = some st' ∧ DedupInv s dead (n + 1) st' := by
  have hw : DedupInv s dead (n + 1) st :=
    ⟨fun p hp => ⟨(hst.seen p hp).1, (hst.seen p hp).2.1, (hst.seen p hp).2.2.trans (Nat.lt_succ_self n)⟩, fun p hp => (hst.before p hp).trans (Nat.lt_succ_self n), hst.dups, hst.target, hst.apart⟩
  obtain ⟨it, hit⟩ := get_of_lt hn
  obtain ⟨d, hd⟩ := get_of_lt (l := dead) (i := n) (by rw [h.len]; exact hn)
  rw [dedupStep, hd, Option.bind_some]
  cases d with
  | true => exact ⟨st, rfl, hw⟩
  | false =>
    rw [if_neg (by simp), hit, Option.map_some]
    cases it with
    | sub c => exact ⟨st, rfl, hw⟩
    | op node =>
      cases hl : st.1.lookup node with
      | none =>
        refine ⟨((node, n) :: st.1, st.2), by simp only [hl], ?_, hw.before, hw.dups, ?_, ?_⟩
        · intro p hp
          rcases List.mem_cons.1 hp with rfl | hp
          · exact ⟨hit, hd, Nat.lt_succ_self n⟩
          · exact hw.seen p hp
        · intro p hp
          obtain ⟨m, hm⟩ := hst.target p hp
          exact ⟨m, List.mem_cons_of_mem _ hm⟩
        · intro p hp q hq
          rcases List.mem_cons.1 hq with rfl | hq
          · have := hst.before p hp; simp only; omega
          · exact hst.apart p hp q hq
      | some first =>
        have hm := mem_of_lookup hl
        obtain ⟨g1, g2, g3⟩ := hst.seen _ hm
        refine ⟨(st.1, st.2 ++ [(n, first)]), by simp only [hl], hw.seen, ?_, ⟨?_, ?_, ?_⟩, ?_, ?_⟩
        · intro p hp
          rcases List.mem_append.1 hp with hp | hp
          · exact hw.before p hp
          · cases List.mem_singleton.1 hp; exact Nat.lt_succ_self n
        · intro p hp
          rcases List.mem_append.1 hp with hp | hp
          · exact hst.dups.same p hp
          · cases List.mem_singleton.1 hp; exact ⟨g3, node, hit, g1, hd, g2⟩
        · rw [List.map_append, List.map_cons, List.map_nil]
          refine List.nodup_append.2 ⟨hst.dups.nodup, by simp, ?_⟩
          intro x hx y hy
          obtain ⟨p, hp, rfl⟩ := List.mem_map.1 hx
          cases List.mem_singleton.1 hy
          have := hst.before p hp; simp only; omega
        · intro p hp q hq
          rcases List.mem_append.1 hp with hp | hp <;> rcases List.mem_append.1 hq with hq | hq
          · exact hst.dups.apart p hp q hq
          · cases List.mem_singleton.1 hq
            exact hst.apart p hp _ hm
          · cases List.mem_singleton.1 hp
            obtain ⟨m, hm'⟩ := hst.target q hq
            have := (hst.seen _ hm').2.2; simp only at this ⊢; omega
          · cases List.mem_singleton.1 hp
            cases List.mem_singleton.1 hq
            simp only at g3 ⊢; omega
        · intro p hp
          rcases List.mem_append.1 hp with hp | hp
          · exact hst.target p hp
          · cases List.mem_singleton.1 hp; exact ⟨node, hm⟩
        · intro p hp q hq
          rcases List.mem_append.1 hp with hp | hp
          · exact hst.apart p hp q hq
          · cases List.mem_singleton.1 hp
            have := (hst.seen q hq).2.2; simp only; omega

theorem dedup_loop (h : Inv R s dead) : ∀ n, n ≤ s.items.length → ∃ st', (List.range n).foldlM (dedupStep s dead) ([], []) = some st' ∧ DedupInv s dead n st' := by
  intro n
  induction n with
  | zero => intro _; exact ⟨([], []), rfl, by constructor <;> first | (intro p hp; cases hp) | (constructor <;> first | (intro p hp; cases hp) | exact List.nodup_nil)⟩
  | succ n ih =>
    intro hn
    obtain ⟨st, h1, h2⟩ := ih (by omega)
    obtain ⟨st', h3, h4⟩ := dedupStep_ok h (by omega) h2
    refine ⟨st', ?_, h4⟩
    rw [List.range_succ, List.foldlM_append, h1]
    simp [h3]

theorem dedup_ok (h : Inv R s dead) : ∃ st', dedup s dead = some st' ∧ Pass sem R s dead st' := by
  obtain ⟨st, h1, h2⟩ := dedup_loop h s.items.length le_rfl
  have h3 := dups_ok (sem := sem) h h2.dups
  rw [dedup, h1]
  refine ⟨_, rfl, h3.1, fun hc => h3.2 ?_⟩
  rintro he
  simp only [he, List.isEmpty_nil, Bool.not_true] at hc
  cases hc

theorem optLoop_ok (hF : sem.Fuses R) : ∀ (n : Nat) {s : Scope L P Q N} {dead : List Bool}, Inv R s dead → dead.count false < n → ∃ r, optLoop n s dead = some r ∧ Le sem R s dead r.1 r.2 := by
  intro n
  induction n with
  | zero => intro s dead _ h; omega
  | succ n ih =>
    intro s dead h hn
    obtain ⟨a, a1, a2⟩ := collapseArranges_ok (sem := sem) h
    obtain ⟨b, b1, b2⟩ := fuseLinear_ok hF a2.1.inv
    obtain ⟨c, c1, c2⟩ := dedup_ok (sem := sem) b2.1.inv
    have hle := (a2.1.trans b2.1).trans c2.1
    rw [optLoop, a1, Option.bind_some, b1, Option.bind_some, c1, Option.bind_some]
    split_ifs with hch
    · have hlt : c.2.1.count false < dead.count false := by
        have l1 := a2.1.live; have l2 := b2.1.live; have l3 := c2.1.live
        rcases (by simpa [or_assoc] using hch : a.2.2 = true ∨ b.2.2 = true ∨ c.2.2 = true) with hc | hc | hc
        · have := a2.2 hc; omega
        · have := b2.2 hc; omega
        · have := c2.2 hc; omega
      obtain ⟨r, r1, r2⟩ := ih c2.1.inv (by omega)
      exact ⟨r, r1, hle.trans r2⟩
    · exact ⟨_, rfl, hle⟩

end

end DD.Ir
