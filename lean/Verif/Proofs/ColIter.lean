import Verif.Proofs.Lists

/-! # Iterating over a trie -/

namespace DD
variable {α β γ : Type*}

/-- The list that holds position `x`: the number of lists that end at or before it. -/
def owner (bs : List Nat) (x : Nat) : Nat := (bs.takeWhile (· ≤ x)).length

theorem owner_before {bs : List Nat} {x j : Nat} (h : j < owner bs x) : ∃ b, bs[j]? = some b ∧ b ≤ x := by
  induction bs generalizing j with
  | nil => simp [owner] at h
  | cons b bs ih =>
    rw [owner, List.takeWhile_cons] at h
    split_ifs at h with hb
    · cases j with
      | zero => exact ⟨b, rfl, by simpa using hb⟩
      | succ j => exact ih (j := j) (by rw [owner]; simpa using h)
    · simp at h

theorem owner_at {bs : List Nat} {x b : Nat} (h : bs[owner bs x]? = some b) : x < b := by
  induction bs with
  | nil => simp at h
  | cons c bs ih =>
    rw [owner, List.takeWhile_cons] at h
    split_ifs at h with hb
    · exact ih (by rw [owner]; simpa using h)
    · simp at h hb; omega

theorem owner_mono (bs : List Nat) {x y : Nat} (h : x ≤ y) : owner bs x ≤ owner bs y := by
  induction bs with
  | nil => simp [owner]
  | cons c bs ih =>
    rw [owner, owner, List.takeWhile_cons, List.takeWhile_cons]
    by_cases h1 : c ≤ x
    · rw [if_pos (by simpa using h1), if_pos (by simpa using h1.trans h)]
      simpa [owner] using ih
    · rw [if_neg (by simpa using h1)]; simp

theorem owner_zero {bs : List Nat} {b : Nat} (h : bs[0]? = some b) (hb : 0 < b) : owner bs 0 = 0 := by
  cases bs with
  | nil => simp at h
  | cons c bs =>
    simp at h; subst h
    rw [owner, List.takeWhile_cons, if_neg (by simp; omega)]; rfl

theorem owner_ends (n : Nat) (ls : List (List α)) (x : Nat) : owner (ends n ls) (n + x) = owner (ends 0 ls) x := by
  induction ls generalizing n x with
  | nil => rfl
  | cons l ls ih =>
    simp only [ends, owner, List.takeWhile_cons, Nat.zero_add]
    by_cases h : l.length ≤ x
    · rw [if_pos (by simpa using h), if_pos (by simpa using h)]
      obtain ⟨y, rfl⟩ := Nat.exists_eq_add_of_le h
      have h1 := ih (n + l.length) y
      have h2 := ih l.length y
      simp only [owner, Nat.add_assoc] at h1 h2 ⊢
      simp [h1, h2]
    · rw [if_neg (by simpa using h), if_neg (by simpa using h)]

theorem owner_cons (l : List α) (ls : List (List α)) (x : Nat) :
    owner (ends 0 (l :: ls)) x = if l.length ≤ x then owner (ends 0 ls) (x - l.length) + 1 else 0 := by
  rw [ends, owner, List.takeWhile_cons, Nat.zero_add]
  by_cases h : l.length ≤ x
  · rw [if_pos (by simpa using h), if_pos h]
    obtain ⟨y, rfl⟩ := Nat.exists_eq_add_of_le h
    have h2 := owner_ends l.length ls y
    rw [Nat.add_sub_cancel_left, ← h2, owner]; simp
  · rw [if_neg (by simpa using h), if_neg h]; rfl

theorem owner_lt {ls : List (List α)} {x : Nat} (h : x < ls.flatten.length) : owner (ends 0 ls) x < ls.length := by
  induction ls generalizing x with
  | nil => simp at h
  | cons l ls ih =>
    rw [owner_cons]
    split_ifs with hl
    · have := ih (x := x - l.length) (by simp only [List.flatten_cons, List.length_append] at h; omega)
      simpa using this
    · simp

theorem ends_map_map (n : Nat) (f : α → β) (ls : List (List α)) : ends n (ls.map fun l => l.map f) = ends n ls := by
  induction ls generalizing n with
  | nil => rfl
  | cons l ls ih => simp [ends, ih]

theorem spread_get (A : List (α × List β)) (g : α → β → γ) (j : Nat) :
    (A.flatMap fun a => a.2.map (g a.1))[j]? =
      (A[owner (ends 0 (A.map Prod.snd)) j]?).bind fun a => ((A.flatMap Prod.snd)[j]?).map (g a.1) := by
  induction A generalizing j with
  | nil => simp
  | cons a A ih =>
    rw [List.map_cons, owner_cons]
    simp only [List.flatMap_cons]
    by_cases h : a.2.length ≤ j
    · rw [List.getElem?_append_right (by simpa using h), List.getElem?_append_right h, if_pos h, List.getElem?_cons_succ, List.length_map]
      exact ih _
    · rw [List.getElem?_append_left (by simpa using h), List.getElem?_append_left (by omega), if_neg h]
      have hj : j < a.2.length := by omega
      simp [hj]

namespace ColTrie
variable {K V T R : Type*}

/-- The update at leaf `d`. -/
def item (c : ColTrie K V T R) (d : Nat) : Option ((K ×ₗ V) × T × R) :=
  match c.keys.values[owner c.vals.bounds (owner c.times.bounds (owner c.diffs.bounds d))]?, c.vals.values[owner c.times.bounds (owner c.diffs.bounds d)]?,
    c.times.values[owner c.diffs.bounds d]?, c.diffs.values[d]? with
  | some k, some v, some t, some d => some (toLex (k, v), t, d)
  | _, _, _, _ => none

theorem keyLoop_spec (c : ColTrie K V T R) (n : Nat) (i : Iter) (hk : i.k ≤ owner c.vals.bounds i.v) (he : c.vals.bounds[i.k]? = some i.v_end)
    (ho : owner c.vals.bounds i.v < c.vals.bounds.length) (hn : owner c.vals.bounds i.v < i.k + n) :
    ∃ e, Iter.keyLoop c n i = some { i with k := owner c.vals.bounds i.v, v_end := e } ∧ c.vals.bounds[owner c.vals.bounds i.v]? = some e := by
  induction n generalizing i with
  | zero => omega
  | succ n ih =>
    rw [Iter.keyLoop]
    rcases Nat.lt_or_ge i.k (owner c.vals.bounds i.v) with h | h
    · obtain ⟨b, hb1, hb2⟩ := owner_before h
      rw [he] at hb1; cases hb1
      rw [if_pos hb2]
      have : i.k + 1 < c.vals.bounds.length := by omega
      rw [List.getElem?_eq_getElem this]
      exact ih { i with k := i.k + 1, v_end := c.vals.bounds[i.k + 1] } h (List.getElem?_eq_getElem this) ho (by simp only; omega)
    · have e : i.k = owner c.vals.bounds i.v := by omega
      have : ¬ i.v ≥ i.v_end := not_le.2 (owner_at (e ▸ he))
      rw [if_neg this]
      refine ⟨i.v_end, ?_, e ▸ he⟩
      rw [← e]

/-- What the loops keep: keys and values are those of the time. -/
structure Inv (c : ColTrie K V T R) (i : Iter) : Prop where
  v : i.v = owner c.times.bounds i.t
  k : i.k = owner c.vals.bounds i.v
  v_end : c.vals.bounds[i.k]? = some i.v_end
  t_end : c.times.bounds[i.v]? = some i.t_end

variable {c : ColTrie K V T R} (hV : ∀ x < c.times.bounds.length, owner c.vals.bounds x < c.vals.bounds.length)
  (hT : ∀ x < c.diffs.bounds.length, owner c.times.bounds x < c.times.bounds.length)

include hV in
theorem valLoop_spec (n : Nat) (i : Iter) (hv : i.v ≤ owner c.times.bounds i.t) (hk : i.k = owner c.vals.bounds i.v) (hve : c.vals.bounds[i.k]? = some i.v_end)
    (hte : c.times.bounds[i.v]? = some i.t_end) (ho : owner c.times.bounds i.t < c.times.bounds.length) (hn : owner c.times.bounds i.t < i.v + n) :
    ∃ j, Iter.valLoop c n i = some j ∧ Inv c j ∧ j.t = i.t ∧ j.d = i.d ∧ j.d_end = i.d_end := by
  induction n generalizing i with
  | zero => omega
  | succ n ih =>
    rw [Iter.valLoop]
    rcases Nat.lt_or_ge i.v (owner c.times.bounds i.t) with h | h
    · obtain ⟨b, hb1, hb2⟩ := owner_before h
      rw [hte] at hb1; cases hb1
      rw [if_pos hb2]
      have h1 : i.v + 1 < c.times.bounds.length := by omega
      obtain ⟨e, k1, k2⟩ := keyLoop_spec c (c.vals.bounds.length + 1) { i with v := i.v + 1 } (by simp only; rw [hk]; exact owner_mono _ (Nat.le_succ _)) hve (hV _ h1)
        (by have := hV _ h1; simp only; omega)
      rw [k1]
      simp only [List.getElem?_eq_getElem h1]
      exact ih _ (by simp only; omega) rfl k2 (List.getElem?_eq_getElem h1) ho (by simp only; omega)
    · have e : i.v = owner c.times.bounds i.t := by omega
      rw [if_neg (not_le.2 (owner_at (e ▸ hte)))]
      exact ⟨i, rfl, ⟨e, hk, hve, hte⟩, rfl, rfl, rfl⟩

include hV hT in
theorem timeLoop_spec (n : Nat) (i : Iter) (hi : Inv c i) (ht : i.t ≤ owner c.diffs.bounds i.d) (hde : c.diffs.bounds[i.t]? = some i.d_end)
    (ho : owner c.diffs.bounds i.d < c.diffs.bounds.length) (hn : owner c.diffs.bounds i.d < i.t + n) :
    ∃ j, Iter.timeLoop c n i = some j ∧ Inv c j ∧ j.t = owner c.diffs.bounds i.d ∧ j.d = i.d ∧ c.diffs.bounds[j.t]? = some j.d_end := by
  induction n generalizing i with
  | zero => omega
  | succ n ih =>
    rw [Iter.timeLoop]
    rcases Nat.lt_or_ge i.t (owner c.diffs.bounds i.d) with h | h
    · obtain ⟨b, hb1, hb2⟩ := owner_before h
      rw [hde] at hb1; cases hb1
      rw [if_pos hb2]
      have h1 : i.t + 1 < c.diffs.bounds.length := by omega
      obtain ⟨j, k1, k2, k3, k4, k5⟩ := valLoop_spec hV (c.times.bounds.length + 1) { i with t := i.t + 1 } (by simp only; rw [hi.v]; exact owner_mono _ (Nat.le_succ _)) hi.k
        hi.v_end hi.t_end (hT _ h1) (by have := hT _ h1; simp only; omega)
      rw [k1]
      simp only at k3 k4 ⊢
      have h2 : j.t < c.diffs.bounds.length := by omega
      rw [List.getElem?_eq_getElem h2]
      obtain ⟨j', g1, g2, g3, g4, g5⟩ := ih { j with d_end := c.diffs.bounds[j.t] } ⟨k2.v, k2.k, k2.v_end, k2.t_end⟩ (by simp only; rw [k3, k4]; omega) (List.getElem?_eq_getElem h2)
        (by simp only; rw [k4]; exact ho) (by simp only; rw [k3, k4]; omega)
      refine ⟨j', g1, g2, ?_, ?_, g5⟩
      · rw [g3]; simp only [k4]
      · rw [g4]; exact k4
    · have e : i.t = owner c.diffs.bounds i.d := by omega
      rw [if_neg (not_le.2 (owner_at (e ▸ hde)))]
      exact ⟨i, rfl, hi, e, rfl, hde⟩

include hV hT in
theorem collect_spec (us : Upds (K ×ₗ V) T R) (hus : ∀ d < us.length, c.item d = us[d]?) (hD : ∀ d < us.length, owner c.diffs.bounds d < c.diffs.bounds.length)
    (n : Nat) (i : Iter) (hi : Inv c i) (ht : i.t ≤ owner c.diffs.bounds i.d) (hde : c.diffs.bounds[i.t]? = some i.d_end) (hn : i.d + n = us.length) :
    Iter.collect c n i = some (us.drop i.d) := by
  induction n generalizing i with
  | zero => rw [Iter.collect, List.drop_eq_nil_of_le (by omega)]
  | succ n ih =>
    have hd : i.d < us.length := by omega
    obtain ⟨j, k1, k2, k3, k4, k5⟩ := timeLoop_spec hV hT (c.diffs.bounds.length + 1) i hi ht hde (hD _ hd) (by have := hD _ hd; omega)
    have hit := hus _ hd
    rw [item, ← k3, ← k2.v, ← k2.k, List.getElem?_eq_getElem hd] at hit
    have hnext : i.next c = some (us[i.d], { j with d := j.d + 1 }) := by
      generalize us[i.d] = u at hit
      rw [Iter.next, k1]
      simp only [k4]
      split at hit
      · rename_i h1 h2 h3 h4
        cases hit; rw [h1, h2, h3, h4]
      · cases hit
    rw [Iter.collect, hnext]
    simp only
    rw [ih { j with d := j.d + 1 } ⟨k2.v, k2.k, k2.v_end, k2.t_end⟩ (by simp only; rw [k3, k4]; exact owner_mono _ (Nat.le_succ _)) k5 (by simp only; omega)]
    rw [List.drop_eq_getElem_cons hd]; simp only [k4]; rfl

end ColTrie

theorem item_layout {K V T R : Type*} (f : Forest K V T R) (d : Nat) : f.layout.item d = f.upds[d]? := by
  let A := f.flatten
  let B1 : List ((K × V) × List (T × List R)) := A.flatMap fun a => a.2.map fun v => ((a.1, v.1), v.2)
  let B2 : List (((K × V) × T) × List R) := B1.flatMap fun b => b.2.map fun t => ((b.1, t.1), t.2)
  have e1 : ∀ j, B1[j]? = (A[owner (ends 0 (A.map Prod.snd)) j]?).bind fun a => ((A.flatMap Prod.snd)[j]?).map fun v => ((a.1, v.1), v.2) := fun j => spread_get A (fun a v => ((a, v.1), v.2)) j
  have e2 : ∀ j, B2[j]? = (B1[owner (ends 0 (B1.map Prod.snd)) j]?).bind fun b => ((B1.flatMap Prod.snd)[j]?).map fun t => ((b.1, t.1), t.2) := fun j => spread_get B1 (fun b t => ((b, t.1), t.2)) j
  have e3 : f.upds = B2.flatMap fun b => b.2.map fun d => (toLex b.1.1, b.1.2, d) := by
    simp only [Forest.upds, B2, B1, A, List.flatMap_assoc, List.flatMap_map]
  have e4 : f.upds[d]? = (B2[owner (ends 0 (B2.map Prod.snd)) d]?).bind fun b => ((B2.flatMap Prod.snd)[d]?).map fun d => (toLex b.1.1, b.1.2, d) := by
    rw [e3]; exact spread_get B2 (fun b d => (toLex b.1, b.2, d)) d
  have s1 : B1.map Prod.snd = (A.flatMap Prod.snd).map Prod.snd := by simp [B1, List.map_flatMap, Function.comp_def]
  have s2 : B1.flatMap Prod.snd = (A.flatMap Prod.snd).flatMap Prod.snd := by simp [B1, List.flatMap_assoc, List.flatMap_map]
  have s3 : B2.map Prod.snd = ((A.flatMap Prod.snd).flatMap Prod.snd).map Prod.snd := by
    rw [← s2]; simp [B2, List.map_flatMap, Function.comp_def]
  have s4 : B2.flatMap Prod.snd = ((A.flatMap Prod.snd).flatMap Prod.snd).flatMap Prod.snd := by
    rw [← s2]; simp [B2, List.flatMap_assoc, List.flatMap_map]
  rw [e4, e2, e1, s4, s3, s2, s1]
  have m1 : ends 0 (f.flatten.map fun k => k.2.map Prod.fst) = ends 0 (A.map Prod.snd) := by
    have := ends_map_map 0 (Prod.fst : V × List (T × List R) → V) (A.map Prod.snd)
    rw [List.map_map] at this; exact this
  have m2 : ends 0 ((f.flatten.flatMap Prod.snd).map fun v => v.2.map Prod.fst) = ends 0 ((A.flatMap Prod.snd).map Prod.snd) := by
    have := ends_map_map 0 (Prod.fst : T × List R → T) ((A.flatMap Prod.snd).map Prod.snd)
    rw [List.map_map] at this; exact this
  have v0 : (f.map fun g => g.map Prod.fst).flatten = A.map Prod.fst := by simp [A, List.map_flatten]
  have v1 : (f.flatten.map fun k => k.2.map Prod.fst).flatten = (A.flatMap Prod.snd).map Prod.fst := by simp [A, List.flatMap_def, List.map_flatten, Function.comp_def]
  have v2 : ((f.flatten.flatMap Prod.snd).map fun v => v.2.map Prod.fst).flatten = ((A.flatMap Prod.snd).flatMap Prod.snd).map Prod.fst := by
    simp [A, List.flatMap_def, List.map_flatten, Function.comp_def]
  rw [ColTrie.item]
  simp only [Forest.layout, Lists.of, m1, m2, v0, v1, v2]
  generalize owner (ends 0 (((A.flatMap Prod.snd).flatMap Prod.snd).map Prod.snd)) d = x
  simp only [A]
  rw [← List.flatMap_def]
  generalize owner (ends 0 ((f.flatten.flatMap Prod.snd).map Prod.snd)) x = y
  generalize owner (ends 0 (f.flatten.map Prod.snd)) y = z
  simp only [List.getElem?_map]
  cases f.flatten[z]? <;> cases (f.flatten.flatMap Prod.snd)[y]? <;> cases ((f.flatten.flatMap Prod.snd).flatMap Prod.snd)[x]? <;>
    cases (((f.flatten.flatMap Prod.snd).flatMap Prod.snd).flatMap Prod.snd)[d]? <;> rfl

theorem length_upds {K V T R : Type*} (f : Forest K V T R) : f.upds.length = f.layout.diffs.values.length := by
  simp only [Forest.upds, Forest.layout, Lists.of, ← List.flatMap_def]
  generalize f.flatten = A
  simp [List.length_flatMap, List.flatMap_assoc]

/-- Iterating over the layout of a forest gives its updates, if the first key has a value and the first value has a time. -/
theorem iter_layout {K V T R : Type*} (f : Forest K V T R) (h1 : ∀ k ∈ f.flatten.head?, k.2 ≠ []) (h2 : ∀ v ∈ (f.flatten.flatMap Prod.snd).head?, v.2 ≠ []) :
    f.layout.iter = some f.upds := by
  have hlen := length_upds f
  rw [ColTrie.iter]
  split_ifs with h0
  · set c := f.layout with hc
    have hV : ∀ x < c.times.bounds.length, owner c.vals.bounds x < c.vals.bounds.length := by
      intro x hx
      have : x < (f.flatten.map fun k => k.2.map Prod.fst).flatten.length := by
        simp only [hc, Forest.layout, Lists.of, length_ends] at hx
        simpa [List.length_flatMap, Function.comp_def] using hx
      simpa [hc, Forest.layout, Lists.of] using owner_lt this
    have hT : ∀ x < c.diffs.bounds.length, owner c.times.bounds x < c.times.bounds.length := by
      intro x hx
      have : x < ((f.flatten.flatMap Prod.snd).map fun v => v.2.map Prod.fst).flatten.length := by
        simp only [hc, Forest.layout, Lists.of, length_ends] at hx
        simpa [List.length_flatMap, Function.comp_def] using hx
      simpa [hc, Forest.layout, Lists.of] using owner_lt this
    have hD : ∀ d < f.upds.length, owner c.diffs.bounds d < c.diffs.bounds.length := by
      intro x hx
      rw [hlen] at hx
      have := owner_lt (ls := ((f.flatten.flatMap Prod.snd).flatMap Prod.snd).map Prod.snd) (x := x) hx
      simpa [hc, Forest.layout, Lists.of] using this
    have pD : 0 < c.diffs.bounds.length := lt_of_le_of_lt (Nat.zero_le _) (hD 0 (by omega))
    have pT : 0 < c.times.bounds.length := lt_of_le_of_lt (Nat.zero_le _) (hT 0 pD)
    have pV : 0 < c.vals.bounds.length := lt_of_le_of_lt (Nat.zero_le _) (hV 0 pT)
    rw [List.getElem?_eq_getElem pV, List.getElem?_eq_getElem pT, List.getElem?_eq_getElem pD]
    simp only
    have qV : owner c.vals.bounds 0 = 0 := by
      refine owner_zero (List.getElem?_eq_getElem pV) ?_
      have : 0 < f.flatten.length := by simpa only [hc, Forest.layout, Lists.of, length_ends, List.length_map] using pV
      cases e : f.flatten with
      | nil => simp [e] at this
      | cons a A =>
        have ha := h1 a (by simp [e])
        have : c.vals.bounds[0]? = some (0 + (a.2.map Prod.fst).length) := by simp [hc, Forest.layout, Lists.of, e, ends]
        rw [List.getElem?_eq_getElem pV] at this
        have := Option.some.inj this
        rw [this]; simpa using List.length_pos_iff.2 ha
    have qT : owner c.times.bounds 0 = 0 := by
      refine owner_zero (List.getElem?_eq_getElem pT) ?_
      have : 0 < (f.flatten.flatMap Prod.snd).length := by simpa only [hc, Forest.layout, Lists.of, length_ends, List.length_map] using pT
      cases e : f.flatten.flatMap Prod.snd with
      | nil => simp [e] at this
      | cons a A =>
        have ha := h2 a (by simp [e])
        have : c.times.bounds[0]? = some (0 + (a.2.map Prod.fst).length) := by simp [hc, Forest.layout, Lists.of, e, ends]
        rw [List.getElem?_eq_getElem pT] at this
        have := Option.some.inj this
        rw [this]; simpa using List.length_pos_iff.2 ha
    have := ColTrie.collect_spec hV hT f.upds (fun d _ => item_layout f d) hD c.diffs.values.length
      ⟨0, 0, 0, 0, c.vals.bounds[0], c.times.bounds[0], c.diffs.bounds[0]⟩ ⟨qT.symm, qV.symm, List.getElem?_eq_getElem pV, List.getElem?_eq_getElem pT⟩ (Nat.zero_le _)
      (List.getElem?_eq_getElem pD) (by rw [hlen]; simp only; omega)
    rw [this]; rfl
  · have : f.upds.length = 0 := by omega
    rw [List.length_eq_zero_iff.1 this]

end DD
