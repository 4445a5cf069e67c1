import Verif.Model.ChunkCursor
import Verif.Spec.CursorContract
import Verif.Proofs.ChunkBatch
import Verif.Proofs.CursorBatch
import Mathlib.Data.List.TakeWhile

/-! # The cursor over one chunk presents the chunk's contents -/

namespace DD

/-! ### Grouping -/

section group
variable {U A : Type*} [LinearOrder A]

/-- Maximal runs of equal `f`. -/
def groupOn (f : U → A) : List U → List (A × List U)
  | [] => []
  | u :: us => (f u, u :: us.takeWhile fun v => f v = f u) :: groupOn f (us.dropWhile fun v => f v = f u)
termination_by us => us.length
decreasing_by
  have := (List.dropWhile_sublist (fun v => decide (f v = f u)) (l := us)).length_le
  simp only [List.length_cons]; omega

theorem groupOn_nil (f : U → A) : groupOn f [] = [] := by rw [groupOn]

theorem groupOn_eq_nil {f : U → A} {us : List U} : groupOn f us = [] ↔ us = [] := by
  cases us with
  | nil => simp [groupOn_nil]
  | cons u us => rw [groupOn]; simp

theorem groupOn_split (f : U → A) (n : Nat) : ∀ (a b : List U), a.length ≤ n → (∀ x ∈ a, ∀ y ∈ b, f x ≠ f y) →
    groupOn f (a ++ b) = groupOn f a ++ groupOn f b := by
  induction n with
  | zero =>
    intro a b ha _
    rw [List.length_eq_zero_iff.1 (Nat.le_zero.1 ha)]; simp [groupOn_nil]
  | succ n ih =>
    intro a b ha h
    cases a with
    | nil => simp [groupOn_nil]
    | cons u a =>
      have hb : b.takeWhile (fun v => decide (f v = f u)) = [] ∧ b.dropWhile (fun v => decide (f v = f u)) = b := by
        cases b with
        | nil => simp
        | cons v b =>
          have : ¬ f v = f u := fun e => h u (by simp) v (by simp) e.symm
          simp [this]
      have e1 : (a ++ b).takeWhile (fun v => decide (f v = f u)) = a.takeWhile (fun v => decide (f v = f u)) := by
        rw [List.takeWhile_append]; split_ifs with hl
        · rw [hb.1, List.append_nil, List.IsPrefix.eq_of_length (List.takeWhile_prefix _) hl]
        · rfl
      have e2 : (a ++ b).dropWhile (fun v => decide (f v = f u)) = a.dropWhile (fun v => decide (f v = f u)) ++ b := by
        rw [List.dropWhile_append]; split_ifs with hl
        · rw [hb.2, List.isEmpty_iff.1 hl, List.nil_append]
        · rfl
      rw [List.cons_append, groupOn, groupOn, e1, e2, List.cons_append, ih]
      · have := (List.dropWhile_sublist (fun v => decide (f v = f u)) (l := a)).length_le
        simp only [List.length_cons] at ha; omega
      · intro x hx y hy
        exact h x (List.mem_cons_of_mem _ ((List.dropWhile_sublist _).subset hx)) y hy

theorem groupOn_append {f : U → A} {a b : List U} (h : ∀ x ∈ a, ∀ y ∈ b, f x ≠ f y) : groupOn f (a ++ b) = groupOn f a ++ groupOn f b :=
  groupOn_split f a.length a b le_rfl h

theorem mem_takeWhile {p : U → Bool} {us : List U} {u : U} (h : u ∈ us.takeWhile p) : p u = true := List.all_eq_true.1 List.all_takeWhile u h

theorem mem_groupOn (f : U → A) (n : Nat) : ∀ (us : List U), us.length ≤ n → ∀ g ∈ groupOn f us, g.2 ≠ [] ∧ (∀ u ∈ g.2, f u = g.1) ∧ g.2.Sublist us := by
  induction n with
  | zero =>
    intro us hl
    rw [List.length_eq_zero_iff.1 (Nat.le_zero.1 hl)]; simp [groupOn_nil]
  | succ n ih =>
    intro us hl g hg
    cases us with
    | nil => simp [groupOn_nil] at hg
    | cons u us =>
      rw [groupOn] at hg
      rcases List.mem_cons.1 hg with rfl | hg
      · refine ⟨by simp, ?_, List.Sublist.cons_cons _ (List.takeWhile_sublist _)⟩
        intro v hv
        rcases List.mem_cons.1 hv with rfl | hv
        · rfl
        · simpa using mem_takeWhile hv
      · have hle := (List.dropWhile_sublist (fun v => decide (f v = f u)) (l := us)).length_le
        simp only [List.length_cons] at hl
        obtain ⟨h1, h2, h3⟩ := ih _ (by omega) g hg
        exact ⟨h1, h2, (h3.trans (List.dropWhile_sublist _)).cons _⟩

theorem groupOn_sorted (f : U → A) (n : Nat) : ∀ (us : List U), us.length ≤ n → us.Pairwise (fun u v => f u ≤ f v) →
    (groupOn f us).Pairwise fun x y => x.1 < y.1 := by
  induction n with
  | zero =>
    intro us hl
    rw [List.length_eq_zero_iff.1 (Nat.le_zero.1 hl)]; simp [groupOn_nil]
  | succ n ih =>
    intro us hl hs
    cases us with
    | nil => simp [groupOn_nil]
    | cons u us =>
      have hle := (List.dropWhile_sublist (fun v => decide (f v = f u)) (l := us)).length_le
      simp only [List.length_cons] at hl
      obtain ⟨s1, s2⟩ := List.pairwise_cons.1 hs
      have s3 : (us.dropWhile fun v => decide (f v = f u)).Pairwise (fun u v => f u ≤ f v) := s2.sublist (List.dropWhile_sublist _)
      rw [groupOn, List.pairwise_cons]
      refine ⟨?_, ih _ (by omega) s3⟩
      intro g hg
      obtain ⟨h1, h2, h3⟩ := mem_groupOn f _ _ le_rfl g hg
      obtain ⟨w, hw⟩ := List.exists_mem_of_ne_nil _ h1
      rw [← h2 w hw]
      have hw' := h3.subset hw
      have hne : us.dropWhile (fun v => decide (f v = f u)) ≠ [] := List.ne_nil_of_mem hw'
      have hhead := List.head_dropWhile_not _ hne
      have hlt : f u < f ((us.dropWhile fun v => decide (f v = f u)).head hne) := by
        refine lt_of_le_of_ne (s1 _ ((List.dropWhile_sublist _).subset (List.head_mem hne))) ?_
        intro e
        exact of_decide_eq_false hhead e.symm
      refine lt_of_lt_of_le hlt ?_
      generalize us.dropWhile (fun v => decide (f v = f u)) = l at *
      cases l with
      | nil => exact absurd rfl hne
      | cons x l =>
        rcases List.mem_cons.1 hw' with rfl | h
        · exact le_rfl
        · exact (List.pairwise_cons.1 s3).1 w h

theorem groupOn_flatten (f : U → A) (n : Nat) : ∀ (us : List U), us.length ≤ n → (groupOn f us).flatMap Prod.snd = us := by
  induction n with
  | zero =>
    intro us hl
    rw [List.length_eq_zero_iff.1 (Nat.le_zero.1 hl)]; simp [groupOn_nil]
  | succ n ih =>
    intro us hl
    cases us with
    | nil => simp [groupOn_nil]
    | cons u us =>
      have hle := (List.dropWhile_sublist (fun v => decide (f v = f u)) (l := us)).length_le
      simp only [List.length_cons] at hl
      rw [groupOn, List.flatMap_cons, ih _ (by omega)]
      simp

theorem groupOn_dropWhile (f : U → A) (k : A) (n : Nat) : ∀ (us : List U), us.length ≤ n →
    (groupOn f us).dropWhile (fun g => decide (g.1 < k)) = groupOn f (us.dropWhile fun u => decide (f u < k)) := by
  induction n with
  | zero =>
    intro us hl
    rw [List.length_eq_zero_iff.1 (Nat.le_zero.1 hl)]; simp [groupOn_nil]
  | succ n ih =>
    intro us hl
    cases us with
    | nil => simp [groupOn_nil]
    | cons u us =>
      have hle := (List.dropWhile_sublist (fun v => decide (f v = f u)) (l := us)).length_le
      simp only [List.length_cons] at hl
      by_cases h : f u < k
      · rw [groupOn, List.dropWhile_cons_of_pos (by simpa using h), List.dropWhile_cons_of_pos (by simpa using h), ih _ (by omega)]
        congr 1
        conv_rhs => rw [← List.takeWhile_append_dropWhile (p := fun v => decide (f v = f u)) (l := us)]
        have e : (us.takeWhile fun v => decide (f v = f u)).dropWhile (fun v => decide (f v < k)) = [] := by
          refine List.dropWhile_eq_nil_iff.2 ?_
          intro x hx
          have := mem_takeWhile hx
          simp only [decide_eq_true_eq] at this ⊢
          rwa [this]
        rw [List.dropWhile_append, e]
        rfl
      · rw [List.dropWhile_cons_of_neg (by simpa using h), groupOn, List.dropWhile_cons_of_neg (by simpa using h)]

/-- The first group. -/
theorem groupOn_head {f : U → A} {us : List U} {u : U} (h : us.head? = some u) :
    groupOn f us = (f u, us.takeWhile fun v => f v = f u) :: groupOn f (us.dropWhile fun v => f v = f u) := by
  cases us with
  | nil => cases h
  | cons w us =>
    cases h
    rw [groupOn]
    simp

end group

/-! ### The contents of a sorted list of updates -/

section
variable {K V T R : Type*} [LinearOrder K] [LinearOrder V]

/-- The values of updates with the same key. -/
def valsOf (us : Upds (K ×ₗ V) T R) : List (V × List (T × R)) := (groupOn valOf us).map fun g => (g.1, g.2.map Prod.snd)
/-- The contents of a list of updates. -/
def toContents (us : Upds (K ×ₗ V) T R) : Contents K V T R := (groupOn rowKey us).map fun g => (g.1, valsOf g.2)

theorem keyOf_le {u v : (K ×ₗ V) × T × R} (h : u.1 ≤ v.1) : rowKey u ≤ rowKey v := by
  rcases Prod.Lex.le_iff.1 h with h | h
  · exact h.le
  · exact h.1.le

theorem valOf_le {u v : (K ×ₗ V) × T × R} (h : u.1 ≤ v.1) (e : rowKey u = rowKey v) : valOf u ≤ valOf v := by
  rcases Prod.Lex.le_iff.1 h with h | h
  · exact absurd e h.ne
  · exact h.2

theorem data_lt_iff {u v : (K ×ₗ V) × T × R} : u.1 < v.1 ↔ rowKey u < rowKey v ∨ rowKey u = rowKey v ∧ valOf u < valOf v := Prod.Lex.lt_iff

theorem data_eq_iff {u v : (K ×ₗ V) × T × R} : u.1 = v.1 ↔ rowKey u = rowKey v ∧ valOf u = valOf v := by
  constructor
  · intro h; rw [rowKey, rowKey, valOf, valOf, h]; exact ⟨rfl, rfl⟩
  · rintro ⟨h1, h2⟩
    exact ofLex_inj.1 (Prod.ext h1 h2)

theorem toContents_sorted {us : Upds (K ×ₗ V) T R} (hs : SortedD us) : ContentsSorted (toContents us) := by
  constructor
  · rw [toContents, List.pairwise_map]
    exact groupOn_sorted rowKey _ us le_rfl (hs.imp fun h => keyOf_le h)
  · intro kv hkv
    obtain ⟨g, hg, rfl⟩ := List.mem_map.1 hkv
    obtain ⟨h1, h2, h3⟩ := mem_groupOn rowKey _ us le_rfl g hg
    show (valsOf g.2).Pairwise _
    rw [valsOf, List.pairwise_map]
    refine groupOn_sorted valOf _ g.2 le_rfl ?_
    exact (hs.sublist h3).imp_of_mem fun ha hb hab => valOf_le hab ((h2 _ ha).trans (h2 _ hb).symm)

theorem toContents_noEmpty (us : Upds (K ×ₗ V) T R) : NoEmpty (toContents us) := by
  intro kv hkv
  obtain ⟨g, hg, rfl⟩ := List.mem_map.1 hkv
  obtain ⟨h1, h2, h3⟩ := mem_groupOn rowKey _ us le_rfl g hg
  refine ⟨?_, ?_⟩
  · show valsOf g.2 ≠ []
    rw [valsOf, Ne, List.map_eq_nil_iff, groupOn_eq_nil]
    exact h1
  · intro vu hvu
    obtain ⟨g', hg', rfl⟩ := List.mem_map.1 (show vu ∈ valsOf g.2 from hvu)
    obtain ⟨k1, -, -⟩ := mem_groupOn valOf _ g.2 le_rfl g' hg'
    simpa using k1

theorem toContents_flatten (us : Upds (K ×ₗ V) T R) : (toContents us).flatten = us.map fun u => (ofLex u.1, u.2) := by
  have hv : ∀ (k : K) (vs : Upds (K ×ₗ V) T R), (∀ u ∈ vs, rowKey u = k) →
      ((valsOf vs).flatMap fun vu => vu.2.map fun u => (((k, vu.1), u.1, u.2) : (K × V) × T × R)) = vs.map fun u => (ofLex u.1, u.2) := by
    intro k vs hk
    conv_rhs => rw [← groupOn_flatten valOf _ vs le_rfl]
    rw [valsOf, List.flatMap_map, List.map_flatMap]
    refine congrArg List.flatten (List.map_congr_left ?_)
    intro g hg
    obtain ⟨h1, h2, h3⟩ := mem_groupOn valOf _ vs le_rfl g hg
    simp only [List.map_map]
    apply List.map_congr_left
    intro u hu
    simp only [Function.comp]
    rw [← h2 u hu, ← hk u (h3.subset hu)]
    rfl
  conv_rhs => rw [← groupOn_flatten rowKey _ us le_rfl]
  rw [Contents.flatten, toContents, List.flatMap_map, List.map_flatMap]
  refine congrArg List.flatten (List.map_congr_left ?_)
  intro g hg
  obtain ⟨h1, h2, h3⟩ := mem_groupOn rowKey _ us le_rfl g hg
  exact hv g.1 g.2 h2

/-! ### The relation -/

/-- The key at an index. -/
def keyAt (us : Upds (K ×ₗ V) T R) (i : Nat) : Option K := (us[i]?).map rowKey

/-- What is left of the current key. -/
def leftOf (us : Upds (K ×ₗ V) T R) (c : VecChunkCursor) : Upds (K ×ₗ V) T R :=
  (us.drop c.val_pos).takeWhile fun u => some (rowKey u) = keyAt us c.key_pos

/-- The position of a cursor. -/
def posOf (us : Upds (K ×ₗ V) T R) (c : VecChunkCursor) : Pos K V T R := ⟨toContents (us.drop c.key_pos), valsOf (leftOf us c)⟩

/-- What holds of a cursor: it rests on the first update of a key and on the first update of a value of that key. -/
structure VecOk (us : Upds (K ×ₗ V) T R) (c : VecChunkCursor) : Prop where
  le : c.key_pos ≤ c.val_pos
  len : c.val_pos ≤ us.length
  keyB : ∀ u ∈ us.take c.key_pos, ∀ v ∈ us.drop c.key_pos, rowKey u < rowKey v
  valB : ∀ u ∈ us.take c.val_pos, ∀ v ∈ us.drop c.val_pos, u.1 < v.1
  same : ∀ u ∈ (us.drop c.key_pos).take (c.val_pos - c.key_pos), some (rowKey u) = keyAt us c.key_pos

variable {us : Upds (K ×ₗ V) T R} {c : VecChunkCursor}

theorem vecOk_start {i : Nat} (h : i ≤ us.length) (hb : ∀ u ∈ us.take i, ∀ v ∈ us.drop i, rowKey u < rowKey v) : VecOk us ⟨i, i⟩ :=
  ⟨le_rfl, h, hb, fun u hu v hv => data_lt_iff.2 (Or.inl (hb u hu v hv)), by simp⟩

theorem posOf_start (us : Upds (K ×ₗ V) T R) (i : Nat) : posOf us ⟨i, i⟩ = Pos.start (toContents (us.drop i)) := by
  rw [posOf, Pos.start]
  congr 1
  rw [leftOf, keyAt, toContents]
  simp only
  cases h : us[i]? with
  | none =>
    have : us.drop i = [] := List.drop_eq_nil_of_le (List.getElem?_eq_none_iff.1 h)
    rw [this]; simp [groupOn_nil, valsOf]
  | some u =>
    have hh : (us.drop i).head? = some u := by rw [List.head?_drop, h]
    rw [groupOn_head hh]
    simp

theorem keyAt_of_head {i : Nat} : keyAt us i = ((us.drop i).head?).map rowKey := by rw [List.head?_drop]; rfl

theorem posOf_key? (us : Upds (K ×ₗ V) T R) (c : VecChunkCursor) : (posOf us c).key? = keyAt us c.key_pos := by
  rw [Pos.key?, posOf, keyAt_of_head, toContents]
  simp only
  cases h : (us.drop c.key_pos).head? with
  | none => rw [List.head?_eq_none_iff] at h; rw [h]; simp [groupOn_nil]
  | some u => rw [groupOn_head h]; simp

theorem posOf_keys_nil : (posOf us c).keys = [] ↔ us.length ≤ c.key_pos := by
  rw [posOf, toContents, List.map_eq_nil_iff, groupOn_eq_nil, List.drop_eq_nil_iff]

theorem leftOf_head (us : Upds (K ×ₗ V) T R) (c : VecChunkCursor) :
    (leftOf us c).head? = if c.val_valid us then us[c.val_pos]? else none := by
  rw [leftOf, VecChunkCursor.val_valid, keyAt]
  cases hk : us[c.key_pos]? with
  | none => simp
  | some k =>
    cases hv : us[c.val_pos]? with
    | none => rw [List.drop_eq_nil_of_le (List.getElem?_eq_none_iff.1 hv)]; simp
    | some v =>
      rw [drop_cons' hv]
      by_cases h : rowKey v = rowKey k <;> simp [h]

theorem posOf_val? (us : Upds (K ×ₗ V) T R) (c : VecChunkCursor) :
    (posOf us c).val? = if c.val_valid us then (us[c.val_pos]?).map valOf else none := by
  rw [Pos.val?, posOf]
  simp only
  have hh := leftOf_head us c
  by_cases hv : c.val_valid us = true
  · rw [if_pos hv] at hh ⊢
    cases h : us[c.val_pos]? with
    | none => rw [h, List.head?_eq_none_iff] at hh; rw [hh]; simp [valsOf, groupOn_nil]
    | some u =>
      rw [h] at hh
      rw [valsOf, groupOn_head hh]; simp
  · rw [if_neg hv] at hh ⊢
    rw [List.head?_eq_none_iff] at hh; rw [hh]; simp [valsOf, groupOn_nil]

theorem val_valid_get {c : VecChunkCursor} (h : c.val_valid us = true) : ∃ k v, us[c.key_pos]? = some k ∧ us[c.val_pos]? = some v ∧ rowKey v = rowKey k := by
  rw [VecChunkCursor.val_valid] at h
  cases hk : us[c.key_pos]? with
  | none => rw [hk] at h; cases h
  | some k =>
    cases hv : us[c.val_pos]? with
    | none => rw [hk, hv] at h; cases h
    | some v => rw [hk, hv] at h; exact ⟨k, v, rfl, rfl, by simpa using h⟩

/-- The updates of the current value are the updates of the current data. -/
theorem posOf_upds? (hs : SortedD us) (h : c.val_valid us = true) : ∃ u, us[c.val_pos]? = some u ∧
    (posOf us c).upds? = some (((us.drop c.val_pos).takeWhile fun v => v.1 = u.1).map Prod.snd) ∧
    (leftOf us c).dropWhile (fun v => valOf v = valOf u) = ((us.drop c.val_pos).dropWhile fun v => v.1 = u.1).takeWhile (fun u => some (rowKey u) = keyAt us c.key_pos) := by
  obtain ⟨k, u, h1, h2, h3⟩ := val_valid_get h
  refine ⟨u, h2, ?_⟩
  have hh := leftOf_head us c
  rw [if_pos h, h2] at hh
  have key : ∀ l : Upds (K ×ₗ V) T R, ((l.takeWhile fun v => rowKey v = rowKey u).takeWhile fun v => valOf v = valOf u) = l.takeWhile (fun v => v.1 = u.1) ∧
      ((l.takeWhile fun v => rowKey v = rowKey u).dropWhile fun v => valOf v = valOf u) = (l.dropWhile fun v => v.1 = u.1).takeWhile (fun v => rowKey v = rowKey u) := by
    intro l
    induction l with
    | nil => simp
    | cons w l ih =>
      by_cases e1 : rowKey w = rowKey u
      · by_cases e2 : valOf w = valOf u
        · have e3 : w.1 = u.1 := data_eq_iff.2 ⟨e1, e2⟩
          simp only [List.takeWhile_cons, e1, e2, e3, decide_true, if_true, List.dropWhile_cons]
          exact ⟨by rw [ih.1], ih.2⟩
        · have e3 : ¬ w.1 = u.1 := fun e => e2 (data_eq_iff.1 e).2
          simp [List.takeWhile_cons, e1, e2, e3, List.dropWhile_cons]
      · have e3 : ¬ w.1 = u.1 := fun e => e1 (data_eq_iff.1 e).1
        simp [List.takeWhile_cons, e1, e3, List.dropWhile_cons]
  have hl : leftOf us c = (us.drop c.val_pos).takeWhile (fun v => rowKey v = rowKey u) := by
    rw [leftOf, keyAt, h1]
    congr 1
    funext v
    simp [h3]
  have hp : (fun v : (K ×ₗ V) × T × R => decide (some (rowKey v) = keyAt us c.key_pos)) = fun v => decide (rowKey v = rowKey u) := by
    funext v
    simp [keyAt, h1, h3]
  rw [hp]
  constructor
  · rw [Pos.upds?, posOf]
    simp only
    rw [valsOf, groupOn_head hh]
    simp only [List.map_cons, List.head?_cons, Option.map_some]
    rw [hl, (key _).1]
  · rw [hl, (key _).2]

theorem valsOf_tail {l : Upds (K ×ₗ V) T R} {u : (K ×ₗ V) × T × R} (h : l.head? = some u) : (valsOf l).tail = valsOf (l.dropWhile fun v => valOf v = valOf u) := by
  rw [valsOf, groupOn_head h]; simp [valsOf]

theorem drop_add_takeWhile {U : Type*} (us : List U) (p : U → Bool) (i : Nat) : us.drop (i + ((us.drop i).takeWhile p).length) = (us.drop i).dropWhile p := by
  rw [← List.drop_drop, dropWhile_eq_drop]

theorem take_add_takeWhile {U : Type*} (us : List U) (p : U → Bool) (i : Nat) :
    us.take (i + ((us.drop i).takeWhile p).length) = us.take i ++ (us.drop i).takeWhile p := by
  have e : (us.drop i).takeWhile p = (us.drop i).take ((us.drop i).takeWhile p).length := List.prefix_iff_eq_take.1 (List.takeWhile_prefix p)
  conv_rhs => rw [e]
  rw [← List.take_add]

theorem add_takeWhile_le {U : Type*} (us : List U) (p : U → Bool) (i : Nat) (hi : i ≤ us.length) : i + ((us.drop i).takeWhile p).length ≤ us.length := by
  have := (List.takeWhile_sublist p (l := us.drop i)).length_le
  simp at this; omega

/-- A boundary after a run: what a monotone predicate separates. -/
theorem boundary_of {U : Type*} (rel : U → U → Prop) (us : List U) (p : U → Bool) (i : Nat)
    (h0 : ∀ u ∈ us.take i, ∀ v ∈ us.drop i, rel u v) (h1 : ∀ u ∈ us.drop i, ∀ v ∈ us.drop i, p u = true → p v = false → rel u v)
    (h2 : (us.drop i).Pairwise fun u v => p v = true → p u = true) :
    ∀ u ∈ us.take (i + ((us.drop i).takeWhile p).length), ∀ v ∈ us.drop (i + ((us.drop i).takeWhile p).length), rel u v := by
  rw [take_add_takeWhile, drop_add_takeWhile]
  intro u hu v hv
  have hv' := (List.dropWhile_sublist p).subset hv
  rcases List.mem_append.1 hu with hu | hu
  · exact h0 u hu v hv'
  · refine h1 u ((List.takeWhile_sublist p).subset hu) v hv' (mem_takeWhile hu) ?_
    -- everything after the run fails the predicate
    have hne : (us.drop i).dropWhile p ≠ [] := List.ne_nil_of_mem hv
    have hhead := List.head_dropWhile_not p hne
    have hpw : ((us.drop i).dropWhile p).Pairwise fun u v => p v = true → p u = true := h2.sublist (List.dropWhile_sublist p)
    generalize (us.drop i).dropWhile p = l at *
    cases l with
    | nil => exact absurd rfl hne
    | cons x l =>
      simp only [List.head_cons] at hhead
      rcases List.mem_cons.1 hv with rfl | hm
      · simpa using hhead
      · cases e : p v with
        | false => rfl
        | true =>
          have := (List.pairwise_cons.1 hpw).1 v hm e
          rw [this] at hhead; simp at hhead

theorem SortedD.drop {l : Upds (K ×ₗ V) T R} (h : SortedD l) (i : Nat) : SortedD (l.drop i) := List.Pairwise.sublist (List.drop_sublist _ _) h

/-- Within what is left, the current key comes first. -/
theorem head_le {l : Upds (K ×ₗ V) T R} (hs : SortedD l) {u : (K ×ₗ V) × T × R} (hu : l.head? = some u) : ∀ v ∈ l, u.1 ≤ v.1 := by
  cases l with
  | nil => cases hu
  | cons w l =>
    cases hu
    intro v hv
    rcases List.mem_cons.1 hv with rfl | hv
    · exact le_rfl
    · exact (List.pairwise_cons.1 hs).1 v hv

theorem vec_step_key (hs : SortedD us) (hc : VecOk us c) : ∃ i, VecChunkCursor.step_key us c = some ⟨i, i⟩ ∧ VecOk us ⟨i, i⟩ ∧
    us.drop i = (us.drop c.key_pos).dropWhile (fun u => some (rowKey u) = keyAt us c.key_pos) := by
  rw [VecChunkCursor.step_key]
  cases h : us[c.key_pos]? with
  | none =>
    have hl := List.getElem?_eq_none_iff.1 h
    have e1 : c.key_pos = us.length := le_antisymm (hc.le.trans hc.len) hl
    have e2 : c.val_pos = us.length := le_antisymm hc.len (hl.trans hc.le)
    refine ⟨us.length, ?_, vecOk_start le_rfl (by simp), ?_⟩
    · obtain ⟨a, b⟩ := c; simp_all
    · rw [e1]; simp
  | some u =>
    have hh : (us.drop c.key_pos).head? = some u := by rw [List.head?_drop, h]
    refine ⟨_, rfl, ?_, ?_⟩
    · refine vecOk_start (add_takeWhile_le _ _ _ (hc.le.trans hc.len)) ?_
      refine boundary_of (fun u v => rowKey u < rowKey v) us (fun v => decide (rowKey v = rowKey u)) c.key_pos hc.keyB ?_ ?_
      · intro a ha b hb e1 e2
        simp only [decide_eq_true_eq, decide_eq_false_iff_not] at e1 e2
        rw [e1]
        exact lt_of_le_of_ne (keyOf_le (head_le (hs.drop _) hh b hb)) (Ne.symm e2)
      · refine (hs.drop c.key_pos).imp_of_mem ?_
        intro a b ha hb hab e
        simp only [decide_eq_true_eq] at e ⊢
        exact le_antisymm (e ▸ keyOf_le hab) (keyOf_le (head_le (hs.drop _) hh a ha))
    · rw [scanFrom, drop_add_takeWhile, keyAt, h]
      simp

theorem vec_seek_key (hs : SortedD us) (hc : VecOk us c) (k : K) : ∃ i, VecChunkCursor.seek_key us c k = some ⟨i, i⟩ ∧ VecOk us ⟨i, i⟩ ∧
    i = c.key_pos + ((us.drop c.key_pos).takeWhile fun u => rowKey u < k).length ∧
    us.drop i = (us.drop c.key_pos).dropWhile (fun u => rowKey u < k) := by
  have hp : (us.drop c.key_pos).Pairwise fun u v => decide (rowKey v < k) = true → decide (rowKey u < k) = true := by
    refine (hs.drop c.key_pos).imp ?_
    intro a b hab e
    simp only [decide_eq_true_eq] at e ⊢
    exact lt_of_le_of_lt (keyOf_le hab) e
  rw [VecChunkCursor.seek_key, gallop_eq _ _ _ hp]
  refine ⟨_, rfl, ?_, rfl, drop_add_takeWhile _ _ _⟩
  refine vecOk_start (add_takeWhile_le _ _ _ (hc.le.trans hc.len)) ?_
  refine boundary_of (fun u v => rowKey u < rowKey v) us (fun u => decide (rowKey u < k)) c.key_pos hc.keyB ?_ hp
  intro a ha b hb e1 e2
  simp only [decide_eq_true_eq, decide_eq_false_iff_not, not_lt] at e1 e2
  exact lt_of_lt_of_le e1 e2

theorem vec_step_val (hs : SortedD us) (hc : VecOk us c) (h : c.val_valid us = true) : ∃ u, us[c.val_pos]? = some u ∧
    VecChunkCursor.step_val us c = some ⟨c.key_pos, scanFrom us (fun v => v.1 = u.1) c.val_pos⟩ ∧ VecOk us ⟨c.key_pos, scanFrom us (fun v => v.1 = u.1) c.val_pos⟩ := by
  obtain ⟨k, u, h1, h2, h3⟩ := val_valid_get h
  refine ⟨u, h2, by rw [VecChunkCursor.step_val, if_pos h, h2], ?_⟩
  have hh : (us.drop c.val_pos).head? = some u := by rw [List.head?_drop, h2]
  refine ⟨hc.le.trans (Nat.le_add_right _ _), add_takeWhile_le _ _ _ hc.len, hc.keyB, ?_, ?_⟩
  · refine boundary_of (fun u v => u.1 < v.1) us (fun v => decide (v.1 = u.1)) c.val_pos hc.valB ?_ ?_
    · intro a ha b hb e1 e2
      simp only [decide_eq_true_eq, decide_eq_false_iff_not] at e1 e2
      rw [e1]
      exact lt_of_le_of_ne (head_le (hs.drop _) hh b hb) (Ne.symm e2)
    · refine (hs.drop c.val_pos).imp_of_mem ?_
      intro a b ha hb hab e
      simp only [decide_eq_true_eq] at e ⊢
      exact le_antisymm (e ▸ hab) (head_le (hs.drop _) hh a ha)
  · intro w hw
    simp only [scanFrom] at hw
    have e : c.val_pos + ((us.drop c.val_pos).takeWhile fun v => decide (v.1 = u.1)).length - c.key_pos =
        (c.val_pos - c.key_pos) + ((us.drop c.val_pos).takeWhile fun v => decide (v.1 = u.1)).length := by have := hc.le; omega
    rw [e, List.take_add, List.drop_drop, show c.key_pos + (c.val_pos - c.key_pos) = c.val_pos by have := hc.le; omega] at hw
    rcases List.mem_append.1 hw with hw | hw
    · exact hc.same w hw
    · rw [← List.prefix_iff_eq_take.1 (List.takeWhile_prefix _)] at hw
      have := mem_takeWhile hw
      simp only [decide_eq_true_eq] at this
      rw [keyAt, h1, Option.map_some, ← h3, (data_eq_iff.1 this).1]

theorem mem_drop_of_le {U : Type*} {us : List U} {i j : Nat} (h : i ≤ j) {u : U} (hu : u ∈ us.drop j) : u ∈ us.drop i := by
  rw [show j = i + (j - i) by omega, ← List.drop_drop] at hu
  exact List.mem_of_mem_drop hu

theorem vec_seek_val (hs : SortedD us) (hc : VecOk us c) {k : (K ×ₗ V) × T × R} (hk : us[c.key_pos]? = some k) (v : V) :
    ∃ i, VecChunkCursor.seek_val us c v = some ⟨c.key_pos, i⟩ ∧ VecOk us ⟨c.key_pos, i⟩ ∧
    i = c.val_pos + ((us.drop c.val_pos).takeWhile fun u => u.1 < toLex (rowKey k, v)).length := by
  have hp : (us.drop c.val_pos).Pairwise fun u w => decide (w.1 < toLex (rowKey k, v)) = true → decide (u.1 < toLex (rowKey k, v)) = true := by
    refine (hs.drop c.val_pos).imp ?_
    intro a b hab e
    simp only [decide_eq_true_eq] at e ⊢
    exact lt_of_le_of_lt hab e
  rw [VecChunkCursor.seek_val, hk]
  simp only
  rw [gallop_eq _ _ _ hp]
  refine ⟨_, rfl, ?_, rfl⟩
  have hh : (us.drop c.key_pos).head? = some k := by rw [List.head?_drop, hk]
  refine ⟨hc.le.trans (Nat.le_add_right _ _), add_takeWhile_le _ _ _ hc.len, hc.keyB, ?_, ?_⟩
  · refine boundary_of (fun u v => u.1 < v.1) us (fun u => decide (u.1 < toLex (rowKey k, v))) c.val_pos hc.valB ?_ hp
    intro a ha b hb e1 e2
    simp only [decide_eq_true_eq, decide_eq_false_iff_not, not_lt] at e1 e2
    exact lt_of_lt_of_le e1 e2
  · intro w hw
    simp only at hw
    have e : c.val_pos + ((us.drop c.val_pos).takeWhile fun u => decide (u.1 < toLex (rowKey k, v))).length - c.key_pos =
        (c.val_pos - c.key_pos) + ((us.drop c.val_pos).takeWhile fun u => decide (u.1 < toLex (rowKey k, v))).length := by have := hc.le; omega
    rw [e, List.take_add, List.drop_drop, show c.key_pos + (c.val_pos - c.key_pos) = c.val_pos by have := hc.le; omega] at hw
    rcases List.mem_append.1 hw with hw | hw
    · exact hc.same w hw
    · rw [← List.prefix_iff_eq_take.1 (List.takeWhile_prefix _)] at hw
      have h1 := mem_takeWhile hw
      simp only [decide_eq_true_eq] at h1
      have h2 := head_le (hs.drop _) hh w (mem_drop_of_le hc.le ((List.takeWhile_sublist _).subset hw))
      rw [keyAt, hk, Option.map_some]
      congr 1
      refine le_antisymm ?_ (keyOf_le h2)
      rcases Prod.Lex.lt_iff.1 h1 with h | h
      · exact h.le
      · exact h.1.le

/-- The part of the current key already passed, and the part left. -/
theorem leftOf_split (hc : VecOk us c) : (us.drop c.key_pos).takeWhile (fun u => some (rowKey u) = keyAt us c.key_pos) =
    (us.drop c.key_pos).take (c.val_pos - c.key_pos) ++ leftOf us c := by
  have e : us.drop c.key_pos = (us.drop c.key_pos).take (c.val_pos - c.key_pos) ++ us.drop c.val_pos := by
    conv_lhs => rw [← List.take_append_drop (c.val_pos - c.key_pos) (us.drop c.key_pos)]
    rw [List.drop_drop, show c.key_pos + (c.val_pos - c.key_pos) = c.val_pos by have := hc.le; omega]
  conv_lhs => rw [e]
  rw [List.takeWhile_append_of_pos]
  · rfl
  · intro u hu
    simpa using hc.same u hu

theorem vec_inside (hc : VecOk us c) : (posOf us c).In (toContents us) := by
  constructor
  · rw [posOf]
    simp only
    have : toContents us = toContents (us.take c.key_pos) ++ toContents (us.drop c.key_pos) := by
      conv_lhs => rw [← List.take_append_drop c.key_pos us]
      rw [toContents, groupOn_append (fun x hx y hy => (hc.keyB x hx y hy).ne), List.map_append]; rfl
    exact ⟨_, this.symm⟩
  · intro kv hkv
    have h1 : (Pos.start (toContents (us.drop c.key_pos))).vals = kv.2 := by
      rw [posOf] at hkv
      simp only at hkv
      rw [Pos.start]
      simp only
      rw [Option.mem_def.1 hkv]; rfl
    rw [← posOf_start, posOf] at h1
    simp only at h1
    rw [← h1, posOf]
    simp only
    have h2 : leftOf us ⟨c.key_pos, c.key_pos⟩ = (us.drop c.key_pos).take (c.val_pos - c.key_pos) ++ leftOf us c := leftOf_split hc
    rw [h2, valsOf, valsOf, groupOn_append, List.map_append]
    · exact ⟨_, rfl⟩
    · intro x hx y hy e
      have hx' : x ∈ us.take c.val_pos := by
        rw [List.take_drop] at hx
        rw [show c.key_pos + (c.val_pos - c.key_pos) = c.val_pos by have := hc.le; omega] at hx
        exact List.mem_of_mem_drop hx
      have hy' := (List.takeWhile_sublist _).subset hy
      have hlt := hc.valB x hx' y hy'
      have k1 := hc.same x hx
      have k2 := mem_takeWhile hy
      simp only [decide_eq_true_eq] at k2
      have k3 : rowKey x = rowKey y := Option.some.inj (k1.trans k2.symm)
      exact hlt.ne (data_eq_iff.2 ⟨k3, e⟩)

theorem vec_key_valid_iff (us : Upds (K ×ₗ V) T R) (c : VecChunkCursor) : c.key_valid us = (keyAt us c.key_pos).isSome := by
  rw [VecChunkCursor.key_valid, keyAt, Option.isSome_map, Bool.eq_iff_iff, decide_eq_true_iff]
  simp

/-- Cursors over a sorted chunk behave as positions in its contents. -/
theorem vecCursor_presents (hs : SortedD us) : Presents VecChunkCursor.ops us (toContents us) (fun c p => VecOk us c ∧ p = posOf us c) where
  inside := by rintro c _ ⟨hc, rfl⟩; exact vec_inside hc
  key_valid := by rintro c _ ⟨hc, rfl⟩; rw [posOf_key?]; exact congrArg some (vec_key_valid_iff us c)
  get_key := by
    rintro c _ ⟨hc, rfl⟩
    rw [posOf_key?]
    show VecChunkCursor.get_key us c = _
    rw [VecChunkCursor.get_key, vec_key_valid_iff, VecChunkCursor.key, keyAt]
    cases us[c.key_pos]? <;> rfl
  key := by rintro c _ ⟨hc, rfl⟩; rw [posOf_key?]; rfl
  val_valid := by
    rintro c _ ⟨hc, rfl⟩ -
    rw [posOf_val?]
    show some (c.val_valid us) = _
    by_cases h : c.val_valid us = true
    · obtain ⟨k, v, h1, h2, h3⟩ := val_valid_get h
      rw [if_pos h, h2, h]; rfl
    · rw [if_neg h]; simpa using h
  get_val := by
    rintro c _ ⟨hc, rfl⟩ -
    rw [posOf_val?]
    show VecChunkCursor.get_val us c = _
    rw [VecChunkCursor.get_val, VecChunkCursor.val]
    by_cases h : c.val_valid us = true
    · obtain ⟨k, v, h1, h2, h3⟩ := val_valid_get h
      rw [if_pos h, if_pos h, h2]; rfl
    · rw [if_neg h, if_neg h]
  val := by
    rintro c _ ⟨hc, rfl⟩ - hv
    have h : c.val_valid us = true := by
      by_contra h
      have h1 := posOf_val? us c
      rw [if_neg h, Pos.val?, Option.map_eq_none_iff, List.head?_eq_none_iff] at h1
      exact hv h1
    rw [posOf_val?, if_pos h]; rfl
  map_times := by
    rintro c _ ⟨hc, rfl⟩ - hv
    have h : c.val_valid us = true := by
      by_contra h
      have h1 := posOf_val? us c
      rw [if_neg h, Pos.val?, Option.map_eq_none_iff, List.head?_eq_none_iff] at h1
      exact hv h1
    obtain ⟨u, h1, h2, -⟩ := posOf_upds? hs h
    rw [h2]
    show VecChunkCursor.map_times us c = _
    rw [VecChunkCursor.map_times, if_pos h, h1]
  step_key := by
    rintro c _ ⟨hc, rfl⟩
    obtain ⟨i, h1, h2, h3⟩ := vec_step_key hs hc
    refine ⟨_, h1, h2, ?_⟩
    rw [posOf_start, Pos.stepKey, posOf, h3]
    simp only
    congr 1
    rw [toContents, toContents]
    cases h : us[c.key_pos]? with
    | none =>
      have : us.drop c.key_pos = [] := List.drop_eq_nil_of_le (List.getElem?_eq_none_iff.1 h)
      rw [this]; simp [groupOn_nil]
    | some u =>
      have hh : (us.drop c.key_pos).head? = some u := by rw [List.head?_drop, h]
      rw [groupOn_head hh, keyAt, h]
      simp
  seek_key := by
    rintro c _ k ⟨hc, rfl⟩
    obtain ⟨i, h1, h2, -, h3⟩ := vec_seek_key hs hc k
    refine ⟨_, h1, h2, ?_⟩
    show (posOf us c).seekKey k = _
    rw [posOf_start, Pos.seekKey, posOf, h3]
    simp only
    congr 1
    rw [toContents, toContents, ← groupOn_dropWhile rowKey k _ _ le_rfl, List.dropWhile_map]
    rfl
  step_val := by
    rintro c _ ⟨hc, rfl⟩ -
    by_cases h : c.val_valid us = true
    · obtain ⟨u, h1, h2, h3⟩ := vec_step_val hs hc h
      refine ⟨_, h2, h3, ?_⟩
      obtain ⟨u', h1', -, h4⟩ := posOf_upds? hs h
      cases h1.symm.trans h1'
      rw [Pos.stepVal, posOf, posOf]
      simp only
      congr 1
      have hh := leftOf_head us c
      rw [if_pos h, h1] at hh
      rw [valsOf_tail hh, h4, leftOf, scanFrom, drop_add_takeWhile]
    · refine ⟨c, ?_, hc, ?_⟩
      · show VecChunkCursor.step_val us c = _
        rw [VecChunkCursor.step_val, if_neg h]
      · have h1 := posOf_val? us c
        rw [if_neg h, Pos.val?, Option.map_eq_none_iff, List.head?_eq_none_iff] at h1
        rw [Pos.stepVal, h1, List.tail_nil]
        exact Pos.ext rfl h1.symm
  rewind_keys := by
    rintro c _ ⟨hc, rfl⟩
    refine ⟨⟨0, 0⟩, rfl, vecOk_start (Nat.zero_le _) (by simp), ?_⟩
    rw [posOf_start, List.drop_zero]
  rewind_vals := by
    rintro c _ ⟨hc, rfl⟩ -
    refine ⟨⟨c.key_pos, c.key_pos⟩, rfl, vecOk_start (hc.le.trans hc.len) hc.keyB, ?_⟩
    rw [posOf_start]; rfl

theorem vecCursor_seeksVals (hs : SortedD us) : SeeksVals VecChunkCursor.ops us (fun c p => VecOk us c ∧ p = posOf us c) := by
  rintro c _ v ⟨hc, rfl⟩ hk
  have hlt : c.key_pos < us.length := by
    by_contra h
    exact hk (posOf_keys_nil.2 (not_lt.1 h))
  obtain ⟨i, h1, h2, h3⟩ := vec_seek_val hs hc (List.getElem?_eq_getElem hlt) v
  refine ⟨_, h1, h2, ?_⟩
  rw [Pos.seekVal, posOf, posOf]
  simp only
  congr 1
  conv_rhs => rw [leftOf, h3]
  rw [leftOf]
  simp only
  rw [drop_add_takeWhile]
  have hka : keyAt us c.key_pos = some (rowKey us[c.key_pos]) := by rw [keyAt, List.getElem?_eq_getElem hlt]; rfl
  have hle : ∀ w ∈ us.drop c.val_pos, rowKey us[c.key_pos] ≤ rowKey w := fun w hw =>
    keyOf_le (head_le (hs.drop c.key_pos) (by rw [List.head?_drop, List.getElem?_eq_getElem hlt]) w (mem_drop_of_le hc.le hw))
  have key : ∀ l : Upds (K ×ₗ V) T R, (∀ w ∈ l, rowKey us[c.key_pos] ≤ rowKey w) →
      (l.dropWhile fun u => u.1 < toLex (rowKey us[c.key_pos], v)).takeWhile (fun u => rowKey u = rowKey us[c.key_pos]) =
      (l.takeWhile fun u => rowKey u = rowKey us[c.key_pos]).dropWhile fun u => valOf u < v := by
    intro l hl
    induction l with
    | nil => simp
    | cons w l ih =>
      have hw := hl w (by simp)
      have ih' := ih fun x hx => hl x (List.mem_cons_of_mem _ hx)
      by_cases e1 : rowKey w = rowKey us[c.key_pos]
      · by_cases e2 : valOf w < v
        · have e3 : w.1 < toLex (rowKey us[c.key_pos], v) := Prod.Lex.lt_iff.2 (Or.inr ⟨e1, e2⟩)
          rw [List.dropWhile_cons_of_pos (by simpa using e3), List.takeWhile_cons_of_pos (by simpa using e1), List.dropWhile_cons_of_pos (by simpa using e2), ih']
        · have e3 : ¬ w.1 < toLex (rowKey us[c.key_pos], v) := by
            intro h
            rcases Prod.Lex.lt_iff.1 h with h | h
            · exact absurd e1 h.ne
            · exact e2 h.2
          rw [List.dropWhile_cons_of_neg (by simpa using e3), List.takeWhile_cons_of_pos (by simpa using e1), List.dropWhile_cons_of_neg (by simpa using e2)]
      · have e3 : ¬ w.1 < toLex (rowKey us[c.key_pos], v) := by
          intro h
          rcases Prod.Lex.lt_iff.1 h with h | h
          · exact absurd h (not_lt.2 hw)
          · exact e1 h.1
        rw [List.dropWhile_cons_of_neg (by simpa using e3), List.takeWhile_cons_of_neg (by simpa using e1), List.dropWhile_nil]
  have hfun : (fun u : (K ×ₗ V) × T × R => decide (some (rowKey u) = keyAt us c.key_pos)) = fun u => decide (rowKey u = rowKey us[c.key_pos]) := by
    funext u; rw [hka]; simp
  rw [hfun, key _ hle, valsOf, valsOf, ← groupOn_dropWhile valOf v _ _ le_rfl, List.dropWhile_map]
  rfl

end
end DD
