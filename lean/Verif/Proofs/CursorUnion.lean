import Verif.Spec.CursorContract
import Verif.Proofs.OrdValMerge

/-! # The union of sorted association lists -/

namespace DD

section
variable {A B : Type*} [LinearOrder A]

/-- The merge of several association lists. -/
def unionBy (comb : B → B → B) (ls : List (List (A × B))) : List (A × B) := ls.foldr (zipMerge comb) []

def headKey (l : List (A × B)) : Option A := l.head?.map Prod.fst

/-- The least of the first keys. -/
def minHead (ls : List (List (A × B))) : Option A := (ls.filterMap headKey).min?

def popIf (a : A) (l : List (A × B)) : List (A × B) := if headKey l = some a then l.tail else l

/-- What the lists that start with `a` have for it. -/
def headsAt (a : A) (ls : List (List (A × B))) : List B := ls.filterMap fun l => if headKey l = some a then l.head?.map Prod.snd else none

theorem zipMerge_nil_right (comb : B → B → B) (l : List (A × B)) : zipMerge comb l [] = l := by cases l <;> rw [zipMerge]; simp

theorem minHead_nil : minHead ([] : List (List (A × B))) = none := rfl

theorem minHead_cons_nil (ls : List (List (A × B))) : minHead ([] :: ls) = minHead ls := rfl

theorem minHead_cons (a : A) (b : B) (l : List (A × B)) (ls : List (List (A × B))) :
    minHead (((a, b) :: l) :: ls) = some (match minHead ls with | none => a | some m => min a m) := by
  have e : (((a, b) :: l) :: ls).filterMap headKey = a :: ls.filterMap headKey := rfl
  rw [minHead, minHead, e, List.min?_cons]
  cases (ls.filterMap headKey).min? <;> rfl

theorem minHead_none {ls : List (List (A × B))} (h : minHead ls = none) : ∀ l ∈ ls, l = [] := by
  induction ls with
  | nil => simp
  | cons l ls ih =>
    cases l with
    | nil =>
      rw [minHead_cons_nil] at h
      intro x hx
      rcases List.mem_cons.mp hx with rfl | hx
      · rfl
      · exact ih h x hx
    | cons x l => obtain ⟨a, b⟩ := x; rw [minHead_cons] at h; cases h

theorem minHead_le {ls : List (List (A × B))} {m : A} (h : minHead ls = some m) {l : List (A × B)} (hl : l ∈ ls) {a : A} (ha : headKey l = some a) :
    m ≤ a := by
  have := (List.min?_eq_some_iff (xs := ls.filterMap headKey) (a := m)).mp h
  exact this.2 a (List.mem_filterMap.mpr ⟨l, hl, ha⟩)

theorem minHead_mem {ls : List (List (A × B))} {m : A} (h : minHead ls = some m) : ∃ l ∈ ls, headKey l = some m := by
  have := (List.min?_eq_some_iff (xs := ls.filterMap headKey) (a := m)).mp h
  obtain ⟨l, hl, he⟩ := List.mem_filterMap.mp this.1
  exact ⟨l, hl, he⟩

theorem unionBy_none {comb : B → B → B} {ls : List (List (A × B))} (h : minHead ls = none) : unionBy comb ls = [] := by
  have := minHead_none h
  clear h
  induction ls with
  | nil => rfl
  | cons l ls ih =>
    rw [this l List.mem_cons_self]
    show zipMerge comb [] (unionBy comb ls) = []
    rw [ih (fun x hx => this x (List.mem_cons_of_mem _ hx)), zipMerge]

theorem popIf_eq_self {a : A} {ls : List (List (A × B))} (h : ∀ l ∈ ls, headKey l ≠ some a) : ls.map (popIf a) = ls := by
  conv_rhs => rw [← List.map_id ls]
  apply List.map_congr_left
  intro l hl
  rw [popIf, if_neg (h l hl)]; rfl

theorem headsAt_eq_nil {a : A} {ls : List (List (A × B))} (h : ∀ l ∈ ls, headKey l ≠ some a) : headsAt a ls = [] := by
  rw [headsAt, List.filterMap_eq_nil_iff]
  intro l hl
  rw [if_neg (h l hl)]

theorem unionBy_cons (comb : B → B → B) (e : B) (he : ∀ b, comb b e = b) {ls : List (List (A × B))} {a : A} (h : minHead ls = some a) :
    unionBy comb ls = (a, (headsAt a ls).foldr comb e) :: unionBy comb (ls.map (popIf a)) := by
  induction ls generalizing a with
  | nil => cases h
  | cons l ls ih =>
    cases l with
    | nil =>
      rw [minHead_cons_nil] at h
      have e1 : unionBy comb ([] :: ls) = unionBy comb ls := by show zipMerge comb [] (unionBy comb ls) = _; rw [zipMerge]
      have e2 : unionBy comb (([] :: ls).map (popIf a)) = unionBy comb (ls.map (popIf a)) := by
        show zipMerge comb (popIf a []) _ = _
        rw [popIf, if_neg (by simp [headKey]), zipMerge]; rfl
      rw [e1, e2, ih h]
      rfl
    | cons x l =>
      obtain ⟨a1, b1⟩ := x
      rw [minHead_cons] at h
      have hhd : headKey ((a1, b1) :: l) = some a1 := rfl
      cases hm : minHead ls with
      | none =>
        rw [hm] at h
        simp only [Option.some.injEq] at h
        subst h
        have hnil := minHead_none hm
        have hne : ∀ l ∈ ls, headKey l ≠ some a1 := fun l hl => by rw [hnil l hl]; simp [headKey]
        have hu := unionBy_none (comb := comb) hm
        show zipMerge comb ((a1, b1) :: l) (unionBy comb ls) = (a1, (headsAt a1 (((a1, b1) :: l) :: ls)).foldr comb e) :: zipMerge comb (popIf a1 ((a1, b1) :: l)) (unionBy comb (ls.map (popIf a1)))
        rw [popIf_eq_self hne, hu, zipMerge_nil_right, zipMerge_nil_right, popIf, if_pos hhd]
        have : headsAt a1 (((a1, b1) :: l) :: ls) = [b1] := by
          have h0 := headsAt_eq_nil hne
          rw [headsAt] at h0 ⊢
          rw [List.filterMap_cons, if_pos hhd, h0]; rfl
        rw [this]
        simp [he]
      | some a2 =>
        rw [hm] at h
        simp only [Option.some.injEq] at h
        have ih' := ih hm
        show zipMerge comb ((a1, b1) :: l) (unionBy comb ls) = (a, (headsAt a (((a1, b1) :: l) :: ls)).foldr comb e) :: zipMerge comb (popIf a ((a1, b1) :: l)) (unionBy comb (ls.map (popIf a)))
        rcases lt_trichotomy a1 a2 with hlt | heq | hgt
        · rw [min_eq_left hlt.le] at h
          subst h
          have hne : ∀ l ∈ ls, headKey l ≠ some a1 := fun l hl hc => absurd (minHead_le hm hl hc) (not_le.mpr hlt)
          rw [popIf_eq_self hne, popIf, if_pos hhd]
          have : headsAt a1 (((a1, b1) :: l) :: ls) = [b1] := by
            have h0 := headsAt_eq_nil hne
            rw [headsAt] at h0 ⊢
            rw [List.filterMap_cons, if_pos hhd, h0]; rfl
          rw [this, ih', zipMerge, if_pos hlt]
          simp [he]
        · subst heq
          rw [min_self] at h
          subst h
          rw [popIf, if_pos hhd, ih', zipMerge, if_neg (lt_irrefl _), if_pos rfl]
          have : headsAt a1 (((a1, b1) :: l) :: ls) = b1 :: headsAt a1 ls := by
            rw [headsAt, List.filterMap_cons, if_pos hhd]; rfl
          rw [this]
          rfl
        · rw [min_eq_right hgt.le] at h
          subst h
          have h1 : headKey ((a1, b1) :: l) ≠ some a2 := by rw [hhd]; simp only [ne_eq, Option.some.injEq]; exact (ne_of_gt hgt)
          have : headsAt a2 (((a1, b1) :: l) :: ls) = headsAt a2 ls := by
            rw [headsAt, List.filterMap_cons, if_neg h1]; rfl
          rw [popIf, if_neg h1, ih', zipMerge, if_neg (not_lt.mpr hgt.le), if_neg (ne_of_gt hgt), this]

def SortedKeys (l : List (A × B)) : Prop := l.Pairwise fun x y => x.1 < y.1

theorem SortedKeys.tail {l : List (A × B)} (h : SortedKeys l) : SortedKeys l.tail := List.Pairwise.tail h

theorem SortedKeys.suffix {l l' : List (A × B)} (h : SortedKeys l) (hs : l' <:+ l) : SortedKeys l' := List.Pairwise.sublist hs.sublist h

theorem unionBy_sorted (comb : B → B → B) {ls : List (List (A × B))} (h : ∀ l ∈ ls, SortedKeys l) : SortedKeys (unionBy comb ls) := by
  induction ls with
  | nil => exact List.Pairwise.nil
  | cons l ls ih => exact zipMerge_sorted comb _ _ (h l List.mem_cons_self) (ih fun x hx => h x (List.mem_cons_of_mem _ hx))

theorem dropWhile_eq_self {l : List (A × B)} {k a : A} (hk : k ≤ a) (hl : ∀ x ∈ l, a ≤ x.1) :
    l.dropWhile (fun x => decide (x.1 < k)) = l := by
  cases l with
  | nil => rfl
  | cons x l =>
    rw [List.dropWhile_cons, if_neg]
    simpa using hk.trans (hl x List.mem_cons_self)

theorem zipMerge_dropWhile (comb : B → B → B) (k : A) (l1 l2 : List (A × B)) (h1 : SortedKeys l1) (h2 : SortedKeys l2) :
    zipMerge comb (l1.dropWhile fun x => decide (x.1 < k)) (l2.dropWhile fun x => decide (x.1 < k))
      = (zipMerge comb l1 l2).dropWhile fun x => decide (x.1 < k) := by
  fun_induction zipMerge comb l1 l2 with
  | case1 l => simp [zipMerge]
  | case2 l => simp [zipMerge_nil_right]
  | case3 a1 b1 l1 a2 b2 l2 hlt ih =>
    by_cases hk : a1 < k
    · rw [List.dropWhile_cons, if_pos (by simpa using hk), List.dropWhile_cons (x := (a1, b1)), if_pos (by simpa using hk)]
      exact ih h1.tail h2
    · have hk := not_lt.mp hk
      have e1 : ((a1, b1) :: l1).dropWhile (fun x => decide (x.1 < k)) = (a1, b1) :: l1 := by
        rw [List.dropWhile_cons, if_neg (by simpa using hk)]
      have e2 : ((a2, b2) :: l2).dropWhile (fun x => decide (x.1 < k)) = (a2, b2) :: l2 := by
        rw [List.dropWhile_cons, if_neg (by simpa using hk.trans hlt.le)]
      rw [e1, e2, zipMerge, if_pos hlt, List.dropWhile_cons, if_neg (by simpa using hk)]
  | case4 b1 l1 a1 b2 l2 hlt ih =>
    by_cases hk : a1 < k
    · rw [List.dropWhile_cons, if_pos (by simpa using hk), List.dropWhile_cons, if_pos (by simpa using hk), List.dropWhile_cons,
        if_pos (by simpa using hk)]
      exact ih h1.tail h2.tail
    · have hk := not_lt.mp hk
      rw [List.dropWhile_cons, if_neg (by simpa using hk), List.dropWhile_cons, if_neg (by simpa using hk), List.dropWhile_cons,
        if_neg (by simpa using hk), zipMerge, if_neg hlt, if_pos rfl]
  | case5 a1 b1 l1 a2 b2 l2 hlt hne ih =>
    have hgt : a2 < a1 := lt_of_le_of_ne (not_lt.mp hlt) (Ne.symm hne)
    by_cases hk : a2 < k
    · rw [List.dropWhile_cons (x := (a2, b2)), if_pos (by simpa using hk), List.dropWhile_cons (x := (a2, b2)), if_pos (by simpa using hk)]
      exact ih h1 h2.tail
    · have hk := not_lt.mp hk
      have e1 : ((a1, b1) :: l1).dropWhile (fun x => decide (x.1 < k)) = (a1, b1) :: l1 := by
        rw [List.dropWhile_cons, if_neg (by simpa using hk.trans hgt.le)]
      have e2 : ((a2, b2) :: l2).dropWhile (fun x => decide (x.1 < k)) = (a2, b2) :: l2 := by
        rw [List.dropWhile_cons, if_neg (by simpa using hk)]
      rw [e1, e2, zipMerge, if_neg hlt, if_neg hne, List.dropWhile_cons, if_neg (by simpa using hk)]

theorem unionBy_dropWhile (comb : B → B → B) (k : A) {ls : List (List (A × B))} (h : ∀ l ∈ ls, SortedKeys l) :
    unionBy comb (ls.map fun l => l.dropWhile fun x => decide (x.1 < k)) = (unionBy comb ls).dropWhile fun x => decide (x.1 < k) := by
  induction ls with
  | nil => rfl
  | cons l ls ih =>
    have h' : ∀ l ∈ ls, SortedKeys l := fun x hx => h x (List.mem_cons_of_mem _ hx)
    show zipMerge comb _ (unionBy comb (ls.map _)) = (zipMerge comb l (unionBy comb ls)).dropWhile _
    rw [ih h', zipMerge_dropWhile comb k _ _ (h l List.mem_cons_self) (unionBy_sorted comb h')]

end

section
variable {K V T R : Type*} [LinearOrder K] [LinearOrder V]

def unionVals (vs : List (List (V × List (T × R)))) : List (V × List (T × R)) := unionBy (· ++ ·) vs
/-- The union of the contents of several batches. -/
def unionContents (ts : List (Contents K V T R)) : Contents K V T R := unionBy zipVals ts

theorem zipVals_nil (vs : List (V × List (T × R))) : zipVals vs [] = vs := zipMerge_nil_right _ _

theorem foldr_zipVals (vs : List (List (V × List (T × R)))) : vs.foldr zipVals [] = unionVals vs := rfl

theorem foldr_append (us : List (List (T × R))) : us.foldr (· ++ ·) [] = us.flatten := by
  induction us with
  | nil => rfl
  | cons u us ih => simp [ih]

end

end DD
