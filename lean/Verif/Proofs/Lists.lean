import Verif.Model.Columnar

/-! # Lists stored one after the other -/

namespace DD
variable {α β : Type*}

theorem ends_append (n : Nat) (a b : List (List α)) : ends n (a ++ b) = ends n a ++ ends (n + a.flatten.length) b := by
  induction a generalizing n with
  | nil => simp [ends]
  | cons l a ih => simp only [List.cons_append, ends, ih, List.flatten_cons, List.length_append]; rw [Nat.add_assoc]

@[simp] theorem length_ends (n : Nat) (ls : List (List α)) : (ends n ls).length = ls.length := by
  induction ls generalizing n with
  | nil => rfl
  | cons l ls ih => simp [ends, ih]

@[simp] theorem ends_nil (n : Nat) : ends n ([] : List (List α)) = [] := rfl

theorem ends_singleton (n : Nat) (l : List α) : ends n [l] = [n + l.length] := rfl

/-- The position at which list `i` starts. -/
def startAt (ls : List (List α)) (i : Nat) : Nat := (ls.take i).flatten.length

@[simp] theorem startAt_zero (ls : List (List α)) : startAt ls 0 = 0 := rfl

theorem startAt_cons (l : List α) (ls : List (List α)) (i : Nat) : startAt (l :: ls) (i + 1) = l.length + startAt ls i := by simp [startAt]

theorem startAt_all (ls : List (List α)) {i : Nat} (h : ls.length ≤ i) : startAt ls i = ls.flatten.length := by rw [startAt, List.take_of_length_le h]

theorem startAt_mono (ls : List (List α)) {i j : Nat} (h : i ≤ j) : startAt ls i ≤ startAt ls j := by
  induction ls generalizing i j with
  | nil => simp [startAt]
  | cons l ls ih =>
    cases i with
    | zero => simp
    | succ i =>
      cases j with
      | zero => omega
      | succ j => rw [startAt_cons, startAt_cons]; have := ih (i := i) (j := j) (by omega); omega

theorem startAt_le_length (ls : List (List α)) (i : Nat) : startAt ls i ≤ ls.flatten.length := by
  rcases le_total ls.length i with h | h
  · rw [startAt_all ls h]
  · rw [← startAt_all ls (le_refl _)]; exact startAt_mono ls h

theorem startAt_succ (ls : List (List α)) {i : Nat} (h : i < ls.length) : startAt ls (i + 1) = startAt ls i + ls[i].length := by
  rw [startAt, startAt, List.take_succ_eq_append_getElem h, List.flatten_append, List.length_append, List.flatten_singleton]

theorem ends_get (n : Nat) (ls : List (List α)) (i : Nat) (h : i < ls.length) : (ends n ls)[i]? = some (n + startAt ls (i + 1)) := by
  induction ls generalizing n i with
  | nil => simp at h
  | cons l ls ih =>
    cases i with
    | zero => simp [ends, startAt]
    | succ i =>
      rw [startAt_cons, ends, List.getElem?_cons_succ, ih _ _ (by simpa using h)]
      congr 1; omega

theorem ends_get_none (n : Nat) (ls : List (List α)) (i : Nat) (h : ls.length ≤ i) : (ends n ls)[i]? = none := by
  rw [List.getElem?_eq_none_iff, length_ends]; exact h

theorem Lists.range_of (ls : List (List α)) (i : Nat) (h : i < ls.length) : (Lists.of ls).range i = some (startAt ls i, startAt ls (i + 1)) := by
  rw [Lists.range]
  simp only [Lists.of, ends_get 0 ls i h, Option.map_some, Nat.zero_add]
  cases i with
  | zero => rfl
  | succ i => simp [List.getD_eq_getElem?_getD, ends_get 0 ls i (by omega)]

theorem slice_flatten (ls : List (List α)) {i j : Nat} (h : i ≤ j) : slice ls.flatten (startAt ls i) (startAt ls j) = (slice ls i j).flatten := by
  induction ls generalizing i j with
  | nil => simp [slice]
  | cons l ls ih =>
    cases j with
    | zero => obtain rfl : i = 0 := by omega
              simp [slice]
    | succ j =>
      cases i with
      | zero =>
        have := ih (i := 0) (j := j) (by omega)
        simp only [slice, startAt_zero, List.drop_zero, Nat.sub_zero] at this ⊢
        rw [startAt_cons, List.flatten_cons, List.take_length_add_append, this]; simp
      | succ i =>
        have := ih (i := i) (j := j) (by omega)
        simp only [slice] at this ⊢
        rw [startAt_cons, startAt_cons, List.flatten_cons, List.drop_length_add_append]
        rw [show l.length + startAt ls j - (l.length + startAt ls i) = startAt ls j - startAt ls i by omega, this]
        rw [List.drop_succ_cons]; congr 2; omega

theorem slice_ends (n : Nat) (ls : List (List α)) (i j : Nat) : slice (ends n ls) i j = ends (n + startAt ls i) (slice ls i j) := by
  induction ls generalizing n i j with
  | nil => simp [slice]
  | cons l ls ih =>
    cases j with
    | zero => simp [slice]
    | succ j =>
      cases i with
      | zero =>
        have := ih (n + l.length) 0 j
        simp only [slice, startAt_zero, List.drop_zero, Nat.sub_zero, Nat.add_zero] at this ⊢
        simp [ends, this]
      | succ i =>
        have := ih (n + l.length) i j
        simp only [slice] at this ⊢
        rw [startAt_cons, ends, List.drop_succ_cons, List.drop_succ_cons, show j + 1 - (i + 1) = j - i by omega, this, Nat.add_assoc]

theorem map_ends (n m : Nat) (ls : List (List α)) : (ends n ls).map (fun b => b - n + m) = ends m ls := by
  have key : ∀ (ls : List (List α)) (k : Nat), (ends (n + k) ls).map (fun b => b - n + m) = ends (m + k) ls := by
    intro ls
    induction ls with
    | nil => intro; rfl
    | cons l ls ih =>
      intro k
      simp only [ends, List.map_cons]
      rw [Nat.add_assoc n k, ih, ← Nat.add_assoc m k]
      congr 1; omega
  simpa using key ls 0

/-- Appending lists of another. -/
theorem Lists.extendFromSelf_of (l : Lists α) (ls : List (List α)) {i j : Nat} (hij : i ≤ j) (hj : j ≤ ls.length) :
    l.extendFromSelf (Lists.of ls) i j = some ⟨l.values ++ (slice ls i j).flatten, l.bounds ++ ends l.values.length (slice ls i j)⟩ := by
  rw [Lists.extendFromSelf]
  by_cases h : i < j
  · rw [if_pos h, Lists.range_of ls i (by omega), Lists.range_of ls (j - 1) (by omega)]
    simp only [show j - 1 + 1 = j by omega]
    rw [show (Lists.of ls).values = ls.flatten from rfl, show (Lists.of ls).bounds = ends 0 ls from rfl, slice_flatten ls hij, slice_ends, Nat.zero_add, map_ends]
  · obtain rfl : i = j := by omega
    rw [if_neg h]; simp [slice]

theorem slice_all (l : List α) {n : Nat} (h : l.length ≤ n) : slice l 0 n = l := by simp [slice, h]

theorem slice_tail (l : List α) {n : Nat} (h : l.length ≤ n) : slice l 1 n = l.tail := by
  rw [slice, List.drop_one, List.take_of_length_le (by rw [List.length_tail]; omega)]

theorem slice_append (l : List α) {i j k : Nat} (h1 : i ≤ j) (h2 : j ≤ k) : slice l i j ++ slice l j k = slice l i k := by
  simp only [slice]
  rw [show k - i = (j - i) + (k - j) by omega, List.take_add, List.drop_drop, show i + (j - i) = j by omega]

@[simp] theorem slice_self (l : List α) (i : Nat) : slice l i i = [] := by simp [slice]

theorem slice_succ (l : List α) {i j : Nat} (h1 : i ≤ j) (h2 : j < l.length) : slice l i (j + 1) = slice l i j ++ [l[j]] := by
  rw [← slice_append l h1 (Nat.le_succ j)]
  congr 1
  simp [slice, List.take_one, List.head?_drop, h2]

theorem length_slice (l : List α) {i j : Nat} (h : j ≤ l.length) : (slice l i j).length = j - i := by
  simp only [slice, List.length_take, List.length_drop]; omega

theorem map_slice (f : α → β) (l : List α) (i j : Nat) : (slice l i j).map f = slice (l.map f) i j := by
  simp [slice, List.map_take, List.map_drop]

/-- Lists with their last one open. -/
def Lists.opened (ls : List (List α)) (l : List α) : Lists α := ⟨ls.flatten ++ l, ends 0 ls⟩

@[simp] theorem Lists.close_opened (ls : List (List α)) (l : List α) : (Lists.opened ls l).close = .of (ls ++ [l]) := by
  simp [Lists.close, Lists.opened, Lists.of, ends_append, ends_singleton]

@[simp] theorem Lists.push_opened (ls : List (List α)) (l : List α) (x : α) : (Lists.opened ls l).push x = .opened ls (l ++ [x]) := by
  simp [Lists.push, Lists.opened]

theorem Lists.push_of (ls : List (List α)) (x : α) : (Lists.of ls).push x = .opened ls [x] := by
  simp [Lists.push, Lists.opened, Lists.of]

@[simp] theorem Lists.reopen_of (ls : List (List α)) (l : List α) : (Lists.of (ls ++ [l])).reopen = .opened ls l := by
  simp [Lists.reopen, Lists.opened, Lists.of, ends_append, ends_singleton]

@[simp] theorem Lists.empty_eq : (Lists.empty : Lists α) = .of [] := rfl

theorem Lists.opened_nil (ls : List (List α)) : Lists.opened ls [] = .of ls := by simp [Lists.opened, Lists.of]

theorem Lists.extend_of (as bs : List (List α)) {i j : Nat} (hij : i ≤ j) (hj : j ≤ bs.length) :
    (Lists.of as).extendFromSelf (.of bs) i j = some (.of (as ++ slice bs i j)) := by
  rw [Lists.extendFromSelf_of _ _ hij hj]
  simp [Lists.of, ends_append]

end DD
