import Verif.Proofs.TrieWrite
import Mathlib.Data.List.DropRight

/-! Leaving out the part of one input past the other. -/

namespace DD
set_option linter.unusedSectionVars false
variable {α β γ κ : Type*}

def Rep.isThis : Rep α → Bool
  | .this _ => true
  | _ => false

/-- Without the last ranges of the first list. -/
def trim (rs : List (Rep α)) : List (Rep α) := rs.rdropWhile Rep.isThis

/-- Replacing the first item of a last pair. -/
def replaceLast (f : α → α → α) (rs : List (Rep α)) : List (Rep α) :=
  match rs.getLast? with
  | some (.both a b) => rs.dropLast ++ [.both (f a b) b]
  | _ => rs

theorem replaceLast_both (f : α → α → α) (P : List (Rep α)) (a b : α) : replaceLast f (P ++ [.both a b]) = P ++ [.both (f a b) b] := by simp [replaceLast]
theorem replaceLast_that (f : α → α → α) (P : List (Rep α)) (l : List α) : replaceLast f (P ++ [.that l]) = P ++ [.that l] := by simp [replaceLast]
theorem replaceLast_this (f : α → α → α) (P : List (Rep α)) (l : List α) : replaceLast f (P ++ [.this l]) = P ++ [.this l] := by simp [replaceLast]
@[simp] theorem replaceLast_nil (f : α → α → α) : replaceLast f ([] : List (Rep α)) = [] := rfl

theorem trim_this (P : List (Rep α)) (l : List α) : trim (P ++ [.this l]) = trim P := by rw [trim, List.rdropWhile_concat_pos _ _ _ rfl]; rfl
theorem trim_that (P : List (Rep α)) (l : List α) : trim (P ++ [.that l]) = P ++ [.that l] := by rw [trim, List.rdropWhile_concat_neg _ _ _ (by simp [Rep.isThis])]
theorem trim_both (P : List (Rep α)) (a b : α) : trim (P ++ [.both a b]) = P ++ [.both a b] := by rw [trim, List.rdropWhile_concat_neg _ _ _ (by simp [Rep.isThis])]
@[simp] theorem trim_nil : trim ([] : List (Rep α)) = [] := rfl

theorem trim_append {A B : List (Rep α)} (h : trim B ≠ []) : trim (A ++ B) = A ++ trim B := by
  induction B using List.reverseRecOn with
  | nil => exact absurd rfl h
  | append_singleton B r ih =>
    rw [← List.append_assoc]
    cases r with
    | this l => rw [trim_this] at h ⊢; rw [trim_this]; exact ih h
    | that l => rw [trim_that, trim_that, List.append_assoc]
    | both a b => rw [trim_both, trim_both, List.append_assoc]

theorem replaceLast_append (f : α → α → α) {A B : List (Rep α)} (h : B ≠ []) : replaceLast f (A ++ B) = A ++ replaceLast f B := by
  induction B using List.reverseRecOn with
  | nil => exact absurd rfl h
  | append_singleton B r ih =>
    rw [← List.append_assoc]
    cases r with
    | this l => rw [replaceLast_this, replaceLast_this, List.append_assoc]
    | that l => rw [replaceLast_that, replaceLast_that, List.append_assoc]
    | both a b => rw [replaceLast_both, replaceLast_both, List.append_assoc]

/-- Nothing is left out: the last is not a range of the first list. -/
def Trimmed (rs : List (Rep α)) : Prop := trim rs = rs

theorem trimmed_trim (rs : List (Rep α)) : Trimmed (trim rs) := List.rdropWhile_idempotent _ _

theorem Trimmed.cases {rs : List (Rep α)} (h : Trimmed rs) (hn : rs ≠ []) : (∃ P l, rs = P ++ [.that l]) ∨ ∃ P a b, rs = P ++ [.both a b] := by
  induction rs using List.reverseRecOn with
  | nil => exact absurd rfl hn
  | append_singleton P r ih =>
    cases r with
    | this l =>
      rw [Trimmed, trim_this] at h
      have h1 := (List.rdropWhile_prefix Rep.isThis (l := P)).length_le
      have h2 := congrArg List.length h
      rw [List.length_append, List.length_singleton] at h2
      rw [trim] at h2
      omega
    | that l => exact Or.inl ⟨P, l, rfl⟩
    | both a b => exact Or.inr ⟨P, a, b, rfl⟩

theorem trim_split (rs : List (Rep α)) : ∃ ls : List (List α), rs = trim rs ++ ls.map .this := by
  induction rs using List.reverseRecOn with
  | nil => exact ⟨[], rfl⟩
  | append_singleton P r ih =>
    cases r with
    | this l =>
      obtain ⟨ls, h⟩ := ih
      refine ⟨ls ++ [l], ?_⟩
      rw [trim_this]
      conv_lhs => rw [h]
      simp
    | that l => exact ⟨[], by rw [trim_that]; simp⟩
    | both a b => exact ⟨[], by rw [trim_both]; simp⟩

theorem reps_replaceLast (f : α → α → α) (rs : List (Rep α)) (o0 o1 : Nat) : reps o0 o1 (replaceLast f rs) = reps o0 o1 rs := by
  induction rs using List.reverseRecOn with
  | nil => rfl
  | append_singleton P r ih =>
    cases r with
    | this l => rw [replaceLast_this]
    | that l => rw [replaceLast_that]
    | both a b => rw [replaceLast_both, reps_append, reps_append]; rfl

theorem rights_replaceLast (f : α → α → α) (rs : List (Rep α)) : rights (replaceLast f rs) = rights rs := by
  induction rs using List.reverseRecOn with
  | nil => rfl
  | append_singleton P r ih =>
    cases r with
    | this l => rw [replaceLast_this]
    | that l => rw [replaceLast_that]
    | both a b => rw [replaceLast_both, rights_append, rights_append]; rfl

theorem length_lefts_replaceLast (f : α → α → α) (rs : List (Rep α)) : (lefts (replaceLast f rs)).length = (lefts rs).length := by
  induction rs using List.reverseRecOn with
  | nil => rfl
  | append_singleton P r ih =>
    cases r with
    | this l => rw [replaceLast_this]
    | that l => rw [replaceLast_that]
    | both a b => rw [replaceLast_both, lefts_append, lefts_append]; simp [lefts, Rep.left]

theorem rights_trim (rs : List (Rep α)) : rights (trim rs) = rights rs := by
  obtain ⟨ls, h⟩ := trim_split rs
  conv_rhs => rw [h, rights_append]
  have : ∀ ls : List (List α), rights (ls.map Rep.this) = [] := by
    intro ls; induction ls with
    | nil => rfl
    | cons l ls ih => rw [List.map_cons, rights_cons, ih]; rfl
  rw [this, List.append_nil]

theorem lefts_this (ls : List (List α)) : lefts (ls.map Rep.this) = ls.flatten := by
  induction ls with
  | nil => rfl
  | cons l ls ih => rw [List.map_cons, lefts_cons, ih]; rfl

/-- The reports left by `popThis`, and the position at which they end. -/
theorem popThis_reps (rs : List (Rep α)) : ∀ (l : Nat), l = (lefts rs).length →
    popThis (reps 0 0 rs).reverse l = (reps 0 0 (trim rs), (lefts (trim rs)).length) := by
  induction rs using List.reverseRecOn with
  | nil => intro l hl; subst hl; rfl
  | append_singleton P r ih =>
    intro l hl
    rw [reps_append, List.reverse_append]
    cases r with
    | this b =>
      simp only [reps, Rep.report, List.reverse_singleton, List.singleton_append, popThis]
      rw [trim_this]
      exact ih _ (by omega)
    | that b =>
      simp only [reps, Rep.report, List.reverse_singleton, List.singleton_append, popThis]
      rw [trim_that, reps_append, hl]
      simp [reps, Rep.report]
    | both a b =>
      simp only [reps, Rep.report, List.reverse_singleton, List.singleton_append, popThis]
      rw [trim_both, reps_append, hl]
      simp [reps, Rep.report]

section
variable [LinearOrder κ] (key : α → κ)

theorem both_align (n : Nat) : ∀ (xs ys : List α), xs.length + ys.length ≤ n → ∀ a b, Rep.both a b ∈ align key xs ys → key a = key b := by
  induction n with
  | zero =>
    intro xs ys h
    have h1 : xs = [] := List.length_eq_zero_iff.1 (by omega)
    have h2 : ys = [] := List.length_eq_zero_iff.1 (by omega)
    subst h1; subst h2
    simp [align]
  | succ n ih =>
    intro xs ys h a b
    match xs, ys with
    | [], [] => simp [align]
    | x :: xs, [] => simp [align]
    | [], y :: ys => simp [align]
    | x :: xs, y :: ys =>
      simp only [List.length_cons] at h
      rw [align]
      split
      · have := (List.dropWhile_sublist (fun z => decide (key z < key y)) (l := xs)).length_le
        intro hm
        simp only [List.mem_cons, reduceCtorEq, false_or] at hm
        exact ih _ _ (by simp only [List.length_cons]; omega) a b hm
      · split
        · rename_i he
          intro hm
          simp only [List.mem_cons, Rep.both.injEq] at hm
          rcases hm with ⟨rfl, rfl⟩ | hm
          · exact he
          · exact ih _ _ (by omega) a b hm
        · have := (List.dropWhile_sublist (fun z => decide (key z < key x)) (l := ys)).length_le
          intro hm
          simp only [List.mem_cons, reduceCtorEq, false_or] at hm
          exact ih _ _ (by simp only [List.length_cons]; omega) a b hm

theorem key_of_both {xs ys : List α} {a b : α} (h : Rep.both a b ∈ align key xs ys) : key a = key b := both_align key _ xs ys le_rfl a b h

theorem takeWhile_past (p : α → Bool) (xs hi : List α) (h : ∀ x ∈ hi, p x = false) : (xs ++ hi).takeWhile p = xs.takeWhile p := by
  induction xs with
  | nil =>
    cases hi with
    | nil => rfl
    | cons x hi => simp [h x (by simp)]
  | cons x xs ih => rw [List.cons_append, List.takeWhile_cons, List.takeWhile_cons, ih]

theorem dropWhile_past (p : α → Bool) (xs hi : List α) (h : ∀ x ∈ hi, p x = false) : (xs ++ hi).dropWhile p = xs.dropWhile p ++ hi := by
  induction xs with
  | nil =>
    cases hi with
    | nil => rfl
    | cons x hi => simp [h x (by simp)]
  | cons x xs ih => rw [List.cons_append, List.dropWhile_cons, List.dropWhile_cons, ih]; split <;> rfl

/-- Items past the second list are in a last range; without them, there is no last range of the first list. -/
theorem align_past (n : Nat) : ∀ (xs hi ys : List α), xs.length + ys.length ≤ n → xs.Pairwise (fun a b => key a < key b) → ys.Pairwise (fun a b => key a < key b) →
    (∀ x ∈ xs, ∃ y ∈ ys, key x ≤ key y) → (∀ x ∈ hi, ∀ y ∈ ys, key y < key x) →
    align key (xs ++ hi) ys = align key xs ys ++ (if hi = [] then [] else [.this hi]) ∧ Trimmed (align key xs ys) := by
  induction n with
  | zero =>
    intro xs hi ys h _ _ _ _
    have h1 : xs = [] := List.length_eq_zero_iff.1 (by omega)
    have h2 : ys = [] := List.length_eq_zero_iff.1 (by omega)
    subst h1; subst h2
    refine ⟨?_, by simp [align, Trimmed]⟩
    cases hi <;> simp [align]
  | succ n ih =>
    intro xs hi ys h s0 s1 hx hh
    have mk : ∀ (r : Rep α) (A : List (Rep α)), r.isThis = false ∨ A ≠ [] → Trimmed A → Trimmed (r :: A) := by
      intro r A hr hA
      by_cases hn : A = []
      · subst hn
        rcases hr with hr | hr
        · cases r with
          | this l => simp [Rep.isThis] at hr
          | that l => exact trim_that [] l
          | both a b => exact trim_both [] a b
        · exact absurd rfl hr
      · have h1 : trim A ≠ [] := by rw [hA]; exact hn
        have h2 := trim_append (A := [r]) h1
        rw [hA] at h2
        exact h2
    match xs, ys with
    | [], [] =>
      refine ⟨?_, by simp [align, Trimmed]⟩
      cases hi <;> simp [align]
    | x :: xs, [] =>
      obtain ⟨y, hy, _⟩ := hx x (by simp)
      simp at hy
    | [], y :: ys =>
      refine ⟨?_, ?_⟩
      · cases hi with
        | nil => simp [align]
        | cons x hi =>
          have hlt := hh x (by simp) y (by simp)
          rw [List.nil_append]
          conv_lhs => rw [align]
          rw [if_neg (not_lt.2 hlt.le), if_neg (ne_of_gt hlt)]
          have t : (ys.takeWhile fun z => key z < key x) = ys := List.takeWhile_eq_self_iff.2 fun z hz => by simpa using hh x (by simp) z (by simp [hz])
          have d : (ys.dropWhile fun z => key z < key x) = [] := List.dropWhile_eq_nil_iff.2 fun z hz => by simpa using hh x (by simp) z (by simp [hz])
          rw [t, d]
          simp [align]
      · simp only [align, Trimmed]
        exact trim_that [] _
    | x :: xs, y :: ys =>
      simp only [List.length_cons] at h
      rw [List.cons_append, align, align]
      have hs0 := List.pairwise_cons.1 s0
      have hs1 := List.pairwise_cons.1 s1
      split
      · rename_i hlt
        have hl := (List.dropWhile_sublist (fun z => decide (key z < key y)) (l := xs)).length_le
        have hp : ∀ z ∈ hi, decide (key z < key y) = false := fun z hz => by simpa using (hh z hz y (by simp)).le
        rw [takeWhile_past _ _ _ hp, dropWhile_past _ _ _ hp]
        obtain ⟨i1, i2⟩ := ih (xs.dropWhile fun z => key z < key y) hi (y :: ys) (by simp only [List.length_cons]; omega)
          (hs0.2.sublist (List.dropWhile_sublist _)) s1 (fun z hz => hx z (List.mem_cons_of_mem _ ((List.dropWhile_sublist _).subset hz))) hh
        refine ⟨by rw [i1, List.cons_append], mk _ _ (Or.inr ?_) i2⟩
        intro he
        have := congrArg rights he
        rw [rights_align] at this
        simp [rights] at this
      · split
        · rename_i he
          have hx' : ∀ z ∈ xs, ∃ w ∈ ys, key z ≤ key w := by
            intro z hz
            obtain ⟨w, hw, hle⟩ := hx z (by simp [hz])
            rcases List.mem_cons.1 hw with rfl | hw
            · exact absurd (lt_of_lt_of_le (hs0.1 z hz) hle) (by rw [he]; exact lt_irrefl _)
            · exact ⟨w, hw, hle⟩
          obtain ⟨i1, i2⟩ := ih xs hi ys (by omega) hs0.2 hs1.2 hx' (fun z hz w hw => hh z hz w (by simp [hw]))
          exact ⟨by rw [i1, List.cons_append], mk _ _ (Or.inl rfl) i2⟩
        · rename_i hnlt hne
          have hl := (List.dropWhile_sublist (fun z => decide (key z < key x)) (l := ys)).length_le
          have hlt : key y < key x := lt_of_le_of_ne (not_lt.1 hnlt) (Ne.symm hne)
          have hx' : ∀ z ∈ x :: xs, ∃ w ∈ ys.dropWhile (fun z => decide (key z < key x)), key z ≤ key w := by
            intro z hz
            obtain ⟨w, hw, hle⟩ := hx z hz
            have hxz : key x ≤ key z := by
              rcases List.mem_cons.1 hz with rfl | hz
              · exact le_rfl
              · exact (hs0.1 z hz).le
            have hxw : key x ≤ key w := hxz.trans hle
            rcases List.mem_cons.1 hw with rfl | hw
            · exact absurd hxw (not_le.2 hlt)
            · rw [← List.takeWhile_append_dropWhile (p := fun z => decide (key z < key x)) (l := ys)] at hw
              rcases List.mem_append.1 hw with hw | hw
              · have := List.mem_takeWhile_imp hw
                simp only [decide_eq_true_eq] at this
                exact absurd this (not_lt.2 hxw)
              · exact ⟨w, hw, hle⟩
          obtain ⟨i1, i2⟩ := ih (x :: xs) hi (ys.dropWhile fun z => key z < key x) (by simp only [List.length_cons]; omega) s0
            (hs1.2.sublist (List.dropWhile_sublist _)) hx' (fun z hz w hw => hh z hz w (List.mem_cons_of_mem _ ((List.dropWhile_sublist _).subset hw)))
          rw [List.cons_append] at i1
          exact ⟨by rw [i1, List.cons_append], mk _ _ (Or.inl rfl) i2⟩

/-- If both lists end with the same key, the pair is last, and what is before does not depend on the items. -/
theorem align_last (n : Nat) : ∀ (xs ys : List α) (k : κ), xs.length + ys.length ≤ n → (∀ x ∈ xs, key x < k) → (∀ y ∈ ys, key y < k) →
    ∃ P, ∀ x y, key x = k → key y = k → align key (xs ++ [x]) (ys ++ [y]) = P ++ [.both x y] := by
  induction n with
  | zero =>
    intro xs ys k h _ _
    have h1 : xs = [] := List.length_eq_zero_iff.1 (by omega)
    have h2 : ys = [] := List.length_eq_zero_iff.1 (by omega)
    subst h1; subst h2
    refine ⟨[], fun x y hx hy => ?_⟩
    simp [align, hx, hy]
  | succ n ih =>
    intro xs ys k h h0 h1
    match xs, ys with
    | [], [] =>
      refine ⟨[], fun x y hx hy => ?_⟩
      simp [align, hx, hy]
    | x' :: xs, [] =>
      refine ⟨[.this (x' :: xs)], fun x y hx hy => ?_⟩
      have hlt := h0 x' (by simp)
      have hp : ∀ z ∈ [x], decide (key z < key y) = false := by simp [hx, hy]
      rw [List.cons_append, List.nil_append, align, if_pos (by rw [hy]; exact hlt), takeWhile_past _ _ _ hp, dropWhile_past _ _ _ hp]
      have t : (xs.takeWhile fun z => key z < key y) = xs := List.takeWhile_eq_self_iff.2 fun z hz => by simpa [hy] using h0 z (by simp [hz])
      have d : (xs.dropWhile fun z => key z < key y) = [] := List.dropWhile_eq_nil_iff.2 fun z hz => by simpa [hy] using h0 z (by simp [hz])
      rw [t, d]
      simp [align, hx, hy]
    | [], y' :: ys =>
      refine ⟨[.that (y' :: ys)], fun x y hx hy => ?_⟩
      have hlt := h1 y' (by simp)
      have hp : ∀ z ∈ [y], decide (key z < key x) = false := by simp [hx, hy]
      rw [List.cons_append, List.nil_append, align, if_neg (by rw [hx]; exact not_lt.2 hlt.le), if_neg (by rw [hx]; exact ne_of_gt hlt), takeWhile_past _ _ _ hp, dropWhile_past _ _ _ hp]
      have t : (ys.takeWhile fun z => key z < key x) = ys := List.takeWhile_eq_self_iff.2 fun z hz => by simpa [hx] using h1 z (by simp [hz])
      have d : (ys.dropWhile fun z => key z < key x) = [] := List.dropWhile_eq_nil_iff.2 fun z hz => by simpa [hx] using h1 z (by simp [hz])
      rw [t, d]
      simp [align, hx, hy]
    | x' :: xs, y' :: ys =>
      simp only [List.length_cons] at h
      by_cases hlt : key x' < key y'
      · have hl := (List.dropWhile_sublist (fun z => decide (key z < key y')) (l := xs)).length_le
        obtain ⟨P, hP⟩ := ih (xs.dropWhile fun z => key z < key y') (y' :: ys) k (by simp only [List.length_cons]; omega)
          (fun z hz => h0 z (List.mem_cons_of_mem _ ((List.dropWhile_sublist _).subset hz))) h1
        refine ⟨.this (x' :: xs.takeWhile fun z => key z < key y') :: P, fun x y hx hy => ?_⟩
        have hp : ∀ z ∈ [x], decide (key z < key y') = false := by simpa [hx] using (h1 y' (by simp)).le
        rw [List.cons_append, List.cons_append, align, if_pos hlt, takeWhile_past _ _ _ hp, dropWhile_past _ _ _ hp]
        have := hP x y hx hy
        rw [List.cons_append] at this
        rw [this, List.cons_append]
      · by_cases he : key x' = key y'
        · obtain ⟨P, hP⟩ := ih xs ys k (by omega) (fun z hz => h0 z (by simp [hz])) (fun z hz => h1 z (by simp [hz]))
          refine ⟨.both x' y' :: P, fun x y hx hy => ?_⟩
          rw [List.cons_append, List.cons_append, align, if_neg hlt, if_pos he, hP x y hx hy, List.cons_append]
        · have hl := (List.dropWhile_sublist (fun z => decide (key z < key x')) (l := ys)).length_le
          obtain ⟨P, hP⟩ := ih (x' :: xs) (ys.dropWhile fun z => key z < key x') k (by simp only [List.length_cons]; omega) h0
            (fun z hz => h1 z (List.mem_cons_of_mem _ ((List.dropWhile_sublist _).subset hz)))
          refine ⟨.that (y' :: ys.takeWhile fun z => key z < key x') :: P, fun x y hx hy => ?_⟩
          have hp : ∀ z ∈ [y], decide (key z < key x') = false := by simpa [hy] using (h0 x' (by simp)).le
          rw [List.cons_append, List.cons_append, align, if_neg hlt, if_neg he, takeWhile_past _ _ _ hp, dropWhile_past _ _ _ hp]
          have := hP x y hx hy
          rw [List.cons_append] at this
          rw [this, List.cons_append]

/-- The first item, cut, if it has the key of `y`. -/
def cutHead (f : α → α → α) (y : α) : List α → List α
  | [] => []
  | x :: _ => if key x = key y then [f x y] else []

/-- The items up to the last key of the second list, with the one of that key, if any, cut. -/
def cutWith (f : α → α → α) (xs ys : List α) : List α :=
  match ys.getLast? with
  | none => []
  | some y => (xs.takeWhile fun z => key z < key y) ++ cutHead key f y (xs.dropWhile fun z => key z < key y)

theorem sorted_split (xs : List α) (k : κ) (h : xs.Pairwise fun a b => key a < key b) :
    ∃ lo hi, xs = lo ++ hi ∧ (∀ x ∈ lo, key x < k) ∧ (xs.takeWhile fun z => key z < k) = lo ∧ (xs.dropWhile fun z => key z < k) = hi ∧
      ((∀ x ∈ hi, k < key x) ∨ ∃ x hi', hi = x :: hi' ∧ key x = k ∧ ∀ z ∈ hi', k < key z) := by
  refine ⟨_, _, (List.takeWhile_append_dropWhile (p := fun z => decide (key z < k))).symm, fun x hx => by simpa using List.mem_takeWhile_imp hx, rfl, rfl, ?_⟩
  have hs := h.sublist (List.dropWhile_sublist fun z => decide (key z < k))
  cases hd : xs.dropWhile fun z => key z < k with
  | nil => left; simp
  | cons x hi =>
    have hx : ¬ key x < k := by
      have := List.head?_dropWhile_not (fun z => decide (key z < k)) xs
      rw [hd] at this
      simpa using this
    rw [hd] at hs
    have hs' := List.pairwise_cons.1 hs
    rcases (not_lt.1 hx).lt_or_eq with hlt | heq
    · left
      intro z hz
      rcases List.mem_cons.1 hz with rfl | hz
      · exact hlt
      · exact hlt.trans (hs'.1 z hz)
    · right
      exact ⟨x, hi, rfl, heq.symm, fun z hz => by rw [heq]; exact hs'.1 z hz⟩

theorem getLast_max {ys : List α} {y : α} (h : ys.Pairwise fun a b => key a < key b) (hy : ys.getLast? = some y) : ∀ z ∈ ys, key z ≤ key y := by
  obtain ⟨ys', rfl⟩ := List.getLast?_eq_some_iff.1 hy
  intro z hz
  rcases List.mem_append.1 hz with hz | hz
  · exact ((List.pairwise_append.1 h).2.2 z hz y (by simp)).le
  · simp at hz; rw [hz]

/-- The interleaving with the items cut: no last range of the first list, and the item of a last pair cut. -/
theorem align_cut (f : α → α → α) (hf : ∀ a b, key (f a b) = key a) (xs ys : List α) (h0 : xs.Pairwise fun a b => key a < key b)
    (h1 : ys.Pairwise fun a b => key a < key b) (hn : ys ≠ []) :
    align key (cutWith key f xs ys) ys = replaceLast f (trim (align key xs ys)) ∧ trim (align key xs ys) ≠ [] := by
  obtain ⟨ys', y, rfl⟩ := List.eq_nil_or_concat ys |>.resolve_left hn
  rw [List.concat_eq_append] at *
  have hl : (ys' ++ [y]).getLast? = some y := by simp
  have hlast := getLast_max key h1 hl
  obtain ⟨lo, hi, rfl, hlo, ht, hd, hc⟩ := sorted_split key xs (key y) h0
  have hne : ∀ (zs : List α), align key zs (ys' ++ [y]) ≠ [] := by
    intro zs he
    have := congrArg rights he
    rw [rights_align] at this
    simp [rights] at this
  have htrim : ∀ (zs hi : List α), (zs ++ hi).Pairwise (fun a b => key a < key b) → (∀ z ∈ zs, key z ≤ key y) → (∀ z ∈ hi, key y < key z) →
      trim (align key (zs ++ hi) (ys' ++ [y])) = align key zs (ys' ++ [y]) := by
    intro zs hi hs hzs hhi
    obtain ⟨a, b⟩ := align_past key _ zs hi (ys' ++ [y]) le_rfl (List.pairwise_append.1 hs).1 h1 (fun z hz => ⟨y, by simp, hzs z hz⟩)
      (fun z hz w hw => lt_of_le_of_lt (hlast w hw) (hhi z hz))
    rw [a]
    split
    · rw [List.append_nil]; exact b
    · rw [trim_this]; exact b
  rw [cutWith, hl]
  simp only
  rw [ht, hd]
  rcases hc with hc | ⟨x, hi', rfl, hx, hc⟩
  · have e : cutHead key f y hi = [] := by
      cases hi with
      | nil => rfl
      | cons x hi => rw [cutHead];  rw [if_neg (ne_of_gt (hc x (by simp)))]
    rw [e, List.append_nil, htrim lo hi h0 (fun z hz => (hlo z hz).le) hc]
    refine ⟨?_, hne _⟩
    have htr : Trimmed (align key lo (ys' ++ [y])) := by
      have h2 := htrim lo [] (by simpa using (List.pairwise_append.1 h0).1) (fun z hz => (hlo z hz).le) (by simp)
      rw [List.append_nil] at h2
      exact h2
    rcases htr.cases (hne _) with ⟨P, l, e⟩ | ⟨P, a, b, e⟩
    · rw [e, replaceLast_that]
    · exfalso
      have hk := key_of_both key (xs := lo) (ys := ys' ++ [y]) (a := a) (b := b) (by rw [e]; simp)
      have hr := congrArg rights e
      rw [rights_align, rights_append] at hr
      have hb : b = y := by
        have := congrArg List.getLast? hr
        simpa [rights, Rep.right] using this.symm
      have hl' := congrArg lefts e
      rw [lefts_align, lefts_append] at hl'
      have ha : a ∈ lo := by rw [hl']; simp [lefts, Rep.left]
      have := hlo a ha
      rw [hk, hb] at this
      exact lt_irrefl _ this
  · rw [cutHead, if_pos hx]
    have hs : (lo ++ [x] ++ hi').Pairwise fun a b => key a < key b := by simpa using h0
    have := htrim (lo ++ [x]) hi' hs (by
      intro z hz
      rcases List.mem_append.1 hz with hz | hz
      · exact (hlo z hz).le
      · simp at hz; rw [hz, hx]) hc
    rw [List.append_assoc, List.singleton_append] at this
    rw [this]
    refine ⟨?_, hne _⟩
    obtain ⟨P, hP⟩ := align_last key _ lo ys' (key y) le_rfl hlo (fun z hz => (List.pairwise_append.1 h1).2.2 z hz y (by simp))
    rw [hP (f x y) y (by rw [hf, hx]) rfl, hP x y hx rfl, replaceLast_both]

end

/-! ### From one layer to the next -/

section
variable [LinearOrder κ] {A : Type*}

/-- Leaving out last ranges in one layer leaves them out in the next. -/
theorem trim_downs (sub : α → List β) (key : β → κ) (rs : List (Rep α)) : trim (rs.flatMap (Rep.down sub key)) = trim ((trim rs).flatMap (Rep.down sub key)) := by
  induction rs using List.reverseRecOn with
  | nil => rfl
  | append_singleton P r ih =>
    cases r with
    | this l => rw [trim_this, ← ih, List.flatMap_append]; simp only [List.flatMap_cons, List.flatMap_nil, List.append_nil, Rep.down]; rw [trim_this]
    | that l => rw [trim_that]
    | both a b => rw [trim_both]

theorem replaceLast_downs (key : β → κ) (f : β → β → β) (hf : ∀ a b, key (f a b) = key a) (rs : List (Rep (A × List β)))
    (ht : Trimmed rs) (hn : rs ≠ []) (h0 : ∀ a ∈ lefts rs, a.2.Pairwise fun x y => key x < key y)
    (h1 : ∀ a ∈ rights rs, a.2.Pairwise (fun x y => key x < key y) ∧ a.2 ≠ []) :
    (replaceLast (fun a b => (a.1, cutWith key f a.2 b.2)) rs).flatMap (Rep.down Prod.snd key) = replaceLast f (trim (rs.flatMap (Rep.down Prod.snd key))) ∧
      trim (rs.flatMap (Rep.down Prod.snd key)) ≠ [] := by
  rcases ht.cases hn with ⟨P, l, rfl⟩ | ⟨P, a, b, rfl⟩
  · rw [replaceLast_that, List.flatMap_append]
    simp only [List.flatMap_cons, List.flatMap_nil, List.append_nil, Rep.down]
    rw [trim_that, replaceLast_that]
    exact ⟨rfl, by simp⟩
  · rw [replaceLast_both, List.flatMap_append, List.flatMap_append]
    simp only [List.flatMap_cons, List.flatMap_nil, List.append_nil, Rep.down]
    have hb := h1 b (by rw [rights_append]; simp [rights, Rep.right])
    obtain ⟨e, hne⟩ := align_cut key f hf a.2 b.2 (h0 a (by rw [lefts_append]; simp [lefts, Rep.left])) hb.1 hb.2
    rw [e, trim_append hne, replaceLast_append f hne]
    exact ⟨rfl, by simp [hne]⟩

/-- The lists read. -/
theorem reads_append (sub : α → List β) (out : β → γ) (P rs : List (Rep α)) : ∀ (R0 R1 : List (List γ)), LayerReads sub out rs R0 R1 →
    LayerReads sub out (P ++ rs) ((lefts P).map (itemsOf sub out) ++ R0) ((rights P).map (itemsOf sub out) ++ R1) := by
  induction P with
  | nil => intro R0 R1 h; exact h
  | cons r P ih =>
    intro R0 R1 h
    cases r with
    | this l =>
      refine ⟨_, ?_, ih R0 R1 h⟩
      simp [lefts, Rep.left]
    | that l =>
      refine ⟨_, ?_, ih R0 R1 h⟩
      simp [rights, Rep.right]
    | both a b =>
      refine ⟨[], (lefts P).map (itemsOf sub out) ++ R0, [], (rights P).map (itemsOf sub out) ++ R1, ?_, ?_, Or.inr ⟨rfl, rfl⟩, ih R0 R1 h⟩
      · simp [lefts, Rep.left]
      · simp [rights, Rep.right]

theorem reads_exact (sub : α → List β) (out : β → γ) (rs : List (Rep α)) (X0 X1 : List α) :
    LayerReads sub out rs ((lefts rs ++ X0).map (itemsOf sub out)) ((rights rs ++ X1).map (itemsOf sub out)) := by
  have := reads_append sub out rs [] (X0.map (itemsOf sub out)) (X1.map (itemsOf sub out)) trivial
  rw [List.append_nil] at this
  rw [List.map_append, List.map_append]
  exact this

theorem reads_replaceLast (sub : α → List β) (out : β → γ) (f : α → α → α) (hf : ∀ a b, itemsOf sub out (f a b) <+: itemsOf sub out a) (rs : List (Rep α)) (X0 X1 : List α) :
    LayerReads sub out (replaceLast f rs) ((lefts rs ++ X0).map (itemsOf sub out)) ((rights rs ++ X1).map (itemsOf sub out)) := by
  induction rs using List.reverseRecOn with
  | nil => trivial
  | append_singleton P r _ =>
    cases r with
    | this l => rw [replaceLast_this]; exact reads_exact sub out _ X0 X1
    | that l => rw [replaceLast_that]; exact reads_exact sub out _ X0 X1
    | both a b =>
      rw [replaceLast_both, lefts_append, rights_append, List.append_assoc, List.append_assoc, List.map_append (l₁ := lefts P), List.map_append (l₁ := rights P)]
      apply reads_append
      obtain ⟨e, he⟩ := hf a b
      refine ⟨e, X0.map (itemsOf sub out), [], X1.map (itemsOf sub out), ?_, ?_, Or.inl rfl, trivial⟩
      · rw [he]; simp [lefts, Rep.left]
      · simp [rights, Rep.right]

end

end DD
