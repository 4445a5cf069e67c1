import Verif.Spec.Scalar
import Mathlib.Order.Compare

/-!
# The order of values is total
-/

namespace DD.Ir

mutual
theorem Value.cmp_eq : ∀ a b : Value, a.cmp b = .eq ↔ a = b
  | .int a, b => by cases b <;> simp [Value.cmp]
  | .tuple a, b => by cases b with | tuple ys => simp [Value.cmp, Value.cmps_eq a ys] | _ => simp [Value.cmp]
  | .variant s a, b => by cases b with | variant t v => simp [Value.cmp, Ordering.then_eq_eq, Value.cmp_eq a v] | _ => simp [Value.cmp]
  | .list a, b => by cases b with | list ys => simp [Value.cmp, Value.cmps_eq a ys] | _ => simp [Value.cmp]
theorem Value.cmps_eq : ∀ a b : List Value, Value.cmps a b = .eq ↔ a = b
  | [], b => by cases b <;> simp [Value.cmps]
  | x :: xs, b => by cases b with | nil => simp [Value.cmps] | cons y ys => simp [Value.cmps, Ordering.then_eq_eq, Value.cmp_eq x y, Value.cmps_eq xs ys]
end

mutual
theorem Value.cmp_lt : ∀ a b : Value, a.cmp b = .lt ↔ a.Less b
  | .int a, b => by
    cases b with
    | int b => simp only [Value.cmp, compare_lt_iff_lt]; exact ⟨.int, fun h => by cases h; assumption⟩
    | tuple ys => simp only [Value.cmp, true_iff]; exact .intTuple
    | variant t v => simp only [Value.cmp, true_iff]; exact .intVariant
    | list ys => simp only [Value.cmp, true_iff]; exact .intList
  | .tuple a, b => by
    cases b with
    | int b => simp only [Value.cmp, reduceCtorEq, false_iff]; intro h; cases h
    | tuple ys => simp only [Value.cmp, Value.cmps_lt a ys]; exact ⟨.tuple, fun h => by cases h; assumption⟩
    | variant t v => simp only [Value.cmp, true_iff]; exact .tupleVariant
    | list ys => simp only [Value.cmp, true_iff]; exact .tupleList
  | .variant s a, b => by
    cases b with
    | int b => simp only [Value.cmp, reduceCtorEq, false_iff]; intro h; cases h
    | tuple ys => simp only [Value.cmp, reduceCtorEq, false_iff]; intro h; cases h
    | variant t v =>
      simp only [Value.cmp, Ordering.then_eq_lt, compare_lt_iff_lt, compare_eq_iff_eq, Value.cmp_lt a v]
      constructor
      · rintro (h | ⟨rfl, h⟩)
        · exact .tag h
        · exact .payload h
      · intro h
        cases h with
        | tag h => exact .inl h
        | payload h => exact .inr ⟨rfl, h⟩
    | list ys => simp only [Value.cmp, true_iff]; exact .variantList
  | .list a, b => by
    cases b with
    | int b => simp only [Value.cmp, reduceCtorEq, false_iff]; intro h; cases h
    | tuple ys => simp only [Value.cmp, reduceCtorEq, false_iff]; intro h; cases h
    | variant t v => simp only [Value.cmp, reduceCtorEq, false_iff]; intro h; cases h
    | list ys => simp only [Value.cmp, Value.cmps_lt a ys]; exact ⟨.list, fun h => by cases h; assumption⟩
theorem Value.cmps_lt : ∀ a b : List Value, Value.cmps a b = .lt ↔ Value.Lesses a b
  | [], b => by
    cases b with
    | nil => simp only [Value.cmps, reduceCtorEq, false_iff]; intro h; cases h
    | cons y ys => simp only [Value.cmps, true_iff]; exact .nil
  | x :: xs, b => by
    cases b with
    | nil => simp only [Value.cmps, reduceCtorEq, false_iff]; intro h; cases h
    | cons y ys =>
      simp only [Value.cmps, Ordering.then_eq_lt, Value.cmp_eq x y, Value.cmp_lt x y, Value.cmps_lt xs ys]
      constructor
      · rintro (h | ⟨rfl, h⟩)
        · exact .head h
        · exact .tail h
      · intro h
        cases h with
        | head h => exact .inl h
        | tail h => exact .inr ⟨rfl, h⟩
end

mutual
theorem Value.cmp_swap : ∀ a b : Value, (a.cmp b).swap = b.cmp a
  | .int a, b => by cases b with | int n => simp only [Value.cmp]; exact Std.OrientedCmp.eq_swap.symm | _ => simp [Value.cmp]
  | .tuple a, b => by cases b with | tuple ys => simp [Value.cmp, Value.cmps_swap a ys] | _ => simp [Value.cmp]
  | .variant s a, b => by cases b with | variant t v => simp [Value.cmp, Ordering.swap_then, Value.cmp_swap a v, show (compare s t).swap = compare t s from Std.OrientedCmp.eq_swap.symm] | _ => simp [Value.cmp]
  | .list a, b => by cases b with | list ys => simp [Value.cmp, Value.cmps_swap a ys] | _ => simp [Value.cmp]
theorem Value.cmps_swap : ∀ a b : List Value, (Value.cmps a b).swap = Value.cmps b a
  | [], b => by cases b <;> simp [Value.cmps]
  | x :: xs, b => by cases b with | nil => simp [Value.cmps] | cons y ys => simp [Value.cmps, Ordering.swap_then, Value.cmp_swap x y, Value.cmps_swap xs ys]
end

theorem Value.cmp_gt {a b : Value} : a.cmp b = .gt ↔ b.Less a := by
  rw [← Value.cmp_lt, ← Value.cmp_swap a b]
  cases a.cmp b <;> simp

theorem Value.less_irrefl (a : Value) : ¬ a.Less a := by
  rw [← Value.cmp_lt, (Value.cmp_eq a a).2 rfl]
  simp

theorem Value.less_trichotomy (a b : Value) : a.Less b ∨ a = b ∨ b.Less a := by
  rw [← Value.cmp_lt, ← Value.cmp_eq, ← Value.cmp_gt]
  cases a.cmp b <;> simp

mutual
theorem Value.less_trans : ∀ a b c : Value, a.Less b → b.Less c → a.Less c
  | .int a, b, c, h1, h2 => by
    cases h1 <;> cases h2 <;> first
      | exact .intTuple | exact .intVariant | exact .intList
      | exact .int (lt_trans (by assumption) (by assumption))
  | .tuple a, b, c, h1, h2 => by
    cases h1 <;> cases h2 <;> first
      | exact .tupleVariant | exact .tupleList
      | exact .tuple (Value.lesses_trans a _ _ (by assumption) (by assumption))
  | .variant s a, b, c, h1, h2 => by
    cases h1 <;> cases h2 <;> first
      | exact .variantList
      | exact .tag (lt_trans (by assumption) (by assumption))
      | exact .tag (by assumption)
      | exact .payload (Value.less_trans a _ _ (by assumption) (by assumption))
  | .list a, b, c, h1, h2 => by
    cases h1; cases h2
    exact .list (Value.lesses_trans a _ _ (by assumption) (by assumption))
theorem Value.lesses_trans : ∀ a b c : List Value, Value.Lesses a b → Value.Lesses b c → Value.Lesses a c
  | [], b, c, h1, h2 => by cases h1; cases h2 <;> exact .nil
  | x :: xs, b, c, h1, h2 => by
    cases h1 <;> cases h2 <;> first
      | exact .tail (Value.lesses_trans xs _ _ (by assumption) (by assumption))
      | exact .head (Value.less_trans x _ _ (by assumption) (by assumption))
      | exact .head (by assumption)
end

theorem Value.less_asymm {a b : Value} (h : a.Less b) : ¬ b.Less a := fun h' => Value.less_irrefl a (Value.less_trans _ _ _ h h')

end DD.Ir
