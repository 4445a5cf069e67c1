import Mathlib.Init

/-!
# What a prefix sum is
-/

namespace DD
variable {D : Type*}

/-- The accumulation of the data at positions before `i`, in the order of positions. -/
def prefixSum (combine : D → D → D) (zero : D) (f : Nat → Option D) : Nat → D
  | 0 => zero
  | i + 1 => match f i with
    | none => prefixSum combine zero f i
    | some d => combine (prefixSum combine zero f i) d

/-- The accumulation of the data at the `n` positions from `a` on, in the order of positions, if there are any. -/
def rangeSum (combine : D → D → D) (f : Nat → Option D) (a : Nat) : Nat → Option D
  | 0 => none
  | n + 1 => match rangeSum combine f a n, f (a + n) with
    | none, b => b
    | some x, none => some x
    | some x, some d => some (combine x d)

end DD
