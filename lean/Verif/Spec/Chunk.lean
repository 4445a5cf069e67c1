import Verif.Spec.Basic

/-!
# Specification of chunked sequences
-/

namespace DD

/-- A maximal packing: no chunk is empty or has more than `cap` updates, and no two neighbours could be combined into one chunk of at most `cap` updates. -/
structure Graded {α : Type*} (cap : Nat) (chunks : List (List α)) : Prop where
  size : ∀ c ∈ chunks, 0 < c.length ∧ c.length ≤ cap
  maximal : chunks.IsChain fun a b => cap < a.length + b.length

/-- The updates with each time advanced to its representative for the frontier. -/
def retimed {D T R : Type*} (rep : T → T) (us : Upds D T R) : Upds D T R := us.map fun u => (u.1, rep u.2.1, u.2.2)

/-- No chunk is empty. -/
def Full {α : Type*} (chunks : List (List α)) : Prop := ∀ c ∈ chunks, c ≠ []

end DD
