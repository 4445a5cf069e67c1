import Verif.Spec.Basic

/-!
# What it means for the output of a reduction to be right
-/

namespace DD

/-- The list a reduction function is applied to at a time: the values of non-zero accumulated difference, sorted, with that difference. -/
def IsSnapshot {V T R : Type*} [LinearOrder V] [LE T] [DecidableLE T] [AddCommMonoid R] (us : Upds V T R) (q : T) (l : List (V × R)) : Prop :=
  ConsolidatedPairs l ∧ ∀ v, weight l v = accum us v q

/-- At time `q`, the accumulated output is the function of the accumulated input. -/
def ReducedAt {V1 V2 T R1 R2 : Type*} [LinearOrder V1] [DecidableEq V2] [LE T] [DecidableLE T] [AddCommMonoid R1] [AddCommMonoid R2]
    (f : List (V1 × R1) → List (V2 × R2)) (input : Upds V1 T R1) (output : Upds V2 T R2) (q : T) : Prop :=
  ∃ l, IsSnapshot input q l ∧ ∀ v, accum output v q = weight (f l) v

/-- The closure passed to the operator turns the present output into the function of the input, when added to it; and nothing is made from no input. -/
def ReducesBy {V1 V2 R1 R2 : Type*} [LinearOrder V1] [LinearOrder V2] [AddCommMonoid R1] [AddCommMonoid R2]
    (f : List (V1 × R1) → List (V2 × R2)) (logic : List (V1 × R1) → List (V2 × R2) → List (V2 × R2)) : Prop :=
  f [] = [] ∧ ∀ input output, ConsolidatedPairs input → ConsolidatedPairs output → ∀ v, weight (logic input output) v + weight output v = weight (f input) v

/-- `m` is the meet of the times of the new updates, of which those that cancel out may be left out, and of the pending times, if there are any. -/
structure SeedMeet {V T R : Type*} [DecidableEq V] [DecidableEq T] [LE T] [AddCommMonoid R] (batch : Upds V T R) (times : List T) (m : T) : Prop where
  upds : ∀ v s, total batch v s ≠ 0 → m ≤ s
  pending : ∀ s ∈ times, m ≤ s
  greatest : ∀ x, (∀ s ∈ batch.map (·.2.1) ++ times, x ≤ s) → x ≤ m
  some : (∃ v s, total batch v s ≠ 0) ∨ times ≠ []

/-- Each time of the history, advanced by the meet of the new times, is before `upper`, or at or beyond a pending time, or one at which the new updates change the input. -/
def HistoryHeeded {V T R : Type*} [DecidableEq V] [DecidableEq T] [Lattice T] [DecidableLE T] [AddCommMonoid R] (upper : List T) (batch : Upds V T R) (times hist : List T) : Prop :=
  ∀ w ∈ hist, ∀ m, SeedMeet batch times m → Beyond upper (w ⊔ m) → (∃ p ∈ times, p ≤ w ⊔ m) ∨ ∃ v, accum batch v (w ⊔ m) ≠ 0

end DD
