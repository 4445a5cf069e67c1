import Mathlib.Order.Lattice
import Mathlib.Algebra.BigOperators.Group.List.Basic

/-!
# Specification vocabulary

Nothing in this file refers to the model of the Rust code. It fixes the meaning of the words used in the
property statements: *update*, *accumulation at a time*, *frontier*, *beyond a frontier*, *strictly sorted*.
-/

namespace DD

/-- A time `t` is *beyond* (greater or equal to some element of) the frontier `F`. -/
def Beyond {T : Type*} [LE T] (F : List T) (t : T) : Prop := ∃ f ∈ F, f ≤ t

instance {T : Type*} [LE T] [DecidableLE T] (F : List T) (t : T) : Decidable (Beyond F t) := inferInstanceAs (Decidable (∃ f ∈ F, f ≤ t))

/-- A list of mutually incomparable (in particular distinct) times. -/
def IsAntichainList {T : Type*} [LE T] (F : List T) : Prop := F.Pairwise (fun a b => ¬ a ≤ b ∧ ¬ b ≤ a)

/-- An update list: (data, time, difference) triples, as in a differential dataflow stream. -/
abbrev Upds (D T R : Type*) := List (D × T × R)

section
variable {D T R : Type*} [DecidableEq D]

/-- The accumulated difference of datum `d` at time `q`: the sum of the differences of all updates
to `d` whose time is less or equal to `q`. This is "the collection at time `q`". -/
def accum [LE T] [DecidableLE T] [AddCommMonoid R] (us : Upds D T R) (d : D) (q : T) : R :=
  (us.map fun u => if u.1 = d ∧ u.2.1 ≤ q then u.2.2 else 0).sum

/-- The total difference of datum `d` at exactly the time `t`. -/
def total [DecidableEq T] [AddCommMonoid R] (us : Upds D T R) (d : D) (t : T) : R :=
  (us.map fun u => if u.1 = d ∧ u.2.1 = t then u.2.2 else 0).sum

/-- The total weight of `d` in a list of (data, weight) pairs. -/
def weight [AddCommMonoid R] (us : List (D × R)) (d : D) : R :=
  (us.map fun u => if u.1 = d then u.2 else 0).sum

end

/-- A copy of the type of times on which Rust's total order `Ord` (as opposed to timely's `PartialOrder`) lives. -/
def Lin (T : Type*) := T

/-- View a time under its total order. -/
def toLin {T : Type*} (t : T) : Lin T := t

/-- A type of times with a total order (Rust's `Ord`, used for sorting) that extends the partial order. -/
class TimeOrd (T : Type*) [PartialOrder T] where
  /-- the total order -/
  lin : LinearOrder (Lin T)
  /-- it extends the partial order -/
  mono : ∀ {a b : T}, a ≤ b → toLin a ≤ toLin b

attribute [instance_reducible, instance] TimeOrd.lin

/-- Strictly sorted by (data, time) and free of zero differences: the canonical form of an update list. -/
def Consolidated {D T R : Type*} [LT D] [LT (Lin T)] [Zero R] (us : Upds D T R) : Prop :=
  us.Pairwise (fun u v => u.1 < v.1 ∨ (u.1 = v.1 ∧ toLin u.2.1 < toLin v.2.1)) ∧ ∀ u ∈ us, u.2.2 ≠ 0

/-- Strictly sorted by data and free of zero differences. -/
def ConsolidatedPairs {D R : Type*} [LT D] [Zero R] (us : List (D × R)) : Prop :=
  us.Pairwise (fun u v => u.1 < v.1) ∧ ∀ u ∈ us, u.2 ≠ 0

end DD
