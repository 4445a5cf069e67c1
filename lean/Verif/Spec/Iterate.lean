import Verif.Spec.Basic
import Verif.Model.Iterate
import Mathlib.Data.List.Perm.Subperm

/-!
# What iteration means
-/

namespace DD
variable {D T R : Type*}

/-- The collections of the rounds: the source, and each next one by the body for the round. -/
def iterates (source : D → R) (body : Nat → (D → R) → D → R) : Nat → D → R
  | 0 => source
  | i + 1 => body i (iterates source body i)

/-- The updates at times at or before `q`. -/
def upTo [LE T] [DecidableLE T] (q : T) (us : Upds D T R) : Upds D T R := us.filter fun u => u.2.1 ≤ q

/-- A growing collection of updates has got all its updates at times at or before `q` by moment `n`. -/
def Settled [LE T] [DecidableLE T] (s : Nat → Upds D T R) (n : Nat) (q : T) : Prop := ∀ m, n ≤ m → (upTo q (s m)).Perm (upTo q (s n))

/-- A dataflow fragment computes the function `body` of collections, at each time for itself: once all its input for a time has arrived, then sooner or later all its output for that time
is out, and is right. -/
def Computes [DecidableEq D] [LE T] [DecidableLE T] [AddCommMonoid R] (body : T → (D → R) → D → R) (recv sent : Nat → Upds D T R) : Prop :=
  ∀ n q, Settled recv n q → ∃ n', Settled sent n' q ∧ ∀ d, accum (sent n') d q = body q (fun d => accum (recv n) d q) d

/-- A fragment that consolidates: its final output for a time has no updates that cancel. -/
def Frugal [DecidableEq D] [DecidableEq T] [LE T] [DecidableLE T] [AddCommMonoid R] (recv sent : Nat → Upds D T R) : Prop :=
  ∀ n q, Settled recv n q → ∃ n', Settled sent n' q ∧ ∀ u ∈ sent n', u.2.1 ≤ q → total (sent n') u.1 u.2.1 ≠ 0

/-- A run of a loop. At moment `n`, `result n` is what the body has produced and `recv n` what it has received. What it receives is what the loop passes to it, given what it has
produced, in any order and after any delay, but sooner or later. Updates are at or after their message's time, and rounds are of type `u64`. -/
structure LoopRun [LE T] (passes : Nat → Msgs D (T × Nat) R → Msgs D (T × Nat) R) (result : Nat → Msgs D (T × Nat) R) (recv : Nat → Upds D (T × Nat) R) : Prop where
  produces : ∀ n, result n <+: result (n + 1)
  timed : ∀ n, ∀ m ∈ result n, ∀ u ∈ m.2, m.1 ≤ u.2.1
  rounds : ∀ n, ∀ u ∈ (result n).upds, u.2.1.2 ≤ maxRound
  receives : ∀ n, (recv n).Subperm (recv (n + 1))
  sound : ∀ n, (recv n).Subperm (passes n (result n)).upds
  delivers : ∀ n, ∃ m, (passes n (result n)).upds.Subperm (recv m)

/-- The messages' updates of rounds up to `k`. -/
def throughRound (k : Nat) (ms : Msgs D (T × Nat) R) : Msgs D (T × Nat) R := List.map (fun m => (m.1, m.2.filter fun u => u.2.1.2 ≤ k)) ms

end DD
