import Verif.Spec.Iterate
import Verif.Proofs.PointStamp

/-!
# What a dynamic scope means

A dynamic scope at `level` has times whose point stamps have at most `level` coordinates. The last of them is the scope's own, and those before it are the enclosing scope's.
-/

namespace DD
variable {D T R : Type*}

/-- The point stamp with the given coordinates, and minimal ones after them. -/
def ptStamp (v : List Nat) : PS Nat := ⟨PointStamp.new v, norm_new _⟩

/-- Coordinate `i` of a point stamp. -/
def PS.co (p : PS Nat) (i : Nat) : Nat := coord p.1.vector i

/-- A time of a dynamic scope at `level`. -/
def InScope (level : Nat) (p : PS Nat) : Prop := ∀ i, level ≤ i → p.co i = 0

/-- The time of the enclosing scope: the first `level - 1` coordinates. -/
def outerStamp (level : Nat) (p : PS Nat) : PS Nat := ptStamp ((List.range (level - 1)).map p.co)

/-- The scope's own coordinate. -/
def roundOf (level : Nat) (p : PS Nat) : Nat := p.co (level - 1)

/-- Round `i` at the enclosing scope's time `p`. -/
def atRound (level : Nat) (p : PS Nat) (i : Nat) : PS Nat := ptStamp ((List.range (level - 1)).map p.co ++ [i])

/-- A run of a loop at `level`, as for `LoopRun`. What the body produces is at times of the scope. -/
structure DynRun [LE T] (level : Nat) (passes : Nat → Msgs D (T × PS Nat) R → Msgs D (T × PS Nat) R) (result : Nat → Msgs D (T × PS Nat) R) (recv : Nat → Upds D (T × PS Nat) R) : Prop where
  produces : ∀ n, result n <+: result (n + 1)
  timed : ∀ n, ∀ m ∈ result n, ∀ u ∈ m.2, m.1 ≤ u.2.1
  rounds : ∀ n, ∀ u ∈ (result n).upds, roundOf level u.2.1.2 ≤ maxRound
  inScope : ∀ n, ∀ u ∈ (result n).upds, InScope level u.2.1.2
  receives : ∀ n, (recv n).Subperm (recv (n + 1))
  sound : ∀ n, (recv n).Subperm (passes n (result n)).upds
  delivers : ∀ n, ∃ m, (passes n (result n)).upds.Subperm (recv m)

/-- A stream in the enclosing scope: its messages and updates are at times of that scope. -/
def Enclosing (level : Nat) (ms : Msgs D (T × PS Nat) R) : Prop := ∀ m ∈ ms, InScope (level - 1) m.1.2 ∧ ∀ u ∈ m.2, InScope (level - 1) u.2.1.2

/-- The messages' updates of rounds up to `k`. -/
def throughDynRound (level k : Nat) (ms : Msgs D (T × PS Nat) R) : Msgs D (T × PS Nat) R := List.map (fun m => (m.1, m.2.filter fun u => roundOf level u.2.1.2 ≤ k)) ms

end DD
