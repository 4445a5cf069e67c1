import Verif.Spec.Dataflow
import Mathlib.Data.Finset.Defs

/-!
# Specification of sequential graph algorithms
-/

namespace DD
variable {N V : Type*} [LinearOrder N]

/-- What a node hears from its neighbours, given the new states of nodes: for each edge from a smaller node the new state of that, for each edge from a larger node its old states. Multiplicities are those of the
edge, and of the old state. -/
def heard (edges : Coll (N × N)) (state : Coll (N × V)) (new : N → V) (n : N) : Coll V :=
  edges.flatMap fun e =>
    if e.1.2 = n then
      if e.1.1 < n then [(new e.1.1, e.2)]
      else if n < e.1.1 then (List.filter (fun s => s.1.1 = e.1.1) state).map fun s => (s.1.2, e.2 * s.2)
      else []
    else []

/-- There is a message for the node. -/
def Addressed (edges : Coll (N × N)) (n : N) : Prop := ∃ m, m ≠ n ∧ 0 < weight edges (m, n)

/-- What `sequence` needs: each node with an edge to another has a state, and an edge from another. -/
def Connected [DecidableEq V] (state : Coll (N × V)) (edges : Coll (N × N)) : Prop := ∀ m n, m ≠ n → 0 < weight edges (m, n) → (∃ v, 0 < weight state (m, v)) ∧ Addressed edges m

/-- The conditions on what is given to `sequence`, up to a time: it is complete, it has no negative multiplicities, and it is as `sequence` needs it. `S` has the nodes that have edges. -/
structure SequenceInput {T : Type*} [LinearOrder V] [PartialOrder T] [DecidableLE T] (state : Nat → Upds (N × V) T Int) (edges : Nat → Upds (N × N) T Int) (n0 : Nat) (t : T) (S : Finset N) : Prop where
  settledStates : Settled state n0 t
  settledEdges : Settled edges n0 t
  statesNonneg : ∀ t', t' ≤ t → ∀ x, 0 ≤ accum (state n0) x t'
  edgesNonneg : ∀ t', t' ≤ t → ∀ x, 0 ≤ accum (edges n0) x t'
  connected : ∀ t', t' ≤ t → Connected (collectionAt (state n0) t') (collectionAt (edges n0) t')
  nodes : ∀ u ∈ edges n0, u.2.1 ≤ t → u.1.1 ∈ S

end DD
