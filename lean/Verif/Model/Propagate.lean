import Verif.Model.Bfs
import Mathlib.Data.Nat.Size

/-!
# Model of `algorithms/graphs/propagate.rs`
-/

namespace DD
variable {N T L : Type*}

/-- `u64::leading_zeros`. -/
def leadingZeros (x : Nat) : Nat := 64 - Nat.size x

/-- The round in which a label is introduced: `256 * (64 - (logic(&r.1)).leading_zeros() as usize)` (propagate.rs:90). -/
def introduceAt (logic : L → Nat) (r : N × L) : Nat := 256 * (64 - leadingZeros (logic r.2))

/-- The streams of `propagate_core` (propagate.rs:54-110). -/
structure PropagateFlow (N L T : Type*) where
  edgesIn : Nat → Upds (N × N) (T × Nat) Int
  nodesIn : Nat → Upds (N × L) (T × Nat) Int
  proposals : Nat → Upds (N × L) (T × Nat) Int
  candidates : Nat → Upds (N × L) (T × Nat) Int
  labels : Nat → Msgs (N × L) (T × Nat) Int
  propagate : Nat → Msgs (N × L) (T × Nat) Int

/-- How they are connected. -/
structure PropagateFlow.Runs [LinearOrder N] [LinearOrder L] [PartialOrder T] [DecidableLE T] [DecidableEq T] (F : PropagateFlow N L T) (logic : L → Nat)
    (edges : Nat → Upds (N × N) T Int) (nodes : Nat → Upds (N × L) T Int) : Prop where
  /-- `let edges = edges.enter(scope)` (propagate.rs:89). -/
  edgesIn : Enters edges F.edgesIn
  /-- `let nodes = nodes.enter_at(scope, …)` (propagate.rs:90). -/
  nodesIn : EntersAt (introduceAt logic) nodes F.nodesIn
  /-- `Variable::new`, `proposals_bind.set(propagate)` (propagate.rs:92, 104). -/
  loop : LoopRun (fun _ => iterateScopeReceives) F.propagate F.proposals
  /-- `proposals.concat(nodes)` (propagate.rs:95-96). -/
  candidates : Op2 Coll.concat F.proposals F.nodesIn F.candidates
  /-- `.reduce_abelian("Propagate", |_, s, t| t.push((s[0].0.clone(), R::from(1_i8))))` (propagate.rs:97). -/
  labels : Op1 (Coll.reduce keepLeast) F.candidates fun n => (F.labels n).upds
  /-- `labels.clone().join_core(edges, |_k, l: &L, d| Some((d.clone(), l.clone())))` (propagate.rs:99-102). -/
  propagate : Op2 (Coll.join_core fun _ l d => [(d, l)]) (fun n => (F.labels n).upds) F.edgesIn fun n => (F.propagate n).upds
  /-- Streams only grow, and rounds are of type `u64`. -/
  grow : ∀ n, F.labels n <+: F.labels (n + 1)
  rounds : ∀ n, ∀ u ∈ (F.labels n).upds, u.2.1.2 ≤ maxRound
  /-- The output of `reduce` for a time does not cancel. -/
  tidy : Tidy fun n => (F.labels n).upds

/-- What `propagate_core` returns (propagate.rs:106-108). -/
def PropagateFlow.out (F : PropagateFlow N L T) (n : Nat) : Upds (N × L) T Int := (F.labels n).leave.upds

/-- `propagate_core`, and `propagate_at` (propagate.rs:33-44), which arranges the edges. -/
def PropagatesAt [LinearOrder N] [LinearOrder L] [PartialOrder T] [DecidableLE T] [DecidableEq T] (logic : L → Nat) (edges : Nat → Upds (N × N) T Int)
    (nodes out : Nat → Upds (N × L) T Int) : Prop := ∃ F : PropagateFlow N L T, F.Runs logic edges nodes ∧ F.out = out

/-- `propagate` (propagate.rs:16-26). -/
def Propagates [LinearOrder N] [LinearOrder L] [PartialOrder T] [DecidableLE T] [DecidableEq T] (edges : Nat → Upds (N × N) T Int) (nodes out : Nat → Upds (N × L) T Int) : Prop :=
  PropagatesAt (fun _ => 0) edges nodes out

/-- The labels of a round, given the proposals (propagate.rs:94-97). -/
def labelRound [LinearOrder N] [LinearOrder L] (logic : L → Nat) (nodes : Coll (N × L)) (i : Nat) (proposals : Coll (N × L)) : Coll (N × L) :=
  Coll.reduce keepLeast (Coll.concat proposals (nodes.filter fun r => introduceAt logic r ≤ i))

/-- The proposals made by labels (propagate.rs:99-102). -/
def proposeRound [LinearOrder N] (edges : Coll (N × N)) (labels : Coll (N × L)) : Coll (N × L) := Coll.join_core (fun _ l d => [(d, l)]) labels edges

/-- The labels of the rounds. -/
def labelIter [LinearOrder N] [LinearOrder L] (logic : L → Nat) (edges : Coll (N × N)) (nodes : Coll (N × L)) : Nat → Coll (N × L)
  | 0 => labelRound logic nodes 0 []
  | i + 1 => labelRound logic nodes (i + 1) (proposeRound edges (labelIter logic edges nodes i))

end DD
