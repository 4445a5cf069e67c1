import Verif.Model.Propagate
import Mathlib.Data.Prod.Lex

/-!
# Model of `algorithms/graphs/scc.rs`
-/

namespace DD
variable {N T : Type*}

/-- The nodes with their labels: `edges.map_in_place(|x| x.0 = x.1.clone()).consolidate()` (scc.rs:70-72). Rust orders
pairs lexicographically. -/
def trimNodes [LinearOrder N] (edges : Coll (N × N)) : Coll (N × N) :=
  (edges.map fun x => toLex (x.2, x.2)).consolidate.map ofLex

/-- The first join: `join_core(labels.clone(), |e1,e2,l1| [(e2.clone(),(e1.clone(),l1.clone()))])` (scc.rs:76-77). -/
def trimSources [LinearOrder N] (edges labels : Coll (N × N)) : Coll (N × N × N) := Coll.join_core (fun e1 e2 l1 => [(e2, e1, l1)]) edges labels

/-- The second join: `join_core(labels, |e2,(e1,l1),l2| [((e1.clone(),e2.clone()),(l1.clone(),l2.clone()))])` (scc.rs:78-79). -/
def trimTargets [LinearOrder N] (sources : Coll (N × N × N)) (labels : Coll (N × N)) : Coll ((N × N) × N × N) :=
  Coll.join_core (fun e2 e1l1 l2 => [((e1l1.1, e2), (e1l1.2, l2))]) sources labels

/-- `filter(|(_,(l1,l2))| l1 == l2).map(|((x1,x2),_)| (x2,x1))` (scc.rs:80-81). -/
def trimKeep [LinearOrder N] (both : Coll ((N × N) × N × N)) : Coll (N × N) := (both.filter fun x => decide (x.2.1 = x.2.2)).map fun x => (x.1.2, x.1.1)

/-- `trim_edges` (scc.rs:56-85). Entering and leaving a region does not change updates. -/
def Trims [LinearOrder N] [PartialOrder T] [DecidableLE T] [DecidableEq T] (logic : N → Nat) (cycle edges out : Nat → Upds (N × N) T Int) : Prop :=
  ∃ (nodes labels : Nat → Upds (N × N) T Int) (sources : Nat → Upds (N × N × N) T Int) (both : Nat → Upds ((N × N) × N × N) T Int),
    Op1 trimNodes edges nodes ∧ PropagatesAt logic cycle nodes labels ∧ Op2 trimSources edges labels sources ∧ Op2 trimTargets sources labels both ∧ Op1 trimKeep both out

/-- The streams of `strongly_connected_at` (scc.rs:31-54). -/
structure SccFlow (N T : Type*) where
  edgesIn : Nat → Upds (N × N) (T × Nat) Int
  trans : Nat → Upds (N × N) (T × Nat) Int
  inner : Nat → Upds (N × N) (T × Nat) Int
  trimmed : Nat → Upds (N × N) (T × Nat) Int
  result : Nat → Msgs (N × N) (T × Nat) Int

/-- How they are connected. -/
structure SccFlow.Runs [LinearOrder N] [PartialOrder T] [DecidableLE T] [DecidableEq T] (F : SccFlow N T) (logic : N → Nat)
    (graph : Nat → Msgs (N × N) T Int) : Prop where
  timed : ∀ n, ∀ m ∈ graph n, ∀ u ∈ m.2, m.1 ≤ u.2.1
  /-- `let edges = graph.enter(scope)` (scc.rs:44). -/
  edgesIn : Enters (fun n => (graph n).upds) F.edgesIn
  /-- `let trans = edges.clone().map_in_place(|x| mem::swap(&mut x.0, &mut x.1))` (scc.rs:45). -/
  trans : Op1 (Coll.map fun x => (x.2, x.1)) F.edgesIn F.trans
  /-- `Variable::new_from(edges.clone(), …)`, `variable.set(result.clone())` (scc.rs:48, 51). -/
  loop : LoopRun (fun n => iterateReceives (graph n)) F.result F.inner
  /-- `trim_edges(inner, edges, logic.clone())` (scc.rs:50). -/
  trim1 : Trims logic F.inner F.edgesIn F.trimmed
  /-- `trim_edges(…, trans, logic)` (scc.rs:50). -/
  trim2 : Trims logic F.trimmed F.trans fun n => (F.result n).upds

/-- `result.leave(outer)` (scc.rs:52). -/
def SccFlow.out (F : SccFlow N T) (n : Nat) : Upds (N × N) T Int := (F.result n).leave.upds

/-- `strongly_connected_at` (scc.rs:31-54). -/
def StronglyConnectedAt [LinearOrder N] [PartialOrder T] [DecidableLE T] [DecidableEq T] (logic : N → Nat) (graph : Nat → Msgs (N × N) T Int)
    (out : Nat → Upds (N × N) T Int) : Prop := ∃ F : SccFlow N T, F.Runs logic graph ∧ F.out = out

/-- `strongly_connected` (scc.rs:15-24). -/
def StronglyConnected [LinearOrder N] [PartialOrder T] [DecidableLE T] [DecidableEq T] (graph : Nat → Msgs (N × N) T Int)
    (out : Nat → Upds (N × N) T Int) : Prop := StronglyConnectedAt (fun _ => 0) graph out

/-- What `trim_edges` keeps of the edges, given labels (scc.rs:76-81). -/
def trimBy [LinearOrder N] (labels edges : Coll (N × N)) : Coll (N × N) := trimKeep (trimTargets (trimSources edges labels) labels)

/-- `trim_edges`, of collections. -/
def trimEdges [LinearOrder N] (logic : N → Nat) (rounds : Nat) (cycle edges : Coll (N × N)) : Coll (N × N) :=
  trimBy (labelIter logic cycle (trimNodes edges) rounds) edges

/-- One round (scc.rs:50). -/
def sccRound [LinearOrder N] (logic : N → Nat) (rounds : Nat) (edges inner : Coll (N × N)) : Coll (N × N) :=
  trimEdges logic rounds (trimEdges logic rounds inner edges) (edges.map fun x => (x.2, x.1))

/-- What the rounds begin with (scc.rs:48). -/
def sccIter [LinearOrder N] (logic : N → Nat) (rounds : Nat) (edges : Coll (N × N)) : Nat → Coll (N × N)
  | 0 => edges
  | i + 1 => sccRound logic rounds edges (sccIter logic rounds edges i)

end DD
