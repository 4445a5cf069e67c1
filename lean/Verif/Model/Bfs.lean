import Verif.Spec.Dataflow

/-!
# Model of `algorithms/graphs/bfs.rs`

A program that puts operators together is modelled by its streams and by what connects them. The operators are the functions of collections of `Model/Coll.lean`, the loop is that of
`Model/Iterate.lean`. Entering scopes and arranging change no contents (C32, C48).
-/

namespace DD
variable {N T L : Type*}

/-- `|_, s, t| t.push((*s[0].0, 1))` (bfs.rs:42; propagate.rs:97; bijkstra.rs:75, 97, 115): the least value, once. `s[0]` would panic for an empty `s`, but the logic is
not called then. -/
def keepLeast {K : Type*} (_ : K) (s : List (L × Int)) : List (L × Int) :=
  match s with
  | [] => []
  | x :: _ => [(x.1, 1)]

/-- `u32` addition, which wraps. (Without optimizations it panics instead.) -/
def addU32 (a b : Nat) : Nat := (a + b) % 2 ^ 32

/-- The streams of `bfs_arranged` (bfs.rs:25-44). -/
structure BfsFlow (N T : Type*) where
  nodes : Nat → Msgs (N × Nat) T Int
  edgesIn : Nat → Upds (N × N) (T × Nat) Int
  nodesIn : Nat → Upds (N × Nat) (T × Nat) Int
  inner : Nat → Upds (N × Nat) (T × Nat) Int
  joined : Nat → Upds (N × Nat) (T × Nat) Int
  candidates : Nat → Upds (N × Nat) (T × Nat) Int
  result : Nat → Msgs (N × Nat) (T × Nat) Int

/-- How they are connected. -/
structure BfsFlow.Runs [LinearOrder N] [PartialOrder T] [DecidableLE T] [DecidableEq T] (F : BfsFlow N T) (edges : Nat → Upds (N × N) T Int) (roots : Nat → Upds N T Int) : Prop where
  /-- `let nodes = roots.map(|x| (x, 0))` (bfs.rs:32). -/
  nodes : Op1 (Coll.map fun x => (x, 0)) roots fun n => (F.nodes n).upds
  /-- Updates are no earlier than their message (C32). -/
  timed : ∀ n, ∀ m ∈ F.nodes n, ∀ u ∈ m.2, m.1 ≤ u.2.1
  /-- `nodes.clone().iterate` (bfs.rs:35). -/
  loop : LoopRun (fun n => iterateReceives (F.nodes n)) F.result F.inner
  /-- `let edges = edges.enter(scope)` (bfs.rs:37). -/
  edgesIn : Enters edges F.edgesIn
  /-- `let nodes = nodes.enter(scope)` (bfs.rs:38). -/
  nodesIn : Enters (fun n => (F.nodes n).upds) F.nodesIn
  /-- `inner.join_core(edges, |_k,l,d| Some((d.clone(), l+1)))` (bfs.rs:40). -/
  joined : Op2 (Coll.join_core fun _ l d => [(d, addU32 l 1)]) F.inner F.edgesIn F.joined
  /-- `.concat(nodes)` (bfs.rs:41). -/
  candidates : Op2 Coll.concat F.joined F.nodesIn F.candidates
  /-- `.reduce(|_, s, t| t.push((*s[0].0, 1)))` (bfs.rs:42). -/
  result : Op1 (Coll.reduce keepLeast) F.candidates fun n => (F.result n).upds
  /-- The output of `reduce` for a time does not cancel. -/
  tidy : Tidy fun n => (F.result n).upds

/-- What `bfs_arranged` returns (bfs.rs:35, iterate.rs:97). -/
def BfsFlow.out (F : BfsFlow N T) (n : Nat) : Upds (N × Nat) T Int := (iterateReturns (F.result n)).upds

/-- One round, as a function of collections (bfs.rs:40-42). -/
def bfsRound [LinearOrder N] (edges : Coll (N × N)) (nodes : Coll (N × Nat)) (inner : Coll (N × Nat)) : Coll (N × Nat) :=
  Coll.reduce keepLeast (Coll.concat (Coll.join_core (fun _ l d => [(d, addU32 l 1)]) inner edges) nodes)

/-- The rounds of the iteration. -/
def bfsIter [LinearOrder N] (edges : Coll (N × N)) (roots : Coll N) : Nat → Coll (N × Nat)
  | 0 => roots.map fun x => (x, 0)
  | i + 1 => bfsRound edges (roots.map fun x => (x, 0)) (bfsIter edges roots i)

end DD
