import Verif.Model.Bfs
import Mathlib.Data.Prod.Lex

/-!
# Model of `algorithms/graphs/bijkstra.rs`

The `inspect`s that print (bijkstra.rs:60-61, 100, 118) are left out.
-/

namespace DD
variable {N T : Type*}

/-- `goals.clone().map(|(x,_)| (x.clone(),(x.clone(),0)))` (bijkstra.rs:57). -/
def bidiSources (goals : Coll (N × N)) : Coll (N × N × Nat) := goals.map fun x => (x.1, (x.1, 0))

/-- `goals.clone().map(|(_,y)| (y.clone(),(y.clone(),0)))` (bijkstra.rs:58). -/
def bidiTargets (goals : Coll (N × N)) : Coll (N × N × Nat) := goals.map fun x => (x.2, (x.2, 0))

/-- `forward.join_map(reverse, |_, (src,d1), (dst,d2)| ((src.clone(), dst.clone()), *d1 + *d2)).reduce(|_key, s, t| t.push((*s[0].0, 1)))` (bijkstra.rs:72-75). -/
def bidiMeet [LinearOrder N] (forward reverse : Coll (N × N × Nat)) : Coll ((N × N) × Nat) :=
  Coll.reduce keepLeast (Coll.join_map (fun _ x y => ((x.1, y.1), addU32 x.2 y.2)) forward reverse)

/-- `reached.negate().map(|(srcdst,_)| srcdst).concat(goals).consolidate()` (bijkstra.rs:79-84). Rust orders pairs lexicographically. -/
def bidiActive [LinearOrder N] (reached : Coll ((N × N) × Nat)) (goals : Coll (N × N)) : Coll (N × N) :=
  (((reached.negate.map fun x => x.1).concat goals).map toLex).consolidate.map ofLex

/-- `active.clone().map(|(x,_y)| x).distinct()` (bijkstra.rs:87). -/
def bidiActiveSources [LinearOrder N] (active : Coll (N × N)) : Coll N := (active.map fun x => x.1).distinct

/-- `active.map(|(_x,y)| y).distinct()` (bijkstra.rs:105). -/
def bidiActiveTargets [LinearOrder N] (active : Coll (N × N)) : Coll N := (active.map fun x => x.2).distinct

/-- `forward.map(|(med, (src, dist))| (src, (med, dist))).semijoin(forward_active).map(|(src, (med, dist))| (med, (src, dist)))` (bijkstra.rs:89-93, 107-111). -/
def bidiSelect [LinearOrder N] (forward : Coll (N × N × Nat)) (active : Coll N) : Coll (N × N × Nat) :=
  ((forward.map fun x => (x.2.1, (x.1, x.2.2))).semijoin active).map fun x => (x.2.1, (x.1, x.2.2))

/-- `.join_core(forward_edges, |_med, (src, dist), next| Some((next.clone(), (src.clone(), *dist+1))))` (bijkstra.rs:94, 112). -/
def bidiExtend [LinearOrder N] (selected : Coll (N × N × Nat)) (edges : Coll (N × N)) : Coll (N × N × Nat) :=
  Coll.join_core (fun _ x next => [(next, (x.1, addU32 x.2 1))]) selected edges

/-- `.concat(forward).map(|(next, (src, dist))| ((next, src), dist)).reduce(|_key, s, t| t.push((*s[0].0, 1))).map(|((next, src), dist)| (next, (src, dist)))`
(bijkstra.rs:95-98, 113-116). -/
def bidiKeep [LinearOrder N] (extended forward : Coll (N × N × Nat)) : Coll (N × N × Nat) :=
  (Coll.reduce keepLeast ((extended.concat forward).map fun x => ((x.1, x.2.1), x.2.2))).map fun x => (x.1.1, (x.1.2, x.2))

/-- The streams of `bidijkstra_arranged` (bijkstra.rs:36-124). -/
structure BidiFlow (N T : Type*) where
  sources : Nat → Msgs (N × N × Nat) T Int
  targets : Nat → Msgs (N × N × Nat) T Int
  forwardEdges : Nat → Upds (N × N) (T × Nat) Int
  reverseEdges : Nat → Upds (N × N) (T × Nat) Int
  goalsIn : Nat → Upds (N × N) (T × Nat) Int
  forward : Nat → Upds (N × N × Nat) (T × Nat) Int
  reverse : Nat → Upds (N × N × Nat) (T × Nat) Int
  meet : Nat → Upds ((N × N) × Nat) (T × Nat) Int
  reached : Nat → Msgs ((N × N) × Nat) (T × Nat) Int
  active : Nat → Upds (N × N) (T × Nat) Int
  forwardActive : Nat → Upds N (T × Nat) Int
  reverseActive : Nat → Upds N (T × Nat) Int
  forwardSelect : Nat → Upds (N × N × Nat) (T × Nat) Int
  reverseSelect : Nat → Upds (N × N × Nat) (T × Nat) Int
  forwardExtend : Nat → Upds (N × N × Nat) (T × Nat) Int
  reverseExtend : Nat → Upds (N × N × Nat) (T × Nat) Int
  forwardNext : Nat → Msgs (N × N × Nat) (T × Nat) Int
  reverseNext : Nat → Msgs (N × N × Nat) (T × Nat) Int

/-- How they are connected. -/
structure BidiFlow.Runs [LinearOrder N] [PartialOrder T] [DecidableLE T] [DecidableEq T] (F : BidiFlow N T) (forward reverse goals : Nat → Upds (N × N) T Int) : Prop where
  sources : Op1 bidiSources goals fun n => (F.sources n).upds
  targets : Op1 bidiTargets goals fun n => (F.targets n).upds
  /-- Updates are no earlier than their message (C32). -/
  sourcesTimed : ∀ n, ∀ m ∈ F.sources n, ∀ u ∈ m.2, m.1 ≤ u.2.1
  targetsTimed : ∀ n, ∀ m ∈ F.targets n, ∀ u ∈ m.2, m.1 ≤ u.2.1
  /-- `forward.enter(inner)`, `reverse.enter(inner)`, `goals.enter(inner)` (bijkstra.rs:49-50, 63). -/
  forwardEdges : Enters forward F.forwardEdges
  reverseEdges : Enters reverse F.reverseEdges
  goalsIn : Enters goals F.goalsIn
  /-- `Variable::new_from`, `forward_bind.set(forward_next)`, `reverse_bind.set(reverse_next)` (bijkstra.rs:57-58, 102, 120). -/
  forward : LoopRun (fun n => iterateReceives (F.sources n)) F.forwardNext F.forward
  reverse : LoopRun (fun n => iterateReceives (F.targets n)) F.reverseNext F.reverse
  meet : Op2 bidiMeet F.forward F.reverse F.meet
  /-- `.semijoin(goals.clone())` (bijkstra.rs:76). -/
  reached : Op2 Coll.semijoin F.meet F.goalsIn fun n => (F.reached n).upds
  active : Op2 bidiActive (fun n => (F.reached n).upds) F.goalsIn F.active
  forwardActive : Op1 bidiActiveSources F.active F.forwardActive
  reverseActive : Op1 bidiActiveTargets F.active F.reverseActive
  forwardSelect : Op2 bidiSelect F.forward F.forwardActive F.forwardSelect
  reverseSelect : Op2 bidiSelect F.reverse F.reverseActive F.reverseSelect
  forwardExtend : Op2 bidiExtend F.forwardSelect F.forwardEdges F.forwardExtend
  reverseExtend : Op2 bidiExtend F.reverseSelect F.reverseEdges F.reverseExtend
  forwardNext : Op2 bidiKeep F.forwardExtend F.forward fun n => (F.forwardNext n).upds
  reverseNext : Op2 bidiKeep F.reverseExtend F.reverse fun n => (F.reverseNext n).upds
  /-- Rounds are of type `u64`. -/
  rounds : ∀ n, ∀ u ∈ (F.reached n).upds, u.2.1.2 ≤ maxRound
  /-- The output of `reduce` for a time does not cancel. -/
  forwardTidy : Tidy fun n => (F.forwardNext n).upds
  reverseTidy : Tidy fun n => (F.reverseNext n).upds

/-- `reached.leave(outer)` (bijkstra.rs:122). -/
def BidiFlow.out (F : BidiFlow N T) (n : Nat) : Upds ((N × N) × Nat) T Int := (F.reached n).leave.upds

/-- `bidijkstra` (bijkstra.rs:22-30). -/
def Bidijkstra [LinearOrder N] [PartialOrder T] [DecidableLE T] [DecidableEq T] (edges goals : Nat → Upds (N × N) T Int) (out : Nat → Upds ((N × N) × Nat) T Int) : Prop :=
  ∃ (F : BidiFlow N T) (reverse : Nat → Upds (N × N) T Int), Op1 (Coll.map fun x => (x.2, x.1)) edges reverse ∧ F.Runs edges reverse goals ∧ F.out = out

/-- What is reached in a round (bijkstra.rs:71-76). -/
def bidiReached [LinearOrder N] (goals : Coll (N × N)) (s : Coll (N × N × Nat) × Coll (N × N × Nat)) : Coll ((N × N) × Nat) := Coll.semijoin (bidiMeet s.1 s.2) goals

/-- One round, for both variables (bijkstra.rs:78-120). -/
def bidiRound [LinearOrder N] (forward reverse goals : Coll (N × N)) (s : Coll (N × N × Nat) × Coll (N × N × Nat)) : Coll (N × N × Nat) × Coll (N × N × Nat) :=
  (bidiKeep (bidiExtend (bidiSelect s.1 (bidiActiveSources (bidiActive (bidiReached goals s) goals))) forward) s.1,
    bidiKeep (bidiExtend (bidiSelect s.2 (bidiActiveTargets (bidiActive (bidiReached goals s) goals))) reverse) s.2)

/-- The variables, by rounds. -/
def bidiIter [LinearOrder N] (forward reverse goals : Coll (N × N)) : Nat → Coll (N × N × Nat) × Coll (N × N × Nat)
  | 0 => (bidiSources goals, bidiTargets goals)
  | i + 1 => bidiRound forward reverse goals (bidiIter forward reverse goals i)

end DD
