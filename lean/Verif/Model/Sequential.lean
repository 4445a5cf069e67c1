import Verif.Spec.Dataflow
import Mathlib.Order.Defs.LinearOrder

/-!
# Model of `algorithms/graphs/sequential.rs`
-/

namespace DD
variable {N V T : Type*}

/-- `state.map(|(node, _state)| (node, None))` (sequential.rs:55-57). -/
def noStates (state : Coll (N × V)) : Coll (N × Option V) := state.map fun x => (x.1, none)

/-- `new_state.join_map(forward, |_k,v,d| (d.clone(),v.clone()))` (sequential.rs:65, 69). -/
def sendForward [LinearOrder N] (new : Coll (N × Option V)) (edges : Coll (N × N)) : Coll (N × Option V) :=
  Coll.join_map (fun _ v d => (d, v)) new (edges.filter fun e => e.1 < e.2)

/-- `new_messages.filter(|x| x.1.is_none()).map(|x| x.0).distinct()` (sequential.rs:71). -/
def waiting [LinearOrder N] (sent : Coll (N × Option V)) : Coll N := ((sent.filter fun x => x.2.isNone).map fun x => x.1).distinct

/-- `new_messages.filter(|x| x.1.is_some()).map(|x| (x.0, x.1.unwrap()))` (sequential.rs:72): the `unwrap` is of those that are `Some`, which the model takes together. -/
def arrived (sent : Coll (N × Option V)) : Coll (N × V) := sent.flat_map fun x => match x.2 with | some v => [(x.1, v)] | none => []

/-- `old_state.join_map(reverse, |_k,v,d| (d.clone(),v.clone()))` (sequential.rs:66, 74). -/
def sendReverse [LinearOrder N] (old : Coll (N × V)) (edges : Coll (N × N)) : Coll (N × V) :=
  Coll.join_map (fun _ v d => (d, v)) old (edges.filter fun e => e.1 > e.2)

/-- `reduce(move |k, vs, t| t.push((Some(logic(k,vs)),1)))` (sequential.rs:85). -/
def applyLogic (logic : N → List (V × Int) → V) (k : N) (vs : List (V × Int)) : List (Option V × Int) := [(some (logic k vs), 1)]

/-- The streams of `sequence` (sequential.rs:43-88). -/
structure SequenceFlow (N V T : Type*) where
  start : Nat → Msgs (N × Option V) T Int
  newState : Nat → Upds (N × Option V) (T × Nat) Int
  edgesIn : Nat → Upds (N × N) (T × Nat) Int
  oldState : Nat → Upds (N × V) (T × Nat) Int
  sent : Nat → Upds (N × Option V) (T × Nat) Int
  incomplete : Nat → Msgs N (T × Nat) Int
  oldMessages : Nat → Upds (N × V) (T × Nat) Int
  received : Nat → Upds (N × V) (T × Nat) Int
  messages : Nat → Upds (N × V) (T × Nat) Int
  reduced : Nat → Msgs (N × Option V) (T × Nat) Int
  result : Nat → Msgs (N × Option V) (T × Nat) Int

/-- How they are connected. -/
structure SequenceFlow.Runs [LinearOrder N] [LinearOrder V] [PartialOrder T] [DecidableLE T] [DecidableEq T] (F : SequenceFlow N V T) (logic : N → List (V × Int) → V)
    (state : Nat → Upds (N × V) T Int) (edges : Nat → Upds (N × N) T Int) : Prop where
  start : Op1 noStates state fun n => (F.start n).upds
  /-- Updates are no earlier than their message (C32). -/
  timed : ∀ n, ∀ m ∈ F.start n, ∀ u ∈ m.2, m.1 ≤ u.2.1
  /-- `.iterate(|scope, new_state| …)` (sequential.rs:58). -/
  loop : LoopRun (fun n => iterateReceives (F.start n)) F.result F.newState
  /-- `edges.enter(scope)` (sequential.rs:60). -/
  edgesIn : Enters edges F.edgesIn
  /-- `state.enter(scope)` (sequential.rs:61). -/
  oldState : Enters state F.oldState
  sent : Op2 sendForward F.newState F.edgesIn F.sent
  incomplete : Op1 waiting F.sent fun n => (F.incomplete n).upds
  oldMessages : Op2 sendReverse F.oldState F.edgesIn F.oldMessages
  /-- `new_messages.concat(old_messages)` (sequential.rs:76). -/
  received : Op2 (fun a b => (arrived a).concat b) F.sent F.oldMessages F.received
  /-- `.antijoin(incomplete.clone())` (sequential.rs:76). -/
  messages : Op2 Coll.antijoin F.received (fun n => (F.incomplete n).upds) F.messages
  reduced : Op1 (Coll.reduce (applyLogic logic)) F.messages fun n => (F.reduced n).upds
  /-- `.concat(incomplete.map(|x| (x, None)))` (sequential.rs:86). -/
  result : ∀ n, (F.result n).upds.Perm ((F.reduced n).upds ++ ((F.incomplete n).map fun x => (x, none)).upds)
  /-- Messages are sent one after the other. -/
  grows : ∀ n, F.reduced n <+: F.reduced (n + 1)
  grows' : ∀ n, F.incomplete n <+: F.incomplete (n + 1)
  /-- The outputs of `reduce` and `distinct` for a time do not cancel. -/
  tidy : Tidy fun n => (F.reduced n).upds
  tidy' : Tidy fun n => (F.incomplete n).upds

/-- What `sequence` returns (sequential.rs:58). -/
def SequenceFlow.out (F : SequenceFlow N V T) (n : Nat) : Upds (N × Option V) T Int := (iterateReturns (F.result n)).upds

/-- The messages nodes act on, in a round (sequential.rs:65-76). -/
def seqMessages [LinearOrder N] (state : Coll (N × V)) (edges : Coll (N × N)) (new : Coll (N × Option V)) : Coll (N × V) :=
  ((arrived (sendForward new edges)).concat (sendReverse state edges)).antijoin (waiting (sendForward new edges))

/-- A round (sequential.rs:58-87). -/
def seqRound [LinearOrder N] [LinearOrder V] (logic : N → List (V × Int) → V) (state : Coll (N × V)) (edges : Coll (N × N)) (new : Coll (N × Option V)) : Coll (N × Option V) :=
  (Coll.reduce (applyLogic logic) (seqMessages state edges new)).concat ((waiting (sendForward new edges)).map fun x => (x, none))

/-- The states, by rounds. -/
def seqIter [LinearOrder N] [LinearOrder V] (logic : N → List (V × Int) → V) (state : Coll (N × V)) (edges : Coll (N × N)) : Nat → Coll (N × Option V)
  | 0 => noStates state
  | i + 1 => seqRound logic state edges (seqIter logic state edges i)

/-- `(1u32 ..).find(|&i| vals.get(i as usize - 1).map(|x| *x.0) != Some(i)).unwrap()` (sequential.rs:28-30), from a given number on, with the rest of `vals`. Numbers of type `u32` are natural numbers:
no number larger than the length of `vals` by more than one is tried. -/
def firstAbsent (i : Nat) : List (Nat × Int) → Nat
  | [] => i
  | x :: vals => if x.1 = i then firstAbsent (i + 1) vals else i

/-- `u32::MAX`. -/
def maxU32 : Nat := 2 ^ 32 - 1

/-- The initial colors in `_color` (sequential.rs:18-20). -/
def bogusColors [LinearOrder N] (edges : Coll (N × N)) : Coll (N × Nat) := (edges.map fun e => (e.1, maxU32)).distinct

/-- `_color` (sequential.rs:12-32). -/
def Colors [LinearOrder N] [PartialOrder T] [DecidableLE T] [DecidableEq T] (edges : Nat → Upds (N × N) T Int) (out : Nat → Upds (N × Option Nat) T Int) : Prop :=
  ∃ (start : Nat → Upds (N × Nat) T Int) (F : SequenceFlow N Nat T), Op1 bogusColors edges start ∧ F.Runs (fun _ vals => firstAbsent 1 vals) start edges ∧ F.out = out

end DD
