import Verif.Spec.Dataflow
import Mathlib.Data.Prod.Lex
import Mathlib.Data.Nat.Bitwise

/-!
# Model of `algorithms/prefix_sum.rs`

As for the other programs, the operators are the functions of collections of `Model/Coll.lean`, and the loop is that of `Model/Iterate.lean`. Indices, of type `usize`, are natural numbers,
and arithmetic that can leave the type wraps. (Without optimizations addition panics instead.)
-/

namespace DD
variable {K D T : Type*}

/-- `collection.map(|((index, key), data)| ((index, 0, key), data))` (prefix_sum.rs:51). -/
def unitRanges (c : Coll ((Nat × K) × D)) : Coll ((Nat × Nat × K) × D) := c.map fun x => ((x.1.1, 0, x.1.2), x.2)

/-- `filter(|&((_pos, log, _), _)| log < 64).map(|((pos, log, key), data)| ((pos >> 1, log + 1, key), (pos, data)))` (prefix_sum.rs:64-65). Rust orders pairs lexicographically. -/
def halveRanges (c : Coll ((Nat × Nat × K) × D)) : Coll ((Nat × Nat × K) × (Nat ×ₗ D)) :=
  (c.filter fun x => decide (x.1.2.1 < 64)).map fun x => ((x.1.1 >>> 1, x.1.2.1 + 1, x.1.2.2), toLex (x.1.1, x.2))

/-- The logic of the `reduce` (prefix_sum.rs:66-70). `input[0]` would panic for an empty `input`, but the logic is not called then. -/
def combineHalves (combine : K → D → D → D) (range : Nat × Nat × K) (input : List ((Nat ×ₗ D) × Int)) : List (D × Int) :=
  match input with
  | [] => []
  | [x] => [((ofLex x.1).2, 1)]
  | x :: y :: _ => [(combine range.2.2 (ofLex x.1).2 (ofLex y.1).2, 1)]

/-- The streams of `aggregate` (prefix_sum.rs:43-73). -/
structure AggregateFlow (K D T : Type*) where
  unit : Nat → Msgs ((Nat × Nat × K) × D) T Int
  ranges : Nat → Upds ((Nat × Nat × K) × D) (T × Nat) Int
  halves : Nat → Upds ((Nat × Nat × K) × (Nat ×ₗ D)) (T × Nat) Int
  reduced : Nat → Msgs ((Nat × Nat × K) × D) (T × Nat) Int
  result : Nat → Msgs ((Nat × Nat × K) × D) (T × Nat) Int

/-- How they are connected. -/
structure AggregateFlow.Runs [LinearOrder K] [LinearOrder D] [PartialOrder T] [DecidableLE T] [DecidableEq T] (F : AggregateFlow K D T) (combine : K → D → D → D)
    (collection : Nat → Upds ((Nat × K) × D) T Int) : Prop where
  unit : Op1 unitRanges collection fun n => (F.unit n).upds
  /-- Updates are no earlier than their message (C32). -/
  timed : ∀ n, ∀ m ∈ F.unit n, ∀ u ∈ m.2, m.1 ≤ u.2.1
  /-- `unit_ranges.clone().iterate` (prefix_sum.rs:53-55). -/
  loop : LoopRun (fun n => iterateReceives (F.unit n)) F.result F.ranges
  halves : Op1 halveRanges F.ranges F.halves
  reduced : Op1 (Coll.reduce (combineHalves combine)) F.halves fun n => (F.reduced n).upds
  /-- Messages are sent one after the other. -/
  grows : ∀ n, F.reduced n <+: F.reduced (n + 1)
  /-- The output of `reduce` for a time does not cancel. -/
  tidy : Tidy fun n => (F.reduced n).upds
  /-- `.concat(unit_ranges)` (prefix_sum.rs:71), with `unit_ranges.enter(scope)` (prefix_sum.rs:62). Here it matters that the updates themselves are put together. -/
  result : ∀ n, (F.result n).upds.Perm ((F.reduced n).upds ++ (F.unit n).enter.upds)

/-- What `aggregate` returns (prefix_sum.rs:53, iterate.rs:97). -/
def AggregateFlow.out (F : AggregateFlow K D T) (n : Nat) : Upds ((Nat × Nat × K) × D) T Int := (iterateReturns (F.result n)).upds

/-- The ranges a query asks for: `(0 .. 64).filter(move |i| (idx & (1usize << i)) != 0).map(move |i| ((idx >> i) - 1, i, key.clone()))` (prefix_sum.rs:111-113). -/
def queryRanges (q : Nat × K) : List (Nat × Nat × K) := ((List.range 64).filter fun i => q.1.testBit i).map fun i => ((q.1 >>> i) - 1, i, q.2)

/-- `requests` (prefix_sum.rs:107-115). -/
def requestRanges [DecidableEq K] (queries : Coll (Nat × K)) : Coll (Nat × Nat × K) := (queries.flat_map queryRanges).distinct

/-- `zero_ranges` (prefix_sum.rs:123-128). -/
def zeroRanges (zero : D) (full : Coll ((Nat × Nat × K) × D)) (requests : Coll (Nat × Nat × K)) : Coll ((Nat × Nat × K) × D) :=
  (full.map fun x => (x.1, zero)).negate.concat (requests.map fun x => (x, zero))

/-- `init_states` (prefix_sum.rs:134-138). -/
def initStates [DecidableEq K] [DecidableEq D] (zero : D) (queries : Coll (Nat × K)) : Coll ((Nat × K) × D) := (queries.map fun x => ((0, x.2), zero)).distinct

/-- `pos << log` on `usize`. -/
def shlUsize (pos log : Nat) : Nat := (pos <<< log) % 2 ^ 64

/-- `+` on `usize`. -/
def addUsize (a b : Nat) : Nat := (a + b) % 2 ^ 64

/-- `used_ranges.map(|((pos, log, key), data)| ((pos << log, key), (log, data))).join_map(states, …)` (prefix_sum.rs:145-149). -/
def stepStates [DecidableEq K] (combine : K → D → D → D) (used : Coll ((Nat × Nat × K) × D)) (states : Coll ((Nat × K) × D)) : Coll ((Nat × K) × D) :=
  Coll.join_map (fun (x : Nat × K) (r : Nat × D) state => ((addUsize x.1 (shlUsize 1 r.1), x.2), combine x.2 state r.2))
    (used.map fun x => ((shlUsize x.1.1 x.1.2.1, x.1.2.2), (x.1.2.1, x.2))) states

/-- The streams of `broadcast` (prefix_sum.rs:76-154). -/
structure BroadcastFlow (K D T : Type*) where
  requests : Nat → Upds (Nat × Nat × K) T Int
  full : Nat → Upds ((Nat × Nat × K) × D) T Int
  zeros : Nat → Upds ((Nat × Nat × K) × D) T Int
  used : Nat → Upds ((Nat × Nat × K) × D) T Int
  init : Nat → Msgs ((Nat × K) × D) T Int
  initIn : Nat → Upds ((Nat × K) × D) (T × Nat) Int
  usedIn : Nat → Upds ((Nat × Nat × K) × D) (T × Nat) Int
  states : Nat → Upds ((Nat × K) × D) (T × Nat) Int
  stepped : Nat → Upds ((Nat × K) × D) (T × Nat) Int
  result : Nat → Msgs ((Nat × K) × D) (T × Nat) Int
  out : Nat → Upds ((Nat × K) × D) T Int

/-- How they are connected. -/
structure BroadcastFlow.Runs [LinearOrder K] [LinearOrder D] [PartialOrder T] [DecidableLE T] [DecidableEq T] (F : BroadcastFlow K D T) (zero : D) (combine : K → D → D → D)
    (ranges : Nat → Upds ((Nat × Nat × K) × D) T Int) (queries : Nat → Upds (Nat × K) T Int) : Prop where
  requests : Op1 requestRanges queries F.requests
  /-- `ranges.semijoin(requests.clone())` (prefix_sum.rs:118-120). -/
  full : Op2 Coll.semijoin ranges F.requests F.full
  zeros : Op2 (zeroRanges zero) F.full F.requests F.zeros
  /-- `full_ranges.concat(zero_ranges)` (prefix_sum.rs:131). -/
  used : Op2 Coll.concat F.full F.zeros F.used
  init : Op1 (initStates zero) queries fun n => (F.init n).upds
  /-- Updates are no earlier than their message (C32). -/
  timed : ∀ n, ∀ m ∈ F.init n, ∀ u ∈ m.2, m.1 ≤ u.2.1
  /-- `init_states.clone().iterate` (prefix_sum.rs:141-143). -/
  loop : LoopRun (fun n => iterateReceives (F.init n)) F.result F.states
  /-- `init_states.enter(scope)` (prefix_sum.rs:144). -/
  initIn : Enters (fun n => (F.init n).upds) F.initIn
  /-- `used_ranges.enter(scope)` (prefix_sum.rs:145-146). -/
  usedIn : Enters F.used F.usedIn
  stepped : Op2 (stepStates combine) F.usedIn F.states F.stepped
  /-- `.concat(init_states).distinct()` (prefix_sum.rs:150-151). -/
  result : Op2 (fun a b => (Coll.concat a b).distinct) F.stepped F.initIn fun n => (F.result n).upds
  /-- The output of `distinct` for a time does not cancel. -/
  tidy : Tidy fun n => (F.result n).upds
  /-- `.semijoin(queries)` (prefix_sum.rs:153), of what the loop returns. -/
  out : Op2 Coll.semijoin (fun n => (iterateReturns (F.result n)).upds) queries F.out

/-- `prefix_sum_at` (prefix_sum.rs:32-39). -/
def PrefixSumAt [LinearOrder K] [LinearOrder D] [PartialOrder T] [DecidableLE T] [DecidableEq T] (zero : D) (combine : K → D → D → D) (collection : Nat → Upds ((Nat × K) × D) T Int)
    (locations : Nat → Upds (Nat × K) T Int) (out : Nat → Upds ((Nat × K) × D) T Int) : Prop :=
  ∃ (A : AggregateFlow K D T) (B : BroadcastFlow K D T), A.Runs combine collection ∧ B.Runs zero combine A.out locations ∧ B.out = out

/-- `prefix_sum` (prefix_sum.rs:28-30). -/
def PrefixSums [LinearOrder K] [LinearOrder D] [PartialOrder T] [DecidableLE T] [DecidableEq T] (zero : D) (combine : K → D → D → D) (collection : Nat → Upds ((Nat × K) × D) T Int)
    (out : Nat → Upds ((Nat × K) × D) T Int) : Prop :=
  ∃ locations : Nat → Upds (Nat × K) T Int, Op1 (Coll.map fun x => x.1) collection locations ∧ PrefixSumAt zero combine collection locations out

/-- The ranges, by rounds (prefix_sum.rs:63-71). -/
def rangesIter [LinearOrder K] [LinearOrder D] (combine : K → D → D → D) (c : Coll ((Nat × K) × D)) : Nat → Coll ((Nat × Nat × K) × D)
  | 0 => unitRanges c
  | i + 1 => (Coll.reduce (combineHalves combine) (halveRanges (rangesIter combine c i))).concat (unitRanges c)

/-- `used_ranges`, of collections (prefix_sum.rs:107-131). -/
def usedRanges [LinearOrder K] [LinearOrder D] (zero : D) (ranges : Coll ((Nat × Nat × K) × D)) (queries : Coll (Nat × K)) : Coll ((Nat × Nat × K) × D) :=
  (ranges.semijoin (requestRanges queries)).concat (zeroRanges zero (ranges.semijoin (requestRanges queries)) (requestRanges queries))

/-- The states, by rounds (prefix_sum.rs:145-151). -/
def statesIter [LinearOrder K] [LinearOrder D] (zero : D) (combine : K → D → D → D) (used : Coll ((Nat × Nat × K) × D)) (queries : Coll (Nat × K)) : Nat → Coll ((Nat × K) × D)
  | 0 => initStates zero queries
  | i + 1 => ((stepStates combine used (statesIter zero combine used queries i)).concat (initStates zero queries)).distinct

end DD
