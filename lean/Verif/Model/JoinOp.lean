import Verif.Model.History
import Verif.Model.Containers
import Verif.Model.ReduceOp

/-!
# Model of the `join` operator: `join_with_tactic`, `CursorTactic` and `join_core`

Models operators/join.rs:86-381 (the operator) and 383-600 (the tactic) on top of the computation for one key (`joinKey`), and the closure of `join_core`
(operators/arrange/arrangement.rs:230-261).

A capability is modelled by its time. Cursors over batches are modelled by the contents they present from their position on: `step_key` drops the first key, `seek_key` drops the
keys before the one sought. What a cursor over the batches of a trace presents depends on the compaction of the trace; it is given for each event.
-/

namespace DD
variable {K V1 V2 T R1 R2 D M S : Type*}

/-- A timely `ContainerBuilder` as `DeferredIter` uses it: `push_into`, `while let Some(container) = builder.extract()` and `while let Some(container) = builder.finish()`
(join.rs:559-562, 573-576), the latter two returning the containers handed out, in order. -/
structure OutBuilder (S D T M : Type*) where
  init : S
  push : S → D × T × M → Option S
  extractAll : S → Option (S × List (Upds D T M))
  finishAll : S → Option (S × List (Upds D T M))

/-- Pushes one after the other. -/
def OutBuilder.pushAll (B : OutBuilder S D T M) : S → List (D × T × M) → Option S
  | s, [] => some s
  | s, u :: us =>
    match B.push s u with
    | none => none
    | some s => B.pushAll s us

section CCB
variable [LinearOrder D] [LinearOrder (Lin T)] [AddCommMonoid M] [DecidableEq M]

/-- `while let Some(container) = builder.extract()` with `mem::take` of each container (join.rs:559-562); one round for each outbound container. -/
def CCB.extractLoop : Nat → CCB D T M → CCB D T M × List (Upds D T M)
  | 0, b => (b, [])
  | n + 1, b =>
    match b.extract [] with
    | (b, none) => (b, [])
    | (b, some c) => let r := CCB.extractLoop n b; (r.1, c :: r.2)

/-- `while let Some(container) = builder.finish()` (join.rs:573-576). -/
def CCB.finishLoop (preferred : Nat) : Nat → CCB D T M → Option (CCB D T M × List (Upds D T M))
  | 0, _ => none
  | n + 1, b =>
    match b.finish preferred [] with
    | none => none
    | some (b, none) => some (b, [])
    | some (b, some c) =>
      match CCB.finishLoop preferred n b with
      | none => none
      | some (b, cs) => some (b, c :: cs)

/-- The number of calls of `finish` that the loop makes: the first, which leaves `current` empty, and one for each container outbound then, and the last. -/
def CCB.finishRounds (preferred : Nat) (b : CCB D T M) : Nat :=
  match b.finish preferred [] with
  | none => 0
  | some (b, _) => b.outbound.length + 2

/-- `ConsolidatingContainerBuilder` as a builder of join outputs (arrangement.rs:251). The capacity that the vector `current` is found to have at the `n`-th push is `capacity n`. -/
def CCB.outBuilder (preferred : Nat) (capacity : Nat → Nat) : OutBuilder (CCB D T M × Nat) D T M where
  init := (CCB.init, 0)
  push := fun s u => (s.1.push preferred u (capacity s.2)).map fun b => (b, s.2 + 1)
  extractAll := fun s => let r := CCB.extractLoop s.1.outbound.length s.1; some ((r.1, s.2), r.2)
  finishAll := fun s => (CCB.finishLoop preferred (s.1.finishRounds preferred) s.1).map fun r => ((r.1, s.2), r.2)

end CCB

/-- The closure that `join_core` gives to `join_traces` (arrangement.rs:245-259), as the list of what it pushes. -/
def joinCoreLogic (result : K → V1 → V2 → List D) (mul : R1 → R2 → M) (k : K) (v1 : V1) (v2 : V2) (t : T) (r1 : R1) (r2 : R2) : List (D × T × M) :=
  (result k v1 v2).map fun d => (d, t, mul r1 r2)

/-- `Fresh` (join.rs:41-48): which input carried the new batch. -/
inductive JoinFresh
  | input0
  | input1
deriving DecidableEq

/-- `DeferredIter` (join.rs:478-503). The closure is an argument of `next`. -/
structure DeferredIter (K V1 V2 T R1 R2 S D M : Type*) where
  cursor1 : Contents K V1 T R1
  cursor2 : Contents K V2 T R2
  meet : T
  advance1 : Bool
  advance2 : Bool
  builder : S
  ready : List (Upds D T M)
  done : Bool

/-- `prep` (join.rs:435-467). -/
def DeferredIter.prep (B : OutBuilder S D T M) (cursor1 : Contents K V1 T R1) (cursor2 : Contents K V2 T R2) (fresh : JoinFresh) (meet : T) :
    DeferredIter K V1 V2 T R1 R2 S D M :=
  { cursor1 := cursor1
    cursor2 := cursor2
    meet := meet
    advance1 := match fresh with
      | .input0 => false
      | .input1 => true
    advance2 := match fresh with
      | .input0 => true
      | .input1 => false
    builder := B.init
    ready := []
    done := false }

section
variable [Lattice T] [DecidableLE T] [DecidableEq T] [LinearOrder (Lin T)] [LinearOrder K] [LinearOrder V1] [LinearOrder V2]
  [AddCommMonoid R1] [DecidableEq R1] [AddCommMonoid R2] [DecidableEq R2]

/-- The loop of `next` (join.rs:538-568); the boolean is `exhausted`. The first argument bounds the rounds: each but the last moves a cursor. -/
def DeferredIter.loop (B : OutBuilder S D T M) (logic : K → V1 → V2 → T → R1 → R2 → List (D × T × M)) :
    Nat → DeferredIter K V1 V2 T R1 R2 S D M → Option (DeferredIter K V1 V2 T R1 R2 S D M × Bool)
  | 0, _ => none
  | n + 1, d =>
    if d.ready.isEmpty then
      match d.cursor1, d.cursor2 with
      | (key1, vals1) :: rest1, (key2, vals2) :: rest2 =>
        if key1 < key2 then
          DeferredIter.loop B logic n { d with cursor1 := ((key1, vals1) :: rest1).dropWhile fun kv => kv.1 < key2 }
        else if key2 < key1 then
          DeferredIter.loop B logic n { d with cursor2 := ((key2, vals2) :: rest2).dropWhile fun kv => kv.1 < key1 }
        else
          match joinKey (if d.advance1 then some d.meet else none) (if d.advance2 then some d.meet else none) vals1 vals2 with
          | none => none
          | some outs =>
            match B.pushAll d.builder (outs.flatMap fun o => logic key1 o.1 o.2.1 o.2.2.1 o.2.2.2.1 o.2.2.2.2) with
            | none => none
            | some b =>
              match B.extractAll b with
              | none => none
              | some (b, cs) =>
                DeferredIter.loop B logic n { d with cursor1 := rest1, cursor2 := rest2, builder := b, ready := d.ready ++ cs }
      | _, _ => some (d, true)
    else some (d, false)

/-- `DeferredIter::next` (join.rs:515-580). -/
def DeferredIter.next (B : OutBuilder S D T M) (logic : K → V1 → V2 → T → R1 → R2 → List (D × T × M)) (d : DeferredIter K V1 V2 T R1 R2 S D M) :
    Option (DeferredIter K V1 V2 T R1 R2 S D M × Option (Upds D T M)) :=
  match d.ready with
  | c :: cs => some ({ d with ready := cs }, some c)
  | [] =>
    if d.done then some (d, none)
    else
      match DeferredIter.loop B logic (d.cursor1.length + d.cursor2.length + 1) d with
      | none => none
      | some (d, exhausted) =>
        let flushed : Option (DeferredIter K V1 V2 T R1 R2 S D M) :=
          if exhausted then
            match B.finishAll d.builder with
            | none => none
            | some (b, cs) => some { d with builder := b, ready := d.ready ++ cs, done := true }
          else some d
        match flushed with
        | none => none
        | some d =>
          match d.ready with
          | c :: cs => some ({ d with ready := cs }, some c)
          | [] => some (d, none)

/-- What the operator gave a trace permission for: the frontiers it passed to `set_logical_compaction` and `set_physical_compaction`. The physical compaction of the handle when the
operator got it comes first. -/
structure TraceHandle (T : Type*) where
  logical : List (List T)
  physical : List (List T)

/-- A call of `batches_through` on a trace: the frontier asked for, what the operator had given permission for, and the time of the capability of the work it is for. -/
structure JoinRead (T : Type*) where
  frontier : List T
  handle : TraceHandle T
  time : T

/-- The state of the operator (join.rs:113-178), with the containers it sent, each with the time of its capability, and the reads of traces by arriving batches. -/
structure JoinOp (K V1 V2 T R1 R2 S D M : Type*) where
  ack1 : List T
  ack2 : List T
  pre1 : List T
  pre2 : List T
  todo0 : List (T × DeferredIter K V1 V2 T R1 R2 S D M)
  todo1 : List (T × DeferredIter K V1 V2 T R1 R2 S D M)
  trace1 : Option (TraceHandle T)
  trace2 : Option (TraceHandle T)
  sent : List (T × Upds D T M)
  reads : List (JoinRead T)

/-- Construction of the operator (join.rs:107-178). `physical1`, `physical2` are the physical compaction of the handles, `uppers1` the upper frontiers of the batches of the first
trace, `batches2` upper frontiers and contents of those of the second, and `through1` what a cursor over the batches of the first trace through a frontier presents. -/
def JoinOp.start [OrderBot T] (B : OutBuilder S D T M) (physical1 physical2 : List T) (uppers1 : List (List T)) (batches2 : List (List T × Contents K V2 T R2))
    (through1 : List T → Contents K V1 T R1) : Option (JoinOp K V1 V2 T R1 R2 S D M) :=
  let ack1 := uppers1.foldl (fun _ u => u) [⊥]
  let ack2 := batches2.foldl (fun _ b => b.1) [⊥]
  if acLe physical1 ack1 then
    if acLe physical2 ack2 then
      some
        { ack1 := ack1, ack2 := ack2, pre1 := ack1, pre2 := ack2
          todo0 := []
          todo1 := batches2.map fun b => (⊥, DeferredIter.prep B (through1 ack1) b.2 .input1 ⊥)
          trace1 := some ⟨[], [physical1]⟩
          trace2 := some ⟨[], [physical2]⟩
          sent := [], reads := [] }
    else none
  else none

/-- What happens to the operator: a batch is taken from the first or the second input, with the time of its capability, its bounds, what it presents, and what a cursor over the
other trace through a frontier presents; or, when the inputs are drained, the rest of an activation, with the batches of both traces and the input frontiers. An activation is a
sequence of batches of the first input, then batches of the second, then the rest. -/
inductive JoinEv (K V1 V2 T R1 R2 : Type*)
  | batch1 (time : T) (lower upper : List T) (batch : Contents K V1 T R1) (through2 : List T → Contents K V2 T R2)
  | batch2 (time : T) (lower upper : List T) (batch : Contents K V2 T R2) (through1 : List T → Contents K V1 T R1)
  | rest (shown1 shown2 : List (Description T × Bool)) (frontier1 frontier2 : List T)

/-- A batch arrives on the first input (join.rs:194-242). -/
def JoinOp.onBatch1 (B : OutBuilder S D T M) (st : JoinOp K V1 V2 T R1 R2 S D M) (time : T) (lower upper : List T) (batch : Contents K V1 T R1)
    (through2 : List T → Contents K V2 T R2) : Option (JoinOp K V1 V2 T R1 R2 S D M) :=
  match st.trace2 with
  | none => none
  | some handle =>
    if acLe upper st.pre1 || acLe st.pre1 lower then
      if acLe st.ack1 lower || acLe upper st.ack1 then
        if !acLe upper st.pre1 then
          let st :=
            if !batch.isEmpty then
              { st with todo0 := st.todo0 ++ [(time, DeferredIter.prep B batch (through2 st.ack2) .input0 time)]
                        reads := st.reads ++ [⟨st.ack2, handle, time⟩] }
            else st
          some (if acLe st.ack1 lower then { st with ack1 := upper } else st)
        else some st
      else none
    else none

/-- A batch arrives on the second input (join.rs:245-293). -/
def JoinOp.onBatch2 (B : OutBuilder S D T M) (st : JoinOp K V1 V2 T R1 R2 S D M) (time : T) (lower upper : List T) (batch : Contents K V2 T R2)
    (through1 : List T → Contents K V1 T R1) : Option (JoinOp K V1 V2 T R1 R2 S D M) :=
  match st.trace1 with
  | none => none
  | some handle =>
    if acLe upper st.pre2 || acLe st.pre2 lower then
      if acLe st.ack2 lower || acLe upper st.ack2 then
        if !acLe upper st.pre2 then
          let st :=
            if !batch.isEmpty then
              { st with todo1 := st.todo1 ++ [(time, DeferredIter.prep B (through1 st.ack1) batch .input1 time)]
                        reads := st.reads ++ [⟨st.ack1, handle, time⟩] }
            else st
          some (if acLe st.ack2 lower then { st with ack2 := upper } else st)
        else some st
      else none
    else none

/-- The closure `drain` (join.rs:322-333): the queue left, and what was sent. The first argument bounds the rounds. -/
def drainQueue (B : OutBuilder S D T M) (logic : K → V1 → V2 → T → R1 → R2 → List (D × T × M)) :
    Nat → Int → List (T × DeferredIter K V1 V2 T R1 R2 S D M) → Option (List (T × DeferredIter K V1 V2 T R1 R2 S D M) × List (T × Upds D T M))
  | 0, _, _ => none
  | n + 1, fuel, queue =>
    if 0 ≤ fuel then
      match queue with
      | [] => some ([], [])
      | (time, work) :: rest =>
        match work.next B logic with
        | none => none
        | some (work, some container) =>
          match drainQueue B logic n (fuel - container.length) ((time, work) :: rest) with
          | none => none
          | some (queue, sent) => some (queue, (time, container) :: sent)
        | some (_, none) => drainQueue B logic n fuel rest
    else some (queue, [])

/-- Permissions for a trace (join.rs:350-363 and 365-378): the trace is dropped if the frontier of the other input is empty. -/
def TraceHandle.maintain (trace : Option (TraceHandle T)) (frontier ack : List T) : Option (TraceHandle T) :=
  match trace with
  | none => none
  | some handle => if frontier.isEmpty then none else some ⟨handle.logical ++ [frontier], handle.physical ++ [ack]⟩

/-- Skipping over empty batches of a trace (join.rs:296-301): the upper frontier acknowledged. -/
def ackedUpper (trace : Option (TraceHandle T)) (shown : List (Description T × Bool)) (ack : List T) : List T :=
  match trace with
  | none => ack
  | some _ => advanceUpper shown ack

/-- The rest of an activation (join.rs:295-379). `rounds` bounds the rounds of the loops over the queues, `budget` is the number of records to produce for each of the queues,
half of `2_000_000`. -/
def JoinOp.onRest (B : OutBuilder S D T M) (logic : K → V1 → V2 → T → R1 → R2 → List (D × T × M)) (rounds : Nat) (budget : Int)
    (st : JoinOp K V1 V2 T R1 R2 S D M) (shown1 shown2 : List (Description T × Bool)) (frontier1 frontier2 : List T) :
    Option (JoinOp K V1 V2 T R1 R2 S D M) :=
  let ack1 := ackedUpper st.trace1 shown1 st.ack1
  let ack2 := ackedUpper st.trace2 shown2 st.ack2
  match drainQueue B logic rounds budget st.todo0, drainQueue B logic rounds budget st.todo1 with
  | some (todo0, sent0), some (todo1, sent1) =>
    some { st with
      ack1 := ack1, ack2 := ack2, todo0 := todo0, todo1 := todo1
      trace1 := TraceHandle.maintain st.trace1 frontier2 ack1
      trace2 := TraceHandle.maintain st.trace2 frontier1 ack2
      sent := st.sent ++ sent0 ++ sent1 }
  | _, _ => none

/-- One event. -/
def JoinOp.step (B : OutBuilder S D T M) (logic : K → V1 → V2 → T → R1 → R2 → List (D × T × M)) (rounds : Nat) (budget : Int)
    (st : JoinOp K V1 V2 T R1 R2 S D M) : JoinEv K V1 V2 T R1 R2 → Option (JoinOp K V1 V2 T R1 R2 S D M)
  | .batch1 time lower upper batch through2 => st.onBatch1 B time lower upper batch through2
  | .batch2 time lower upper batch through1 => st.onBatch2 B time lower upper batch through1
  | .rest shown1 shown2 frontier1 frontier2 => st.onRest B logic rounds budget shown1 shown2 frontier1 frontier2

/-- A sequence of events. -/
def JoinOp.run (B : OutBuilder S D T M) (logic : K → V1 → V2 → T → R1 → R2 → List (D × T × M)) (rounds : Nat) (budget : Int) :
    JoinOp K V1 V2 T R1 R2 S D M → List (JoinEv K V1 V2 T R1 R2) → Option (JoinOp K V1 V2 T R1 R2 S D M)
  | st, [] => some st
  | st, e :: es =>
    match st.step B logic rounds budget e with
    | none => none
    | some st => JoinOp.run B logic rounds budget st es

end
end DD
