import Verif.Model.History
import Verif.Model.Tile

/-!
# Model of the per-key computation of `reduce`

Models `history_replay::HistoryReplayer::compute` (operators/reduce.rs:553-810), which `CursorTactic::retire` calls for every key with new updates or pending times,
and the closure `reduce_abelian` passes to it (operators/arrange/arrangement.rs:280-286).

Simplifications: cursors are given by the contents they present (C17); the user's closure is a pure function of the key and its two arguments; owned and borrowed
values are not distinguished; vectors that are reused across calls are fresh; stacks read through `last()` are stored back to front; `debug_assert!`s are left out.
Indexing out of bounds and failing `expect`s are `none`.
-/

namespace DD

/-- `update_meet` (reduce.rs:814-819; common.rs:198-205). -/
def updateMeet {T : Type*} [Min T] (meet other : Option T) : Option T :=
  match other with
  | none => meet
  | some time =>
    match meet with
    | some m => some (m ⊓ time)
    | none => some time

/-- `.into_iter().flatten().min()` (reduce.rs:627; common.rs:289): the least of the times there are, in the total order. -/
def minTime {T : Type*} [LinearOrder (Lin T)] (ts : List (Option T)) : Option T :=
  ts.foldl (fun acc t =>
    match acc, t with
    | none, t => t
    | some a, none => some a
    | some a, some b => if toLin b < toLin a then some b else some a) none

/-- The loop `for index in (1 .. meets.len()).rev() { meets[index-1] = meets[index-1].meet(&meets[index]) }` (reduce.rs:588-592; common.rs:258-263): the meets of the
suffixes. -/
def timesMeets {T : Type*} [Min T] : List T → List T
  | [] => []
  | t :: ts =>
    match timesMeets ts with
    | [] => [t]
    | m :: ms => (t ⊓ m) :: m :: ms

/-- `.filter(|time| !time.less_equal(&next_time)).map(|time| time.join(&next_time))` (reduce.rs:677-690). -/
def joinsPast {T : Type*} [LE T] [DecidableLE T] [Max T] (ts : List T) (next : T) : List T :=
  (ts.filter fun t => !decide (t ≤ next)).map (· ⊔ next)

/-- The times of updates. -/
def updTimes {V T R : Type*} (us : Upds V T R) : List T := us.map fun u => u.2.1

/-- `for ((value, time), diff) in buffer { if time.less_equal(&next_time) { push((value, diff)) } }` (reduce.rs:721-736). -/
def readAt {V T R : Type*} [LE T] [DecidableLE T] (us : Upds V T R) (next : T) : List (V × R) :=
  (us.filter fun u => decide (u.2.1 ≤ next)).map fun u => (u.1, u.2.2)

/-- `if let Some(meet) = meet.as_ref() { replay.advance_buffer_by(meet) }` (reduce.rs:644, 687-688). -/
def ValueHistory.advanceOpt {V T R : Type*} [Max T] [LinearOrder V] [LinearOrder (Lin T)] [AddCommMonoid R] [DecidableEq R]
    (h : ValueHistory V T R) (meet : Option T) : Option (ValueHistory V T R) :=
  match meet with
  | some m => h.advanceBufferBy m
  | none => some h

/-- The variables of the loop of `compute` (reduce.rs:613-626): the three replays, the vectors `synth_times` (back to front), `times_slice`, `meets_slice`,
`times_current`, `output_produced`, the variable `meet`, and the arguments `outputs` and `new_interesting`. -/
structure ReduceState (V1 V2 T R1 R2 : Type*) where
  batch : ValueHistory V1 T R1
  input : ValueHistory V1 T R1
  output : ValueHistory V2 T R2
  synth : List T
  times : List T
  meets : List T
  current : List T
  produced : Upds V2 T R2
  meet : Option T
  outputs : List (T × Upds V2 T R2)
  pended : List T

section
variable {V1 V2 T R1 R2 : Type*} [Lattice T] [DecidableLE T] [DecidableEq T] [LinearOrder (Lin T)] [LinearOrder V1] [LinearOrder V2]
  [AddCommMonoid R1] [DecidableEq R1] [AddCommMonoid R2] [DecidableEq R2]

namespace ReduceState

/-- The condition of the loop (reduce.rs:621-627). -/
def nextTime (st : ReduceState V1 V2 T R1 R2) : Option T :=
  minTime [st.batch.time, st.times.head?, st.input.time, st.output.time, st.synth.head?]

/-- The first part of the loop: step the replays, take the synthetic and pending times equal to `next_time`, and decide whether it is interesting
(reduce.rs:629-668). -/
def advance (st : ReduceState V1 V2 T R1 R2) (next : T) : Option (Bool × ReduceState V1 V2 T R1 R2) :=
  match st.input.stepWhileTimeIs next, st.output.stepWhileTimeIs next, st.batch.stepWhileTimeIs next with
  | some (_, input), some (_, output), some (found, batch) =>
    match (if found then batch.advanceOpt st.meet else some batch) with
    | none => none
    | some batch =>
      let synths := st.synth.takeWhile fun t => decide (t = next)
      let warned := st.times.takeWhile fun t => decide (t = next)
      let current := st.current ++ synths ++ warned
      let interesting := found || !synths.isEmpty || !warned.isEmpty || batch.buffer.any (fun u => decide (u.2.1 ≤ next)) ||
        current.any fun t => decide (t ≤ next)
      some (interesting,
        { st with
            input := input, output := output, batch := batch, synth := st.synth.drop synths.length, times := st.times.drop warned.length,
            meets := st.meets.drop warned.length, current := current })
  | _, _, _ => none

/-- The synthetic times `next_time` gives rise to, before sorting (reduce.rs:676-692). -/
def joins (st : ReduceState V1 V2 T R1 R2) (interesting : Bool) (next : T) : List T :=
  joinsPast (updTimes st.batch.buffer) next ++ joinsPast st.current next ++
    (if interesting then
      joinsPast (updTimes st.input.buffer) next ++ joinsPast (updTimes st.output.buffer) next ++ joinsPast (updTimes st.produced) next
    else [])

/-- The determination step (reduce.rs:670-711). -/
def determine (upper : List T) (st : ReduceState V1 V2 T R1 R2) (interesting : Bool) (next : T) : Option (ReduceState V1 V2 T R1 R2) :=
  match (if interesting then st.input.advanceOpt st.meet else some st.input),
      (if interesting then st.output.advanceOpt st.meet else some st.output) with
  | some input, some output =>
    let st := { st with input := input, output := output }
    let temporary := sortDedup (st.joins interesting next)
    let later := temporary.filter fun t => lessEqual upper t
    let now := temporary.filter fun t => !lessEqual upper t
    some { st with pended := st.pended ++ later, synth := if now.isEmpty then st.synth else sortDedup (now ++ st.synth) }
  | _, _ => none

/-- The evaluation step, for interesting times (reduce.rs:713-780). -/
def evaluate (logic : List (V1 × R1) → List (V2 × R2) → List (V2 × R2)) (st : ReduceState V1 V2 T R1 R2) (next : T) :
    Option (ReduceState V1 V2 T R1 R2) :=
  match consolidate (readAt st.input.buffer next ++ readAt st.batch.buffer next), consolidate (readAt st.output.buffer next ++ readAt st.produced next) with
  | some input, some output =>
    if input.isEmpty && output.isEmpty then some st
    else
      match consolidate (logic input output) with
      | none => none
      | some update =>
        if update.isEmpty then some st
        else
          match outputIndex (st.outputs.map (·.1)) next with
          | none => none
          | some idx =>
            let new := update.map fun u => (u.1, next, u.2)
            match consolidateUpdates ((st.produced ++ new).map fun u => (u.1, joinOpt st.meet u.2.1, u.2.2)) with
            | none => none
            | some produced => some { st with produced := produced, outputs := st.outputs.modify idx fun o => (o.1, o.2 ++ new) }
  | _, _ => none

/-- The end of the loop: the meet of all times to come, and `times_current` advanced by it (reduce.rs:792-807). -/
def conclude (st : ReduceState V1 V2 T R1 R2) : ReduceState V1 V2 T R1 R2 :=
  let meet := updateMeet (updateMeet (updateMeet none st.batch.meet) st.input.meet) st.output.meet
  let meet := st.synth.foldl (fun m t => updateMeet m (some t)) meet
  let meet := updateMeet meet st.meets.head?
  { st with meet := meet, current := sortDedup (st.current.map (joinOpt meet)) }

/-- One iteration of the loop (reduce.rs:628-808). -/
def step (upper : List T) (logic : List (V1 × R1) → List (V2 × R2) → List (V2 × R2)) (st : ReduceState V1 V2 T R1 R2) (next : T) :
    Option (ReduceState V1 V2 T R1 R2) :=
  match st.advance next with
  | none => none
  | some (interesting, st) =>
    if lessEqual upper next then
      some (conclude (if interesting then { st with pended := st.pended ++ [next] } else st))
    else
      match st.determine upper interesting next with
      | none => none
      | some st => ((if interesting then st.evaluate logic next else some st)).map conclude

/-- The loop (reduce.rs:621-808), with a bound on the number of iterations; `none` if the bound is reached. -/
def loop (upper : List T) (logic : List (V1 × R1) → List (V2 × R2) → List (V2 × R2)) : Nat → ReduceState V1 V2 T R1 R2 → Option (ReduceState V1 V2 T R1 R2)
  | 0, st =>
    match st.nextTime with
    | none => some st
    | some _ => none
  | fuel + 1, st =>
    match st.nextTime with
    | none => some st
    | some next =>
      match st.step upper logic next with
      | none => none
      | some st => loop upper logic fuel st

end ReduceState

/-- `HistoryReplayer::compute` (reduce.rs:553-810). The cursors are given by the keys they present from their position on. The result is `outputs`, per held time, and
`new_interesting`. -/
def reduceKey {K : Type*} [LinearOrder K] (fuel : Nat) (key : K) (source : Contents K V1 T R1) (output : Contents K V2 T R2) (batch : Contents K V1 T R1)
    (times : List T) (logic : List (V1 × R1) → List (V2 × R2) → List (V2 × R2)) (upper : List T) (held : List T) :
    Option (List (T × Upds V2 T R2) × List T) :=
  match ValueHistory.replayKey batch key none with
  | none => none
  | some batch =>
    let meets := timesMeets times
    let meet := updateMeet (updateMeet none meets.head?) batch.meet
    match ValueHistory.replayKey source key meet, ValueHistory.replayKey output key meet with
    | some input, some output =>
      let st : ReduceState V1 V2 T R1 R2 :=
        { batch := batch, input := input, output := output, synth := [], times := times, meets := meets, current := [], produced := [], meet := meet,
          outputs := held.map fun t => (t, []), pended := [] }
      (st.loop upper logic fuel).map fun st => (st.outputs, sortDedup st.pended)
    | _, _ => none

/-- The closure of `reduce_abelian` (arrangement.rs:280-286). `logic` pushes onto `change`, which is empty. -/
def abelianLogic [Neg R2] (logic : List (V1 × R1) → List (V2 × R2)) (input : List (V1 × R1)) (output : List (V2 × R2)) : List (V2 × R2) :=
  let change := if input.isEmpty then [] else logic input
  (consolidate (change ++ output.map fun o => (o.1, -o.2))).getD []

end

end DD
