import Verif.Model.Discover

/-!
# Model of the reference implementation of `reduce`, for one key

Models `reference::ReferenceThinker::compute` (operators/reduce.rs:1115-1322), the two-phase computation behind `reduce_trace_reference` (835-853). The simplifications are those of the
model of `HistoryReplayer::compute` (Model/Reduce.lean).
-/

namespace DD

/-- The variables of the first phase (reduce.rs:1145-1167): the three replays of times, `synth_times` (back to front), `times_slice`, `meets_slice`, `times_current`, `meet`,
`active`, and the argument `new_interesting`. -/
structure ReferenceState (T : Type*) where
  batch : TimeHistory T
  input : TimeHistory T
  output : TimeHistory T
  synth : List T
  times : List T
  meets : List T
  current : List T
  meet : Option T
  active : List T
  pended : List T

section
variable {T : Type*} [Lattice T] [DecidableLE T] [DecidableEq T] [LinearOrder (Lin T)]

namespace ReferenceState

/-- The condition of the loop (reduce.rs:1169-1174). -/
def nextTime (st : ReferenceState T) : Option T :=
  minTime [st.batch.time, st.times.head?, st.input.time, st.output.time, st.synth.head?]

/-- Step the replays, take the synthetic and pending times equal to `next_time`, and decide whether it is interesting (reduce.rs:1176-1196). -/
def advance (st : ReferenceState T) (next : T) : Bool × ReferenceState T :=
  let input := (st.input.stepWhileTimeIs next).2
  let output := (st.output.stepWhileTimeIs next).2
  let stepped := st.batch.stepWhileTimeIs next
  let batch := if stepped.1 then stepped.2.advanceOpt st.meet else stepped.2
  let synths := st.synth.takeWhile fun t => decide (t = next)
  let warned := st.times.takeWhile fun t => decide (t = next)
  let current := st.current ++ synths ++ warned
  let interesting := stepped.1 || !synths.isEmpty || !warned.isEmpty || batch.buffer.any (fun t => decide (t ≤ next)) || current.any fun t => decide (t ≤ next)
  (interesting,
    { st with
        input := input, output := output, batch := batch, synth := st.synth.drop synths.length, times := st.times.drop warned.length,
        meets := st.meets.drop warned.length, current := current })

/-- The vector `temporary`, before sorting (reduce.rs:1204-1208). -/
def joins (st : ReferenceState T) (interesting : Bool) (next : T) : List T :=
  (if interesting then joinsPast st.input.buffer next ++ joinsPast st.output.buffer next else []) ++ joinsPast st.batch.buffer next ++ joinsPast st.current next

/-- The branch for times not at or beyond `upper_limit` (reduce.rs:1198-1219). -/
def determine (upper : List T) (st : ReferenceState T) (interesting : Bool) (next : T) : ReferenceState T :=
  let st := if interesting then { st with active := st.active ++ [next], input := st.input.advanceOpt st.meet, output := st.output.advanceOpt st.meet } else st
  let temporary := sortDedup (st.joins interesting next)
  let later := temporary.filter fun t => lessEqual upper t
  let now := temporary.filter fun t => !lessEqual upper t
  { st with pended := st.pended ++ later, synth := if now.isEmpty then st.synth else sortDedup (now ++ st.synth) }

/-- The end of the loop: the meet of all times to come, and `times_current` advanced by it (reduce.rs:1225-1236). -/
def conclude (st : ReferenceState T) : ReferenceState T :=
  let meet := updateMeet (updateMeet (updateMeet none st.batch.meet) st.input.meet) st.output.meet
  let meet := st.synth.foldl (fun m t => updateMeet m (some t)) meet
  let meet := updateMeet meet st.meets.head?
  { st with meet := meet, current := sortDedup (st.current.map (joinOpt meet)) }

/-- One iteration of the loop (reduce.rs:1175-1237). -/
def step (upper : List T) (st : ReferenceState T) (next : T) : ReferenceState T :=
  let (interesting, st) := st.advance next
  conclude (if lessEqual upper next then (if interesting then { st with pended := st.pended ++ [next] } else st) else st.determine upper interesting next)

/-- The loop (reduce.rs:1169-1237), with a bound on the number of iterations; `none` if the bound is reached. -/
def loop (upper : List T) : Nat → ReferenceState T → Option (ReferenceState T)
  | 0, st =>
    match st.nextTime with
    | none => some st
    | some _ => none
  | fuel + 1, st =>
    match st.nextTime with
    | none => some st
    | some next => loop upper fuel (st.step upper next)

end ReferenceState
end

/-- The variables of the second phase (reduce.rs:1254-1259): the three replays, `output_produced`, and the argument `outputs`. -/
structure ApplyState (V1 V2 T R1 R2 : Type*) where
  batch : ValueHistory V1 T R1
  input : ValueHistory V1 T R1
  output : ValueHistory V2 T R2
  produced : Upds V2 T R2
  outputs : List (T × Upds V2 T R2)

section
variable {V1 V2 T R1 R2 : Type*} [Lattice T] [DecidableLE T] [DecidableEq T] [LinearOrder (Lin T)] [LinearOrder V1] [LinearOrder V2]
  [AddCommMonoid R1] [DecidableEq R1] [AddCommMonoid R2] [DecidableEq R2]

namespace ApplyState

/-- The histories catch up with `next_time`, and are advanced (reduce.rs:1275-1280). -/
def catchUp (st : ApplyState V1 V2 T R1 R2) (next meet : T) : Option (ApplyState V1 V2 T R1 R2) :=
  match (st.input.stepThrough next).bind (·.advanceBufferBy meet), (st.batch.stepThrough next).bind (·.advanceBufferBy meet),
      (st.output.stepThrough next).bind (·.advanceBufferBy meet) with
  | some input, some batch, some output => some { st with input := input, batch := batch, output := output }
  | _, _, _ => none

/-- The correction of the output at `next_time` (reduce.rs:1282-1318). -/
def correct (logic : List (V1 × R1) → List (V2 × R2) → List (V2 × R2)) (st : ApplyState V1 V2 T R1 R2) (next meet : T) : Option (ApplyState V1 V2 T R1 R2) :=
  match consolidate (readAt st.input.buffer next ++ readAt st.batch.buffer next), consolidate (readAt st.output.buffer next ++ readAt st.produced next) with
  | some input, some output =>
    if input.isEmpty && output.isEmpty then some st
    else
      match consolidate (logic input output) with
      | none => none
      | some update =>
        if update.isEmpty then some st
        else
          match outputIndex (st.outputs.map (·.1)) next with
          | none => none
          | some idx =>
            let new := update.map fun u => (u.1, next, u.2)
            match consolidateUpdates ((st.produced ++ new).map fun u => (u.1, u.2.1 ⊔ meet, u.2.2)) with
            | none => none
            | some produced => some { st with produced := produced, outputs := st.outputs.modify idx fun o => (o.1, o.2 ++ new) }
  | _, _ => none

/-- The loop over the active times and the meets of their suffixes (reduce.rs:1261-1319). -/
def loop (logic : List (V1 × R1) → List (V2 × R2) → List (V2 × R2)) : List T → List T → ApplyState V1 V2 T R1 R2 → Option (ApplyState V1 V2 T R1 R2)
  | [], _, st => some st
  | _ :: _, [], _ => none
  | next :: active, meet :: meets, st =>
    match st.catchUp next meet with
    | none => none
    | some st =>
      match st.correct logic next meet with
      | none => none
      | some st => loop logic active meets st

end ApplyState

/-- `ReferenceThinker::compute` (reduce.rs:1115-1322). The cursors are given by the keys they present from their position on. The result is `outputs`, per held time, and
`new_interesting`. -/
def referenceKey {K : Type*} [LinearOrder K] (fuel : Nat) (key : K) (source : Contents K V1 T R1) (output : Contents K V2 T R2) (batch : Contents K V1 T R1)
    (times : List T) (logic : List (V1 × R1) → List (V2 × R2) → List (V2 × R2)) (upper : List T) (held : List T) :
    Option (List (T × Upds V2 T R2) × List T) :=
  match ValueHistory.replayKey batch key none, ValueHistory.replayKey source key none, ValueHistory.replayKey output key none with
  | some batch, some input, some output =>
    let st : ReferenceState T :=
      { batch := TimeHistory.ofHistory batch, input := TimeHistory.ofHistory input, output := TimeHistory.ofHistory output, synth := [], times := times,
        meets := timesMeets times, current := [], meet := none, active := [], pended := [] }
    match st.loop upper fuel with
    | none => none
    | some st =>
      let active := sortDedup st.active
      let walk : ApplyState V1 V2 T R1 R2 :=
        { batch := batch.walk, input := input.walk, output := output.walk, produced := [], outputs := held.map fun t => (t, []) }
      (ApplyState.loop logic active (timesMeets active) walk).map fun w => (w.outputs, st.pended)
  | _, _, _ => none

end
end DD
