import Verif.Model.Reduce

/-!
# Finding the times at which a key's reduction must be evaluated

Models `discover_times` (operators/common.rs:249-376), the first phase of the proxy reduce tactic. The vectors of `DiscoverScratch` are fresh for each call: `load` and
`load_iter` reset the replays and the rest is cleared (common.rs:264-270). Stacks read through `last()` are stored back to front. Value identifiers are of any type.
-/

namespace DD

/-- The variables of the loop of `discover_times` (common.rs:263-290): `batch_replay`, `input_replay`, `output_replay`, `synth` (back to front), `times_slice`, `meets_slice`,
`times_current`, `meet`, and the arguments `moments` and `pended`. -/
structure DiscoverState (V T R : Type*) where
  batch : TimeHistory T
  input : ValueHistory V T R
  output : TimeHistory T
  synth : List T
  times : List T
  meets : List T
  current : List T
  meet : Option T
  moments : List T
  pended : List T

/-- `if let Some(m) = meet.as_ref() { replay.advance_buffer_by(m) }` (common.rs:302-304, 331-333). -/
def TimeHistory.advanceOpt {T : Type*} [Max T] [LinearOrder (Lin T)] [DecidableEq T] (h : TimeHistory T) (meet : Option T) : TimeHistory T :=
  match meet with
  | some m => h.advanceBufferBy m
  | none => h

section
variable {V T R : Type*} [Lattice T] [DecidableLE T] [DecidableEq T] [LinearOrder (Lin T)] [LinearOrder V] [AddCommMonoid R] [DecidableEq R]

namespace DiscoverState

/-- The condition of the loop (common.rs:292-296). -/
def nextTime (st : DiscoverState V T R) : Option T :=
  minTime [st.batch.time, st.times.head?, st.input.time, st.output.time, st.synth.head?]

/-- Step the replays, take the synthetic and pending times equal to `next_time`, and decide whether it is interesting (common.rs:298-317). -/
def advance (st : DiscoverState V T R) (next : T) : Option (Bool × DiscoverState V T R) :=
  match st.input.stepWhileTimeIs next with
  | none => none
  | some (_, input) =>
    let output := (st.output.stepWhileTimeIs next).2
    let stepped := st.batch.stepWhileTimeIs next
    let batch := if stepped.1 then stepped.2.advanceOpt st.meet else stepped.2
    let synths := st.synth.takeWhile fun t => decide (t = next)
    let warned := st.times.takeWhile fun t => decide (t = next)
    let current := st.current ++ synths ++ warned
    let interesting := stepped.1 || !synths.isEmpty || !warned.isEmpty || batch.buffer.any (fun t => decide (t ≤ next)) || current.any fun t => decide (t ≤ next)
    some (interesting,
      { st with
          input := input, output := output, batch := batch, synth := st.synth.drop synths.length, times := st.times.drop warned.length,
          meets := st.meets.drop warned.length, current := current })

/-- The vector `temporary`, before sorting (common.rs:323-342). -/
def joins (st : DiscoverState V T R) (interesting : Bool) (next : T) : List T :=
  (if interesting then joinsPast (updTimes st.input.buffer) next ++ joinsPast st.output.buffer next else []) ++
    joinsPast st.batch.buffer next ++ joinsPast st.current next

/-- The branch for times not at or beyond `upper` (common.rs:319-355). -/
def determine (upper : List T) (st : DiscoverState V T R) (interesting : Bool) (next : T) : Option (DiscoverState V T R) :=
  match (if interesting then st.input.advanceOpt st.meet else some st.input) with
  | none => none
  | some input =>
    let output := if interesting then st.output.advanceOpt st.meet else st.output
    let st := { st with input := input, output := output }
    let temporary := sortDedup (st.joins interesting next)
    let later := temporary.filter fun t => lessEqual upper t
    let now := temporary.filter fun t => !lessEqual upper t
    some { st with
      moments := if interesting then st.moments ++ [next] else st.moments
      pended := st.pended ++ later
      synth := if now.isEmpty then st.synth else sortDedup (now ++ st.synth) }

/-- The end of the loop: the meet of all times to come, and `times_current` advanced by it (common.rs:360-373). -/
def conclude (st : DiscoverState V T R) : DiscoverState V T R :=
  let meet := updateMeet (updateMeet (updateMeet none st.batch.meet) st.input.meet) st.output.meet
  let meet := st.synth.foldl (fun m t => updateMeet m (some t)) meet
  let meet := updateMeet meet st.meets.head?
  { st with meet := meet, current := sortDedup (st.current.map (joinOpt meet)) }

/-- One iteration of the loop (common.rs:297-374). -/
def step (upper : List T) (st : DiscoverState V T R) (next : T) : Option (DiscoverState V T R) :=
  match st.advance next with
  | none => none
  | some (interesting, st) =>
    if lessEqual upper next then some (conclude (if interesting then { st with pended := st.pended ++ [next] } else st))
    else (st.determine upper interesting next).map conclude

/-- The loop (common.rs:292-374), with a bound on the number of iterations; `none` if the bound is reached. -/
def loop (upper : List T) : Nat → DiscoverState V T R → Option (DiscoverState V T R)
  | 0, st =>
    match st.nextTime with
    | none => some st
    | some _ => none
  | fuel + 1, st =>
    match st.nextTime with
    | none => some st
    | some next =>
      match st.step upper next with
      | none => none
      | some st => loop upper fuel st

end DiscoverState

/-- `discover_times` (common.rs:249-376): `records` are the key's records `p_in[i0..i1]`, without the key. The result is `moments` and `pended`, which the caller clears
first (int_proxy/reduce.rs:206-207). -/
def discoverTimes (fuel : Nat) (records : Upds V T R) (pending seedTimes outTimes upper : List T) : Option (List T × List T) :=
  let batch := TimeHistory.load seedTimes none
  let meets := timesMeets pending
  let meet := updateMeet (updateMeet none meets.head?) batch.meet
  match ValueHistory.loadIter records meet with
  | none => none
  | some input =>
    let st : DiscoverState V T R :=
      { batch := batch, input := input, output := TimeHistory.load outTimes meet, synth := [], times := pending, meets := meets, current := [], meet := meet,
        moments := [], pended := [] }
    (st.loop upper fuel).map fun st => (st.moments, sortDedup st.pended)

end

end DD
