import Verif.Model.Writer

/-!
# Model of importing a trace: `new_listener`, `import_core`, `import_frontier_core` (operators/arrange/agent.rs)

The trace's writer is the model of `TraceWriter`; each listener owns the private queue with its number. What `map_batches` shows when a listener is created depends
on how far the trace has merged its batches: it is a parameter. Timely's `CapabilitySet` (external) is modelled by the times of its capabilities: `delayed(time)`
panics unless some capability is at or before `time`, and `downgrade(frontier)` delays to each element of the frontier and drops the rest. What the importing
operator does is logged. Activation is not modelled.
-/

namespace DD

/-- What an importing operator does that others can see. -/
inductive ImportEvent (D T R : Type*)
  /-- sends a batch with a capability -/
  | sent (c : T) (b : ArrBatch D T R)
  /-- downgrades its capabilities -/
  | frontier (F : List T)

/-- The state captured by the closure of `import_core` (agent.rs:272-282) or `import_frontier_core` (agent.rs:410-421). In the latter, `window` is
`some until`. `live` is false when the shutdown button was pressed. -/
structure Importer (D T R : Type*) where
  window : Option (List T)
  capabilities : List T
  live : Bool
  log : List (ImportEvent D T R)

namespace Importer
variable {D T R : Type*} [LE T] [DecidableLE T] [Bot T]

/-- `capabilities.downgrade(frontier)`. -/
def downgrade (s : Importer D T R) (frontier : List T) : Option (Importer D T R) :=
  if frontier.all (lessEqual s.capabilities) then some { s with capabilities := frontier, log := s.log ++ [.frontier frontier] } else none

/-- One instruction, when not skipped (agent.rs:291-303 and 430-448). -/
def obey (s : Importer D T R) : Replay D T R → Option (Importer D T R)
  | .frontier frontier =>
    match s.window with
    | none => s.downgrade frontier
    | some limit => if acLe limit frontier then s.downgrade [] else s.downgrade frontier
  | .batch _ none => some s
  | .batch batch (some time) =>
    if !batch.upds.isEmpty then
      if lessEqual s.capabilities time then some { s with log := s.log ++ [.sent time batch] } else none
    else some s

/-- One instruction (agent.rs:290-304 and 426-450); `import_frontier_core` skips instructions once it has no capabilities. -/
def consume (s : Importer D T R) (instruction : Replay D T R) : Option (Importer D T R) :=
  match s.window with
  | none => s.obey instruction
  | some _ => if !s.capabilities.isEmpty then s.obey instruction else some s

/-- The loop over the drained queue (agent.rs:290, 426). -/
def consumeAll (s : Importer D T R) : List (Replay D T R) → Option (Importer D T R)
  | [] => some s
  | i :: is =>
    match s.consume i with
    | none => none
    | some s => consumeAll s is

end Importer

/-- A trace's writer and all operators importing the trace. -/
structure Sharing (D T R : Type*) where
  writer : TraceWriter D T R
  importers : List (Importer D T R)

/-- What may happen to them. -/
inductive ShareOp (D T R : Type*)
  /-- the writer inserts a batch with a capability hint -/
  | insert (b : ArrBatch D T R) (hint : Option T)
  /-- the writer seals without data -/
  | close (upper : List T)
  /-- an import starts, when the trace shows these batches -/
  | listen (window : Option (List T)) (shown : List (ArrBatch D T R))
  /-- an importing operator is activated -/
  | activate (i : Nat)
  /-- a shutdown button is pressed (agent.rs:460-463) -/
  | press (i : Nat)

namespace Sharing
variable {D T R : Type*} [LE T] [DecidableLE T] [DecidableEq T] [Bot T]

/-- The queue made by `new_listener` (agent.rs:112-128). -/
def listenQueue (shown : List (ArrBatch D T R)) : List (Replay D T R) :=
  let queue := shown.map fun b => Replay.batch b (some ⊥)
  match shown.getLast? with
  | none => queue
  | some b => queue ++ [.frontier b.desc.upper]

/-- One event. `none` is a panic. -/
def step (s : Sharing D T R) : ShareOp D T R → Option (Sharing D T R)
  | .insert b hint =>
    match s.writer.insert b hint with
    | none => none
    | some w => some { s with writer := w }
  | .close upper =>
    match s.writer.sealTo ⊥ upper with
    | none => none
    | some w => some { s with writer := w }
  | .listen window shown =>
    some { writer := { s.writer with queues := s.writer.queues ++ [listenQueue shown] }
           importers := s.importers ++ [{ window := window, capabilities := [⊥], live := true, log := [] }] }
  | .activate i =>
    match s.importers[i]? with
    | none => some s
    | some imp =>
      if imp.live then
        match imp.consumeAll (s.writer.queues.getD i []) with
        | none => none
        | some imp => some { writer := { s.writer with queues := s.writer.queues.set i [] }, importers := s.importers.set i imp }
      else some s
  | .press i =>
    match s.importers[i]? with
    | none => some s
    | some imp => some { s with importers := s.importers.set i { imp with live := false } }

/-- A sequence of events. -/
def run (s : Sharing D T R) : List (ShareOp D T R) → Option (Sharing D T R)
  | [] => some s
  | op :: ops =>
    match s.step op with
    | none => none
    | some s => run s ops

end Sharing

end DD
