import Verif.Model.Containers
import Verif.Model.MergeBatcher
import Verif.Model.Writer

/-!
# Model of `arrange_core` (operators/arrange/arrangement.rs:352-521)

The chunker, the batcher and the writer are the models of `ContainerChunker`, `MergeBatcher` and `TraceWriter`. The batch made by the builder from a chain is
modelled by the updates of the chain (C12 and C13 are about the builders). Capabilities are modelled by their times; `cap` is the target capacity of the batcher's
merger. Logging, activation, exertion and the exchange of data between workers are not modelled: the messages are those that reach one worker.
-/

namespace DD

/-- One activation: messages with the time of their capability, and the frontier shown. The `Bool` beside each update is the answer of `at_capacity`
once that update is pushed into the chunker, which depends on the allocator. -/
structure ArrAct (D T R : Type*) where
  msgs : List (T × List ((D × T × R) × Bool))
  frontier : List T

/-- The variables captured by the operator's closure (arrangement.rs:390-417), with the messages sent so far. -/
structure ArrState (D T R : Type*) where
  batcher : MergeBatcher D T R
  capabilities : List T
  writer : TraceWriter D T R
  prevFrontier : List T
  chunker : Chunker D T R
  sent : List (T × ArrBatch D T R)

namespace ArrState
variable {D T R : Type*} [LinearOrder D] [LinearOrder (Lin T)] [AddCommMonoid R] [DecidableEq R] [LE T] [DecidableLE T] [DecidableEq T] [Bot T]

/-- The initial values (arrangement.rs:390-417). -/
def init : ArrState D T R :=
  { batcher := MergeBatcher.init, capabilities := [], writer := TraceWriter.new ⊥, prevFrontier := [⊥], chunker := Chunker.init, sent := [] }

/-- `chunker.push_into(data)` (arrangement.rs:427; chunker.rs:38-51). -/
def pushAll (c : Chunker D T R) : List ((D × T × R) × Bool) → Option (Chunker D T R)
  | [] => some c
  | (u, full) :: rest =>
    match c.pushItem u full with
    | none => none
    | some c => pushAll c rest

/-- `while let Some(chunk) = chunker.extract() { batcher.push_into(std::mem::take(chunk)) }` (arrangement.rs:428-430). The first argument bounds the
number of iterations. -/
def drainExtract (cap : Nat) : Nat → Chunker D T R → MergeBatcher D T R → Chunker D T R × MergeBatcher D T R
  | 0, c, b => (c, b)
  | fuel + 1, c, b =>
    match c.extract [] with
    | (c, none) => (c, b)
    | (c, some chunk) => drainExtract cap fuel c (b.push cap chunk)

/-- `while let Some(chunk) = chunker.finish() { batcher.push_into(std::mem::take(chunk)) }` (arrangement.rs:448-450). -/
def drainFinish (cap : Nat) : Nat → Chunker D T R → MergeBatcher D T R → Option (Chunker D T R × MergeBatcher D T R)
  | 0, c, b => some (c, b)
  | fuel + 1, c, b =>
    match c.finish [] with
    | none => none
    | some (c, none) => some (c, b)
    | some (c, some chunk) => drainFinish cap fuel c (b.push cap chunk)

/-- The body of `input.for_each` (arrangement.rs:425-431). -/
def receive (cap : Nat) (s : ArrState D T R) (m : T × List ((D × T × R) × Bool)) : Option (ArrState D T R) :=
  let capabilities := acInsert s.capabilities m.1
  match pushAll s.chunker m.2 with
  | none => none
  | some chunker =>
    let r := drainExtract cap (chunker.ready.length + 1) chunker s.batcher
    some { s with capabilities := capabilities, chunker := r.1, batcher := r.2 }

/-- All messages of an activation. -/
def receiveAll (cap : Nat) (s : ArrState D T R) : List (T × List ((D × T × R) × Bool)) → Option (ArrState D T R)
  | [] => some s
  | m :: ms =>
    match s.receive cap m with
    | none => none
    | some s => receiveAll cap s ms

/-- The body of the loop over capabilities (arrangement.rs:472-495), for a capability with the given subsequent capabilities. -/
def retire (cap : Nat) (frontier : List T) (s : ArrState D T R) (capability : T) (others : List T) : Option (ArrState D T R) :=
  if lessEqual frontier capability then some s
  else
    let upper := acExtend (acExtend [] frontier) others
    let r := s.batcher.seal cap upper
    let batch : ArrBatch D T R := ⟨r.2.2, r.2.1.flatten⟩
    match s.writer.insert batch (some capability) with
    | none => none
    | some writer => some { s with batcher := r.1, writer := writer, sent := s.sent ++ [(capability, batch)] }

/-- The loop over capabilities (arrangement.rs:470-496), on the capabilities that remain. -/
def retireAll (cap : Nat) (frontier : List T) (s : ArrState D T R) : List T → Option (ArrState D T R)
  | [] => some s
  | capability :: others =>
    match s.retire cap frontier capability others with
    | none => none
    | some s => retireAll cap frontier s others

/-- The computation of the new capabilities (arrangement.rs:503-511); `none` is the panic. -/
def newCaps (capabilities : List T) : List T → List T → Option (List T)
  | acc, [] => some acc
  | acc, time :: times =>
    if lessEqual capabilities time then newCaps capabilities (acInsert acc time) times else none

/-- One activation (arrangement.rs:419-515). -/
def activate (cap : Nat) (s : ArrState D T R) (act : ArrAct D T R) : Option (ArrState D T R) :=
  match s.receiveAll cap act.msgs with
  | none => none
  | some s =>
    if acLe s.prevFrontier act.frontier then
      if acEq s.prevFrontier act.frontier then some s
      else
        match drainFinish cap (s.chunker.ready.length + 2) s.chunker s.batcher with
        | none => none
        | some (chunker, batcher) =>
          let s := { s with chunker := chunker, batcher := batcher }
          if s.capabilities.any (fun c => !lessEqual act.frontier c) then
            match s.retireAll cap act.frontier s.capabilities with
            | none => none
            | some s =>
              match newCaps s.capabilities [] s.batcher.frontier with
              | none => none
              | some capabilities => some { s with capabilities := capabilities, prevFrontier := acExtend [] act.frontier }
          else
            let batcher := (s.batcher.seal cap act.frontier).1
            match s.writer.sealTo ⊥ act.frontier with
            | none => none
            | some writer => some { s with batcher := batcher, writer := writer, prevFrontier := acExtend [] act.frontier }
    else none

/-- A sequence of activations. -/
def run (cap : Nat) (s : ArrState D T R) : List (ArrAct D T R) → Option (ArrState D T R)
  | [] => some s
  | act :: acts =>
    match s.activate cap act with
    | none => none
    | some s => run cap s acts

end ArrState

end DD
