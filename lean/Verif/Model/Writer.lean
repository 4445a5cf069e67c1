import Verif.Model.Lattice
import Verif.Model.MergeBatcher

/-!
# Model of `operators/arrange/writer.rs`: `TraceWriter`

A batch is modelled by its description and its updates; that the batches of `ord_neu.rs` are such is the subject of C12 and C13. The shared trace is
modelled by the list of batches inserted into it; what the spine makes of them is the subject of C14 to C17. Each private queue that is still alive is a list of
instructions, oldest first. Activations are not modelled.
-/

namespace DD

/-- A batch. -/
@[ext] structure ArrBatch (D T R : Type*) where
  desc : Description T
  upds : Upds D T R

/-- `TraceReplayInstruction` (arrange/mod.rs:51-56). -/
inductive Replay (D T R : Type*) where
  /-- Describes a frontier advance. -/
  | frontier (f : List T)
  /-- Describes a batch of data and a capability hint. -/
  | batch (b : ArrBatch D T R) (hint : Option T)

/-- `TraceWriter` (writer.rs:21-28). -/
structure TraceWriter (D T R : Type*) where
  upper : List T
  trace : List (ArrBatch D T R)
  queues : List (List (Replay D T R))

namespace TraceWriter
variable {D T R : Type*} [LE T] [DecidableLE T] [DecidableEq T]

/-- `TraceWriter::new` as used by `TraceAgent::new` (agent.rs:96-100). -/
def new (minimum : T) : TraceWriter D T R := ⟨[minimum], [], []⟩

/-- `insert` (writer.rs:58-84). `none` is a failed assertion. -/
def insert (w : TraceWriter D T R) (batch : ArrBatch D T R) (hint : Option T) : Option (TraceWriter D T R) :=
  if acEq w.upper batch.desc.lower then
    if acEq batch.desc.lower batch.desc.upper then none
    else some
      { upper := batch.desc.upper
        trace := w.trace ++ [batch]
        queues := w.queues.map fun q => q ++ [.batch batch hint, .frontier batch.desc.upper] }
  else none

/-- `seal` (writer.rs:87-91), also run by `Drop` with an empty frontier (writer.rs:94-98). `Batch::empty` has the least `since`. -/
def sealTo (minimum : T) (w : TraceWriter D T R) (upper : List T) : Option (TraceWriter D T R) :=
  if acEq w.upper upper then some w
  else w.insert ⟨⟨w.upper, upper, [minimum]⟩, []⟩ none

end TraceWriter

end DD
