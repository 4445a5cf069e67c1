import Verif.Model.Spine
import Verif.Model.Cursor

/-!
# Cursors over traces

Models the provided methods `cursor` and `cursor_through` of `TraceReader` (differential-dataflow/src/trace/mod.rs:63-80) for the spine, and
`cursor_list` (differential-dataflow/src/trace/cursor/mod.rs:53-62). The batches of a spine are reference counted; the wrapper `RcBatchCursor`
(trace/mod.rs:327-420), which forwards each call, is not modelled.
-/

namespace DD
variable {B M S C K V T R : Type*}

/-- `cursor_list` (cursor/mod.rs:58-62). -/
def cursorList [LinearOrder K] [LinearOrder V] (cops : CursorOps C S K V T R) (cursor : S → C) (batches : List S) : Option (CursorList C × List S) :=
  match CursorList.new cops (batches.map cursor) batches with
  | none => none
  | some l => some (l, batches)

/-- `cursor_through` (mod.rs:78-80). `storage` is what the cursors of a batch read. -/
def Spine.cursorThrough [LinearOrder K] [LinearOrder V] [LE T] [DecidableLE T] [DecidableEq T] [Bot T] (ops : BatchOps B M T) (cops : CursorOps C S K V T R)
    (storage : B → S) (cursor : S → C) (s : Spine B M T) (upper : List T) : Option (CursorList C × List S) :=
  match s.batchesThrough ops upper with
  | none => none
  | some bs => cursorList cops cursor (bs.map storage)

/-- `cursor` (mod.rs:64-71). -/
def Spine.cursor [LinearOrder K] [LinearOrder V] [LE T] [DecidableLE T] [DecidableEq T] [Bot T] (ops : BatchOps B M T) (cops : CursorOps C S K V T R)
    (storage : B → S) (cursor : S → C) (s : Spine B M T) : Option (CursorList C × List S) :=
  s.cursorThrough ops cops storage cursor []

end DD
