import Verif.Model.Cursor
import Verif.Model.Lattice
import Verif.Model.MergeBatcher

/-!
# Model of `trace/wrappers/{enter.rs, enter_at.rs, frontier.rs}`

A wrapped batch holds the batch, and a wrapped cursor the cursor; all methods are passed on, except `map_times`. `to_inner` and `to_outer` are the
functions of `Refines`.
-/

namespace DD
variable {C S K V T T2 R : Type*}

/-- `BatchCursorEnter` (enter.rs:163-205). -/
def enterOps (to_inner : T → T2) (ops : CursorOps C S K V T R) : CursorOps C S K V T2 R where
  key_valid := ops.key_valid
  val_valid := ops.val_valid
  key := ops.key
  val := ops.val
  get_key := ops.get_key
  get_val := ops.get_val
  map_times s c := (ops.map_times s c).map fun us => us.map fun (time, diff) => (to_inner time, diff)
  step_key := ops.step_key
  seek_key := ops.seek_key
  step_val := ops.step_val
  seek_val := ops.seek_val
  rewind_keys := ops.rewind_keys
  rewind_vals := ops.rewind_vals

/-- `BatchCursorEnter` (enter_at.rs:192-240). -/
def enterAtOps (logic : K → V → T → T2) (ops : CursorOps C S K V T R) : CursorOps C S K V T2 R where
  key_valid := ops.key_valid
  val_valid := ops.val_valid
  key := ops.key
  val := ops.val
  get_key := ops.get_key
  get_val := ops.get_val
  map_times s c :=
    match ops.key s c, ops.val s c with
    | some key, some val => (ops.map_times s c).map fun us => us.map fun (time, diff) => (logic key val time, diff)
    | _, _ => none
  step_key := ops.step_key
  seek_key := ops.seek_key
  step_val := ops.step_val
  seek_val := ops.seek_val
  rewind_keys := ops.rewind_keys
  rewind_vals := ops.rewind_vals

/-- The body of `map_times` of `BatchCursorFrontier` (frontier.rs:154-165). -/
def frontierTimes [Lattice T] [DecidableLE T] (since until_ : List T) (us : List (T × R)) : List (T × R) :=
  us.filterMap fun (time, diff) =>
    let temp := advanceBy time since
    if !lessEqual until_ temp then some (temp, diff) else none

/-- `BatchCursorFrontier` (frontier.rs:128-175). -/
def frontierOps [Lattice T] [DecidableLE T] (since until_ : List T) (ops : CursorOps C S K V T R) : CursorOps C S K V T R where
  key_valid := ops.key_valid
  val_valid := ops.val_valid
  key := ops.key
  val := ops.val
  get_key := ops.get_key
  get_val := ops.get_val
  map_times s c := (ops.map_times s c).map (frontierTimes since until_)
  step_key := ops.step_key
  seek_key := ops.seek_key
  step_val := ops.step_val
  seek_val := ops.seek_val
  rewind_keys := ops.rewind_keys
  rewind_vals := ops.rewind_vals

/-- The description of a wrapped batch (enter.rs:134-143, enter_at.rs:157-167). -/
def enterDescription [LE T2] [DecidableLE T2] (to_inner : T → T2) (d : Description T) : Description T2 :=
  ⟨acExtend [] (d.lower.map to_inner), acExtend [] (d.upper.map to_inner), acExtend [] (d.since.map to_inner)⟩

/-- The frontier passed on to the wrapped trace by `set_logical_compaction`, `set_physical_compaction` and `batches_through` (enter.rs:42-80), and
with `prior` for `to_outer` by `set_logical_compaction` and `set_physical_compaction` of `enter_at.rs:61-82`. -/
def outerFrontier [LE T] [DecidableLE T] (to_outer : T2 → T) (frontier : List T2) : List T := acExtend [] (frontier.map to_outer)

/-- The frontier reported by `get_logical_compaction` and `get_physical_compaction` (enter.rs:49-55, 64-70; enter_at.rs:68-74, 83-89). -/
def innerFrontier [LE T2] [DecidableLE T2] (to_inner : T → T2) (frontier : List T) : List T2 := acExtend [] (frontier.map to_inner)

end DD
