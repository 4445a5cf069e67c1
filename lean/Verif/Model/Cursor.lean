import Verif.Model.OrdKey
import Verif.Spec.Cursor

/-!
# Model of `trace/cursor/{mod.rs, cursor_list.rs}`

`CursorOps` is the trait `Cursor`: each method takes the storage and the cursor and returns the result or the new cursor; `none` is a panic.
-/

namespace DD

/-- `trait Cursor` (trace/cursor/mod.rs:65-139), the required methods. `map_times` yields the sequence of calls made to `logic`. -/
structure CursorOps (C S K V T R : Type*) where
  key_valid : S → C → Option Bool
  val_valid : S → C → Option Bool
  key : S → C → Option K
  val : S → C → Option V
  get_key : S → C → Option (Option K)
  get_val : S → C → Option (Option V)
  map_times : S → C → Option (List (T × R))
  step_key : S → C → Option C
  seek_key : S → C → K → Option C
  step_val : S → C → Option C
  seek_val : S → C → V → Option C
  rewind_keys : S → C → Option C
  rewind_vals : S → C → Option C

section
variable {K V T R : Type*} [LinearOrder K] [LinearOrder V]

/-- `impl Cursor for OrdValCursor` (ord_neu.rs:579-642). -/
def ValCursor.ops : CursorOps ValCursor (ValStorage K V T R) K V T R where
  key_valid s c := some (c.key_valid s)
  val_valid s c := c.val_valid s
  key s c := c.key s
  val s c := c.val s
  get_key s c := some (c.key s)
  get_val s c :=
    match c.val_valid s with
    | none => none
    | some false => some none
    | some true => (c.val s).map some
  map_times s c := c.map_times s
  step_key s c := c.step_key s
  seek_key s c k := c.seek_key s k
  step_val s c := c.step_val s
  seek_val s c v := c.seek_val s v
  rewind_keys s c := c.rewind_keys s
  rewind_vals s c := c.rewind_vals s

/-- `impl Cursor for OrdKeyCursor` (ord_neu.rs:1000-1059). The value is the constant default value of the value container
(ord_neu.rs:1021), here the unit. -/
def KeyCursor.ops : CursorOps KeyCursor (KeyStorage K T R) K Unit T R where
  key_valid s c := some (c.key_valid s)
  val_valid _ c := some c.val_valid
  key s c := c.key s
  val _ _ := some ()
  get_key s c := some (c.key s)
  get_val _ c := if c.val_valid then some (some ()) else some none
  map_times s c := c.map_times s
  step_key s c := some (c.step_key s)
  seek_key s c k := c.seek_key s k
  step_val _ c := some c.step_val
  seek_val _ c _ := some c
  rewind_keys s c := some (c.rewind_keys s)
  rewind_vals _ c := some c.rewind_vals

end

/-- `CursorList` (cursor_list.rs:9-14). -/
structure CursorList (C : Type*) where
  cursors : List C
  min_key : List Nat
  min_val : List Nat

section
variable {C S K V T R : Type*} [LinearOrder K] [LinearOrder V]

/-- One iteration of the loops in `minimize_keys` (cursor_list.rs:46-65) and `minimize_vals` (cursor_list.rs:84-103). -/
def minStep {A : Type*} [LinearOrder A] (get : Nat → Option (Option A)) (st : List Nat × Option A) (idx : Nat) :
    Option (List Nat × Option A) :=
  match get idx with
  | none => none
  | some none => some st
  | some (some key) =>
    match st.2 with
    | none => some (st.1 ++ [idx], some key)
    | some min =>
      if key < min then some ([idx], some key)
      else if key = min then some (st.1 ++ [idx], some min)
      else some st

/-- `self.cursors[idx].method(&storage[idx])`. -/
def callAt {A : Type*} (cursors : List C) (storage : List S) (method : S → C → Option A) (idx : Nat) : Option A :=
  match cursors[idx]?, storage[idx]? with
  | some c, some s => method s c
  | _, _ => none

/-- `for &index in indices { self.cursors[index].method(&storage[index]) }` for a method that moves the cursor. -/
def moveAt (storage : List S) (method : S → C → Option C) (indices : List Nat) (cursors : List C) : Option (List C) :=
  indices.foldlM (fun cs idx => (callAt cs storage method idx).map fun c => cs.set idx c) cursors

/-- `for (cursor, storage) in self.cursors.iter_mut().zip(storage) { cursor.method(storage) }`. -/
def moveAll (storage : List S) (method : S → C → Option C) (cursors : List C) : Option (List C) :=
  ((cursors.zip storage).mapM fun x => method x.2 x.1).map fun cs => cs ++ cursors.drop storage.length

namespace CursorList

section
variable (ops : CursorOps C S K V T R)

/-- `minimize_vals` (cursor_list.rs:77-104). -/
def minimize_vals (storage : List S) (l : CursorList C) : Option (CursorList C) :=
  (l.min_key.foldlM (minStep (callAt l.cursors storage ops.get_val)) ([], none)).map fun r => { l with min_val := r.1 }

/-- `minimize_keys` (cursor_list.rs:38-68). -/
def minimize_keys (storage : List S) (l : CursorList C) : Option (CursorList C) :=
  match (List.range l.cursors.length).foldlM (minStep (callAt l.cursors storage ops.get_key)) ([], none) with
  | none => none
  | some r => minimize_vals ops storage { l with min_key := r.1 }

/-- `CursorList::new` (cursor_list.rs:18-27). -/
def new (cursors : List C) (storage : List S) : Option (CursorList C) := minimize_keys ops storage ⟨cursors, [], []⟩

/-- `key_valid` (cursor_list.rs:126). -/
def key_valid (l : CursorList C) : Bool := !l.min_key.isEmpty
/-- `val_valid` (cursor_list.rs:128). -/
def val_valid (l : CursorList C) : Bool := !l.min_val.isEmpty

/-- `key` (cursor_list.rs:132-136), with debug assertions enabled. -/
def key (storage : List S) (l : CursorList C) : Option K :=
  match l.min_key[0]? with
  | none => none
  | some idx =>
    match callAt l.cursors storage ops.key_valid idx with
    | some true => callAt l.cursors storage ops.key idx
    | _ => none

/-- `val` (cursor_list.rs:138-143), with debug assertions enabled. -/
def val (storage : List S) (l : CursorList C) : Option V :=
  if l.key_valid then
    match l.min_val[0]? with
    | none => none
    | some idx =>
      match callAt l.cursors storage ops.val_valid idx with
      | some true => callAt l.cursors storage ops.val idx
      | _ => none
  else none

/-- `get_key` (cursor_list.rs:145-147). -/
def get_key (storage : List S) (l : CursorList C) : Option (Option K) :=
  match l.min_key[0]? with
  | none => some none
  | some idx => (callAt l.cursors storage ops.key idx).map some

/-- `get_val` (cursor_list.rs:149-151). -/
def get_val (storage : List S) (l : CursorList C) : Option (Option V) :=
  match l.min_val[0]? with
  | none => some none
  | some idx => (callAt l.cursors storage ops.val idx).map some

/-- `map_times` (cursor_list.rs:154-158). -/
def map_times (storage : List S) (l : CursorList C) : Option (List (T × R)) :=
  (l.min_val.mapM (callAt l.cursors storage ops.map_times)).map List.flatten

/-- `step_key` (cursor_list.rs:162-167). -/
def step_key (storage : List S) (l : CursorList C) : Option (CursorList C) :=
  match moveAt storage ops.step_key l.min_key l.cursors with
  | none => none
  | some cs => minimize_keys ops storage { l with cursors := cs }

/-- `seek_key` (cursor_list.rs:169-174). -/
def seek_key (storage : List S) (l : CursorList C) (key : K) : Option (CursorList C) :=
  match moveAll storage (fun s c => ops.seek_key s c key) l.cursors with
  | none => none
  | some cs => minimize_keys ops storage { l with cursors := cs }

/-- `step_val` (cursor_list.rs:178-183). -/
def step_val (storage : List S) (l : CursorList C) : Option (CursorList C) :=
  match moveAt storage ops.step_val l.min_val l.cursors with
  | none => none
  | some cs => minimize_vals ops storage { l with cursors := cs }

/-- `seek_val` (cursor_list.rs:185-190): as written, on all cursors. -/
def seek_val (storage : List S) (l : CursorList C) (val : V) : Option (CursorList C) :=
  match moveAll storage (fun s c => ops.seek_val s c val) l.cursors with
  | none => none
  | some cs => minimize_vals ops storage { l with cursors := cs }

/-- `rewind_keys` (cursor_list.rs:194-199). -/
def rewind_keys (storage : List S) (l : CursorList C) : Option (CursorList C) :=
  match moveAll storage ops.rewind_keys l.cursors with
  | none => none
  | some cs => minimize_keys ops storage { l with cursors := cs }

/-- `rewind_vals` (cursor_list.rs:201-206). -/
def rewind_vals (storage : List S) (l : CursorList C) : Option (CursorList C) :=
  match moveAt storage ops.rewind_vals l.min_key l.cursors with
  | none => none
  | some cs => minimize_vals ops storage { l with cursors := cs }

end

/-- `impl Cursor for CursorList` (cursor_list.rs:109-207). -/
def ops (ops : CursorOps C S K V T R) : CursorOps (CursorList C) (List S) K V T R where
  key_valid _ l := some l.key_valid
  val_valid _ l := some l.val_valid
  key := key ops
  val := val ops
  get_key := get_key ops
  get_val := get_val ops
  map_times := map_times ops
  step_key := step_key ops
  seek_key := seek_key ops
  step_val := step_val ops
  seek_val := seek_val ops
  rewind_keys := rewind_keys ops
  rewind_vals := rewind_vals ops

end CursorList

/-- `while let Some(val) = get_val { map_times; step_val }` (trace/cursor/mod.rs:172-179): the values visited with their updates.
The number bounds the iterations. -/
def CursorOps.walkVals (ops : CursorOps C S K V T R) (s : S) : Nat → C → Option (List (V × List (T × R)) × C)
  | 0, _ => none
  | fuel + 1, c =>
    match ops.get_val s c with
    | none => none
    | some none => some ([], c)
    | some (some v) =>
      match ops.map_times s c, ops.step_val s c with
      | some us, some c => (CursorOps.walkVals ops s fuel c).map fun r => ((v, us) :: r.1, r.2)
      | _, _ => none

/-- `while let Some(key) = get_key { rewind_vals; .. ; step_key }` (trace/cursor/mod.rs:170-181). -/
def CursorOps.walkKeys (ops : CursorOps C S K V T R) (s : S) (fuelVals : Nat) : Nat → C → Option (Contents K V T R)
  | 0, _ => none
  | fuel + 1, c =>
    match ops.get_key s c with
    | none => none
    | some none => some []
    | some (some k) =>
      match ops.rewind_vals s c with
      | none => none
      | some c =>
        match CursorOps.walkVals ops s fuelVals c with
        | none => none
        | some (vs, c) =>
          match ops.step_key s c with
          | none => none
          | some c => (CursorOps.walkKeys ops s fuelVals fuel c).map fun r => (k, vs) :: r

/-- `to_vec` (trace/cursor/mod.rs:163-184), before the result is flattened. -/
def CursorOps.toVec (ops : CursorOps C S K V T R) (s : S) (fuel : Nat) (c : C) : Option (Contents K V T R) :=
  match ops.rewind_keys s c with
  | none => none
  | some c => CursorOps.walkKeys ops s fuel fuel c

/-- Moves of a cursor. -/
inductive Move (K V : Type*)
  | stepKey
  | seekKey (key : K)
  | stepVal
  | seekVal (val : V)
  | rewindKeys
  | rewindVals

/-- One move. -/
def CursorOps.move (ops : CursorOps C S K V T R) (s : S) (c : C) : Move K V → Option C
  | .stepKey => ops.step_key s c
  | .seekKey k => ops.seek_key s c k
  | .stepVal => ops.step_val s c
  | .seekVal v => ops.seek_val s c v
  | .rewindKeys => ops.rewind_keys s c
  | .rewindVals => ops.rewind_vals s c

end

end DD
