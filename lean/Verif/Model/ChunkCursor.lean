import Verif.Model.Chunk
import Verif.Model.Cursor
import Mathlib.Data.Prod.Lex

/-!
# Model of the cursors over chunks: `VecChunkCursor` (trace/chunk/vec.rs) and `ChunkBatchCursor` (trace/chunk/mod.rs)

The data of an update is a pair of a key and a value, compared lexicographically (`K ×ₗ V`). A chunk is its list of updates, a batch of chunks
its list of chunks. `none` is a panic.
-/

namespace DD
variable {K V T R : Type*} [LinearOrder K] [LinearOrder V]

/-- The key of an update: `u.0.0`. -/
def rowKey (u : (K ×ₗ V) × T × R) : K := (ofLex u.1).1
/-- The value of an update: `u.0.1`. -/
def valOf (u : (K ×ₗ V) × T × R) : V := (ofLex u.1).2

/-- The loops `while i < s.0.len() && p(s.0[i]) { i += 1; }` (vec.rs:162, 176), from `i`. -/
def scanFrom {U : Type*} (s : List U) (p : U → Bool) (i : Nat) : Nat := i + ((s.drop i).takeWhile p).length

/-! ### `VecChunkCursor` -/

/-- `VecChunkCursor` (vec.rs:102-108). -/
structure VecChunkCursor where
  key_pos : Nat
  val_pos : Nat

namespace VecChunkCursor
variable (s : Upds (K ×ₗ V) T R) (c : VecChunkCursor)

/-- `VecChunk::cursor` (vec.rs:197-199). -/
def init : VecChunkCursor := ⟨0, 0⟩

/-- `key_valid` (vec.rs:136). -/
def key_valid : Bool := decide (c.key_pos < s.length)

/-- `val_valid` (vec.rs:137-139). The index operations are in bounds, so that it does not panic. -/
def val_valid : Bool :=
  match s[c.key_pos]?, s[c.val_pos]? with
  | some k, some v => decide (rowKey v = rowKey k)
  | _, _ => false

/-- `key` (vec.rs:140). -/
def key : Option K := (s[c.key_pos]?).map rowKey
/-- `val` (vec.rs:141). -/
def val : Option V := (s[c.val_pos]?).map valOf

/-- `get_key` (vec.rs:142-144). -/
def get_key : Option (Option K) := if c.key_valid s then (c.key s).map some else some none
/-- `get_val` (vec.rs:145-147). -/
def get_val : Option (Option V) := if c.val_valid s then (c.val s).map some else some none

/-- `map_times` (vec.rs:148-156): the updates passed to `logic`. -/
def map_times : Option (List (T × R)) :=
  if c.val_valid s then
    match s[c.val_pos]? with
    | none => none
    | some u => some (((s.drop c.val_pos).takeWhile fun v => v.1 = u.1).map Prod.snd)
  else some []

/-- `step_key` (vec.rs:157-166). -/
def step_key : Option VecChunkCursor :=
  match s[c.key_pos]? with
  | none => some c
  | some u =>
    let i := scanFrom s (fun v => rowKey v = rowKey u) c.key_pos
    some ⟨i, i⟩

/-- `seek_key` (vec.rs:167-171). -/
def seek_key (k : K) : Option VecChunkCursor :=
  match gallop s c.key_pos (fun u => rowKey u < k) with
  | none => none
  | some i => some ⟨i, i⟩

/-- `step_val` (vec.rs:172-178). -/
def step_val : Option VecChunkCursor :=
  if c.val_valid s then
    match s[c.val_pos]? with
    | none => none
    | some u => some { c with val_pos := scanFrom s (fun v => v.1 = u.1) c.val_pos }
  else some c

/-- `seek_val` (vec.rs:179-183). -/
def seek_val (v : V) : Option VecChunkCursor :=
  match s[c.key_pos]? with
  | none => some c
  | some k =>
    match gallop s c.val_pos (fun u => u.1 < toLex (rowKey k, v)) with
    | none => none
    | some i => some { c with val_pos := i }

/-- `impl Cursor for VecChunkCursor` (vec.rs:121-186); `rewind_keys` and `rewind_vals` are vec.rs:184-185. -/
def ops : CursorOps VecChunkCursor (Upds (K ×ₗ V) T R) K V T R where
  key_valid s c := some (c.key_valid s)
  val_valid s c := some (c.val_valid s)
  key s c := c.key s
  val s c := c.val s
  get_key s c := c.get_key s
  get_val s c := c.get_val s
  map_times s c := c.map_times s
  step_key s c := c.step_key s
  seek_key s c k := c.seek_key s k
  step_val s c := c.step_val s
  seek_val s c v := c.seek_val s v
  rewind_keys _ _ := some ⟨0, 0⟩
  rewind_vals _ c := some { c with val_pos := c.key_pos }

end VecChunkCursor

/-! ### `ChunkBatchCursor` -/

/-- `ChunkBatchCursor` (mod.rs:313-320). -/
structure ChunkBatchCursor where
  key_chunk : Nat
  chunk : Nat
  inner : Option VecChunkCursor

namespace ChunkBatchCursor
variable (s : Chain (K ×ₗ V) T R)

/-- `ChunkBatch::cursor` (mod.rs:260-262). -/
def init : ChunkBatchCursor := ⟨0, 0, s.head?.map fun _ => VecChunkCursor.init⟩

/-- `s.chunks[c].bounds()` (vec.rs:204-208): the first and last update of chunk `c`. -/
def bounds (c : Nat) : Option (((K ×ₗ V) × T × R) × ((K ×ₗ V) × T × R)) :=
  match s[c]? with
  | none => none
  | some chunk =>
    match chunk.head?, chunk.getLast? with
    | some f, some l => some (f, l)
    | _, _ => none

/-- `goto` (mod.rs:324-327). -/
def goto (x : ChunkBatchCursor) (c : Nat) : ChunkBatchCursor := { x with chunk := c, inner := (s[c]?).map fun _ => VecChunkCursor.init }

/-- `key_spills` (mod.rs:334-337). -/
def key_spills (c : Nat) (k : K) : Option Bool :=
  match bounds s c with
  | none => none
  | some (_, l) =>
    if rowKey l = k then
      match bounds s (c + 1) with
      | none => none
      | some (f, _) => some (decide (rowKey f = k))
    else some false

/-- `val_spills` (mod.rs:340-344). -/
def val_spills (c : Nat) (k : K) (v : V) : Option Bool :=
  match key_spills s c k with
  | none => none
  | some false => some false
  | some true =>
    match bounds s c, bounds s (c + 1) with
    | some (_, l), some (f, _) => some (decide (valOf l = v) && decide (valOf f = v))
    | _, _ => none

/-- The closure `lt` of `locate_key` (mod.rs:354-355): the last key of chunk `i` is less than `key`. -/
def lastLt (key : K) (i : Nat) : Option Bool := (bounds s i).map fun b => decide (rowKey b.2 < key)

/-- The exponential search of `locate_key` (mod.rs:362): `prev` and `step` when it stops; the first argument bounds the rounds. -/
def expLoop (key : K) : Nat → Nat → Nat → Option (Nat × Nat)
  | 0, prev, step => some (prev, step)
  | n + 1, prev, step =>
    if prev + step < s.length then
      match lastLt s key (prev + step) with
      | none => none
      | some true => expLoop key n (prev + step) (step <<< 1)
      | some false => some (prev, step)
    else some (prev, step)

/-- The binary search of `locate_key` (mod.rs:364); the first argument bounds the rounds. -/
def binLoop (key : K) : Nat → Nat → Nat → Option Nat
  | 0, a, _ => some a
  | n + 1, a, b =>
    if a < b then
      let m := a + (b - a) / 2
      match lastLt s key m with
      | none => none
      | some true => binLoop key n (m + 1) b
      | some false => binLoop key n a m
    else some a

/-- The chunk from which `locate_key` searches (mod.rs:356-358). -/
def locateFrom (hint : Nat) (key : K) : Option Nat :=
  if min hint s.length = 0 then some (min hint s.length)
  else
    match lastLt s key (min hint s.length - 1) with
    | none => none
    | some b => some (if b then min hint s.length else 0)

/-- `locate_key` (mod.rs:351-366). -/
def locate_key (hint : Nat) (key : K) : Option Nat :=
  match locateFrom s hint key with
  | none => none
  | some lo =>
    if s.length ≤ lo then some lo
    else
      match lastLt s key lo with
      | none => none
      | some false => some lo
      | some true =>
        match expLoop s key s.length lo 1 with
        | none => none
        | some (prev, step) => binLoop s key s.length (prev + 1) (min (prev + step) s.length)

/-- The active chunk and the cursor into it: `self.inner.as_ref().unwrap()` and `&s.chunks[self.chunk]`. -/
def active (x : ChunkBatchCursor) : Option (Upds (K ×ₗ V) T R × VecChunkCursor) :=
  match s[x.chunk]?, x.inner with
  | some ch, some i => some (ch, i)
  | _, _ => none

/-- A call on the inner cursor. -/
def onInner (x : ChunkBatchCursor) (f : Upds (K ×ₗ V) T R → VecChunkCursor → Option VecChunkCursor) : Option ChunkBatchCursor :=
  match active s x with
  | none => none
  | some (ch, i) => (f ch i).map fun i => { x with inner := some i }

/-- `key_valid` (mod.rs:384). -/
def key_valid (x : ChunkBatchCursor) : Bool :=
  match active s x with
  | none => false
  | some (ch, i) => i.key_valid ch

/-- `val_valid` (mod.rs:385). -/
def val_valid (x : ChunkBatchCursor) : Bool :=
  match active s x with
  | none => false
  | some (ch, i) => i.val_valid ch

/-- `key` (mod.rs:386). -/
def key (x : ChunkBatchCursor) : Option K := (active s x).bind fun a => a.2.key a.1
/-- `val` (mod.rs:387). -/
def val (x : ChunkBatchCursor) : Option V := (active s x).bind fun a => a.2.val a.1
/-- `get_key` (mod.rs:388). -/
def get_key (x : ChunkBatchCursor) : Option (Option K) := if key_valid s x then (key s x).map some else some none
/-- `get_val` (mod.rs:389). -/
def get_val (x : ChunkBatchCursor) : Option (Option V) := if val_valid s x then (val s x).map some else some none

/-- The loop of `map_times` (mod.rs:397-400); the first argument bounds the rounds. -/
def timesLoop (k : K) (v : V) : Nat → Nat → List (T × R) → Option (List (T × R))
  | 0, _, acc => some acc
  | n + 1, c, acc =>
    if c + 1 < s.length then
      match val_spills s c k v with
      | none => none
      | some false => some acc
      | some true =>
        match s[c + 1]? with
        | none => none
        | some ch =>
          match VecChunkCursor.init.map_times ch with
          | none => none
          | some more => timesLoop k v n (c + 1) (acc ++ more)
    else some acc

/-- `map_times` (mod.rs:391-401). -/
def map_times (x : ChunkBatchCursor) : Option (List (T × R)) :=
  if val_valid s x then
    match active s x, key s x, val s x with
    | some (ch, i), some k, some v =>
      match i.map_times ch with
      | none => none
      | some first => timesLoop s k v s.length x.chunk first
    | _, _, _ => none
  else some []

/-- The loop of `step_key` (mod.rs:408-410); the first argument bounds the rounds. -/
def skipKey (k : K) : Nat → ChunkBatchCursor → Option ChunkBatchCursor
  | 0, x => some x
  | n + 1, x =>
    if x.chunk + 1 < s.length then
      match key_spills s x.chunk k with
      | none => none
      | some false => some x
      | some true => skipKey k n (goto s x (x.chunk + 1))
    else some x

/-- `step_key` (mod.rs:403-422). -/
def step_key (x : ChunkBatchCursor) : Option ChunkBatchCursor :=
  if key_valid s x then
    match key s x with
    | none => none
    | some k =>
      match skipKey s k s.length x with
      | none => none
      | some x =>
        match onInner s x fun ch i => (i.seek_key ch k).bind fun i => i.step_key ch with
        | none => none
        | some x =>
          let x := if !(key_valid s x) && decide (x.chunk + 1 < s.length) then goto s x (x.chunk + 1) else x
          some { x with key_chunk := x.chunk }
  else some x

/-- `seek_key` (mod.rs:424-432). -/
def seek_key (x : ChunkBatchCursor) (k : K) : Option ChunkBatchCursor :=
  match locate_key s x.key_chunk k with
  | none => none
  | some lo =>
    let x := { goto s x lo with key_chunk := lo }
    if lo < s.length then onInner s x fun ch i => i.seek_key ch k else some x

/-- The loop of `step_val` (mod.rs:439-441); the first argument bounds the rounds. -/
def skipVal (k : K) (v : V) : Nat → ChunkBatchCursor → Option ChunkBatchCursor
  | 0, x => some x
  | n + 1, x =>
    if x.chunk + 1 < s.length then
      match val_spills s x.chunk k v with
      | none => none
      | some false => some x
      | some true => skipVal k v n (goto s x (x.chunk + 1))
    else some x

/-- The step into the next chunk when the values of the key are exhausted in this one (mod.rs:445-450, 462-467): whether it was taken. -/
def roll (x : ChunkBatchCursor) (k : K) : Option (ChunkBatchCursor × Bool) :=
  if x.chunk + 1 < s.length then
    match key_spills s x.chunk k with
    | none => none
    | some false => some (x, false)
    | some true => (onInner s (goto s x (x.chunk + 1)) fun ch i => i.seek_key ch k).map fun x => (x, true)
  else some (x, false)

/-- `step_val` (mod.rs:434-451). -/
def step_val (x : ChunkBatchCursor) : Option ChunkBatchCursor :=
  if val_valid s x then
    match key s x, val s x with
    | some k, some v =>
      match skipVal s k v s.length x with
      | none => none
      | some x =>
        match onInner s x fun ch i => i.step_val ch with
        | none => none
        | some x => if val_valid s x then some x else (roll s x k).map Prod.fst
    | _, _ => none
  else some x

/-- The loop of `seek_val` (mod.rs:457-468); the first argument bounds the rounds. -/
def seekValLoop (k : K) (v : V) : Nat → ChunkBatchCursor → Option ChunkBatchCursor
  | 0, x => some x
  | n + 1, x =>
    match onInner s x fun ch i => i.seek_val ch v with
    | none => none
    | some x =>
      if val_valid s x then some x
      else
        match roll s x k with
        | none => none
        | some (x, true) => seekValLoop k v n x
        | some (x, false) => some x

/-- `seek_val` (mod.rs:453-468). -/
def seek_val (x : ChunkBatchCursor) (v : V) : Option ChunkBatchCursor :=
  if key_valid s x then
    match key s x with
    | none => none
    | some k => seekValLoop s k v s.length x
  else some x

/-- `rewind_keys` (mod.rs:470-473). -/
def rewind_keys (x : ChunkBatchCursor) : ChunkBatchCursor := { goto s x 0 with key_chunk := 0 }

/-- `rewind_vals` (mod.rs:475-481). -/
def rewind_vals (x : ChunkBatchCursor) : Option ChunkBatchCursor :=
  if key_valid s x then
    match key s x with
    | none => none
    | some k => onInner s (goto s x x.key_chunk) fun ch i => i.seek_key ch k
  else some x

/-- `impl Cursor for ChunkBatchCursor` (mod.rs:370-482). -/
def ops : CursorOps ChunkBatchCursor (ChunkBatch (K ×ₗ V) T R) K V T R where
  key_valid b x := some (key_valid b.chunks x)
  val_valid b x := some (val_valid b.chunks x)
  key b x := key b.chunks x
  val b x := val b.chunks x
  get_key b x := get_key b.chunks x
  get_val b x := get_val b.chunks x
  map_times b x := map_times b.chunks x
  step_key b x := step_key b.chunks x
  seek_key b x k := seek_key b.chunks x k
  step_val b x := step_val b.chunks x
  seek_val b x v := seek_val b.chunks x v
  rewind_keys b x := some (rewind_keys b.chunks x)
  rewind_vals b x := rewind_vals b.chunks x

end ChunkBatchCursor
end DD
