import Verif.Model.ChunkCursor
import Verif.Model.ChunkHarness

/-!
# Model of cursors over columnar chunks (`columnar/trace/chunk.rs`), and over batches of chunks of any type (`trace/chunk/mod.rs`)

`none` is a panic.
-/

namespace DD
variable {I C K V T R : Type*} [LinearOrder K] [LinearOrder V]

/-! ### `ColChunkCursor` -/

/-- `ColChunkCursor` (columnar/trace/chunk.rs:191-195). -/
structure ColChunkCursor where
  key_cursor : Nat
  val_cursor : Nat
deriving DecidableEq

namespace ColChunkCursor
variable (s : ColTrie K V T R) (c : ColChunkCursor)

/-- `ColChunk::cursor` (columnar/trace/chunk.rs:299-301). -/
def init : ColChunkCursor := ⟨0, 0⟩

/-- `key_valid` (columnar/trace/chunk.rs:219). -/
def key_valid : Bool := decide (c.key_cursor < s.keys.values.length)

/-- `val_valid` (columnar/trace/chunk.rs:220-224). -/
def val_valid : Option Bool :=
  if c.key_valid s then (s.vals.range c.key_cursor).map fun r => decide (c.val_cursor < r.2) else some false

/-- `key` (columnar/trace/chunk.rs:225). -/
def key : Option K := s.keys.values[c.key_cursor]?
/-- `val` (columnar/trace/chunk.rs:226). -/
def val : Option V := s.vals.values[c.val_cursor]?
/-- `get_key` (columnar/trace/chunk.rs:227-229). -/
def get_key : Option (Option K) := if c.key_valid s then (c.key s).map some else some none
/-- `get_val` (columnar/trace/chunk.rs:230-232). -/
def get_val : Option (Option V) := (c.val_valid s).bind fun valid => if valid then (c.val s).map some else some none

/-- `map_times` (columnar/trace/chunk.rs:233-242): the updates passed to `logic`. -/
def map_times : Option (List (T × R)) :=
  (c.val_valid s).bind fun valid =>
  if valid then
    (s.times.range c.val_cursor).bind fun r =>
    ((List.range' r.1 (r.2 - r.1)).mapM fun t =>
      (s.times.values[t]?).bind fun time =>
      (s.diffs.range t).bind fun d =>
      (List.range' d.1 (d.2 - d.1)).mapM fun d => (s.diffs.values[d]?).map fun diff => (time, diff)).map List.flatten
  else some []

/-- `rewind_vals` (columnar/trace/chunk.rs:276-280). -/
def rewind_vals : Option ColChunkCursor :=
  if c.key_valid s then (s.vals.range c.key_cursor).map fun r => { c with val_cursor := r.1 } else some c

/-- `rewind_keys` (columnar/trace/chunk.rs:275). -/
def rewind_keys : Option ColChunkCursor := rewind_vals s { c with key_cursor := 0 }

/-- `step_key` (columnar/trace/chunk.rs:243-247). -/
def step_key : Option ColChunkCursor :=
  let c := { c with key_cursor := c.key_cursor + 1 }
  if c.key_valid s then c.rewind_vals s else some { c with key_cursor := s.keys.values.length }

/-- `seek_key` (columnar/trace/chunk.rs:248-256). -/
def seek_key (key : K) : Option ColChunkCursor :=
  (gallopIn s.keys.values c.key_cursor s.keys.values.length fun x => x < key).bind fun lo =>
  let c := { c with key_cursor := lo }
  if c.key_valid s then c.rewind_vals s else some c

/-- `step_val` (columnar/trace/chunk.rs:257-262). -/
def step_val : Option ColChunkCursor :=
  let c := { c with val_cursor := c.val_cursor + 1 }
  (c.val_valid s).bind fun valid =>
  if valid then some c else (s.vals.range c.key_cursor).map fun r => { c with val_cursor := r.2 }

/-- `seek_val` (columnar/trace/chunk.rs:263-271). -/
def seek_val (val : V) : Option ColChunkCursor :=
  if c.key_valid s then
    (s.vals.range c.key_cursor).bind fun r =>
    (gallopIn s.vals.values c.val_cursor r.2 fun x => x < val).map fun lo => { c with val_cursor := lo }
  else some c

/-- `impl Cursor for ColChunkCursor` (columnar/trace/chunk.rs:204-281). -/
def ops : CursorOps ColChunkCursor (ColTrie K V T R) K V T R where
  key_valid s c := some (c.key_valid s)
  val_valid s c := c.val_valid s
  key s c := c.key s
  val s c := c.val s
  get_key s c := c.get_key s
  get_val s c := c.get_val s
  map_times s c := c.map_times s
  step_key s c := c.step_key s
  seek_key s c k := c.seek_key s k
  step_val s c := c.step_val s
  seek_val s c v := c.seek_val s v
  rewind_keys s c := c.rewind_keys s
  rewind_vals s c := c.rewind_vals s

end ColChunkCursor

/-! ### `ChunkBatchCursor` over any chunks -/

/-- `trait NavigableChunk` with `Navigable` and its cursors (trace/chunk/mod.rs:142-167): chunks `C` with cursors `I`. -/
structure NavOps (I C K V T R : Type*) where
  cur : CursorOps I C K V T R
  cursor : C → I
  bounds : C → Option ((K × V × T) × (K × V × T))

/-- `impl NavigableChunk for ColChunk` (columnar/trace/chunk.rs:295-326). -/
def colNav : NavOps ColChunkCursor (ColTrie K V T R) K V T R := ⟨ColChunkCursor.ops, fun _ => .init, ColTrie.bounds⟩

/-- `ChunkBatchCursor` (trace/chunk/mod.rs:313-320). -/
structure BatchCursor (I : Type*) where
  key_chunk : Nat
  chunk : Nat
  inner : Option I
deriving DecidableEq

namespace BatchCursor
variable (nav : NavOps I C K V T R) (s : List C)

/-- `ChunkBatch::cursor` (trace/chunk/mod.rs:260-262). -/
def init : BatchCursor I := ⟨0, 0, s.head?.map nav.cursor⟩

/-- `s.chunks[c].bounds()`. -/
def boundsAt (c : Nat) : Option ((K × V × T) × (K × V × T)) := (s[c]?).bind nav.bounds

/-- `goto` (trace/chunk/mod.rs:324-327). -/
def goto (x : BatchCursor I) (c : Nat) : BatchCursor I := { x with chunk := c, inner := (s[c]?).map nav.cursor }

/-- `key_spills` (trace/chunk/mod.rs:334-337). -/
def key_spills (c : Nat) (k : K) : Option Bool :=
  (boundsAt nav s c).bind fun b =>
  if b.2.1 = k then (boundsAt nav s (c + 1)).map fun b' => decide (b'.1.1 = k) else some false

/-- `val_spills` (trace/chunk/mod.rs:340-344). -/
def val_spills (c : Nat) (k : K) (v : V) : Option Bool :=
  (key_spills nav s c k).bind fun spills =>
  if spills then
    (boundsAt nav s c).bind fun b => (boundsAt nav s (c + 1)).map fun b' => decide (b.2.2.1 = v) && decide (b'.1.2.1 = v)
  else some false

/-- The closure `lt` of `locate_key` (trace/chunk/mod.rs:354-355). -/
def lastLt (key : K) (i : Nat) : Option Bool := (boundsAt nav s i).map fun b => decide (b.2.1 < key)

/-- The exponential search of `locate_key` (trace/chunk/mod.rs:362): `prev` and `step` when it stops; the first argument bounds the rounds. -/
def expLoop (key : K) : Nat → Nat → Nat → Option (Nat × Nat)
  | 0, prev, step => some (prev, step)
  | n + 1, prev, step =>
    if prev + step < s.length then
      (lastLt nav s key (prev + step)).bind fun b => if b then expLoop key n (prev + step) (step <<< 1) else some (prev, step)
    else some (prev, step)

/-- The binary search of `locate_key` (trace/chunk/mod.rs:364); the first argument bounds the rounds. -/
def binLoop (key : K) : Nat → Nat → Nat → Option Nat
  | 0, a, _ => some a
  | n + 1, a, b =>
    if a < b then
      let m := a + (b - a) / 2
      (lastLt nav s key m).bind fun lt => if lt then binLoop key n (m + 1) b else binLoop key n a m
    else some a

/-- `locate_key` (trace/chunk/mod.rs:351-366). -/
def locate_key (hint : Nat) (key : K) : Option Nat :=
  let hint := min hint s.length
  (if hint = 0 then some hint else (lastLt nav s key (hint - 1)).map fun b => if b then hint else 0).bind fun lo =>
  if s.length ≤ lo then some lo
  else
    (lastLt nav s key lo).bind fun b =>
    if b then (expLoop nav s key s.length lo 1).bind fun r => binLoop nav s key s.length (r.1 + 1) (min (r.1 + r.2) s.length)
    else some lo

/-- A read from the inner cursor, which must be there: `self.inner.as_ref().unwrap()` and `&s.chunks[self.chunk]`. -/
def read {A : Type*} (x : BatchCursor I) (f : C → I → Option A) : Option A := (s[x.chunk]?).bind fun ch => x.inner.bind fun i => f ch i

/-- A call on the inner cursor. -/
def onInner (x : BatchCursor I) (f : C → I → Option I) : Option (BatchCursor I) := (read s x f).map fun i => { x with inner := some i }

/-- `self.chunk < s.chunks.len() && self.inner.as_ref().is_some_and(..)`. -/
def holds (x : BatchCursor I) (f : C → I → Option Bool) : Option Bool :=
  match s[x.chunk]?, x.inner with
  | some ch, some i => f ch i
  | _, _ => some false

/-- `key_valid` (trace/chunk/mod.rs:384). -/
def key_valid (x : BatchCursor I) : Option Bool := holds s x nav.cur.key_valid
/-- `val_valid` (trace/chunk/mod.rs:385). -/
def val_valid (x : BatchCursor I) : Option Bool := holds s x nav.cur.val_valid
/-- `key` (trace/chunk/mod.rs:386). -/
def key (x : BatchCursor I) : Option K := read s x nav.cur.key
/-- `val` (trace/chunk/mod.rs:387). -/
def val (x : BatchCursor I) : Option V := read s x nav.cur.val
/-- `get_key` (trace/chunk/mod.rs:388). -/
def get_key (x : BatchCursor I) : Option (Option K) := (key_valid nav s x).bind fun b => if b then (key nav s x).map some else some none
/-- `get_val` (trace/chunk/mod.rs:389). -/
def get_val (x : BatchCursor I) : Option (Option V) := (val_valid nav s x).bind fun b => if b then (val nav s x).map some else some none

/-- The loop of `map_times` (trace/chunk/mod.rs:397-400); the first argument bounds the rounds. -/
def timesLoop (k : K) (v : V) : Nat → Nat → List (T × R) → Option (List (T × R))
  | 0, _, acc => some acc
  | n + 1, c, acc =>
    if c + 1 < s.length then
      (val_spills nav s c k v).bind fun spills =>
      if spills then (s[c + 1]?).bind fun ch => (nav.cur.map_times ch (nav.cursor ch)).bind fun more => timesLoop k v n (c + 1) (acc ++ more)
      else some acc
    else some acc

/-- `map_times` (trace/chunk/mod.rs:391-401). -/
def map_times (x : BatchCursor I) : Option (List (T × R)) :=
  (val_valid nav s x).bind fun b =>
  if b then
    (key nav s x).bind fun k => (val nav s x).bind fun v => (read s x nav.cur.map_times).bind fun first => timesLoop nav s k v s.length x.chunk first
  else some []

/-- The loop of `step_key` (trace/chunk/mod.rs:408-410); the first argument bounds the rounds. -/
def skipKey (k : K) : Nat → BatchCursor I → Option (BatchCursor I)
  | 0, x => some x
  | n + 1, x =>
    if x.chunk + 1 < s.length then (key_spills nav s x.chunk k).bind fun b => if b then skipKey k n (goto nav s x (x.chunk + 1)) else some x
    else some x

/-- `step_key` (trace/chunk/mod.rs:403-422). -/
def step_key (x : BatchCursor I) : Option (BatchCursor I) :=
  (key_valid nav s x).bind fun b =>
  if b then
    (key nav s x).bind fun k =>
    (skipKey nav s k s.length x).bind fun x =>
    (onInner s x fun ch i => (nav.cur.seek_key ch i k).bind fun i => nav.cur.step_key ch i).bind fun x =>
    (read s x nav.cur.key_valid).map fun b =>
    let x := if !b && decide (x.chunk + 1 < s.length) then goto nav s x (x.chunk + 1) else x
    { x with key_chunk := x.chunk }
  else some x

/-- `seek_key` (trace/chunk/mod.rs:424-432). -/
def seek_key (x : BatchCursor I) (k : K) : Option (BatchCursor I) :=
  (locate_key nav s x.key_chunk k).bind fun lo =>
  let x := { goto nav s x lo with key_chunk := lo }
  if lo < s.length then onInner s x fun ch i => nav.cur.seek_key ch i k else some x

/-- The loop of `step_val` (trace/chunk/mod.rs:439-441); the first argument bounds the rounds. -/
def skipVal (k : K) (v : V) : Nat → BatchCursor I → Option (BatchCursor I)
  | 0, x => some x
  | n + 1, x =>
    if x.chunk + 1 < s.length then (val_spills nav s x.chunk k v).bind fun b => if b then skipVal k v n (goto nav s x (x.chunk + 1)) else some x
    else some x

/-- The step into the next chunk when the values of the key are exhausted in this one (trace/chunk/mod.rs:445-450, 462-467): whether it was taken. -/
def roll (x : BatchCursor I) (k : K) : Option (BatchCursor I × Bool) :=
  if x.chunk + 1 < s.length then
    (key_spills nav s x.chunk k).bind fun b =>
    if b then (onInner s (goto nav s x (x.chunk + 1)) fun ch i => nav.cur.seek_key ch i k).map fun x => (x, true) else some (x, false)
  else some (x, false)

/-- `step_val` (trace/chunk/mod.rs:434-451). -/
def step_val (x : BatchCursor I) : Option (BatchCursor I) :=
  (val_valid nav s x).bind fun b =>
  if b then
    (key nav s x).bind fun k => (val nav s x).bind fun v =>
    (skipVal nav s k v s.length x).bind fun x =>
    (onInner s x nav.cur.step_val).bind fun x =>
    (read s x nav.cur.val_valid).bind fun b => if b then some x else (roll nav s x k).map Prod.fst
  else some x

/-- The loop of `seek_val` (trace/chunk/mod.rs:457-468); the first argument bounds the rounds. -/
def seekValLoop (k : K) (v : V) : Nat → BatchCursor I → Option (BatchCursor I)
  | 0, x => some x
  | n + 1, x =>
    (onInner s x fun ch i => nav.cur.seek_val ch i v).bind fun x =>
    (read s x nav.cur.val_valid).bind fun b =>
    if b then some x else (roll nav s x k).bind fun r => if r.2 then seekValLoop k v n r.1 else some r.1

/-- `seek_val` (trace/chunk/mod.rs:453-468). -/
def seek_val (x : BatchCursor I) (v : V) : Option (BatchCursor I) :=
  (key_valid nav s x).bind fun b => if b then (key nav s x).bind fun k => seekValLoop nav s k v s.length x else some x

/-- `rewind_keys` (trace/chunk/mod.rs:470-473). -/
def rewind_keys (x : BatchCursor I) : BatchCursor I := { goto nav s x 0 with key_chunk := 0 }

/-- `rewind_vals` (trace/chunk/mod.rs:475-481). -/
def rewind_vals (x : BatchCursor I) : Option (BatchCursor I) :=
  (key_valid nav s x).bind fun b =>
  if b then (key nav s x).bind fun k => onInner s (goto nav s x x.key_chunk) fun ch i => nav.cur.seek_key ch i k else some x

/-- `impl Cursor for ChunkBatchCursor` (trace/chunk/mod.rs:370-482). -/
def ops : CursorOps (BatchCursor I) (BatchOf C T) K V T R where
  key_valid b x := key_valid nav b.chunks x
  val_valid b x := val_valid nav b.chunks x
  key b x := key nav b.chunks x
  val b x := val nav b.chunks x
  get_key b x := get_key nav b.chunks x
  get_val b x := get_val nav b.chunks x
  map_times b x := map_times nav b.chunks x
  step_key b x := step_key nav b.chunks x
  seek_key b x k := seek_key nav b.chunks x k
  step_val b x := step_val nav b.chunks x
  seek_val b x v := seek_val nav b.chunks x v
  rewind_keys b x := some (rewind_keys nav b.chunks x)
  rewind_vals b x := rewind_vals nav b.chunks x

end BatchCursor
end DD
