import Verif.Spec.Spill
import Verif.Model.ColChunk

/-!
# Model of spilling: `columnar/trace/spill.rs`, and `ColChunk` resident or paged (`columnar/trace/chunk.rs`)

Each function runs in a state with the worker's spiller, the storage, and the cells that cache what was fetched; `none` stands for a panic. All storage is one: a
spiller installed later writes to the same. A `PagedChunk` is shared by reference count and its `OnceCell` filled once: a chunk carries the number of its cell, so
clones share it. Bytes are `UInt8`; a column is encoded by a codec of another crate, of which nothing is assumed here. The model of the operations on tries is that of
`Model/ColChunk.lean`.
-/

namespace DD

/-! ### Bytes -/

/-- `u64::to_le_bytes`. -/
def le64 (n : Nat) : List UInt8 := (List.range 8).map fun i => UInt8.ofNat (n / 256 ^ i)

/-- `u64::from_le_bytes`. -/
def fromLe (bytes : List UInt8) : Nat := bytes.foldr (fun b n => b.toNat + 256 * n) 0

/-- `Bytes::extract_to` (crate `timely_bytes`): panics if there are not enough bytes. -/
def extractTo (bytes : List UInt8) (n : Nat) : Option (List UInt8 × List UInt8) := if n ≤ bytes.length then some (bytes.take n, bytes.drop n) else none

/-- The codecs of the four columns. -/
structure TrieCodec (K V T R : Type) where
  keys : ByteCodec (Lists K)
  vals : ByteCodec (Lists V)
  times : ByteCodec (Lists T)
  diffs : ByteCodec (Lists R)

variable {K V T R S H : Type}

/-- Each column is read back as written. -/
structure TrieCodec.Lawful (c : TrieCodec K V T R) : Prop where
  keys : c.keys.Lawful
  vals : c.vals.Lawful
  times : c.times.Lawful
  diffs : c.diffs.Lawful

namespace TrieCodec
variable (c : TrieCodec K V T R)

/-- The encoded columns fit in memory: their sizes are of type `usize`, of 64 bits. -/
def fits (t : ColTrie K V T R) : Bool := c.keys.size t.keys + c.vals.size t.vals + c.times.size t.times + c.diffs.size t.diffs < 2 ^ 64

/-- `Updates::write_to` (columnar/updates.rs:317-329). A buffer that does not fit cannot be allocated. -/
def writeTo (t : ColTrie K V T R) : Option (List UInt8) :=
  if c.fits t then
    some ([c.keys.size t.keys, c.vals.size t.vals, c.times.size t.times, c.diffs.size t.diffs].flatMap le64 ++
      c.keys.write t.keys ++ c.vals.write t.vals ++ c.times.write t.times ++ c.diffs.write t.diffs)
  else none

/-- `Updates::length_in_bytes` (columnar/updates.rs:332-335). -/
def lengthInBytes (t : ColTrie K V T R) : Nat := 32 + c.keys.size t.keys + c.vals.size t.vals + c.times.size t.times + c.diffs.size t.diffs

/-- `Updates::read_from` (columnar/updates.rs:270-280), with `into_typed`. -/
def readFrom (bytes : List UInt8) : Option (ColTrie K V T R) := do
  let (header, bytes) ← extractTo bytes 32
  let len := fun i => fromLe ((header.drop (i * 8)).take 8)
  let (kb, bytes) ← extractTo bytes (len 0)
  let keys ← c.keys.read kb
  let (vb, bytes) ← extractTo bytes (len 1)
  let vals ← c.vals.read vb
  let (tb, bytes) ← extractTo bytes (len 2)
  let times ← c.times.read tb
  let (db, _) ← extractTo bytes (len 3)
  let diffs ← c.diffs.read db
  return ⟨keys, vals, times, diffs⟩

/-- `RecordedUpdates::into_bytes` (columnar/collection/container.rs:53-57). -/
def intoBytes (u : RecUpd K V T R) : Option (List UInt8) := (c.writeTo u.updates).map fun body => le64 u.records ++ le64 (if u.consolidated then 1 else 0) ++ body

/-- `RecordedUpdates::from_bytes` (columnar/collection/container.rs:42-47). -/
def fromBytes (bytes : List UInt8) : Option (RecUpd K V T R) := do
  let (pre, bytes) ← extractTo bytes 16
  let records := fromLe (pre.take 8)
  let consolidated := fromLe ((pre.drop 8).take 8) != 0
  let updates ← c.readFrom bytes
  return ⟨updates, records, consolidated⟩

/-- `RecordedUpdates::length_in_bytes` (columnar/collection/container.rs:49-51). -/
def recordedLength (u : RecUpd K V T R) : Nat := 16 + c.lengthInBytes u.updates

end TrieCodec

/-! ### The state of a worker -/

/-- `ChunkMeta` (columnar/trace/chunk.rs:64-68). -/
structure ChunkMeta (K V T : Type) where
  first : K × V × T
  last : K × V × T
  len : Nat
deriving DecidableEq

/-- `ColChunk` (columnar/trace/chunk.rs:101-106); the number is that of the cell of a `PagedChunk`, whose bounds never change and are kept here. -/
inductive SpillChunk (K V T R : Type)
  | resident (t : ColTrie K V T R)
  | paged (m : ChunkMeta K V T) (cell : Nat)
deriving DecidableEq

/-- `SpillStats` (columnar/trace/spill.rs:47-56). -/
structure SpillStats where
  spilled_chunks : Nat
  spilled_records : Nat
  fetched_chunks : Nat
  bytes_written : Nat
deriving DecidableEq

/-- `SpillState` (columnar/trace/spill.rs:60-71); the store is in the world. -/
structure SpillState where
  budget_records : Nat
  resident_records : Nat
  stats : SpillStats
deriving DecidableEq

/-- The spiller of the worker (`STATE`, columnar/trace/spill.rs:73-75), the storage, and the cells: `source` and `cache` of each `PagedChunk` (columnar/trace/chunk.rs:72-76). -/
structure World (K V T R S H : Type) where
  state : Option SpillState
  backing : S
  cells : List (H × Option (ColTrie K V T R))

abbrev SpillM (K V T R S H : Type) := StateT (World K V T R S H) Option

section spill
variable (codec : TrieCodec K V T R) (st : ByteStore S H)

/-- `install` (columnar/trace/spill.rs:79-81). -/
def spillInstall (budget : Nat) : SpillM K V T R S H Unit := modify fun w => { w with state := some ⟨budget, 0, ⟨0, 0, 0, 0⟩⟩ }

/-- `uninstall` (columnar/trace/spill.rs:84-86). -/
def spillUninstall : SpillM K V T R S H Unit := modify fun w => { w with state := none }

/-- `note_fetched` (columnar/trace/spill.rs:121-127). -/
def noteFetched : SpillM K V T R S H Unit :=
  modify fun w => { w with state := w.state.map fun s => { s with stats := { s.stats with fetched_chunks := s.stats.fetched_chunks + 1 } } }

/-- `decode` (columnar/trace/spill.rs:131-134). -/
def spillDecode (source : H) : SpillM K V T R S H (ColTrie K V T R) := do
  let w ← get
  let bytes ← (liftM (st.load w.backing source) : SpillM K V T R S H _)
  liftM (codec.readFrom bytes)

/-- `try_page` (columnar/trace/spill.rs:101-118): a handle, or nothing if the trie is to be kept. -/
def tryPage (updates : ColTrie K V T R) : SpillM K V T R S H (Option H) := do
  let w ← get
  match w.state with
  | none => return none
  | some s =>
    let records := updates.len
    if s.resident_records + records ≤ s.budget_records then
      set { w with state := some { s with resident_records := s.resident_records + records } }
      return none
    else
      let buf ← (liftM (codec.writeTo updates) : SpillM K V T R S H _)
      let stats := { s.stats with spilled_chunks := s.stats.spilled_chunks + 1, spilled_records := s.stats.spilled_records + records, bytes_written := s.stats.bytes_written + buf.length }
      let r := st.store w.backing buf
      set { w with state := some { s with stats := stats }, backing := r.1 }
      return some r.2

/-! ### `ColChunk` -/

/-- `meta_of` (columnar/trace/chunk.rs:86-95): panics if there is no update. -/
def metaOf (t : ColTrie K V T R) : Option (ChunkMeta K V T) := t.bounds.map fun b => ⟨b.1, b.2, t.len⟩

namespace SpillChunk

/-- `Chunk::len` (columnar/trace/chunk.rs:334-339). -/
def len : SpillChunk K V T R → Nat
  | resident t => t.len
  | paged m _ => m.len

/-- `NavigableChunk::bounds` (columnar/trace/chunk.rs:306-326). -/
def bounds : SpillChunk K V T R → SpillM K V T R S H ((K × V × T) × (K × V × T))
  | resident t => liftM t.bounds
  | paged m _ => return (m.first, m.last)

/-- `ColChunk::trie` (columnar/trace/chunk.rs:127-135). -/
def trie : SpillChunk K V T R → SpillM K V T R S H (ColTrie K V T R)
  | resident t => return t
  | paged _ cell => do
    let w ← get
    let p ← (liftM w.cells[cell]? : SpillM K V T R S H _)
    match p.2 with
    | some t => return t
    | none =>
      noteFetched
      let t ← spillDecode codec st p.1
      modify fun w => { w with cells := w.cells.set cell (p.1, some t) }
      return t

/-- `into_trie` (columnar/trace/chunk.rs:153-161). -/
def intoTrie : SpillChunk K V T R → SpillM K V T R S H (ColTrie K V T R)
  | resident t => return t
  | paged _ cell => do
    let w ← get
    let p ← (liftM w.cells[cell]? : SpillM K V T R S H _)
    match p.2 with
    | some t => return t
    | none =>
      noteFetched
      spillDecode codec st p.1

/-- A change through `updates_mut` (columnar/trace/chunk.rs:140-148). -/
def edit (c : SpillChunk K V T R) (f : ColTrie K V T R → ColTrie K V T R) : SpillM K V T R S H (SpillChunk K V T R) := do
  let t ← intoTrie codec st c
  return resident (f t)

/-- `seal_chunk` (columnar/trace/chunk.rs:470-479). -/
def sealChunk : SpillChunk K V T R → SpillM K V T R S H (SpillChunk K V T R)
  | paged m cell => return paged m cell
  | resident t => do
    let w ← get
    match w.state with
    | none => return resident t
    | some _ =>
      let m ← (liftM (metaOf t) : SpillM K V T R S H _)
      match ← tryPage codec st t with
      | none => return resident t
      | some source =>
        let w ← get
        set { w with cells := w.cells ++ [(source, none)] }
        return paged m w.cells.length

/-- `emit` (columnar/trace/chunk.rs:283-285). -/
def emit (updates : ColTrie K V T R) (out : List (SpillChunk K V T R)) : List (SpillChunk K V T R) := if updates.len > 0 then out ++ [resident updates] else out

section merge
variable [LinearOrder K] [LinearOrder V] [LinearOrder (Lin T)] [AddCommMonoid R] [DecidableEq R]

/-- Pushing what is left of a batch back to the front of its deque (columnar/trace/chunk.rs:356-363). -/
def pushBack (cursor : Option (Nat × Nat × Nat)) (batch : ColTrie K V T R) (input : List (SpillChunk K V T R)) : Option (List (SpillChunk K V T R)) :=
  match cursor with
  | none => some input
  | some cursor => (ColTrie.suffixChunk cursor batch).map fun suffix => if suffix.len > 0 then resident suffix :: input else input

/-- `ColChunk::merge` (columnar/trace/chunk.rs:351-364). -/
def merge (in1 in2 out : List (SpillChunk K V T R)) : SpillM K V T R S H (List (SpillChunk K V T R) × List (SpillChunk K V T R) × List (SpillChunk K V T R)) :=
  match in1, in2 with
  | c1 :: in1, c2 :: in2 => do
    let t1 ← intoTrie codec st c1
    let t2 ← intoTrie codec st c2
    let r ← (liftM (ColTrie.mergePair t1 t2) : SpillM K V T R S H _)
    let merged ← (liftM (ColTrie.dropCancelled r.2.2) : SpillM K V T R S H _)
    let in1 ← (liftM (pushBack r.1 t1 in1) : SpillM K V T R S H _)
    let in2 ← (liftM (pushBack r.2.1 t2 in2) : SpillM K V T R S H _)
    return (in1, in2, emit merged out)
  | _, _ => liftM (none : Option _)

end merge

/-- `ColChunk::extract` (columnar/trace/chunk.rs:368-383). -/
def extract [PartialOrder T] [DecidableLE T] (input : List (SpillChunk K V T R)) (frontier residual : List T) (keep ship : List (SpillChunk K V T R)) :
    SpillM K V T R S H (List (SpillChunk K V T R) × List T × List (SpillChunk K V T R) × List (SpillChunk K V T R)) :=
  match input with
  | [] => return ([], residual, keep, ship)
  | chunk :: input => do
    let t ← intoTrie codec st chunk
    let r ← (liftM (t.extract frontier residual) : SpillM K V T R S H _)
    return (input, r.1, match r.2.2 with | none => keep | some c => emit c keep, match r.2.1 with | none => ship | some c => emit c ship)

section advance
variable [LinearOrder (Lin T)] [AddCommMonoid R] [DecidableEq R] [Lattice T] [DecidableEq K] [DecidableEq V]

/-- The body of the loop of `advance` (columnar/trace/chunk.rs:405-437): from and to `carry` and the output. -/
def advanceStep (frontier : List T) (s : Option (ColTrie K V T R) × List (SpillChunk K V T R)) (chunk : SpillChunk K V T R) :
    SpillM K V T R S H (Option (ColTrie K V T R) × List (SpillChunk K V T R)) := do
  let t ← intoTrie codec st chunk
  let combined ← (liftM (s.1.elim (some t) fun c => ColTrie.melded c t) : SpillM K V T R S H _)
  if combined.len = 0 then return (none, s.2)
  else
    let tail ← (liftM combined.tailLen : SpillM K V T R S H _)
    if tail = combined.len then return (some combined, s.2)
    else
      let r ← (liftM (combined.splitAt (combined.len - tail)) : SpillM K V T R S H _)
      let c ← (liftM (ColTrie.advanceTrie r.1 frontier) : SpillM K V T R S H _)
      return (some r.2, emit c s.2)

/-- `ColChunk::advance` (columnar/trace/chunk.rs:396-443). -/
def advance (input : List (SpillChunk K V T R)) (frontier : List T) (done : Bool) (out : List (SpillChunk K V T R)) :
    SpillM K V T R S H (List (SpillChunk K V T R) × List (SpillChunk K V T R)) := do
  let s ← input.foldlM (advanceStep codec st frontier) (none, out)
  match s.1 with
  | none => return ([], s.2)
  | some c =>
    if done then
      let c ← (liftM (ColTrie.advanceTrie c frontier) : SpillM K V T R S H _)
      return ([], emit c s.2)
    else return ([resident c], s.2)

end advance
end SpillChunk
end spill

/-! ### Packing with a seal -/

section pack
variable {m : Type → Type} [Monad m] [MonadLiftT Option m] {C : Type} (len : C → Nat) (combine : C → C → m C) (split : C → Nat → m (C × C)) (commit : C → m C) (cap : Nat)

/-- The loop of `pack_absorb` (trace/chunk/mod.rs:226-232); the first argument bounds the rounds. -/
def peelM : Nat → C → List C → m (Option C × List C)
  | 0, _, _ => liftM (none : Option _)
  | n + 1, rest, out => do
    let r ← split rest cap
    let c ← commit r.1
    if len r.2 ≥ cap then peelM n r.2 (out ++ [c])
    else return (if len r.2 > 0 then some r.2 else none, out ++ [c])

/-- `pack_absorb` (trace/chunk/mod.rs:213-235). -/
def packAbsorbM (chunk : C) (out : List C) : m (Option C × List C) :=
  if len chunk = cap then do
    let c ← commit chunk
    return (none, out ++ [c])
  else if len chunk < cap then return (some chunk, out)
  else peelM len split commit cap (len chunk) chunk out

/-- The body of the loop of `pack` (trace/chunk/mod.rs:193-207). -/
def packStepM (s : Option C × List C) (chunk : C) : m (Option C × List C) :=
  match s.1 with
  | none => packAbsorbM len split commit cap chunk s.2
  | some c =>
    if len c + len chunk ≤ cap then do
      let c ← combine c chunk
      if len c = cap then
        let c ← commit c
        return (none, s.2 ++ [c])
      else return (some c, s.2)
    else do
      let c ← commit c
      packAbsorbM len split commit cap chunk (s.2 ++ [c])

/-- `pack` (trace/chunk/mod.rs:184-211). -/
def packM (input : List C) (done : Bool) (out : List C) : m (List C × List C) := do
  let s ← input.foldlM (packStepM len combine split commit cap) (none, out)
  match s.1 with
  | none => return ([], s.2)
  | some c =>
    if done then
      let c ← commit c
      return ([], s.2 ++ [c])
    else return ([c], s.2)

end pack

namespace SpillChunk
variable (codec : TrieCodec K V T R) (st : ByteStore S H)

/-- `ColChunk::settle` (columnar/trace/chunk.rs:450-464). -/
def settle [DecidableEq K] [DecidableEq V] (cap : Nat) (input : List (SpillChunk K V T R)) (done : Bool) (out : List (SpillChunk K V T R)) :
    SpillM K V T R S H (List (SpillChunk K V T R) × List (SpillChunk K V T R)) :=
  packM len
    (fun acc next => do
      let a ← intoTrie codec st acc
      let b ← intoTrie codec st next
      let c ← (liftM (ColTrie.melded a b) : SpillM K V T R S H _)
      return resident c)
    (fun chunk n => do
      let t ← intoTrie codec st chunk
      let r ← (liftM (t.splitAt n) : SpillM K V T R S H _)
      return (resident r.1, resident r.2))
    (sealChunk codec st) cap input done out

end SpillChunk

/-! ### The two implementations -/

section impl
variable [LinearOrder K] [LinearOrder V] [LinearOrder (Lin T)] [AddCommMonoid R] [DecidableEq R] [Lattice T] [DecidableLE T]

/-- `ColChunk`, resident or paged, with a spiller. -/
def spillImpl (codec : TrieCodec K V T R) (st : ByteStore S H) (cap : Nat) : ChunkImpl (SpillM K V T R S H) (SpillChunk K V T R) K V T R where
  make := .resident
  len := SpillChunk.len
  bounds := SpillChunk.bounds
  read := SpillChunk.trie codec st
  edit := SpillChunk.edit codec st
  merge := SpillChunk.merge codec st
  extract := SpillChunk.extract codec st
  advance := SpillChunk.advance codec st
  settle := SpillChunk.settle codec st cap
  install := spillInstall
  uninstall := spillUninstall

/-- Chunks that are tries, always in memory, as modelled in `Model/ColChunk.lean`; a chunk that is not `ok` may not be committed. -/
def trieImpl (ok : ColTrie K V T R → Bool) (cap : Nat) : ChunkImpl Option (ColTrie K V T R) K V T R where
  make := id
  len := ColTrie.len
  bounds := ColTrie.bounds
  read := some
  edit := fun t f => some (f t)
  merge := ColTrie.chunkMerge
  extract := ColTrie.chunkExtract
  advance := ColTrie.chunkAdvance
  settle := packM ColTrie.len ColTrie.melded ColTrie.splitAt (fun t => if ok t then some t else none) cap
  install := fun _ => some ()
  uninstall := some ()

end impl

end DD
