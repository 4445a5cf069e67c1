import Verif.Model.Chunk
import Verif.Model.ColChunk

/-!
# Model of `trace/chunk/mod.rs`: batches of chunks of any type

`Model/Chunk.lean` models the same functions for chunks that are lists of updates. Here they are given for any type with the operations of the trait `Chunk`.
A deque is a list; `none` stands for a panic of an operation.
-/

namespace DD

/-- The trait `Chunk` (trace/chunk/mod.rs:80-147): each operation returns the deques it changes. `Chunk::TARGET` is left to the operations. -/
structure ChunkOps (C T : Type*) where
  len : C → Nat
  merge : List C → List C → List C → Option (List C × List C × List C)
  extract : List C → List T → List T → List C → List C → Option (List C × List T × List C × List C)
  advance : List C → List T → Bool → List C → Option (List C × List C)
  settle : List C → Bool → List C → Option (List C × List C)

/-- `ChunkBatch` (mod.rs:240-246). -/
structure BatchOf (C T : Type*) where
  chunks : List C
  description : Description T

namespace ChunkOps
variable {C T : Type*} (ops : ChunkOps C T)

/-- `ChunkBatch::new` (mod.rs:249-255); `none` if the assertion fails. -/
def newBatch (chunks : List C) (description : Description T) : Option (BatchOf C T) :=
  if chunks.all fun chunk => ops.len chunk > 0 then some ⟨chunks, description⟩ else none

/-- `BatchReader::len` (mod.rs:267). -/
def batchLen (b : BatchOf C T) : Nat := (b.chunks.map ops.len).sum

/-! ### The merge batcher's merger -/

/-- The loop of `ChunkMerger::merge` while both inputs have chunks (mod.rs:518-521); the first argument bounds the rounds. Returns the inputs left, `staged` and `settled`. -/
def mergerLoop : Nat → List C → List C → List C → List C → Option (List C × List C × List C × List C)
  | 0, in1, in2, staged, settled => some (in1, in2, staged, settled)
  | n + 1, in1, in2, staged, settled =>
    if ¬ in1.isEmpty ∧ ¬ in2.isEmpty then
      (ops.merge in1 in2 staged).bind fun r =>
      (ops.settle r.2.2 false settled).bind fun s => mergerLoop n r.1 r.2.1 s.1 s.2
    else some (in1, in2, staged, settled)

/-- The loop over the tail of either input (mod.rs:523-526): from and to `staged` and `settled`. -/
def settleTail (tail : List C) (r : List C × List C) : Option (List C × List C) :=
  tail.foldlM (fun (r : List C × List C) tail => ops.settle (r.1 ++ [tail]) false r.2) r

/-- `ChunkMerger::merge` (mod.rs:507-529). -/
def mergerMerge (list1 list2 : List C) : Option (List C) :=
  (ops.mergerLoop (list1.length + list2.length) list1 list2 [] []).bind fun r =>
  (ops.settleTail (r.1 ++ r.2.1) (r.2.2.1, r.2.2.2)).bind fun r =>
  (ops.settle r.1 true r.2).map fun s => s.2

/-- The loop of `ChunkMerger::extract` (mod.rs:549-553); the first argument bounds the rounds. Returns the frontier, `keep` and `kept_q`, `shipped` and `shipped_q`. -/
def extractLoop (upper : List T) : Nat → List C → List T → List C × List C → List C × List C → Option (List T × (List C × List C) × (List C × List C))
  | 0, _, frontier, k, s => some (frontier, k, s)
  | n + 1, input, frontier, k, s =>
    if ¬ input.isEmpty then
      (ops.extract input upper frontier k.1 s.1).bind fun r =>
      (ops.settle r.2.2.1 false k.2).bind fun k =>
      (ops.settle r.2.2.2 false s.2).bind fun s => extractLoop upper n r.1 r.2.1 k s
    else some (frontier, k, s)

/-- `ChunkMerger::extract` (mod.rs:531-558): returns the frontier, what is shipped and what is kept. -/
def mergerExtract (merged : List C) (upper frontier : List T) : Option (List T × List C × List C) :=
  (ops.extractLoop upper merged.length merged frontier ([], []) ([], [])).bind fun r =>
  (ops.settle r.2.1.1 true r.2.1.2).bind fun kept =>
  (ops.settle r.2.2.1 true r.2.2.2).map fun shipped => (r.1, shipped.2, kept.2)

/-! ### The merger of batches -/

/-- `ChunkBatchMerger` (mod.rs:570-592). -/
structure Merger (C T : Type*) where
  frontier : List T
  lower : List T
  upper : List T
  in1 : List C
  in2 : List C
  idx1 : Nat
  idx2 : Nat
  merged : List C
  advanced : List C
  settled : List C
  complete : Bool

/-- `Merger::new` (mod.rs:599-615). -/
def newMerger [Lattice T] [DecidableLE T] (source1 source2 : BatchOf C T) (frontier : List T) : Merger C T :=
  { frontier := frontier
    lower := acMeet source1.description.lower source2.description.lower
    upper := acJoin source1.description.upper source2.description.upper
    in1 := [], in2 := [], idx1 := 0, idx2 := 0, merged := [], advanced := [], settled := [], complete := false }

/-- Refilling an input deque from a source (mod.rs:627-634): returns the deque and the index. -/
def refill (input : List C) (idx : Nat) (chunks : List C) : List C × Nat :=
  let more := (chunks.drop idx).take (burst - input.length)
  (input ++ more, idx + more.length)

/-- What one round of `work` produces from the input deques (mod.rs:638-651): `none` if both are empty; otherwise the deques left and what is produced. The inner `none` stands for a panic. -/
def produce (in1 in2 : List C) : Option (Option (List C × List C × List C)) :=
  match in1, in2 with
  | _ :: _, _ :: _ => some (ops.merge in1 in2 [])
  | chunk :: in1, [] => some (some (in1, [], [chunk]))
  | [], chunk :: in2 => some (some ([], in2, [chunk]))
  | [], [] => none

/-- The end of `work` when both sources are drained (mod.rs:647-650). -/
def flush (m : Merger C T) : Option (Merger C T) :=
  (ops.advance m.merged m.frontier true m.advanced).bind fun a =>
  (ops.settle a.2 true m.settled).map fun s => { m with merged := a.1, advanced := s.1, settled := s.2, complete := true }

/-- The rest of a round of `work` (mod.rs:654-658): returns the merger and the fuel used. -/
def absorb (m : Merger C T) (in1 in2 produced : List C) : Option (Merger C T × Nat) :=
  (ops.advance (m.merged ++ produced) m.frontier false m.advanced).bind fun a =>
  (ops.settle a.2 false m.settled).map fun s => ({ m with in1 := in1, in2 := in2, merged := a.1, advanced := s.1, settled := s.2 }, (produced.map ops.len).sum)

/-- The loop of `work` (mod.rs:623-660); the first argument bounds the rounds. Returns the fuel left. -/
def workLoop (source1 source2 : BatchOf C T) : Nat → Merger C T → Int → Option (Merger C T × Int)
  | 0, m, fuel => some (m, fuel)
  | n + 1, m, fuel =>
    if fuel > 0 then
      let r1 := refill m.in1 m.idx1 source1.chunks
      let r2 := refill m.in2 m.idx2 source2.chunks
      let m := { m with in1 := r1.1, idx1 := r1.2, in2 := r2.1, idx2 := r2.2 }
      match ops.produce m.in1 m.in2 with
      | none => (ops.flush m).map fun m => (m, fuel)
      | some r => r.bind fun p => (ops.absorb m p.1 p.2.1 p.2.2).bind fun r => workLoop source1 source2 n r.1 (fuel - r.2)
    else some (m, fuel)

/-- `Merger::work` (mod.rs:617-661). -/
def work (m : Merger C T) (source1 source2 : BatchOf C T) (fuel : Int) : Option (Merger C T × Int) :=
  if m.complete then some (m, fuel) else ops.workLoop source1 source2 (source1.chunks.length + source2.chunks.length + 1) m fuel

/-- `Merger::done` (mod.rs:663-667); `none` if an assertion fails. -/
def done (m : Merger C T) : Option (BatchOf C T) :=
  if m.merged.isEmpty && m.advanced.isEmpty then ops.newBatch m.settled ⟨m.lower, m.upper, m.frontier⟩ else none

/-! ### The builder -/

/-- `Builder::push` (mod.rs:691-697): from and to `input` and `output`. -/
def push (b : List C × List C) (chunk : C) : Option (List C × List C) :=
  if ops.len chunk > 0 then ops.settle (b.1 ++ [chunk]) false b.2 else some b

/-- `Builder::done` (mod.rs:699-703). -/
def builderDone (b : List C × List C) (description : Description T) : Option (BatchOf C T) :=
  (ops.settle b.1 true b.2).bind fun s => ops.newBatch s.2 description

/-- `Builder::seal` by `settle_all` (mod.rs:705-709 and 728-733). -/
def sealBatch (chain : List C) (description : Description T) : Option (BatchOf C T) :=
  (ops.settle chain true []).bind fun s => if s.1.isEmpty then ops.newBatch s.2 description else none

/-- The loop of `merge_chains` (mod.rs:749-751); the first argument bounds the rounds. -/
def chainsLoop : Nat → List C → List C → List C → Option (List C × List C × List C)
  | 0, in1, in2, out => some (in1, in2, out)
  | n + 1, in1, in2, out =>
    if ¬ in1.isEmpty ∧ ¬ in2.isEmpty then (ops.merge in1 in2 out).bind fun r => chainsLoop n r.1 r.2.1 r.2.2
    else some (in1, in2, out)

/-- `merge_chains` (mod.rs:742-755). -/
def mergeChains (chain1 chain2 out : List C) : Option (List C) :=
  (ops.chainsLoop (chain1.length + chain2.length) chain1 chain2 out).map fun r => r.2.2 ++ r.1 ++ r.2.1

end ChunkOps

/-! ### The two kinds of chunks -/

/-- The operations of `VecChunk` (trace/chunk/vec.rs:211-386). -/
def vecChunkOps {D T R : Type*} [LinearOrder D] [LinearOrder (Lin T)] [AddCommMonoid R] [DecidableEq R] [Lattice T] [DecidableLE T] (cap : Nat) : ChunkOps (Upds D T R) T where
  len := List.length
  merge := chunkMerge cap
  extract := fun input frontier residual keep ship => some (chunkExtract input frontier residual keep ship)
  advance := fun input frontier done out => some (chunkAdvance cap input frontier done out)
  settle := fun input done out => some (chunkSettle cap input done out)

/-- The operations of `ColChunk` (columnar/trace/chunk.rs:328-465). -/
def colChunkOps {K V T R : Type*} [LinearOrder K] [LinearOrder V] [LinearOrder (Lin T)] [AddCommMonoid R] [DecidableEq R] [Lattice T] [DecidableLE T] (cap : Nat) :
    ChunkOps (ColTrie K V T R) T where
  len := ColTrie.len
  merge := ColTrie.chunkMerge
  extract := ColTrie.chunkExtract
  advance := ColTrie.chunkAdvance
  settle := ColTrie.chunkSettle cap

end DD
