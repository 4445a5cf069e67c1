import Verif.Model.MergeBatcher
import Verif.Model.BatchContainer
import Verif.Model.Spine

/-!
# Model of `trace/chunk/mod.rs` and `trace/chunk/vec.rs`: chunked batches

A chunk is a list of updates, a deque of chunks a list with its front first. `cap` stands for `TARGET`. Reference counts, capacities and recycled allocations (`stash`) are not modelled.
Chunks are `VecChunk`s; of the generic `pack`, the closures are those of `VecChunk::settle` (vec.rs:378-385). Data stand for pairs of key and value in lexicographic order.
-/

namespace DD
variable {D T R : Type*}

/-- `gallop` (vec.rs:84-100). The predicate is read in bounds only, so that nothing panics; the loops are those of `BatchContainer::advance`. -/
def gallop {U : Type*} (s : List U) (start : Nat) (pred : U → Bool) : Option Nat :=
  let read := fun i => (s[i]?).map pred
  match probe read start s.length 0 with
  | none => none
  | some false => some start
  | some true =>
    match growLoop read start s.length s.length 0 1 with
    | none => none
    | some (index, step) =>
      match shrinkLoop read start s.length s.length index (step >>> 1) with
      | none => none
      | some index => some (start + index + 1)

/-! ### Packing -/

/-- The variables of `pack`. -/
structure PackVars (D T R : Type*) where
  carry : Option (Upds D T R)
  out : Chain D T R

/-- The loop of `pack_absorb` (mod.rs:226-232); the first argument bounds the rounds. -/
def peel (cap : Nat) : Nat → Upds D T R → Chain D T R → PackVars D T R
  | 0, rest, out => ⟨some rest, out⟩
  | n + 1, rest, out =>
    let head := rest.take cap
    let tail := rest.drop cap
    let out := out ++ [head]
    if tail.length ≥ cap then peel cap n tail out
    else ⟨if tail.length > 0 then some tail else none, out⟩

/-- `pack_absorb` (mod.rs:213-235). -/
def packAbsorb (cap : Nat) (chunk : Upds D T R) (out : Chain D T R) : PackVars D T R :=
  if chunk.length = cap then ⟨none, out ++ [chunk]⟩
  else if chunk.length < cap then ⟨some chunk, out⟩
  else peel cap chunk.length chunk out

/-- The body of the loop of `pack` (mod.rs:193-207). -/
def packStep (cap : Nat) (v : PackVars D T R) (chunk : Upds D T R) : PackVars D T R :=
  match v.carry with
  | none => packAbsorb cap chunk v.out
  | some c =>
    if c.length + chunk.length ≤ cap then
      let c := c ++ chunk
      if c.length = cap then ⟨none, v.out ++ [c]⟩ else ⟨some c, v.out⟩
    else packAbsorb cap chunk (v.out ++ [c])

/-- `VecChunk::settle` by `pack` (mod.rs:184-211, vec.rs:374-385): returns the input left and the output. -/
def chunkSettle (cap : Nat) (input : Chain D T R) (done : Bool) (out : Chain D T R) : Chain D T R × Chain D T R :=
  let v := input.foldl (packStep cap) ⟨none, out⟩
  match v.carry with
  | none => ([], v.out)
  | some c => if done then ([], v.out ++ [c]) else ([c], v.out)

/-- `settle_all` (mod.rs:722-733). -/
def settleAll (cap : Nat) (input : Chain D T R) : Chain D T R := (chunkSettle cap input true []).2

/-- `is_graded` (mod.rs:717-720). -/
def isGraded (cap : Nat) (chunks : Chain D T R) : Bool :=
  (chunks.all fun c => c.length ≤ cap) && (chunks.zip chunks.tail).all fun w => w.1.length + w.2.length > cap

section merge
variable [LinearOrder D] [LinearOrder (Lin T)] [AddCommMonoid R] [DecidableEq R]

/-- The variables of `VecChunk::merge`. -/
structure ChunkMerge (D T R : Type*) where
  c1 : Upds D T R
  p1 : Nat
  in1 : Chain D T R
  c2 : Upds D T R
  p2 : Nat
  in2 : Chain D T R
  result : Upds D T R
  out : Chain D T R

/-- The closure `flush` (vec.rs:228-232). -/
def ChunkMerge.flush (cap : Nat) (force : Bool) (v : ChunkMerge D T R) : ChunkMerge D T R :=
  if v.result.length ≥ cap || (force && !v.result.isEmpty) then { v with result := [], out := v.out ++ [v.result] } else v

/-- `slice.chunks(TARGET)` (std); the first argument bounds the pieces. -/
def slicesOf (cap : Nat) : Nat → Upds D T R → Chain D T R
  | 0, _ => []
  | n + 1, us => if us = [] then [] else us.take cap :: slicesOf cap n (us.drop cap)

/-- Copying a run, in pieces (vec.rs:248-251 and 256-259). -/
def ChunkMerge.copy (cap : Nat) (run : Upds D T R) (v : ChunkMerge D T R) : ChunkMerge D T R :=
  (slicesOf cap run.length run).foldl (fun v piece => ({ v with result := v.result ++ piece } : ChunkMerge D T R).flush cap false) v

/-- `(kv(u), &u.1) < (kv(b), &b.1)`. -/
def belowUpd (b u : D × T × R) : Bool := u.1 < b.1 || (u.1 = b.1 && toLin u.2.1 < toLin b.2.1)

/-- Refilling consumed working chunks (vec.rs:273-279): `true` asks to leave the loop. -/
def ChunkMerge.refill (v : ChunkMerge D T R) : ChunkMerge D T R × Bool :=
  let second := fun v : ChunkMerge D T R =>
    if v.p2 = v.c2.length then
      match v.in2 with
      | c :: in2 => ({ v with c2 := c, p2 := 0, in2 := in2 }, false)
      | [] => (v, true)
    else (v, false)
  if v.p1 = v.c1.length then
    match v.in1 with
    | c :: in1 => second { v with c1 := c, p1 := 0, in1 := in1 }
    | [] => (v, true)
  else second v

/-- Consuming the lesser of the updates `a` and `b` at the heads, with the run that it starts, or both (vec.rs:243-272). -/
def ChunkMerge.step (cap : Nat) (a b : D × T × R) (v : ChunkMerge D T R) : Option (ChunkMerge D T R) :=
  if belowUpd b a then
    match gallop v.c1 (v.p1 + 1) (belowUpd b) with
    | none => none
    | some run => some { v.copy cap ((v.c1.drop v.p1).take (run - v.p1)) with p1 := run }
  else if belowUpd a b then
    match gallop v.c2 (v.p2 + 1) (belowUpd a) with
    | none => none
    | some run => some { v.copy cap ((v.c2.drop v.p2).take (run - v.p2)) with p2 := run }
  else
    let diff := a.2.2 + b.2.2
    let result := if diff ≠ 0 then v.result ++ [(a.1, a.2.1, diff)] else v.result
    some (({ v with result := result, p1 := v.p1 + 1, p2 := v.p2 + 1 } : ChunkMerge D T R).flush cap false)

/-- The loop of `VecChunk::merge` (vec.rs:240-280); the first argument bounds the rounds. -/
def ChunkMerge.loop (cap : Nat) : Nat → ChunkMerge D T R → Option (ChunkMerge D T R)
  | 0, v => some v
  | n + 1, v =>
    match v.c1[v.p1]?, v.c2[v.p2]? with
    | some a, some b =>
      match v.step cap a b with
      | none => none
      | some v =>
        let r := v.refill
        if r.2 then some r.1 else ChunkMerge.loop cap n r.1
    | _, _ => some v

/-- `VecChunk::merge` (vec.rs:219-286): returns the inputs left and the output. `none` if an input is empty. -/
def chunkMerge (cap : Nat) (in1 in2 out : Chain D T R) : Option (Chain D T R × Chain D T R × Chain D T R) :=
  match in1, in2 with
  | c1 :: in1, c2 :: in2 =>
    match ChunkMerge.loop cap (c1.length + in1.flatten.length + c2.length + in2.flatten.length) ⟨c1, 0, in1, c2, 0, in2, [], out⟩ with
    | none => none
    | some v =>
      let v := v.flush cap true
      some (if v.p1 < v.c1.length then v.c1.drop v.p1 :: v.in1 else v.in1, if v.p2 < v.c2.length then v.c2.drop v.p2 :: v.in2 else v.in2, v.out)
  | _, _ => none

/-- `VecChunk::extract` (vec.rs:288-306): returns the input left, the residual frontier, what is kept and what is shipped. -/
def chunkExtract [LE T] [DecidableLE T] (input : Chain D T R) (frontier residual : List T) (keep ship : Chain D T R) :
    Chain D T R × List T × Chain D T R × Chain D T R :=
  match input with
  | [] => ([], residual, keep, ship)
  | chunk :: input =>
    let r := chunk.foldl (fun (r : List T × Upds D T R × Upds D T R) u =>
      if lessEqual frontier u.2.1 then (acInsert r.1 u.2.1, r.2.1 ++ [u], r.2.2) else (r.1, r.2.1, r.2.2 ++ [u])) (residual, [], [])
    (input, r.1, if r.2.1 ≠ [] then keep ++ [r.2.1] else keep, if r.2.2 ≠ [] then ship ++ [r.2.2] else ship)

/-! ### Advancing -/

/-- Pushing an update to the results of `advance`, in chunks of size `TARGET` (vec.rs:365-366). -/
def pushResult (cap : Nat) (r : Upds D T R × Chain D T R) (u : D × T × R) : Upds D T R × Chain D T R :=
  let result := r.1 ++ [u]
  if result.length ≥ cap then ([], r.2 ++ [result]) else (result, r.2)

/-- The loop over a group sorted by time (vec.rs:357-368), adding differences at equal times. -/
def coalesce (cap : Nat) : Upds D T R → Upds D T R × Chain D T R → Upds D T R × Chain D T R
  | [], r => r
  | u :: us, r =>
    let same := us.takeWhile fun v => toLin v.2.1 = toLin u.2.1
    let diff := same.foldl (fun diff v => diff + v.2.2) u.2.2
    coalesce cap (us.dropWhile fun v => toLin v.2.1 = toLin u.2.1) (if diff ≠ 0 then pushResult cap r (u.1, u.2.1, diff) else r)
termination_by us => us.length
decreasing_by
  simp only [List.length_cons]
  exact Nat.lt_succ_of_le (List.dropWhile_sublist _).length_le

variable [Lattice T]

/-- The loop over the groups of equal data (vec.rs:350-370). -/
def advanceGroups (cap : Nat) (frontier : List T) : Upds D T R → Upds D T R × Chain D T R → Upds D T R × Chain D T R
  | [], r => r
  | u :: us, r =>
    let group := (u :: us.takeWhile fun v => v.1 = u.1).map fun v => (v.1, advanceBy v.2.1 frontier, v.2.2)
    advanceGroups cap frontier (us.dropWhile fun v => v.1 = u.1) (coalesce cap (group.insertionSort fun a b => toLin a.2.1 ≤ toLin b.2.1) r)
termination_by us => us.length
decreasing_by
  simp only [List.length_cons]
  exact Nat.lt_succ_of_le (List.dropWhile_sublist _).length_le

/-- `VecChunk::advance` (vec.rs:308-372): returns the input left and the output. -/
def chunkAdvance (cap : Nat) (input : Chain D T R) (frontier : List T) (done : Bool) (out : Chain D T R) : Chain D T R × Chain D T R :=
  let buf := input.flatten
  match buf.head?, buf.getLast? with
  | some first, some last =>
    if !done && decide (first.1 = last.1) then ([buf], out)
    else
      let «end» := if done then buf.length else buf.length - (buf.reverse.takeWhile fun u => u.1 = last.1).length
      let input := if «end» < buf.length then [buf.drop «end»] else []
      let r := advanceGroups cap frontier (buf.take «end») ([], out)
      (input, if r.1 ≠ [] then r.2 ++ [r.1] else r.2)
  | _, _ => ([], out)

end merge

/-! ### Batches -/

/-- `ChunkBatch` (mod.rs:240-246). -/
structure ChunkBatch (D T R : Type*) where
  chunks : Chain D T R
  description : Description T

/-- `ChunkBatch::new` (mod.rs:249-255); `none` if the assertion fails. -/
def ChunkBatch.new (chunks : Chain D T R) (description : Description T) : Option (ChunkBatch D T R) :=
  if chunks.all fun chunk => chunk.length > 0 then some ⟨chunks, description⟩ else none

/-- `BatchReader::len` (mod.rs:267). -/
def ChunkBatch.len (b : ChunkBatch D T R) : Nat := (b.chunks.map List.length).sum

/-- `Batch::empty` (mod.rs:277-281). -/
def ChunkBatch.empty [Bot T] (lower upper : List T) : ChunkBatch D T R := ⟨[], ⟨lower, upper, [⊥]⟩⟩

/-- `ChunkBatchMerger` (mod.rs:570-592). -/
structure ChunkBatchMerger (D T R : Type*) where
  frontier : List T
  lower : List T
  upper : List T
  in1 : Chain D T R
  in2 : Chain D T R
  idx1 : Nat
  idx2 : Nat
  merged : Chain D T R
  advanced : Chain D T R
  settled : Chain D T R
  complete : Bool

section batch
variable [LinearOrder D] [LinearOrder (Lin T)] [AddCommMonoid R] [DecidableEq R] [Lattice T]

/-- `Merger::new` (mod.rs:599-615). -/
def ChunkBatchMerger.new [DecidableLE T] (source1 source2 : ChunkBatch D T R) (frontier : List T) : ChunkBatchMerger D T R :=
  { frontier := frontier
    lower := acMeet source1.description.lower source2.description.lower
    upper := acJoin source1.description.upper source2.description.upper
    in1 := [], in2 := [], idx1 := 0, idx2 := 0, merged := [], advanced := [], settled := [], complete := false }

/-- `BURST` (mod.rs:626). -/
def burst : Nat := 8

/-- Refilling an input deque from a source (mod.rs:627-634): returns the deque and the index. -/
def chunkRefill (input : Chain D T R) (idx : Nat) (chunks : Chain D T R) : Chain D T R × Nat :=
  let more := (chunks.drop idx).take (burst - input.length)
  (input ++ more, idx + more.length)

/-- What one round of `work` produces from the input deques (mod.rs:638-651): `none` if both are empty; otherwise the deques left and what is produced. The inner `none` stands for a panic. -/
def ChunkBatchMerger.produce (cap : Nat) (in1 in2 : Chain D T R) : Option (Option (Chain D T R × Chain D T R × Chain D T R)) :=
  match in1, in2 with
  | _ :: _, _ :: _ => some (chunkMerge cap in1 in2 [])
  | chunk :: in1, [] => some (some (in1, [], [chunk]))
  | [], chunk :: in2 => some (some ([], in2, [chunk]))
  | [], [] => none

/-- The loop of `work` (mod.rs:623-660); the first argument bounds the rounds. Returns the fuel left. -/
def ChunkBatchMerger.loop (cap : Nat) (source1 source2 : ChunkBatch D T R) : Nat → ChunkBatchMerger D T R → Int → Option (ChunkBatchMerger D T R × Int)
  | 0, m, fuel => some (m, fuel)
  | n + 1, m, fuel =>
    if fuel > 0 then
      let r1 := chunkRefill m.in1 m.idx1 source1.chunks
      let r2 := chunkRefill m.in2 m.idx2 source2.chunks
      let m := { m with in1 := r1.1, idx1 := r1.2, in2 := r2.1, idx2 := r2.2 }
      match ChunkBatchMerger.produce cap m.in1 m.in2 with
      | none =>
        let a := chunkAdvance cap m.merged m.frontier true m.advanced
        let s := chunkSettle cap a.2 true m.settled
        some ({ m with merged := a.1, advanced := s.1, settled := s.2, complete := true }, fuel)
      | some none => none
      | some (some (in1, in2, produced)) =>
        let work := (produced.map List.length).sum
        let a := chunkAdvance cap (m.merged ++ produced) m.frontier false m.advanced
        let s := chunkSettle cap a.2 false m.settled
        ChunkBatchMerger.loop cap source1 source2 n { m with in1 := in1, in2 := in2, merged := a.1, advanced := s.1, settled := s.2 } (fuel - work)
    else some (m, fuel)

/-- `Merger::work` (mod.rs:617-661). -/
def ChunkBatchMerger.work (cap : Nat) (m : ChunkBatchMerger D T R) (source1 source2 : ChunkBatch D T R) (fuel : Int) : Option (ChunkBatchMerger D T R × Int) :=
  if m.complete then some (m, fuel) else ChunkBatchMerger.loop cap source1 source2 (source1.chunks.length + source2.chunks.length + 1) m fuel

/-- `Merger::done` (mod.rs:663-667), without its assertions. -/
def ChunkBatchMerger.done (m : ChunkBatchMerger D T R) : ChunkBatch D T R := ⟨m.settled, ⟨m.lower, m.upper, m.frontier⟩⟩

/-- The assertions of `Merger::done` (mod.rs:664 and 251-253). -/
def ChunkBatchMerger.doneOk (m : ChunkBatchMerger D T R) : Bool := m.merged.isEmpty && m.advanced.isEmpty && m.settled.all fun chunk => chunk.length > 0

end batch

/-- `ChunkBatchBuilder` (mod.rs:671-676). -/
structure ChunkBatchBuilder (D T R : Type*) where
  input : Chain D T R
  output : Chain D T R

/-- `Builder::push` (mod.rs:691-697). -/
def ChunkBatchBuilder.push (cap : Nat) (b : ChunkBatchBuilder D T R) (chunk : Upds D T R) : ChunkBatchBuilder D T R :=
  if chunk.length > 0 then let s := chunkSettle cap (b.input ++ [chunk]) false b.output; ⟨s.1, s.2⟩ else b

/-- `Builder::done` (mod.rs:699-703). -/
def ChunkBatchBuilder.done (cap : Nat) (b : ChunkBatchBuilder D T R) (description : Description T) : Option (ChunkBatch D T R) :=
  ChunkBatch.new (chunkSettle cap b.input true b.output).2 description

/-- `Builder::seal` (mod.rs:705-709). -/
def ChunkBatchBuilder.seal (cap : Nat) (chain : Chain D T R) (description : Description T) : Option (ChunkBatch D T R) :=
  ChunkBatch.new (settleAll cap chain) description

/-! ### The merge batcher's merger -/

section merger
variable [LinearOrder D] [LinearOrder (Lin T)] [AddCommMonoid R] [DecidableEq R]

/-- The loop of `ChunkMerger::merge` while both inputs have chunks (mod.rs:518-521); the first argument bounds the rounds. Returns the inputs left, `staged` and `settled`. -/
def chunkMergerLoop (cap : Nat) : Nat → Chain D T R → Chain D T R → Chain D T R → Chain D T R → Option (Chain D T R × Chain D T R × Chain D T R × Chain D T R)
  | 0, in1, in2, staged, settled => some (in1, in2, staged, settled)
  | n + 1, in1, in2, staged, settled =>
    if in1 ≠ [] ∧ in2 ≠ [] then
      match chunkMerge cap in1 in2 staged with
      | none => none
      | some (in1, in2, staged) => let s := chunkSettle cap staged false settled; chunkMergerLoop cap n in1 in2 s.1 s.2
    else some (in1, in2, staged, settled)

/-- `ChunkMerger::merge` (mod.rs:507-529). -/
def chunkMergerMerge (cap : Nat) (list1 list2 : Chain D T R) : Option (Chain D T R) :=
  match chunkMergerLoop cap (list1.length + list2.length) list1 list2 [] [] with
  | none => none
  | some (in1, in2, staged, settled) =>
    let r := (in1 ++ in2).foldl (fun (r : Chain D T R × Chain D T R) tail => chunkSettle cap (r.1 ++ [tail]) false r.2) (staged, settled)
    some (chunkSettle cap r.1 true r.2).2

/-- The loop of `ChunkMerger::extract` (mod.rs:549-553), over the chunks of the input. Returns the frontier, `keep`, `shipped`, `kept_q` and `shipped_q`. -/
def chunkMergerExtractLoop [LE T] [DecidableLE T] (cap : Nat) (upper : List T) :
    Chain D T R → List T → Chain D T R × Chain D T R → Chain D T R × Chain D T R → List T × (Chain D T R × Chain D T R) × (Chain D T R × Chain D T R)
  | [], frontier, k, s => (frontier, k, s)
  | chunk :: input, frontier, k, s =>
    let r := chunkExtract [chunk] upper frontier k.1 s.1
    chunkMergerExtractLoop cap upper input r.2.1 (chunkSettle cap r.2.2.1 false k.2) (chunkSettle cap r.2.2.2 false s.2)

/-- `ChunkMerger::extract` (mod.rs:531-558): returns the frontier, what is shipped and what is kept. -/
def chunkMergerExtract [LE T] [DecidableLE T] (cap : Nat) (merged : Chain D T R) (upper frontier : List T) : List T × Chain D T R × Chain D T R :=
  let r := chunkMergerExtractLoop cap upper merged frontier ([], []) ([], [])
  (r.1, (chunkSettle cap r.2.2.1 true r.2.2.2).2, (chunkSettle cap r.2.1.1 true r.2.1.2).2)

/-- The loop of `merge_chains` (mod.rs:749-751); the first argument bounds the rounds. -/
def mergeChainsLoop (cap : Nat) : Nat → Chain D T R → Chain D T R → Chain D T R → Option (Chain D T R × Chain D T R × Chain D T R)
  | 0, in1, in2, out => some (in1, in2, out)
  | n + 1, in1, in2, out =>
    if in1 ≠ [] ∧ in2 ≠ [] then
      match chunkMerge cap in1 in2 out with
      | none => none
      | some (in1, in2, out) => mergeChainsLoop cap n in1 in2 out
    else some (in1, in2, out)

/-- `merge_chains` (mod.rs:742-755). -/
def mergeChains (cap : Nat) (chain1 chain2 out : Chain D T R) : Option (Chain D T R) :=
  match mergeChainsLoop cap (chain1.length + chain2.length) chain1 chain2 out with
  | none => none
  | some (in1, in2, out) => some (out ++ in1 ++ in2)

end merger

end DD
