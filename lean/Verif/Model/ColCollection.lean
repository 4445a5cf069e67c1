import Verif.Spec.ColCollection
import Verif.Model.Columnar
import Verif.Model.NavChunk
import Verif.Model.Dynamic

/-!
# Model of the columnar collections: `columnar/collection/{container, builder, exchange, operators}.rs` and `columnar/trace/chunker.rs`

`none` is a panic. Columns backed by bytes (`Stash::Bytes`) are the same lists as typed ones. `LINK_TARGET` is the parameter `target`.
-/

namespace DD
variable {K V T T' R : Type*}

namespace RecUpd

/-! ### Containers -/

/-- `negate` (container.rs:72-87). -/
def negate [Neg R] (c : RecUpd K V T R) : RecUpd K V T R :=
  { c with updates := { c.updates with diffs := { c.updates.diffs with values := c.updates.diffs.values.map fun d => -d } } }

/-- The columns with a function applied to the times (container.rs:104-122 and 146-163). -/
def retime (f : T → T') (t : ColTrie K V T R) : ColTrie K V T' R :=
  { keys := t.keys, vals := t.vals, times := { values := t.times.values.map f, bounds := t.times.bounds }, diffs := t.diffs }

/-- `enter` (container.rs:99-128). -/
def enter (to_inner : T → T') (c : RecUpd K V T R) : RecUpd K V T' R := ⟨retime to_inner c.updates, c.records, c.consolidated⟩

section
variable [LinearOrder K] [LinearOrder V] [LinearOrder (Lin T')] [AddCommMonoid R] [DecidableEq R]

/-- `leave` (container.rs:140-170). -/
def leave (to_outer : T → T') (c : RecUpd K V T R) : Option (RecUpd K V T' R) :=
  (retime to_outer c.updates).consolidate.map fun updates => ⟨updates, c.records, true⟩

end

/-- `results_in` (container.rs:174-190). -/
def resultsIn (step : T → Option T) (c : RecUpd K V T R) : Option (RecUpd K V T R) :=
  c.updates.iter.map fun us =>
    let output := us.foldl (fun output u => match step u.2.1 with
      | some new_time => output.push (u.1, new_time, u.2.2)
      | none => output) ColTrie.empty
    ⟨output, c.records, false⟩

end RecUpd

/-! ### The builder -/

/-- `ValBuilder` (builder.rs:17-24), without the container handed out last. -/
structure ColBuilder (K V T R : Type*) where
  current : Upds (K ×ₗ V) T R
  pending : List (RecUpd K V T R)
deriving DecidableEq

namespace ColBuilder
variable [LinearOrder K] [LinearOrder V] [LinearOrder (Lin T)] [AddCommMonoid R] [DecidableEq R]

/-- `Default` (builder.rs:43-51). -/
def empty : ColBuilder K V T R := ⟨[], []⟩

/-- Sorting and forming what has been collected (builder.rs:33-38 and 71-76). -/
def seal_ (b : ColBuilder K V T R) : Option (ColBuilder K V T R) :=
  (ColTrie.formUnsorted b.current).map fun updates => ⟨[], b.pending ++ [⟨updates, b.current.length, true⟩]⟩

/-- `push_into` (builder.rs:29-40). -/
def pushInto (target : Nat) (b : ColBuilder K V T R) (item : (K ×ₗ V) × T × R) : Option (ColBuilder K V T R) :=
  let b := { b with current := b.current ++ [item] }
  if b.current.length > target then b.seal_ else some b

/-- `extract` (builder.rs:58-65). -/
def extract (b : ColBuilder K V T R) : Option (RecUpd K V T R) × ColBuilder K V T R :=
  match b.pending with
  | [] => (none, b)
  | c :: pending => (some c, { b with pending })

/-- `finish` (builder.rs:68-80). -/
def finish (b : ColBuilder K V T R) : Option (Option (RecUpd K V T R) × ColBuilder K V T R) :=
  if b.current.isEmpty then some b.extract else b.seal_.map extract

/-- `while let Some(c) = builder.extract() { push(c) }`, as timely's sessions do after each item; every round takes one container off `pending`. -/
def extractAll (b : ColBuilder K V T R) (sent : List (RecUpd K V T R)) : List (RecUpd K V T R) × ColBuilder K V T R :=
  go b.pending.length b sent
where
  go : Nat → ColBuilder K V T R → List (RecUpd K V T R) → List (RecUpd K V T R) × ColBuilder K V T R
  | 0, b, sent => (sent, b)
  | n + 1, b, sent => match b.extract with
    | (none, b) => (sent, b)
    | (some c, b) => go n b (sent ++ [c])

/-- `while let Some(c) = builder.finish() { push(c) }`, as timely's sessions do in the end (and operators.rs:139-141). -/
def finishAll : Nat → ColBuilder K V T R → List (RecUpd K V T R) → Option (List (RecUpd K V T R) × ColBuilder K V T R)
  | 0, _, _ => none
  | n + 1, b, sent => match b.finish with
    | none => none
    | some (none, b) => some (sent, b)
    | some (some c, b) => finishAll n b (sent ++ [c])

/-- `session.give(item)`. -/
def give (target : Nat) (s : List (RecUpd K V T R) × ColBuilder K V T R) (item : (K ×ₗ V) × T × R) : Option (List (RecUpd K V T R) × ColBuilder K V T R) :=
  (s.2.pushInto target item).map fun b => b.extractAll s.1

/-- A session in which items are given, up to its end: what is sent, and the builder. -/
def session (target : Nat) (b : ColBuilder K V T R) (items : Upds (K ×ₗ V) T R) : Option (List (RecUpd K V T R) × ColBuilder K V T R) :=
  (items.foldlM (give target) ([], b)).bind fun s => finishAll (s.2.pending.length + 2) s.2 s.1

end ColBuilder

/-! ### Exchange -/

namespace RecUpd

/-- The index of the pusher for a hash (exchange.rs:43-59): a mask if the number of pushers is a power of two. `none`: the remainder of the division by zero. -/
def route (n h : Nat) : Option Nat := if n = 2 ^ Nat.log2 n then some (h &&& (n - 1)) else if n = 0 then none else some (h % n)

/-- The loop over the keys of a group (exchange.rs:45-50 and 54-59). -/
def partitionKeys (hash : K → Nat) (view : ColTrie K V T R) (outputs : List (ColTrie K V T R)) (k : Nat) : Option (List (ColTrie K V T R)) :=
  (view.keys.values[k]?).bind fun key =>
  (route outputs.length (hash key)).bind fun idx =>
  (outputs[idx]?).bind fun output =>
  (output.extendFromKeys view k (k + 1)).map fun output => outputs.set idx output

/-- The loop over the groups of keys (exchange.rs:40-66). -/
def partitionGroup (hash : K → Nat) (view : ColTrie K V T R) (outputs : List (ColTrie K V T R)) (outer : Nat) : Option (List (ColTrie K V T R)) :=
  let pre_lens := outputs.map fun o => o.keys.values.length
  (view.keys.range outer).bind fun r =>
  ((List.range' r.1 (r.2 - r.1)).foldlM (partitionKeys hash view) outputs).map fun outputs =>
    (outputs.zip pre_lens).map fun p => if p.1.keys.values.length > p.2 then { p.1 with keys := p.1.keys.close } else p.1

/-- The loop that sends the outputs (exchange.rs:72-79): the message for each pusher, if any. -/
def sendAll (consolidated : Bool) : Nat → List (ColTrie K V T R) → List (Option (RecUpd K V T R))
  | _, [] => []
  | first_records, output :: outputs =>
    if output.keys.values.isEmpty then none :: sendAll consolidated first_records outputs
    else some ⟨output, first_records, consolidated⟩ :: sendAll consolidated 1 outputs

/-- `ValDistributor::partition` (exchange.rs:32-80), for `n` pushers. -/
def partition (hash : K → Nat) (n : Nat) (c : RecUpd K V T R) : Option (List (Option (RecUpd K V T R))) :=
  ((List.range c.updates.keys.bounds.length).foldlM (partitionGroup hash c.updates) (List.replicate n ColTrie.empty)).map fun outputs =>
    let non_empty := outputs.countP fun o => !o.keys.values.isEmpty
    sendAll c.consolidated (c.records - (non_empty - 1)) outputs

end RecUpd

/-! ### The chunker -/

/-- `TrieChunker` (chunker.rs:22-32), without the chunk handed out last. -/
structure TrieChunker (K V T R : Type*) where
  blobs : List (ColTrie K V T R × Bool)
  blob_records : Nat
  ready : List (ColTrie K V T R)
deriving DecidableEq

namespace TrieChunker

/-- `Default` (chunker.rs:34-43). -/
def empty : TrieChunker K V T R := ⟨[], 0, []⟩

/-- `absorb` (chunker.rs:63-66). -/
def absorb (s : TrieChunker K V T R) (updates : ColTrie K V T R) (consolidated : Bool) : TrieChunker K V T R :=
  { s with blob_records := s.blob_records + updates.len, blobs := s.blobs ++ [(updates, consolidated)] }

/-- Absorbing what could not be shipped (chunker.rs:117-118). -/
def absorb? (s : TrieChunker K V T R) : Option (ColTrie K V T R × Bool) → TrieChunker K V T R
  | none => s
  | some (r, c) => s.absorb r c

/-- Shipping what is large, holding on to what is not empty (chunker.rs:101-103 and 110-112). -/
def ship (target : Nat) (s : TrieChunker K V T R) (cons : ColTrie K V T R) : Option (ColTrie K V T R × Bool) × TrieChunker K V T R :=
  if cons.len ≥ target then (none, { s with ready := s.ready ++ [cons] })
  else if cons.len > 0 then (some (cons, true), s)
  else (none, s)

section
variable [LinearOrder K] [LinearOrder V] [LinearOrder (Lin T)] [AddCommMonoid R] [DecidableEq R]

/-- `consolidate_blobs` (chunker.rs:47-60). -/
def consolidateBlobs (s : TrieChunker K V T R) : Option (ColTrie K V T R × TrieChunker K V T R) :=
  match s.blobs with
  | [(result, true)] => some (result, { s with blobs := [], blob_records := 0 })
  | blobs => (blobs.mapM fun (b : ColTrie K V T R × Bool) => b.1.iter).bind fun us => (ColTrie.formUnsorted us.flatten).map fun result => (result, { s with blobs := [], blob_records := 0 })

/-- `push_into` (chunker.rs:70-120). -/
def pushInto (target : Nat) (s : TrieChunker K V T R) (container : RecUpd K V T R) : Option (TrieChunker K V T R) :=
  if container.updates.len = 0 then some s else
  let updates := container.updates
  let consolidated := container.consolidated
  let len := updates.len
  if consolidated ∧ len ≥ target then some { s with ready := s.ready ++ [updates] }
  else if s.blob_records + len < 2 * target then some (s.absorb updates consolidated)
  else
    (if len ≥ target then (if consolidated then some updates else updates.consolidate).map (ship target s) else some (some (updates, consolidated), s)).bind fun (input_residual, s) =>
    (if s.blob_records ≥ target then s.consolidateBlobs.map fun (cons, s) => ship target s cons else some (none, s)).map fun (blobs_residual, s) =>
    (s.absorb? input_residual).absorb? blobs_residual

/-- `extract` (chunker.rs:125-128). -/
def extract (s : TrieChunker K V T R) : Option (ColTrie K V T R) × TrieChunker K V T R :=
  match s.ready with
  | [] => (none, s)
  | c :: ready => (some c, { s with ready })

/-- `finish` (chunker.rs:129-136). -/
def finish (s : TrieChunker K V T R) : Option (Option (ColTrie K V T R) × TrieChunker K V T R) :=
  if s.blobs.isEmpty then some s.extract
  else s.consolidateBlobs.map fun (cons, s) => (if cons.len > 0 then { s with ready := s.ready ++ [cons] } else s).extract

/-- What a user of the chunker can do. -/
inductive Op (K V T R : Type*) where
  | push (c : RecUpd K V T R)
  | extract
  | finish

/-- One use of the chunker; the list collects the chunks handed out. -/
def step (target : Nat) (s : TrieChunker K V T R × List (ColTrie K V T R)) : Op K V T R → Option (TrieChunker K V T R × List (ColTrie K V T R))
  | .push c => (s.1.pushInto target c).map fun t => (t, s.2)
  | .extract => some (s.1.extract.2, s.2 ++ s.1.extract.1.toList)
  | .finish => s.1.finish.map fun r => (r.2, s.2 ++ r.1.toList)

/-- `while let Some(chunk) = chunker.finish() { .. }`, as the batcher does before it seals. -/
def finishAll : Nat → TrieChunker K V T R → List (ColTrie K V T R) → Option (List (ColTrie K V T R) × TrieChunker K V T R)
  | 0, _, _ => none
  | n + 1, s, out => match s.finish with
    | none => none
    | some (none, s) => some (out, s)
    | some (some c, s) => finishAll n s (out ++ [c])

end

end TrieChunker

/-! ### Operators -/

section
variable [LinearOrder K] [LinearOrder V]

/-- `join_function` (operators.rs:45-56) on one message, with its time: the messages sent, with theirs. -/
def joinFunction [Lattice T] [LinearOrder (Lin T)] [AddCommMonoid R] [Mul R] [DecidableEq R] (target : Nat) (logic : K → V → T → R → List ((K × V) × T × R)) (m : T × RecUpd K V T R) :
    Option (List (T × RecUpd K V T R)) :=
  m.2.updates.iter.bind fun us =>
    let given := us.flatMap fun u => (logic (ofLex u.1).1 (ofLex u.1).2 u.2.1 u.2.2).map fun w => (toLex w.1, w.2.1 ⊔ u.2.1, w.2.2 * u.2.2)
    (ColBuilder.session target .empty given).map fun s => s.1.map fun c => (m.1, c)

/-- `leave_dynamic` (operators.rs:118-142) on one message, with its time: the builder is kept from message to message. `cap.delayed(&new_time, 0)` panics unless the connection declared when
the operator was built, applied to the time of the capability, gives a time at or before `new_time`. -/
def colLeaveDynamic [LE T] [DecidableLE T] [LinearOrder (Lin (T × PS Nat))] [AddCommMonoid R] [DecidableEq R] (target level : Nat) (col_builder : ColBuilder K V (T × PS Nat) R)
    (m : (T × PS Nat) × RecUpd K V (T × PS Nat) R) : Option (List ((T × PS Nat) × RecUpd K V (T × PS Nat) R) × ColBuilder K V (T × PS Nat) R) :=
  let new_time := leaveTime level m.1
  (dynResultsIn (leaveSummary level) m.1).bind fun s =>
  if s ≤ new_time then
    m.2.updates.iter.bind fun us =>
    (us.foldlM (fun (b : ColBuilder K V (T × PS Nat) R) u => b.pushInto target (u.1, leaveTime level u.2.1, u.2.2)) col_builder).bind fun b =>
    (b.finishAll (b.pending.length + 2) []).map fun r => (r.1.map fun c => (new_time, c), r.2)
  else none

/-- `while cursor.val_valid(&batch) { .. cursor.map_times(..); cursor.step_val(&batch) }` (operators.rs:174-181): the updates given, and the cursor. -/
def walkValid {C S : Type*} (ops : CursorOps C S K V T R) (s : S) : Nat → C → Option (Upds (K ×ₗ V) T R × C)
  | 0, _ => none
  | fuel + 1, c =>
    (ops.val_valid s c).bind fun valid =>
    if valid then
      (ops.key s c).bind fun key => (ops.val s c).bind fun val => (ops.map_times s c).bind fun upds => (ops.step_val s c).bind fun c =>
      (walkValid ops s fuel c).map fun r => (upds.map (fun u => (toLex (key, val), u)) ++ r.1, r.2)
    else some ([], c)

/-- `while cursor.key_valid(&batch) { .. cursor.step_key(&batch) }` (operators.rs:173-183). -/
def walkBatch {C S : Type*} (ops : CursorOps C S K V T R) (s : S) (fuelVals : Nat) : Nat → C → Option (Upds (K ×ₗ V) T R)
  | 0, _ => none
  | fuel + 1, c =>
    (ops.key_valid s c).bind fun valid =>
    if valid then
      (walkValid ops s fuelVals c).bind fun (us, c) => (ops.step_key s c).bind fun c => (walkBatch ops s fuelVals fuel c).map fun r => us ++ r
    else some []

/-- `as_recorded_updates` (operators.rs:169-185) on one message of batches of columnar chunks, with its time. -/
def asRecordedUpdates [LinearOrder (Lin T)] [AddCommMonoid R] [DecidableEq R] (target fuel : Nat) (m : T × List (BatchOf (ColTrie K V T R) T)) :
    Option (List (T × RecUpd K V T R)) :=
  (m.2.mapM fun batch => walkBatch (BatchCursor.ops colNav) batch fuel fuel (BatchCursor.init colNav batch.chunks)).bind fun given =>
  (ColBuilder.session target .empty given.flatten).map fun s => s.1.map fun c => (m.1, c)

end

end DD
