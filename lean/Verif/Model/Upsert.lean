import Verif.Model.Writer
import Verif.Spec.Cursor
import Mathlib.Data.Prod.Lex
import Mathlib.Data.List.Sort
import Mathlib.Order.WithBot

/-!
# Model of `operators/arrange/upsert.rs`: `arrange_from_upsert`

The operator for one worker. Capabilities are modelled by their times. The binary heap is a sorted list, least first; shrinking its allocation is not
modelled. The cursor into the trace is a position in contents that the environment provides (`trace`), given how many batches were made, the compaction frontier and which updates
were inserted; what the environment guarantees is stated with the property. The batch builder receives the updates in the order pushed, and they are the batch.
`none` is a panic.
-/

namespace DD
variable {K V T : Type*} [LinearOrder K] [LinearOrder V] [LinearOrder T]

/-- An upsert: key, new value or removal, time. -/
abbrev Ups (K V T : Type*) := K × Option V × T

/-- Rust's order of `Option<V>`: `None` is least. -/
def optionLe (a b : Option V) : Bool :=
  match a, b with
  | none, _ => true
  | some _, none => false
  | some a, some b => decide (a ≤ b)

/-- Rust's order of `(T, K, Option<V>)`, of which the heap presents the least (upsert.rs:176). -/
def heapLe (a b : T × K × Option V) : Bool :=
  if a.1 = b.1 then (if a.2.1 = b.2.1 then optionLe a.2.2 b.2.2 else decide (a.2.1 < b.2.1)) else decide (a.1 < b.1)

/-- `BinaryHeap::push`. -/
def heapPush (q : List (T × K × Option V)) (x : T × K × Option V) : List (T × K × Option V) := q.orderedInsert (fun a b => heapLe a b = true) x

/-- `to_process.entry(key).or_insert(Vec::new()).push(x)` on a `BTreeMap` (upsert.rs:222). -/
def entryPush {X : Type*} : List (K × List X) → K → X → List (K × List X)
  | [], key, x => [(key, [x])]
  | e :: m, key, x => if key < e.1 then (key, [x]) :: e :: m else if key = e.1 then (e.1, e.2 ++ [x]) :: m else e :: entryPush m key x

/-- The search for the prior value among the values of the key in the trace (upsert.rs:248-257). -/
def findPrev : List (V × List (T × Int)) → Option V → Option (Option V)
  | [], prev => some prev
  | vu :: vals, prev =>
    let count := (vu.2.map Prod.snd).sum
    if count = 0 ∨ count = 1 then
      if count = 1 then
        match prev with
        | none => findPrev vals (some vu.1)
        | some _ => none
      else findPrev vals prev
    else none

/-- The prior value of the key, and the cursor after the search (upsert.rs:239-259). -/
def priorValue (cursor : Pos K V T Int) (key : K) : Option (Option V × Pos K V T Int) :=
  let cursor := cursor.seekKey key
  if cursor.key? = some key then (findPrev cursor.vals none).map fun prev => (prev, cursor.stepKey)
  else some (none, cursor)

/-- The order of `(time, Reverse(val))` (upsert.rs:262). -/
def listLe (a b : T × Option V) : Bool := if a.1 = b.1 then optionLe b.2 a.2 else decide (a.1 < b.1)

/-- Drop the elements whose time is that of the element last retained. -/
def dedupAfter : T → List (T × Option V) → List (T × Option V)
  | _, [] => []
  | t, x :: xs => if x.1 = t then dedupAfter t xs else x :: dedupAfter x.1 xs

/-- `dedup_by(|(t1,_), (t2,_)| t1 == t2)` (upsert.rs:263). -/
def dedupTimes : List (T × Option V) → List (T × Option V)
  | [] => []
  | x :: xs => x :: dedupAfter x.1 xs

/-- The loop over the upserts of a key (upsert.rs:264-274). -/
def applyUpserts (key : K) : Option V → List (T × Option V) → Upds (K × V) T Int
  | _, [] => []
  | prev, (time, next) :: list =>
    if prev ≠ next then
      (match prev with | some prev => [((key, prev), time, -1)] | none => []) ++
      (match next with | some next => [((key, next), time, 1)] | none => []) ++ applyUpserts key next list
    else applyUpserts key prev list

/-- The order of `updates.sort()` (upsert.rs:276). -/
def updLe (a b : (K × V) × T × Int) : Bool :=
  decide (toLex (toLex a.1, toLex (a.2.1, a.2.2)) ≤ toLex (toLex b.1, toLex (b.2.1, b.2.2)))

/-- What is pushed to the builder for a key (upsert.rs:262-277). -/
def keyUpserts (key : K) (prev : Option V) (list : List (T × Option V)) : Upds (K × V) T Int :=
  (applyUpserts key prev (dedupTimes (list.insertionSort fun a b => listLe a b = true))).insertionSort fun a b => updLe a b = true

/-- The loop over keys (upsert.rs:233-278). -/
def upsertKeys : Pos K V T Int → List (K × List (T × Option V)) → Option (Upds (K × V) T Int)
  | _, [] => some []
  | cursor, (key, list) :: m => do
    let (prev, cursor) ← priorValue cursor key
    let rest ← upsertKeys cursor m
    some (keyUpserts key prev list ++ rest)

/-- The state of the operator (upsert.rs:154-177); `since` is the compaction frontier of `reader_local`, `sent` the batches sent, each with its capability. -/
structure UpsertState (K V T : Type*) where
  caps : List T
  prev : List T
  queue : List (T × K × Option V)
  since : List T
  writer : TraceWriter (K × V) T Int
  sent : List (T × ArrBatch (K × V) T Int)

/-- What is seen in an activation: messages with their capability times, and the frontier. -/
structure UpsertAct (K V T : Type*) where
  msgs : List (T × List (Ups K V T))
  frontier : List T

/-- The contents of the trace presented by its cursor. -/
abbrev TraceView (K V T : Type*) := Nat → List T → Upds (K × V) T Int → Contents K V T Int

namespace UpsertState

/-- The initial state; `minimum` is `T::minimum()`. -/
def start (minimum : T) : UpsertState K V T := ⟨[], [minimum], [], [minimum], TraceWriter.new minimum, []⟩

/-- Receive a message (upsert.rs:182-187). -/
def receive (st : UpsertState K V T) (m : T × List (Ups K V T)) : UpsertState K V T :=
  { st with caps := acInsert st.caps m.1, queue := m.2.foldl (fun q u => heapPush q (u.2.2, u.1, u.2.1)) st.queue }

/-- Make and send a batch for a capability (upsert.rs:207-285). -/
def retireCap (minimum : T) (trace : TraceView K V T) (frontier : List T) (st : UpsertState K V T) (cap : T) (others : List T) : Option (UpsertState K V T) := do
  let upper := acExtend (acExtend [] frontier) others
  let ready := st.queue.takeWhile fun x => !lessEqual upper x.1
  let queue := st.queue.dropWhile fun x => !lessEqual upper x.1
  let to_process := ready.foldl (fun m x => entryPush m x.2.1 (x.1, x.2.2)) []
  let updates ← upsertKeys (Pos.start (trace st.sent.length st.since (st.writer.trace.flatMap ArrBatch.upds))) to_process
  let batch := ⟨⟨st.prev, upper, [minimum]⟩, updates⟩
  let writer ← st.writer.insert batch (some cap)
  some { st with prev := upper, queue := queue, writer := writer, sent := st.sent ++ [(cap, batch)] }

/-- The loop over capabilities (upsert.rs:203-287). -/
def retireCaps (minimum : T) (trace : TraceView K V T) (frontier : List T) : List T → UpsertState K V T → Option (UpsertState K V T)
  | [], st => some st
  | cap :: others, st =>
    if !lessEqual frontier cap then (retireCap minimum trace frontier st cap others).bind (retireCaps minimum trace frontier others)
    else retireCaps minimum trace frontier others st

/-- Downgrade the capabilities (upsert.rs:294-304). -/
def downgrade (st : UpsertState K V T) : Option (UpsertState K V T) :=
  match st.queue with
  | [] => some { st with caps := [] }
  | (time, _, _) :: _ =>
    match st.caps.find? fun c => decide (c ≤ time) with
    | some _ => some { st with caps := acInsert [] time }
    | none => none

/-- An activation (upsert.rs:179-321). -/
def activate (minimum : T) (trace : TraceView K V T) (st : UpsertState K V T) (act : UpsertAct K V T) : Option (UpsertState K V T) :=
  let st := act.msgs.foldl receive st
  if !acLe st.prev act.frontier then none
  else if acEq st.prev act.frontier then some st
  else do
    let st ←
      if st.caps.any fun c => !lessEqual act.frontier c then (retireCaps minimum trace act.frontier st.caps st).bind downgrade
      else (st.writer.sealTo minimum act.frontier).map fun writer => { st with writer := writer }
    let prev := acExtend [] act.frontier
    some { st with prev := prev, since := acJoin st.since prev }

end UpsertState

/-- A run of the operator. -/
def upsertRun (minimum : T) (trace : TraceView K V T) : UpsertState K V T → List (UpsertAct K V T) → Option (UpsertState K V T)
  | st, [] => some st
  | st, act :: acts => (st.activate minimum trace act).bind fun st => upsertRun minimum trace st acts

end DD
