import Verif.Model.Reduce
import Verif.Model.Tile
import Verif.Model.Writer

/-!
# Model of the `reduce` operator: `CursorTactic::retire` and `reduce_with_tactic`

Models operators/reduce.rs:120-255 (the operator) and 327-497 (the tactic) on top of the computation for one key (`reduceKey`).

A capability is modelled by its time, a `CapabilitySet` by its list of times. Batches are descriptions with updates, as in `TraceWriter`. What the cursors over lists of batches
present is given for each activation: they depend on the compaction the traces did. The closures `logic` and `push` are functions; `push` clears its buffer and fills it with the key
and the updates, as the doc comment (reduce.rs:89-92) asks for.
-/

namespace DD
variable {K V1 V2 T R1 R2 : Type*}

/-- `TraceReader::advance_upper` (trace/mod.rs:156-162). The trace is given by the descriptions of its batches and whether they are empty. -/
def advanceUpper [DecidableEq T] (shown : List (Description T × Bool)) (upper : List T) : List T :=
  shown.foldl (fun upper b => if b.2 && acEq b.1.lower upper then b.1.upper else upper) upper

/-- What the loop over keys works with (reduce.rs:347-437): the positions of the cursors over input and output, the next pending moments, and per held time the updates pushed into its
builder. -/
structure RetireState (K V1 V2 T R1 R2 : Type*) where
  source : Contents K V1 T R1
  output : Contents K V2 T R2
  next : List (K × T)
  builders : List (Upds (K × V2) T R2)

section
variable [Lattice T] [DecidableLE T] [DecidableEq T] [LinearOrder (Lin T)] [LinearOrder K] [LinearOrder V1] [LinearOrder V2]
  [AddCommMonoid R1] [DecidableEq R1] [AddCommMonoid R2] [DecidableEq R2]

/-- The loop over the keys of the batch cursor and the pending keys (reduce.rs:367-437). The pending moments from `pending_pos` on and the keys of the batch cursor from its position
on are arguments. The first argument bounds the rounds of the loop, `fuel` those of the computation of a key. The cursors over input and output have moved to the key when it
has been computed. The buffers are sorted by value (insertion sort is stable) and pushed into the builders with the key. -/
def retireLoop (fuel : Nat) (logic : K → List (V1 × R1) → List (V2 × R2) → List (V2 × R2)) (upper held : List T) :
    Nat → List (K × T) → Contents K V1 T R1 → RetireState K V1 V2 T R1 R2 → Option (RetireState K V1 V2 T R1 R2)
  | 0, pending, batch, st => if pending.isEmpty && batch.isEmpty then some st else none
  | n + 1, pending, batch, st =>
    let key? : Option K :=
      match pending.head?, batch.head? with
      | some p, some b => some (min p.1 b.1)
      | some p, none => some p.1
      | none, some b => some b.1
      | none, none => none
    match key? with
    | none => some st
    | some key =>
      let mine := pending.takeWhile fun p => p.1 = key
      let pending := pending.dropWhile fun p => p.1 = key
      let times := sortDedup ((mine.map (·.2)).filter fun t => !lessEqual upper t)
      if batch.head?.map (·.1) = some key ∨ times ≠ [] then
        match reduceKey fuel key st.source st.output batch times (logic key) upper held with
        | none => none
        | some (outs, new) =>
          let batch := if batch.head?.map (·.1) = some key then batch.tail else batch
          let new := sortDedup (new ++ (mine.map (·.2)).filter fun t => lessEqual upper t)
          retireLoop fuel logic upper held n pending batch
            { source := st.source.dropWhile fun kv => kv.1 < key
              output := st.output.dropWhile fun kv => kv.1 < key
              next := st.next ++ new.map fun t => (key, t)
              builders := List.zipWith (fun b o => b ++ (o.2.insertionSort fun x y => x.1 ≤ y.1).map fun u => ((key, u.1), u.2)) st.builders outs }
      else retireLoop fuel logic upper held n pending batch { st with next := st.next ++ mine }

/-- The loop that makes a batch of each builder whose interval is not empty, and tags it with the held time (reduce.rs:443-471). The lists are `held.elements()[index ..]` and the
remaining builders, the first argument is `output_lower`. A builder whose interval is empty is dropped. -/
def sealLoop [OrderBot T] (upper : List T) : List T → List T → List (Upds (K × V2) T R2) → List (T × ArrBatch (K × V2) T R2)
  | outLower, h :: rest, b :: builders =>
    let outUpper := acExtend upper rest
    if acEq outUpper outLower then sealLoop upper outLower rest builders
    else (h, ⟨⟨outLower, outUpper, [⊥]⟩, b⟩) :: sealLoop upper outUpper rest builders
  | _, _, _ => []

/-- `retire` (reduce.rs:327-496). The result is the batches to ship, the pending moments, and the frontier to hold. The final assertion, that the last `output_upper` is `upper`, holds by
the definition of `sealLoop`: in the round of the last held time it is `upper` extended by nothing. -/
def retire [OrderBot T] (fuel : Nat) (logic : K → List (V1 × R1) → List (V2 × R2) → List (V2 × R2)) (pending : List (K × T))
    (source : Contents K V1 T R1) (output : Contents K V2 T R2) (batch : Contents K V1 T R1) (lower upper held : List T) :
    Option (List (T × ArrBatch (K × V2) T R2) × List (K × T) × List T) :=
  if held.any fun t => !lessEqual upper t then
    match retireLoop fuel logic upper held (pending.length + batch.length) pending batch ⟨source, output, [], held.map fun _ => []⟩ with
    | none => none
    | some st => some (sealLoop upper lower held st.builders, st.next, acExtend [] (st.next.map (·.2)))
  else some ([], pending, held)

/-- What the operator is presented with in an activation: messages, each with its capability's time and its batches; the batches of the source trace; the input
frontier; and what the cursors over the source batches before the interval, the output batches before it, and the batches received present. -/
structure ReduceAct (K V1 V2 T R1 R2 : Type*) where
  msgs : List (T × List (ArrBatch (K × V1) T R1))
  shown : List (Description T × Bool)
  frontier : List T
  source : Contents K V1 T R1
  output : Contents K V2 T R2
  fresh : Contents K V1 T R1

/-- The new `upper_limit` (reduce.rs:177-195): the upper of the last batch, advanced over empty batches of the trace, and by the input frontier. -/
def ReduceAct.nextUpper (a : ReduceAct K V1 V2 T R1 R2) (lower : List T) : List T :=
  acJoin (advanceUpper a.shown ((a.msgs.flatMap (·.2)).foldl (fun _ b => b.desc.upper) lower)) a.frontier

/-- The state of the operator (reduce.rs:158-163) with the pending moments of its tactic, and the batches it sent, each with the capability's time. -/
structure ReduceOp (K V2 T R2 : Type*) where
  pending : List (K × T)
  caps : List T
  upper : List T
  writer : TraceWriter (K × V2) T R2
  sent : List (T × ArrBatch (K × V2) T R2)

/-- The initial state. -/
def ReduceOp.start (minimum : T) : ReduceOp K V2 T R2 := ⟨[], [], [minimum], TraceWriter.new minimum, []⟩

/-- Shipping the batches produced (reduce.rs:225-229): `capabilities.delayed` panics unless some capability is at or before the time. -/
def shipBatches (caps : List T) : List (T × ArrBatch (K × V2) T R2) → TraceWriter (K × V2) T R2 → Option (TraceWriter (K × V2) T R2)
  | [], w => some w
  | (time, batch) :: rest, w =>
    if lessEqual caps time then
      match w.insert batch (some time) with
      | none => none
      | some w => shipBatches caps rest w
    else none

/-- One activation of the operator (reduce.rs:165-250). `capabilities.downgrade` panics unless each new time is at or beyond some capability. The compaction permissions
given to the traces are `upper_limit`. -/
def ReduceOp.act [OrderBot T] (fuel : Nat) (logic : K → List (V1 × R1) → List (V2 × R2) → List (V2 × R2)) (st : ReduceOp K V2 T R2)
    (a : ReduceAct K V1 V2 T R1 R2) : Option (ReduceOp K V2 T R2) :=
  let lower := st.upper
  let caps := acExtend st.caps (a.msgs.map (·.1))
  let upper := a.nextUpper lower
  if acEq upper lower then some { st with caps := caps, upper := upper }
  else
    let held := acExtend [] caps
    match retire fuel logic st.pending a.source a.output a.fresh lower upper held with
    | none => none
    | some (produced, pending, frontier) =>
      match shipBatches caps produced st.writer with
      | none => none
      | some writer =>
        if frontier.all fun t => lessEqual caps t then
          match writer.sealTo ⊥ upper with
          | none => none
          | some writer => some { pending := pending, caps := frontier, upper := upper, writer := writer, sent := st.sent ++ produced }
        else none

/-- A sequence of activations. -/
def ReduceOp.run [OrderBot T] (fuel : Nat) (logic : K → List (V1 × R1) → List (V2 × R2) → List (V2 × R2)) :
    ReduceOp K V2 T R2 → List (ReduceAct K V1 V2 T R1 R2) → Option (ReduceOp K V2 T R2)
  | st, [] => some st
  | st, a :: as =>
    match st.act fuel logic a with
    | none => none
    | some st => ReduceOp.run fuel logic st as

end
end DD
