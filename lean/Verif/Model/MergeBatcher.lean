import Verif.Model.Consolidation
import Verif.Model.Lattice

/-!
# Model of `trace/implementations/merge_batcher.rs`: `MergeBatcher` with `VecMerger`

Not modelled: the logger and size accounting; the `stash`, which only recycles cleared allocations. `cap` is
`VecMerger::target_capacity`, a positive number; `result.at_capacity()` is `result.len() == cap` for buffers made by `empty`.
-/

namespace DD

variable {D T R : Type*} [LinearOrder D] [LinearOrder (Lin T)] [AddCommMonoid R] [DecidableEq R]

/-- A chain of chunks. -/
abbrev Chain (D T R : Type*) := List (Upds D T R)

/-- `refill` (merge_batcher.rs:261-275): returns the queue and the rest of the iterator. -/
def refill (q : Upds D T R) (iter : Chain D T R) : Upds D T R × Chain D T R :=
  if q = [] then
    match iter with
    | [] => (q, [])
    | chunk :: iter => (chunk, iter)
  else (q, iter)

/-- Local variables of `VecMerger::merge`. -/
structure MergeVars (D T R : Type*) where
  q1 : Upds D T R
  iter1 : Chain D T R
  q2 : Upds D T R
  iter2 : Chain D T R
  result : Upds D T R
  output : Chain D T R

/-- The tail of one loop iteration (merge_batcher.rs:327-334): ship a full result, refill empty queues. -/
def MergeVars.tidy (cap : Nat) (v : MergeVars D T R) : MergeVars D T R :=
  let v := if v.result.length = cap then { v with output := v.output ++ [v.result], result := [] } else v
  let r1 := refill v.q1 v.iter1
  let r2 := refill v.q2 v.iter2
  { v with q1 := r1.1, iter1 := r1.2, q2 := r2.1, iter2 := r2.2 }

/-- The loop of `merge` (merge_batcher.rs:308-335); the first argument bounds the number of iterations. -/
def mergeLoop (cap : Nat) : Nat → MergeVars D T R → MergeVars D T R
  | 0, v => v
  | fuel + 1, v =>
    match v.q1, v.q2 with
    | (d1, t1, r1) :: q1, (d2, t2, r2) :: q2 =>
      if d1 < d2 ∨ (d1 = d2 ∧ toLin t1 < toLin t2) then
        mergeLoop cap fuel (MergeVars.tidy cap { v with q1 := q1, result := v.result ++ [(d1, t1, r1)] })
      else if d2 < d1 ∨ (d1 = d2 ∧ toLin t2 < toLin t1) then
        mergeLoop cap fuel (MergeVars.tidy cap { v with q2 := q2, result := v.result ++ [(d2, t2, r2)] })
      else
        let r := r1 + r2
        let result := if r ≠ 0 then v.result ++ [(d1, t1, r)] else v.result
        mergeLoop cap fuel (MergeVars.tidy cap { v with q1 := q1, q2 := q2, result := result })
    | _, _ => v

/-- `VecMerger::merge` (merge_batcher.rs:289-344). -/
def vecMerge (cap : Nat) (list1 list2 : Chain D T R) : Chain D T R :=
  let v := mergeLoop cap (list1.flatten.length + list2.flatten.length)
    { q1 := list1.headD [], iter1 := list1.tail, q2 := list2.headD [], iter2 := list2.tail, result := [], output := [] }
  let output := if v.result ≠ [] then v.output ++ [v.result] else v.output
  let output := if v.q1 ≠ [] then output ++ [v.q1] else output
  let output := if v.q2 ≠ [] then output ++ [v.q2] else output
  output ++ v.iter1 ++ v.iter2

/-- Local variables of `VecMerger::extract`. -/
structure ExtractVars (D T R : Type*) where
  frontier : List T
  keep : Upds D T R
  kept : Chain D T R
  ready : Upds D T R
  ship : Chain D T R

/-- The body of the inner loop of `extract` (merge_batcher.rs:360-374). -/
def extractStep [LE T] [DecidableLE T] (cap : Nat) (upper : List T) (v : ExtractVars D T R) (u : D × T × R) : ExtractVars D T R :=
  let v := if lessEqual upper u.2.1 then { v with frontier := acInsert v.frontier u.2.1, keep := v.keep ++ [u] }
    else { v with ready := v.ready ++ [u] }
  let v := if v.keep.length = cap then { v with kept := v.kept ++ [v.keep], keep := [] } else v
  if v.ready.length = cap then { v with ship := v.ship ++ [v.ready], ready := [] } else v

/-- `VecMerger::extract` (merge_batcher.rs:346-382): returns the frontier, `readied` and `kept`. -/
def vecExtract [LE T] [DecidableLE T] (cap : Nat) (merged : Chain D T R) (upper frontier : List T) :
    List T × Chain D T R × Chain D T R :=
  let v := merged.foldl (fun v chunk => chunk.foldl (extractStep cap upper) v) ⟨frontier, [], [], [], []⟩
  (v.frontier, (if v.ready ≠ [] then v.ship ++ [v.ready] else v.ship), (if v.keep ≠ [] then v.kept ++ [v.keep] else v.kept))

/-- `MergeBatcher` (merge_batcher.rs:21-41). The head of `chains` is the last element of the vector. -/
structure MergeBatcher (D T R : Type*) where
  chains : List (Nat × Chain D T R)
  lower : List T
  frontier : List T

/-- `Description` (trace/description.rs:68-76). -/
structure Description (T : Type*) where
  lower : List T
  upper : List T
  since : List T
deriving DecidableEq

/-- `MergeBatcher::new` (merge_batcher.rs:50-60). -/
def MergeBatcher.init [Bot T] : MergeBatcher D T R := { chains := [], lower := [⊥], frontier := [] }

/-- `chain_push` (merge_batcher.rs:143-147): caches the number of updates. -/
def chainPush (chains : List (Nat × Chain D T R)) (chain : Chain D T R) : List (Nat × Chain D T R) :=
  ((chain.map List.length).sum, chain) :: chains

/-- The `while` loop of `insert_chain` (merge_batcher.rs:111-116). -/
def ladder (cap : Nat) : Nat → List (Nat × Chain D T R) → List (Nat × Chain D T R)
  | fuel + 1, (w1, list1) :: (w2, list2) :: rest =>
    if w1 ≥ w2 / 2 then ladder cap fuel (chainPush rest (vecMerge cap list1 list2)) else (w1, list1) :: (w2, list2) :: rest
  | _, chains => chains

/-- `push_into` and `insert_chain` (merge_batcher.rs:100-118). -/
def MergeBatcher.push (cap : Nat) (b : MergeBatcher D T R) (chunk : Upds D T R) : MergeBatcher D T R :=
  let chains := chainPush b.chains [chunk]
  { b with chains := ladder cap chains.length chains }

/-- The merge of all remaining chains at the start of `seal` (merge_batcher.rs:67-72). -/
def mergeAll (cap : Nat) : Nat → List (Nat × Chain D T R) → List (Nat × Chain D T R)
  | fuel + 1, (_, list1) :: (_, list2) :: rest => mergeAll cap fuel (chainPush rest (vecMerge cap list1 list2))
  | _, chains => chains

/-- `chain_pop().unwrap_or_default()` (merge_batcher.rs:73, 134-138). -/
def popOrDefault : List (Nat × Chain D T R) → Chain D T R
  | [] => []
  | (_, chain) :: _ => chain

/-- `seal` (merge_batcher.rs:66-93). -/
def MergeBatcher.seal [LE T] [DecidableLE T] [Bot T] (cap : Nat) (b : MergeBatcher D T R) (upper : List T) :
    MergeBatcher D T R × Chain D T R × Description T :=
  let merged := popOrDefault (mergeAll cap b.chains.length b.chains)
  let r := vecExtract cap merged upper []
  let chains := if r.2.2 ≠ [] then chainPush [] r.2.2 else []
  ({ chains := chains, lower := upper, frontier := r.1 }, r.2.1, ⟨b.lower, upper, [⊥]⟩)

/-- Calls a user of a batcher can make. -/
inductive BatcherOp (D T R : Type*)
  | push (chunk : Upds D T R)
  | seal (upper : List T)

/-- A sequence of calls. -/
def MergeBatcher.run [LE T] [DecidableLE T] [Bot T] (cap : Nat) (b : MergeBatcher D T R) (ops : List (BatcherOp D T R)) :
    MergeBatcher D T R :=
  ops.foldl (fun b op => match op with
    | .push chunk => b.push cap chunk
    | .seal upper => (b.seal cap upper).1) b

end DD
