import Verif.Model.MergeBatcher
import Mathlib.Data.Nat.Log

/-!
# Model of `trace/implementations/spine_fueled.rs`: `Spine`

Generic in the batch type, as in the code: `BatchOps` lists what the spine calls. Integers are unbounded, except that `isize::MAX` is
kept as the fuel for immediate completion; the shifts of the code (`8 << batch_index`, `1 << index`) overflow only with 2^29 or more updates in
one layer. Not modelled: logging, activation, the recorded inputs of a completed merge (used for logging only). A panic is `none`.
-/

namespace DD

/-- What `Spine` uses of `trait Batch` and `trait Merger` (trace/mod.rs:215-252, 309-324). `work` returns the merger and the remaining fuel. -/
structure BatchOps (B M T : Type*) where
  len : B → Nat
  lower : B → List T
  upper : B → List T
  beginMerge : B → B → List T → Option M
  work : M → B → B → Int → Option (M × Int)
  done : M → B
  empty : List T → List T → B

/-- `MergeState` and `MergeVariant` (spine_fueled.rs:718-728, 828-833). -/
inductive MergeState (B M : Type*)
  | vacant
  | single (batch : Option B)
  | inProgress (batch1 batch2 : B) (merge : M)
  | complete (batch : Option B)

/-- `Spine` (spine_fueled.rs:84-98). -/
structure Spine (B M T : Type*) where
  logical_frontier : List T
  physical_frontier : List T
  merging : List (MergeState B M)
  pending : List B
  upper : List T
  effort : Nat

/-- `isize::MAX` on 64-bit platforms (used at spine_fueled.rs:842). -/
def isizeMax : Int := 2 ^ 63 - 1

/-- `usize::next_power_of_two().trailing_zeros()`: the least `k` with `n ≤ 2^k`. -/
def levelOf (n : Nat) : Nat := Nat.clog 2 n

section
variable {B M T : Type*}

namespace MergeState

/-- `len` (spine_fueled.rs:733-740). -/
def len (ops : BatchOps B M T) : MergeState B M → Nat
  | single (some b) => ops.len b
  | inProgress b1 b2 _ => ops.len b1 + ops.len b2
  | complete (some b) => ops.len b
  | _ => 0

/-- `is_vacant` (spine_fueled.rs:743-745). -/
def is_vacant : MergeState B M → Bool
  | vacant => true
  | _ => false

/-- `is_single` (spine_fueled.rs:748-750). -/
def is_single : MergeState B M → Bool
  | single _ => true
  | _ => false

/-- `is_double` (spine_fueled.rs:753-755). -/
def is_double : MergeState B M → Bool
  | inProgress _ _ _ => true
  | complete _ => true
  | _ => false

/-- `is_complete` (spine_fueled.rs:774-781). -/
def is_complete : MergeState B M → Bool
  | complete _ => true
  | _ => false

/-- `MergeState::work` (spine_fueled.rs:788-793) and `MergeVariant::work` (spine_fueled.rs:852-866). -/
def work (ops : BatchOps B M T) (fuel : Int) : MergeState B M → Option (MergeState B M)
  | inProgress b1 b2 merge =>
    match ops.work merge b1 b2 fuel with
    | none => none
    | some (merge, fuel) => if fuel > 0 then some (complete (some (ops.done merge))) else some (inProgress b1 b2 merge)
  | s => some s

/-- `MergeState::complete` (spine_fueled.rs:765-771) and `MergeVariant::complete` (spine_fueled.rs:841-846). The outer option is the panic
"Failed to complete a merge!". -/
def finish (ops : BatchOps B M T) : MergeState B M → Option (Option B)
  | vacant => some none
  | single batch => some batch
  | inProgress b1 b2 merge =>
    match work ops isizeMax (inProgress b1 b2 merge) with
    | some (complete batch) => some batch
    | _ => none
  | complete batch => some batch

/-- `begin_merge` (spine_fueled.rs:811-825). -/
def beginMerge [DecidableEq T] (ops : BatchOps B M T) (frontier : List T) : Option B → Option B → Option (MergeState B M)
  | some b1, some b2 =>
    if acEq (ops.upper b1) (ops.lower b2) then (ops.beginMerge b1 b2 frontier).map fun m => inProgress b1 b2 m else none
  | none, some x => some (complete (some x))
  | some x, none => some (complete (some x))
  | none, none => some (complete none)

/-- The batches exposed by a layer, older first (spine_fueled.rs:212-219 in `map_batches`). -/
def batches : MergeState B M → List B
  | inProgress b1 b2 _ => [b1, b2]
  | complete (some b) => [b]
  | single (some b) => [b]
  | _ => []

end MergeState

open MergeState

/-- `while self.merging.len() <= index { self.merging.push(Vacant) }` (spine_fueled.rs:530-532, 597-599). -/
def extendTo (ms : List (MergeState B M)) (index : Nat) : List (MergeState B M) :=
  ms ++ List.replicate (index + 1 - ms.length) .vacant

/-- `insert_at` (spine_fueled.rs:595-624). -/
def insertAt [DecidableEq T] (ops : BatchOps B M T) (logical : List T) (ms : List (MergeState B M)) (batch : Option B) (index : Nat) :
    Option (List (MergeState B M)) :=
  let ms := extendTo ms index
  match ms[index]? with
  | some .vacant => some (ms.set index (.single batch))
  | some (.single old) => (beginMerge ops logical old batch).map fun s => ms.set index s
  | _ => none

/-- `complete_at` (spine_fueled.rs:627-646). -/
def completeAt (ops : BatchOps B M T) (ms : List (MergeState B M)) (index : Nat) : Option (List (MergeState B M) × Option B) :=
  match ms[index]? with
  | none => none
  | some s => (finish ops s).map fun b => (ms.set index .vacant, b)

/-- One iteration of `apply_fuel` (spine_fueled.rs:569-588). -/
def applyFuelStep [DecidableEq T] (ops : BatchOps B M T) (logical : List T) (fuel : Int) (ms : List (MergeState B M)) (index : Nat) :
    Option (List (MergeState B M)) :=
  match ms[index]? with
  | none => none
  | some s =>
    match s.work ops fuel with
    | none => none
    | some s =>
      let ms := ms.set index s
      if s.is_complete then
        match completeAt ops ms index with
        | none => none
        | some (ms, merged) => insertAt ops logical ms merged (index + 1)
      else some ms

/-- `apply_fuel` (spine_fueled.rs:563-589). -/
def applyFuel [DecidableEq T] (ops : BatchOps B M T) (logical : List T) (ms : List (MergeState B M)) (fuel : Int) :
    Option (List (MergeState B M)) :=
  (List.range ms.length).foldlM (applyFuelStep ops logical fuel) ms

/-- One iteration of the loop of `roll_up` (spine_fueled.rs:539-542). -/
def rollStep [DecidableEq T] (ops : BatchOps B M T) (logical : List T) (st : List (MergeState B M) × Option B) (i : Nat) :
    Option (List (MergeState B M) × Option B) :=
  match insertAt ops logical st.1 st.2 i with
  | none => none
  | some ms => completeAt ops ms i

/-- `roll_up` (spine_fueled.rs:527-555). -/
def rollUp [DecidableEq T] (ops : BatchOps B M T) (logical : List T) (ms : List (MergeState B M)) (index : Nat) :
    Option (List (MergeState B M)) :=
  let ms := extendTo ms index
  if (ms.take index).any (fun m => !m.is_vacant) then
    match (List.range index).foldlM (rollStep ops logical) (ms, none) with
    | none => none
    | some (ms, merged) =>
      match insertAt ops logical ms merged index with
      | none => none
      | some ms =>
        match ms[index]? with
        | none => none
        | some s =>
          if s.is_double then
            match completeAt ops ms index with
            | none => none
            | some (ms, merged) => insertAt ops logical ms merged (index + 1)
          else some ms
  else some ms

/-- The number of virtual records of a list of layers (spine_fueled.rs:683-690). -/
def virtualSize (ms : List (MergeState B M)) : Nat :=
  ((List.range ms.length).map fun index =>
    match ms[index]? with
    | some (.single _) => 1 <<< index
    | some (.inProgress _ _ _) => 2 <<< index
    | some (.complete _) => 2 <<< index
    | _ => 0).sum

/-- The loop of `tidy_layers` (spine_fueled.rs:667-708); `level` is `appropriate_level`; the first argument bounds the number of iterations. -/
def tidyLoop [DecidableEq T] (ops : BatchOps B M T) (logical : List T) (level : Nat) : Nat → List (MergeState B M) →
    Option (List (MergeState B M))
  | 0, ms => some ms
  | n + 1, ms =>
    let length := ms.length
    if level < length - 1 then
      match ms[length - 2]? with
      | some .vacant => tidyLoop ops logical level n (ms.eraseIdx (length - 2))
      | some (.single none) => tidyLoop ops logical level n (ms.eraseIdx (length - 2))
      | some (.single (some batch)) =>
        if virtualSize (ms.take (length - 2)) ≤ (1 <<< length) / 8 then
          insertAt ops logical (ms.eraseIdx (length - 2)) (some batch) (length - 2)
        else some ms
      | some _ => some ms
      | none => none
    else some ms

/-- `tidy_layers` (spine_fueled.rs:649-710). -/
def tidyLayers [DecidableEq T] (ops : BatchOps B M T) (logical : List T) (ms : List (MergeState B M)) : Option (List (MergeState B M)) :=
  match ms.getLast? with
  | none => some ms
  | some top => if top.is_single then tidyLoop ops logical (levelOf (top.len ops)) ms.length ms else some ms

/-- `introduce_batch` (spine_fueled.rs:444-518). -/
def introduceBatch [DecidableEq T] (ops : BatchOps B M T) (logical : List T) (effort : Nat) (ms : List (MergeState B M)) (batch : Option B)
    (batch_index : Nat) : Option (List (MergeState B M)) :=
  let fuel := 8 <<< batch_index
  let fuel := fuel * effort
  match applyFuel ops logical ms (fuel : Int) with
  | none => none
  | some ms =>
    match rollUp ops logical ms batch_index with
    | none => none
    | some ms =>
      match insertAt ops logical ms batch batch_index with
      | none => none
      | some ms => tidyLayers ops logical ms

/-- The attempt to fuse an empty batch with the most recent one (spine_fueled.rs:414-422): `some (some ms)` if it was fused, `some none` if
normal insertion is to be done. -/
def fuseEmpty [DecidableEq T] (ops : BatchOps B M T) (logical : List T) (ms : List (MergeState B M)) (batch : B) :
    Option (Option (List (MergeState B M))) :=
  if ops.len batch = 0 then
    match ms.findIdx? (fun m => !m.is_vacant) with
    | none => some none
    | some position =>
      match ms[position]? with
      | none => none
      | some s =>
        if s.is_single ∧ s.len ops = 0 then
          match insertAt ops logical ms (some batch) position with
          | none => none
          | some ms =>
            match completeAt ops ms position with
            | none => none
            | some (ms, merged) => some (some (ms.set position (.single merged)))
        else some none
  else some none

/-- The loop of `consider_merges` (spine_fueled.rs:404-430) over the pending batches; returns the layers and what remains pending. -/
def considerMerges [LE T] [DecidableLE T] [DecidableEq T] (ops : BatchOps B M T) (logical physical : List T) (effort : Nat) :
    List B → List (MergeState B M) → Option (List (MergeState B M) × List B)
  | [], ms => some (ms, [])
  | batch :: pending, ms =>
    if acLe (ops.upper batch) physical then
      match fuseEmpty ops logical ms batch with
      | none => none
      | some (some ms) => considerMerges ops logical physical effort pending ms
      | some none =>
        match introduceBatch ops logical effort ms (some batch) (levelOf (ops.len batch)) with
        | none => none
        | some ms => considerMerges ops logical physical effort pending ms
    else some (ms, batch :: pending)

namespace Spine
variable [LE T] [DecidableLE T] [DecidableEq T]

/-- `with_effort` (spine_fueled.rs:370-393), and `new` (spine_fueled.rs:229-235) with effort 1. -/
def init [Bot T] (effort : Nat) : Spine B M T :=
  { logical_frontier := [⊥], physical_frontier := [⊥], merging := [], pending := [], upper := [⊥], effort := if effort = 0 then 1 else effort }

/-- `insert` (spine_fueled.rs:270-286). -/
def insert (ops : BatchOps B M T) (s : Spine B M T) (batch : B) : Option (Spine B M T) :=
  if acEq (ops.lower batch) (ops.upper batch) then none
  else if acEq (ops.lower batch) s.upper then
    (considerMerges ops s.logical_frontier s.physical_frontier s.effort (s.pending ++ [batch]) s.merging).map fun r =>
      { s with upper := ops.upper batch, merging := r.1, pending := r.2 }
  else none

/-- `set_logical_compaction` (spine_fueled.rs:193-196). -/
def setLogical (s : Spine B M T) (frontier : List T) : Spine B M T := { s with logical_frontier := acExtend [] frontier }

/-- `set_physical_compaction` (spine_fueled.rs:200-206), with the debug assertion enabled. -/
def setPhysical (ops : BatchOps B M T) (s : Spine B M T) (frontier : List T) : Option (Spine B M T) :=
  if acLe s.physical_frontier frontier then
    (considerMerges ops s.logical_frontier (acExtend [] frontier) s.effort s.pending s.merging).map fun r =>
      { s with physical_frontier := acExtend [] frontier, merging := r.1, pending := r.2 }
  else none

/-- `exert` (spine_fueled.rs:240-261); `effort` is the answer of the user's exertion logic. -/
def exert (ops : BatchOps B M T) (s : Spine B M T) (effort : Option Nat) : Option (Spine B M T) :=
  match tidyLayers ops s.logical_frontier s.merging with
  | none => none
  | some ms =>
    match effort with
    | none => some { s with merging := ms }
    | some effort =>
      if ms.any (fun b => b.is_double) then
        (applyFuel ops s.logical_frontier ms (effort : Int)).map fun ms => { s with merging := ms }
      else
        (introduceBatch ops s.logical_frontier s.effort ms none (levelOf effort)).map fun ms => { s with merging := ms }

/-- `close` (spine_fueled.rs:289-293). -/
def close (ops : BatchOps B M T) (s : Spine B M T) : Option (Spine B M T) :=
  if s.upper ≠ [] then s.insert ops (ops.empty s.upper []) else some s

/-- `map_batches` (spine_fueled.rs:211-223): the batches visited. -/
def mapBatches (s : Spine B M T) : List B := s.merging.reverse.flatMap MergeState.batches ++ s.pending

/-- `batches_through` (spine_fueled.rs:105-191). -/
def batchesThrough [Bot T] (ops : BatchOps B M T) (s : Spine B M T) (upper : List T) : Option (List B) :=
  if lessEqual upper ⊥ then some []
  else if s.logical_frontier = [] then none
  else if !acLe s.physical_frontier upper then none
  else
    let storage := (s.merging.reverse.flatMap MergeState.batches).filter fun b => ops.len b ≠ 0
    s.pending.foldlM (fun storage batch =>
      if ops.len batch ≠ 0 then
        let include_lower := acLe (ops.lower batch) upper
        let include_upper := acLe (ops.upper batch) upper
        if include_lower ≠ include_upper ∧ ¬ acEq upper (ops.lower batch) then none
        else if include_upper then some (storage ++ [batch])
        else some storage
      else some storage) storage

/-- Calls a user of a spine can make. `introduce` is `introduce_batch(None, level)` and `fuel` is `apply_fuel`, which are public. -/
inductive Op (B T : Type*)
  | insert (batch : B)
  | setLogical (frontier : List T)
  | setPhysical (frontier : List T)
  | exert (effort : Option Nat)
  | introduce (level : Nat)
  | fuel (amount : Nat)
  | close

/-- One call. -/
def step (ops : BatchOps B M T) (s : Spine B M T) : Op B T → Option (Spine B M T)
  | .insert batch => s.insert ops batch
  | .setLogical frontier => some (s.setLogical frontier)
  | .setPhysical frontier => s.setPhysical ops frontier
  | .exert effort => s.exert ops effort
  | .introduce level =>
    (introduceBatch ops s.logical_frontier s.effort s.merging none level).map fun ms => { s with merging := ms }
  | .fuel amount => (applyFuel ops s.logical_frontier s.merging (amount : Int)).map fun ms => { s with merging := ms }
  | .close => s.close ops

/-- A sequence of calls. -/
def run (ops : BatchOps B M T) (s : Spine B M T) (os : List (Op B T)) : Option (Spine B M T) := os.foldlM (step ops) s

end Spine

end

end DD
