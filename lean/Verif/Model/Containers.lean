import Verif.Model.Consolidation

/-!
# Model of `ConsolidatingContainerBuilder` (consolidation.rs:148-232) and `ContainerChunker` (trace/implementations/chunker.rs)

Capacities of Rust vectors are chosen by the allocator: each push takes as a parameter the capacity that the vector is
found to have. Containers handed out by reference may be left by the caller in any state: extraction takes the state in which
the caller leaves the container as a parameter (`leftover`).
-/

namespace DD

variable {D T R : Type*} [LinearOrder D] [LinearOrder (Lin T)] [AddCommMonoid R] [DecidableEq R]

/-- `ConsolidatingContainerBuilder` (consolidation.rs:151-155). -/
structure CCB (D T R : Type*) where
  current : Upds D T R
  empty : List (Upds D T R)
  outbound : List (Upds D T R)

/-- `Default` (consolidation.rs:150). -/
def CCB.init : CCB D T R := ⟨[], [], []⟩

/-- The `while drain.peek().is_some()` loop (consolidation.rs:170-175): returns the new `empty` stash and the containers pushed.
A popped container is cleared before it is filled; the first argument bounds the number of iterations. -/
def drainLoop (preferred : Nat) : Nat → Upds D T R → List (Upds D T R) → List (Upds D T R) × List (Upds D T R)
  | 0, _, empty => (empty, [])
  | _ + 1, [], empty => (empty, [])
  | fuel + 1, u :: us, empty =>
    let container : Upds D T R := (empty.getLast?).getD []
    let container := container.take 0
    let container := container ++ (u :: us).take preferred
    let r := drainLoop preferred fuel ((u :: us).drop preferred) empty.dropLast
    (r.1, container :: r.2)

/-- `consolidate_and_flush_through` (consolidation.rs:166-177). -/
def CCB.flushThrough (preferred multiple : Nat) (b : CCB D T R) : Option (CCB D T R) :=
  match consolidateUpdates b.current with
  | none => none
  | some current =>
    let k := (current.length / multiple) * multiple
    let r := drainLoop preferred k (current.take k) b.empty
    some { current := current.drop k, empty := r.1, outbound := b.outbound ++ r.2 }

/-- `push_into` (consolidation.rs:190-201); `capacity` is the capacity of `current` after the reservation and push. -/
def CCB.push (preferred : Nat) (b : CCB D T R) (u : D × T × R) (capacity : Nat) : Option (CCB D T R) :=
  let b := { b with current := b.current ++ [u] }
  if b.current.length = capacity then b.flushThrough preferred preferred else some b

/-- `extract` (consolidation.rs:212-219). -/
def CCB.extract (b : CCB D T R) (leftover : Upds D T R) : CCB D T R × Option (Upds D T R) :=
  match b.outbound with
  | [] => (b, none)
  | c :: cs => ({ b with outbound := cs, empty := b.empty ++ [leftover] }, some c)

/-- `finish` (consolidation.rs:222-231). -/
def CCB.finish (preferred : Nat) (b : CCB D T R) (leftover : Upds D T R) : Option (CCB D T R × Option (Upds D T R)) :=
  if b.current ≠ [] then
    match b.flushThrough preferred 1 with
    | none => none
    | some b => some (CCB.extract { b with empty := b.empty.take 2 } leftover)
  else some (b.extract leftover)

/-- Calls a user of a container builder can make. -/
inductive BuilderOp (D T R : Type*)
  | push (u : D × T × R) (capacity : Nat)
  | extract (leftover : Upds D T R)
  | finish (leftover : Upds D T R)

/-- One call; the second component is the container handed out, if any. -/
def CCB.step (preferred : Nat) (b : CCB D T R) : BuilderOp D T R → Option (CCB D T R × Option (Upds D T R))
  | .push u c => (b.push preferred u c).map (fun b => (b, none))
  | .extract l => some (b.extract l)
  | .finish l => b.finish preferred l

/-- A sequence of calls from a state, with the containers handed out in order. -/
def CCB.run (preferred : Nat) (b : CCB D T R) : List (BuilderOp D T R) → Option (CCB D T R × List (Upds D T R))
  | [] => some (b, [])
  | op :: ops =>
    match b.step preferred op with
    | none => none
    | some (b, out) =>
      match CCB.run preferred b ops with
      | none => none
      | some (b, outs) => some (b, out.toList ++ outs)

/-! ## `ContainerChunker` -/

/-- `ContainerChunker` (chunker.rs:11-15). -/
structure Chunker (D T R : Type*) where
  pending : Upds D T R
  ready : List (Upds D T R)
  empty : Upds D T R

/-- `Default` (chunker.rs:17-25). -/
def Chunker.init : Chunker D T R := ⟨[], [], []⟩

/-- `consolidate_into` for `Vec` (consolidation.rs:256-259), on (self, target). -/
def consolidateInto (self target : Upds D T R) : Option (Upds D T R × Upds D T R) :=
  match consolidateUpdates self with
  | none => none
  | some self => some (target, self)

/-- One iteration of the loop of `push_into` (chunker.rs:38-51); `full` is the answer of `at_capacity`. -/
def Chunker.pushItem (c : Chunker D T R) (u : D × T × R) (full : Bool) : Option (Chunker D T R) :=
  let pending := c.pending ++ [u]
  if full then
    let startingLen := pending.length
    match consolidateInto pending c.empty with
    | none => none
    | some (pending, empty) =>
      let (pending, _empty) := (empty, pending)
      if pending.length > startingLen / 2 then some { pending := [], ready := c.ready ++ [pending], empty := [] }
      else some { pending := pending, ready := c.ready, empty := [] }
  else some { c with pending := pending }

/-- `extract` (chunker.rs:62-69). -/
def Chunker.extract (c : Chunker D T R) (leftover : Upds D T R) : Chunker D T R × Option (Upds D T R) :=
  match c.ready with
  | [] => (c, none)
  | r :: rs => ({ c with ready := rs, empty := leftover }, some r)

/-- `finish` (chunker.rs:71-86). -/
def Chunker.finish (c : Chunker D T R) (leftover : Upds D T R) : Option (Chunker D T R × Option (Upds D T R)) :=
  if c.pending ≠ [] then
    match consolidateInto c.pending c.empty with
    | none => none
    | some (pending, empty) =>
      let (pending, _empty) := (empty, pending)
      let c := if pending ≠ [] then { pending := [], ready := c.ready ++ [pending], empty := [] }
        else { pending := pending, ready := c.ready, empty := [] }
      some (Chunker.extract c leftover)
  else some (c.extract leftover)

/-- One call. A push of a container is the sequence of pushes of its items; `capacity ≠ 0` stands for `at_capacity`. -/
def Chunker.step (c : Chunker D T R) : BuilderOp D T R → Option (Chunker D T R × Option (Upds D T R))
  | .push u cap => (c.pushItem u (cap != 0)).map (fun c => (c, none))
  | .extract l => some (c.extract l)
  | .finish l => c.finish l

/-- A sequence of calls. -/
def Chunker.run (c : Chunker D T R) : List (BuilderOp D T R) → Option (Chunker D T R × List (Upds D T R))
  | [] => some (c, [])
  | op :: ops =>
    match c.step op with
    | none => none
    | some (c, out) =>
      match Chunker.run c ops with
      | none => none
      | some (c, outs) => some (c, out.toList ++ outs)

end DD
