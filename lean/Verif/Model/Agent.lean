import Verif.Model.Lattice
import Verif.Spec.Basic

/-!
# Model of shared trace handles: `TraceAgent` and `TraceBox` (operators/arrange/agent.rs)

The wrapped trace is modelled by the calls made on it. Timely's `MutableAntichain` (external) is modelled by its documented behaviour: the updates applied to it, and as its
frontier the minimal times whose count is positive. Logging and the `temp_antichain` buffer are not modelled. Rust's ownership rules ensure that a call is
made on a live handle: a call on a handle that does not exist leaves the model's state unchanged.
-/

namespace DD

/-- Timely's `MutableAntichain`. -/
abbrev MutAntichain (T : Type*) := List (T × Int)

/-- `MutableAntichain::frontier`. -/
def MutAntichain.frontier {T : Type*} [LE T] [DecidableLE T] [DecidableEq T] (m : MutAntichain T) : List T :=
  acExtend [] ((m.map Prod.fst).filter fun t => 0 < weight m t)

/-- `MutableAntichain::update_iter`. -/
def MutAntichain.update {T : Type*} (m : MutAntichain T) (us : List (T × Int)) : MutAntichain T := m ++ us

/-- The calls made on the wrapped trace. -/
inductive TraceCall (T : Type*)
  | logical (F : List T)
  | physical (F : List T)
  deriving DecidableEq

/-- `TraceBox` (agent.rs:521-528). -/
structure TraceBox (T : Type*) where
  logical : MutAntichain T
  physical : MutAntichain T
  calls : List (TraceCall T)

/-- `TraceAgent` (agent.rs:27-36). -/
structure Handle (T : Type*) where
  logical : List T
  physical : List T
  deriving DecidableEq

/-- All handles that share a trace. -/
structure Handles (T : Type*) where
  box : TraceBox T
  handles : List (Handle T)

variable {T : Type*} [Lattice T] [DecidableLE T] [DecidableEq T]

/-- `TraceBox::new` (agent.rs:535-547), for a trace with these compaction frontiers. -/
def TraceBox.new (logical physical : List T) : TraceBox T :=
  { logical := MutAntichain.update [] (logical.map fun t => (t, 1))
    physical := MutAntichain.update [] (physical.map fun t => (t, 1)), calls := [] }

/-- `adjust_logical_compaction` (agent.rs:554-558). -/
def TraceBox.adjustLogical (b : TraceBox T) (lower upper : List T) : TraceBox T :=
  let m := b.logical.update (upper.map fun t => (t, 1))
  let m := m.update (lower.map fun t => (t, -1))
  { b with logical := m, calls := b.calls ++ [.logical m.frontier] }

/-- `adjust_physical_compaction` (agent.rs:561-565). -/
def TraceBox.adjustPhysical (b : TraceBox T) (lower upper : List T) : TraceBox T :=
  let m := b.physical.update (upper.map fun t => (t, 1))
  let m := m.update (lower.map fun t => (t, -1))
  { b with physical := m, calls := b.calls ++ [.physical m.frontier] }

/-- `TraceAgent::new` (agent.rs:71-103). -/
def Handles.new (logical physical : List T) : Handles T :=
  let box := TraceBox.new logical physical
  { box := box, handles := [{ logical := box.logical.frontier, physical := box.physical.frontier }] }

/-- The calls of users of handles. Handles are numbered; a new handle comes last. -/
inductive HandleOp (T : Type*)
  | clone (i : Nat)
  | drop (i : Nat)
  | setLogical (i : Nat) (F : List T)
  | setPhysical (i : Nat) (F : List T)

/-- One call: `clone` (agent.rs:467-491), `drop` (agent.rs:493-506), `set_logical_compaction` (agent.rs:43-50) and `set_physical_compaction`
(agent.rs:54-61). -/
def Handles.step (s : Handles T) : HandleOp T → Handles T
  | .clone i =>
    match s.handles[i]? with
    | none => s
    | some h => { box := (s.box.adjustLogical [] h.logical).adjustPhysical [] h.physical, handles := s.handles ++ [h] }
  | .drop i =>
    match s.handles[i]? with
    | none => s
    | some h => { box := (s.box.adjustLogical h.logical []).adjustPhysical h.physical [], handles := s.handles.eraseIdx i }
  | .setLogical i F =>
    match s.handles[i]? with
    | none => s
    | some h =>
      let temp := acJoin h.logical F
      { box := s.box.adjustLogical h.logical temp, handles := s.handles.set i { h with logical := temp } }
  | .setPhysical i F =>
    match s.handles[i]? with
    | none => s
    | some h =>
      let temp := acJoin h.physical F
      { box := s.box.adjustPhysical h.physical temp, handles := s.handles.set i { h with physical := temp } }

/-- A sequence of calls. -/
def Handles.run (s : Handles T) (ops : List (HandleOp T)) : Handles T := ops.foldl Handles.step s

end DD
