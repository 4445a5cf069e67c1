import Mathlib.Algebra.BigOperators.Group.List.Basic
import Mathlib.Logic.Function.Basic

/-!
# Model of the server of `interactive`: `interactive/src/server.rs`

The names of generated sources (`Recipe::parse`, `Recipe::canonical`) and their rows are parameters. All workers are modelled together: a collection is all workers' shards of it. A dataflow is a function from the contents of its
imports at a time to the contents of its exports at that time (C66); it is identified by its position in the list of all dataflows that were built. A trace is the export of a dataflow, with the time that its history is compacted to.
What reads a compacted history sees all earlier updates at that time. `none` is a panic.
-/

namespace DD.Srv

/-- The sources and the rows of a server. -/
structure World (Name R D : Type*) where
  /-- `Recipe::parse` (server.rs:88-107). -/
  parse : Name → Option R
  /-- `Recipe::canonical` (server.rs:111-117). -/
  canonical : R → Name
  /-- `Recipe::row`, for all indices up to `Recipe::rows_len` (server.rs:120-130). -/
  rows : R → List D
  /-- The name `clock` (server.rs:243). -/
  clock : Name
  /-- `clock_row` (server.rs:139), with the unit value. -/
  clockRow : Nat → D

/-- `Source` (scope_ir.rs) of a root's imports. -/
inductive Src (Name : Type*) where
  | input (n : Nat)
  | trace (name : Name)
deriving DecidableEq

/-- A program: what `install` reads of it (server.rs:239-240, 253, 259-262), and what its dataflow computes. -/
structure Prog (Name D : Type*) where
  imports : List (Src Name)
  exports : List Name
  run : List (D → Int) → List (D → Int)

/-- An import of a dataflow: an input session, with its time and its updates; or a trace, with its name, the dataflow and export that it is of, and the time that it was compacted to when it was imported. -/
inductive FlowIn (Name D : Type*) where
  | input (time : Nat) (updates : List (D × Nat × Int))
  | read (name : Name) (id k since : Nat)

/-- A dataflow. -/
structure Flow (Name D : Type*) where
  ins : List (FlowIn Name D)
  run : List (D → Int) → List (D → Int)

/-- `Origin` (server.rs:136). -/
inductive Origin where
  | program | generated | clock
deriving DecidableEq

/-- `Installed` (server.rs:174-191), without the probe. `inputs` gives the import of the dataflow that a position's handle is for. -/
structure Installed (Name : Type*) where
  inputs : List (Nat × Nat)
  imports : List Name
  exports : List Name
  id : Nat
  origin : Origin

/-- `Server` (server.rs:194-203), and the worker's dataflows. -/
structure Server (Name D : Type*) where
  traces : Name → Option (Nat × Nat × Nat)
  programs : List (Name × Installed Name)
  importers : Name → Nat
  epoch : Nat
  flows : List (Option (Flow Name D))

section
variable {Name R D : Type*} [DecidableEq Name] [DecidableEq D] (w : World Name R D)

/-- `Server::new` (server.rs:207-214). -/
def Server.new : Server Name D := ⟨fun _ => none, [], fun _ => 0, 0, []⟩

/-- `canonical_source_name` (server.rs:144-146). -/
def World.canon (name : Name) : Name := match w.parse name with
  | some r => w.canonical r
  | none => name

/-- The program of a name (server.rs:233, 416, 498). -/
def Server.program (s : Server Name D) (name : Name) : Option (Installed Name) := s.programs.lookup name

/-- `programs.insert` (server.rs:321, 361, 395): another program of the same name is dropped. -/
def insertProgram (programs : List (Name × Installed Name)) (name : Name) (p : Installed Name) : List (Name × Installed Name) := (name, p) :: programs.filter fun q => q.1 ≠ name

/-- What is done once the dataflow is built: its traces are registered, its imports counted, and the program is entered (server.rs:309-328, 358-368, 392-402). -/
def Server.publish (s : Server Name D) (name : Name) (ins : List (FlowIn Name D)) (run : List (D → Int) → List (D → Int)) (inputs : List (Nat × Nat)) (imports exports : List Name) (origin : Origin) : Server Name D :=
  { s with
    traces := exports.zipIdx.foldl (fun traces e => Function.update traces e.1 (some (s.flows.length, e.2, 0))) s.traces
    importers := imports.foldl (fun importers t => Function.update importers t (importers t + 1)) s.importers
    programs := insertProgram s.programs name ⟨inputs, imports, exports, s.flows.length, origin⟩
    flows := s.flows ++ [some ⟨ins, run⟩] }

/-- The rows of a source that a worker generates (server.rs:350-354). -/
def shard (rows : List D) (peers index : Nat) : List D := (rows.zipIdx.filter fun x => x.2 % peers = index).map Prod.fst

/-- `install_generated` (server.rs:336-369). -/
def Server.installGenerated (s : Server Name D) (name : Name) (r : R) : Server Name D :=
  s.publish name [.input s.epoch ((w.rows r).map fun d => (d, 0, 1))] id [(0, 0)] [] [name] .generated

/-- `install_clock` (server.rs:374-403). -/
def Server.installClock (s : Server Name D) : Server Name D :=
  s.publish w.clock [.input s.epoch [(w.clockRow s.epoch, s.epoch, 1)]] id [(0, 0)] [] [w.clock] .clock

/-- The sources that are not there are installed, or the first that cannot be is an error (server.rs:239-252). -/
def Server.installSources : Server Name D → List (Src Name) → Server Name D × Bool
  | s, [] => (s, true)
  | s, .input _ :: imports => s.installSources imports
  | s, .trace t :: imports =>
    let key := w.canon t
    if (s.traces key).isSome then s.installSources imports
    else if key = w.clock then (s.installClock w).installSources imports
    else match w.parse key with
      | some r => (s.installGenerated w key r).installSources imports
      | none => (s, false)

/-- The names of the traces that are imported (server.rs:259-261). -/
def importNames (imports : List (Src Name)) : List Name := imports.filterMap fun i => match i with
  | .trace t => some (w.canon t)
  | .input _ => none

/-- The collections of the imports (server.rs:276-290). New inputs are advanced to the epoch (server.rs:317). -/
def Server.inputsOf (s : Server Name D) (imports : List (Src Name)) : Option (List (FlowIn Name D)) := imports.mapM fun i => match i with
  | .input _ => some (.input s.epoch [])
  | .trace t => (s.traces (w.canon t)).map fun x => .read (w.canon t) x.1 x.2.1 x.2.2

/-- The handles of the inputs, by position; of several for a position, the last (server.rs:315-320). -/
def handlesOf (imports : List (Src Name)) : List (Nat × Nat) := (imports.zipIdx.filterMap fun i => match i.1 with
  | .input n => some (n, i.2)
  | .trace _ => none).reverse

/-- `install` (server.rs:232-330). -/
def Server.install (s : Server Name D) (name : Name) (prog : Prog Name D) : Option (Server Name D × Bool) :=
  if (s.program name).isSome then some (s, false)
  else
    let x := s.installSources w prog.imports
    let s := x.1
    if x.2 = false then some (s, false)
    else if prog.exports.any fun e => (s.traces e).isSome then some (s, false)
    else (s.inputsOf w prog.imports).map fun ins => (s.publish name ins prog.run (handlesOf prog.imports) (importNames w prog.imports) prog.exports .program, true)

/-- An import of a dataflow is changed. -/
def updateIn (flows : List (Option (Flow Name D))) (id j : Nat) (f : FlowIn Name D → FlowIn Name D) : List (Option (Flow Name D)) :=
  flows.modify id fun flow => flow.map fun flow => { flow with ins := flow.ins.modify j f }

/-- `InputSession::update_at` (input.rs:229-240): an update is added. -/
def addUpdate (u : D × Nat × Int) : FlowIn Name D → FlowIn Name D
  | .input time updates => .input time (updates ++ [u])
  | i => i

/-- `InputSession::advance_to` (input.rs:258-262). -/
def advanceTo (time : Nat) : FlowIn Name D → FlowIn Name D
  | .input _ updates => .input time updates
  | i => i

/-- The time of an input session. -/
def timeOf (flows : List (Option (Flow Name D))) (id j : Nat) : Option Nat := flows[id]?.bind fun flow => flow.bind fun flow => flow.ins[j]?.bind fun i => match i with
  | .input time _ => some time
  | _ => none

/-- `feed` (server.rs:410-424); `update_at` asserts that the time is not before that of the session. -/
def Server.feed (s : Server Name D) (prog : Name) (input : Nat) (row : D) (time : Option Nat) (diff : Int) : Option (Server Name D × Bool) :=
  let t := time.getD s.epoch
  if t < s.epoch then some (s, false)
  else match s.program (w.canon prog) with
    | none => some (s, false)
    | some p =>
      if p.origin ≠ .program then some (s, false)
      else match p.inputs.lookup input with
        | none => some (s, false)
        | some j => (timeOf s.flows p.id j).bind fun st => if st ≤ t then some ({ s with flows := updateIn s.flows p.id j (addUpdate (row, t, diff)) }, true) else none

/-- `drop_program` (server.rs:495-521). -/
def Server.dropProgram (s : Server Name D) (name : Name) : Server Name D × Bool :=
  let name := w.canon name
  match s.program name with
  | none => (s, false)
  | some p =>
    if p.exports.any fun e => s.importers e > 0 then (s, false)
    else ({ s with
      programs := s.programs.filter fun q => q.1 ≠ name
      importers := p.imports.foldl (fun importers t => Function.update importers t (importers t - 1)) s.importers
      traces := p.exports.foldl (fun traces e => Function.update traces e none) s.traces
      flows := s.flows.set p.id none }, true)

/-- The inputs of a program in `tick` (server.rs:529-542). -/
def tickProgram (cur : Nat) (flows : List (Option (Flow Name D))) (p : Installed Name) : List (Option (Flow Name D)) :=
  let flows := if p.origin = .clock then match p.inputs.lookup 0 with
    | some j => updateIn (updateIn flows p.id j (addUpdate (w.clockRow cur, cur + 1, -1))) p.id j (addUpdate (w.clockRow (cur + 1), cur + 1, 1))
    | none => flows
    else flows
  p.inputs.foldl (fun flows h => updateIn flows p.id h.2 (advanceTo (cur + 1))) flows

/-- `tick` (server.rs:525-570). That the exports catch up is not modelled. -/
def Server.tick (s : Server Name D) : Server Name D :=
  { s with
    flows := (s.programs.map Prod.snd).foldl (tickProgram w s.epoch) s.flows
    epoch := s.epoch + 1
    traces := fun name => (s.traces name).map fun x => (x.1, x.2.1, s.epoch + 1 - 1) }

/-- The sum of the updates of a row up to a time. -/
def accum (updates : List (D × Nat × Int)) (t : Nat) (d : D) : Int := ((updates.filter fun u => u.1 = d ∧ u.2.1 ≤ t).map fun u => u.2.2).sum

/-- The contents of an import at a time, given those of the traces. -/
def FlowIn.contents (read : Nat → Nat → Option (D → Int)) (t : Nat) : FlowIn Name D → Option (D → Int)
  | .input _ updates => some (accum updates t)
  | .read _ id k since => if t < since then some fun _ => 0 else read id k

/-- The contents of an export of a dataflow at a time; none if a dataflow that it depends on was removed. The first number bounds the dataflows passed through. -/
def contentsAt (flows : List (Option (Flow Name D))) (t : Nat) : Nat → Nat → Nat → Option (D → Int)
  | 0, _, _ => none
  | n + 1, id, k => flows[id]?.bind fun flow => flow.bind fun flow => (flow.ins.mapM (FlowIn.contents (contentsAt flows t n) t)).bind fun cs => (flow.run cs)[k]?

/-- `peek` (server.rs:433-486) without a key: what is accumulated from the updates before the epoch; `none` if there is no trace, and what is accumulated is `none` if it depends on a removed dataflow. -/
def Server.peek (s : Server Name D) (name : Name) : Option (Option (D → Int)) :=
  (s.traces (w.canon name)).map fun x => if x.2.2 < s.epoch then contentsAt s.flows (s.epoch - 1) s.flows.length x.1 x.2.1 else some fun _ => 0

/-- `Command` (server.rs:153-171), those that change the server. -/
inductive Command (Name D : Type*) where
  | install (name : Name) (prog : Prog Name D)
  | feed (prog : Name) (input : Nat) (row : D) (time : Option Nat) (diff : Int)
  | tick
  | drop (name : Name)

/-- `dispatch` (examples/ddir_server.rs). -/
def Server.dispatch (s : Server Name D) : Command Name D → Option (Server Name D × Bool)
  | .install name prog => s.install w name prog
  | .feed prog input row time diff => s.feed w prog input row time diff
  | .tick => some (s.tick w, true)
  | .drop name => some (s.dropProgram w name)

end

end DD.Srv
