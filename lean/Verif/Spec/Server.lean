import Verif.Model.Server

/-!
# Specification of the server: what a collection contains

From the commands that were accepted: the programs that are installed, each with all that was fed to its inputs, and nothing about dataflows, traces or counts.
-/

namespace DD.Srv

variable {Name R D : Type*} [DecidableEq Name] [DecidableEq D]

/-- An installed program, and what it was fed: input, row, time and difference. -/
structure Item (Name D : Type*) where
  prog : Prog Name D
  fed : List (Nat × D × Nat × Int)

/-- The installed programs after a command, given whether it was accepted. -/
def after (w : World Name R D) (items : List (Name × Item Name D)) (epoch : Nat) : Command Name D → Bool → List (Name × Item Name D)
  | _, false => items
  | .install name prog, true => (name, ⟨prog, []⟩) :: items
  | .feed prog input row time diff, true => items.map fun x => if x.1 = w.canon prog then (x.1, ⟨x.2.prog, x.2.fed ++ [(input, row, time.getD epoch, diff)]⟩) else x
  | .tick, true => items
  | .drop name, true => items.filter fun x => x.1 ≠ w.canon name

/-- What an input was fed, up to a time. -/
def Item.input (it : Item Name D) (n t : Nat) (d : D) : Int := ((it.fed.filter fun u => u.1 = n ∧ u.2.1 = d ∧ u.2.2.1 ≤ t).map fun u => u.2.2.2).sum

/-- A program publishes a collection. -/
def Published (items : List (Name × Item Name D)) (name : Name) : Prop := ∃ x ∈ items, name ∈ x.2.prog.exports

/-- A collection has contents at a time: it is what the program that publishes it computes from the contents of its imports at that time, or it is generated, or it is the clock, which was started at some time. -/
inductive Shows (w : World Name R D) (items : List (Name × Item Name D)) (start t : Nat) : Name → (D → Int) → Prop
  | program {name : Name} {x : Name × Item Name D} {k : Nat} {cs : List (D → Int)} {c : D → Int} (hx : x ∈ items) (hk : x.2.prog.exports[k]? = some name)
      (hl : cs.length = x.2.prog.imports.length) (hi : ∀ (j n : Nat), x.2.prog.imports[j]? = some (.input n) → cs[j]? = some (x.2.input n t))
      (ht : ∀ (j : Nat) (m : Name) (c : D → Int), x.2.prog.imports[j]? = some (.trace m) → cs[j]? = some c → Shows w items start t (w.canon m) c)
      (hc : (x.2.prog.run cs)[k]? = some c) : Shows w items start t name c
  | generated {name : Name} {r : R} (hp : ¬ Published items name) (hc : name ≠ w.clock) (hr : w.parse name = some r) : Shows w items start t name fun d => (w.rows r).count d
  | clock (hp : ¬ Published items w.clock) : Shows w items start t w.clock fun d => if start ≤ t ∧ d = w.clockRow t then 1 else 0

/-- An import that is an input. -/
def Src.isInput : Src Name → Bool
  | .input _ => true
  | .trace _ => false

/-- What a program is assumed to be: its outputs are what it exports, by distinct names; its inputs are at distinct positions. -/
structure Prog.Ok (prog : Prog Name D) : Prop where
  run : ∀ cs, (prog.run cs).length = prog.exports.length
  exports : prog.exports.Nodup
  inputs : (prog.imports.filter Src.isInput).Nodup

/-- What a command is assumed to be: no program is called as a source would be. -/
def Command.Ok (w : World Name R D) : Command Name D → Prop
  | .install name prog => prog.Ok ∧ name ≠ w.clock ∧ w.parse name = none
  | _ => True

/-- The states that commands lead to, each with the installed programs. -/
inductive Reach (w : World Name R D) : Server Name D → List (Name × Item Name D) → Prop
  | new : Reach w .new []
  | step {s s' : Server Name D} {items : List (Name × Item Name D)} {cmd : Command Name D} {ok : Bool} (h : Reach w s items) (hc : cmd.Ok w) (hs : s.dispatch w cmd = some (s', ok)) : Reach w s' (after w items s.epoch cmd ok)

end DD.Srv
