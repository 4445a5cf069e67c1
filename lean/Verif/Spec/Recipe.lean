import Verif.Model.Recipe

/-! # Specification of the names of generated sources -/

namespace DD.Srv

/-- The parameters of a random graph. -/
inductive Field where
  | nodes | edges | arity | seed
deriving DecidableEq

/-- How they are written. -/
def Field.name : Field → List Char
  | .nodes => "nodes".toList
  | .edges => "edges".toList
  | .arity => "arity".toList
  | .seed => "seed".toList

/-- A parameter that is set to a number, with blanks around. -/
structure Setting where
  field : Field
  value : Nat
  blanks : Nat × Nat × Nat × Nat := (0, 0, 0, 0)

/-- Blanks. -/
def blank (n : Nat) : List Char := List.replicate n ' '

/-- How a parameter is set. -/
def Setting.spell (s : Setting) : List Char := blank s.blanks.1 ++ s.field.name ++ blank s.blanks.2.1 ++ '=' :: (blank s.blanks.2.2.1 ++ showNat s.value ++ blank s.blanks.2.2.2)

/-- Parameters, separated by commas. -/
def spellAll : List Setting → List Char
  | [] => []
  | [s] => s.spell
  | s :: ss => s.spell ++ ',' :: spellAll ss

/-- What a parameter is set to: the last counts. -/
def valueOf (f : Field) (ss : List Setting) : Option Nat := ((ss.filter fun s => s.field = f).getLast?).map Setting.value

/-- Parameters are 64 bit numbers. -/
def Recipe.Fits : Recipe → Prop
  | .random nodes edges arity seed => nodes < 2 ^ 64 ∧ edges < 2 ^ 64 ∧ arity < 2 ^ 64 ∧ seed < 2 ^ 64
  | .iota n => n < 2 ^ 64

end DD.Srv
