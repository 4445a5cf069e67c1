import Verif.Spec.Basic
import Mathlib.Data.List.Basic
import Mathlib.Order.Basic

/-!
# What it means to navigate sorted contents

`Contents` lists keys, under each key its values, and under each value its updates. A position is what remains to be visited.
-/

namespace DD

/-- Keys in order, each with its values in order, each with its updates. -/
abbrev Contents (K V T R : Type*) := List (K × List (V × List (T × R)))

/-- A position: the keys not yet passed, and the values of the first of them not yet passed. -/
@[ext] structure Pos (K V T R : Type*) where
  keys : Contents K V T R
  vals : List (V × List (T × R))

namespace Pos
variable {K V T R : Type*} [LinearOrder K] [LinearOrder V]

/-- At the first key and its first value. -/
def start (t : Contents K V T R) : Pos K V T R := ⟨t, (t.head?.map Prod.snd).getD []⟩
/-- The current key. -/
def key? (p : Pos K V T R) : Option K := p.keys.head?.map Prod.fst
/-- The current value. -/
def val? (p : Pos K V T R) : Option V := p.vals.head?.map Prod.fst
/-- The updates of the current key and value. -/
def upds? (p : Pos K V T R) : Option (List (T × R)) := p.vals.head?.map Prod.snd
/-- Move to the next key. -/
def stepKey (p : Pos K V T R) : Pos K V T R := start p.keys.tail
/-- Move to the first remaining key at or after `k`. -/
def seekKey (p : Pos K V T R) (k : K) : Pos K V T R := start (p.keys.dropWhile fun kv => kv.1 < k)
/-- Move to the next value. -/
def stepVal (p : Pos K V T R) : Pos K V T R := { p with vals := p.vals.tail }
/-- Move to the first remaining value at or after `v`. -/
def seekVal (p : Pos K V T R) (v : V) : Pos K V T R := { p with vals := p.vals.dropWhile fun vu => vu.1 < v }
/-- Back to the first value of the current key. -/
def rewindVals (p : Pos K V T R) : Pos K V T R := start p.keys

end Pos

/-- Contents are well-formed if keys are strictly increasing and so are the values of each key. -/
structure ContentsSorted {K V T R : Type*} [LT K] [LT V] (t : Contents K V T R) : Prop where
  keys : t.Pairwise fun x y => x.1 < y.1
  vals : ∀ kv ∈ t, kv.2.Pairwise fun x y => x.1 < y.1

/-- The updates recorded for a key and value. -/
def Contents.at {K V T R : Type*} [DecidableEq K] [DecidableEq V] (t : Contents K V T R) (k : K) (v : V) : List (T × R) :=
  t.flatMap fun kv => if kv.1 = k then kv.2.flatMap fun vu => if vu.1 = v then vu.2 else [] else []

/-- No key without values, no value without updates. -/
def NoEmpty {K V T R : Type*} (t : Contents K V T R) : Prop := ∀ kv ∈ t, kv.2 ≠ [] ∧ ∀ vu ∈ kv.2, vu.2 ≠ []

end DD
