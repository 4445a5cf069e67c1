import Verif.Spec.Basic
import Verif.Spec.Cursor
import Mathlib.Data.Prod.Lex

/-!
# Specification of the columnar layout of updates

A trie of updates is stored in four columns: the keys, the values of each key, the times of each value, and the differences of each time. Each column
holds lists, one after the other, together with the position at which each ends.
-/

namespace DD

/-- Lists stored one after the other: their elements, and the position at which each list ends. -/
@[ext] structure Lists (α : Type*) where
  values : List α
  bounds : List Nat
deriving DecidableEq

/-- The positions at which lists stored one after the other end, from position `n` on. -/
def ends {α : Type*} (n : Nat) : List (List α) → List Nat
  | [] => []
  | l :: ls => (n + l.length) :: ends (n + l.length) ls

/-- The layout of a list of lists. -/
def Lists.of {α : Type*} (ls : List (List α)) : Lists α := ⟨ls.flatten, ends 0 ls⟩

/-- The four columns. -/
@[ext] structure ColTrie (K V T R : Type*) where
  keys : Lists K
  vals : Lists V
  times : Lists T
  diffs : Lists R
deriving DecidableEq

/-- Keys with their values, times and differences, the keys in independent groups. -/
abbrev Forest (K V T R : Type*) := List (List (K × List (V × List (T × List R))))

section
variable {K V T R : Type*}

/-- The four columns of a forest. -/
def Forest.layout (f : Forest K V T R) : ColTrie K V T R where
  keys := .of (f.map fun g => g.map Prod.fst)
  vals := .of (f.flatten.map fun k => k.2.map Prod.fst)
  times := .of ((f.flatten.flatMap Prod.snd).map fun v => v.2.map Prod.fst)
  diffs := .of (((f.flatten.flatMap Prod.snd).flatMap Prod.snd).map Prod.snd)

/-- The updates of a forest, in order. -/
def Forest.upds (f : Forest K V T R) : Upds (K ×ₗ V) T R :=
  f.flatten.flatMap fun k => k.2.flatMap fun v => v.2.flatMap fun t => t.2.map fun d => (toLex (k.1, v.1), t.1, d)

/-- Contents as a forest: one group of keys, and one difference for each time; there is no group if there is no key. -/
def Contents.forest (c : Contents K V T R) : Forest K V T R :=
  if c.isEmpty then [] else [c.map fun k => (k.1, k.2.map fun v => (v.1, v.2.map fun u => (u.1, [u.2])))]

/-- The updates of contents, in order. -/
def Contents.upds (c : Contents K V T R) : Upds (K ×ₗ V) T R :=
  c.flatMap fun k => k.2.flatMap fun v => v.2.map fun u => (toLex (k.1, v.1), u)

/-- The trie holds exactly the updates `us`, in order, in the canonical form: one list of strictly increasing keys, under each key strictly
increasing values, at least one, under each value at least one time, and one difference for each time. -/
def ColTrie.Holds [LT K] [LT V] (t : ColTrie K V T R) (us : Upds (K ×ₗ V) T R) : Prop :=
  ∃ c : Contents K V T R, ContentsSorted c ∧ NoEmpty c ∧ t = c.forest.layout ∧ c.upds = us

end

end DD
