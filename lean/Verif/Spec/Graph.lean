import Mathlib.Order.Defs.PartialOrder
import Mathlib.Data.Nat.Notation

/-!
# Walks, distances and components of a graph
-/

namespace DD
variable {N : Type*}

/-- A walk of a number of edges. -/
inductive Walk (E : N → N → Prop) (a : N) : Nat → N → Prop
  | nil : Walk E a 0 a
  | snoc {l b c} : Walk E a l b → E b c → Walk E a (l + 1) c

/-- The length of a shortest walk to `x` from a root. -/
def IsDistance (E : N → N → Prop) (root : N → Prop) (x : N) (d : Nat) : Prop :=
  (∃ r, root r ∧ Walk E r d x) ∧ ∀ r d', root r → Walk E r d' x → d ≤ d'

/-- There is a walk. -/
def Reaches (E : N → N → Prop) (a b : N) : Prop := ∃ l, Walk E a l b

/-- The least of the labels of nodes from which there is a walk to `x`. -/
def IsLeastLabel {L : Type*} [LE L] (E : N → N → Prop) (labelled : N → L → Prop) (x : N) (l : L) : Prop :=
  (∃ m, labelled m l ∧ Reaches E m x) ∧ ∀ m l', labelled m l' → Reaches E m x → l ≤ l'

/-- Each reaches the other. -/
def SameComponent (E : N → N → Prop) (a b : N) : Prop := Reaches E a b ∧ Reaches E b a

end DD
