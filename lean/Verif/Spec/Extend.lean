import Verif.Model.Extend
import Mathlib.Algebra.Group.Hom.Instances

/-!
# What extenders stand for
-/

namespace DD
variable {P K V T R : Type*}

/-- An extender stands for a relation of prefixes and extensions, weighted and varying with time: it proposes the extensions in the relation, with the product of the weights; it validates those
in the relation; and it counts, for each prefix that has extensions, some number of them (`none` if there are none). -/
structure ExtLaws [DecidableEq P] [DecidableEq V] [DecidableEq T] [AddCommMonoid R] [DecidableEq R] (mul : R →+ R →+ R) (e : Extender P V T R) (n : P → T → Option Nat)
    (rel : P → V → T → R) : Prop where
  propose : ∀ ps p v t, total (e.propose ps) (p, v) t = mul (total ps p t) (rel p v t)
  validate : ∀ xs p v t, total (e.validate xs) (p, v) t = if rel p v t = 0 then 0 else total xs (p, v) t
  count : ∀ index cs x t, total (e.count index cs) x t = total (cs.filterMap fun u => (n u.1.1 u.2.1).map fun m => ((if u.1.2.1 < m then u.1 else (u.1.1, m, index)), u.2)) x t
  none : ∀ p t, n p t = none → ∀ v, rel p v t = 0

/-- Counts of the distinct values of a collection: the count of a key is not zero whenever the key has a value. -/
def CountsFor [DecidableEq K] [DecidableEq V] [LE T] [DecidableLE T] [AddCommMonoid R] (collection : Upds (K × V) T R) (counts : Upds (K × Unit) T Int) : Prop :=
  ∀ k t, (∃ v, accum collection (k, v) t ≠ 0) → accum counts (k, ()) t ≠ 0

end DD
