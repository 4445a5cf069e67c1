import Verif.Model.MergeBatcher
import Verif.Spec.Batch

/-!
# What it means for descriptions to tile an interval
-/

namespace DD
variable {T : Type*} [PartialOrder T]

/-- A description covers a time: the time is at or beyond its lower frontier and not beyond its upper one. -/
def Description.Covers (d : Description T) (t : T) : Prop := Beyond d.lower t ∧ ¬ Beyond d.upper t

/-- The descriptions follow one another from the frontier `lo` to the frontier `hi` (frontiers are lists up to order), and each ends strictly after it starts. -/
def DescsTile : List T → List (Description T) → List T → Prop
  | lo, [], hi => lo.Perm hi
  | lo, d :: ds, hi => lo.Perm d.lower ∧ FrontierLe d.lower d.upper ∧ ¬ d.lower.Perm d.upper ∧ DescsTile d.upper ds hi

end DD
