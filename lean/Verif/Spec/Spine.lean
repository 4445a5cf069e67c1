import Verif.Spec.Batch
import Mathlib.Order.BoundedOrder.Basic

/-!
# Legal uses of a spine

What the documentation of `Trace` and `TraceReader` asks of the caller, independent of the spine's representation.
-/

namespace DD
namespace Spine
variable {B M T D R : Type*} [PartialOrder T] [OrderBot T] [DecidableLE T] [DecidableEq T] [AddCommMonoid R] {ops : BatchOps B M T}

/-- A sequence of calls is legal, for a trace with this upper, logical and physical compaction frontier, if: an inserted batch is a well-formed
batch whose lower frontier is the trace's upper, and before its own upper; compaction frontiers only advance. Other calls are always legal. -/
def Legal (L : BatchLaws ops D R) : List T → List T → List T → List (Op B T) → Prop
  | _, _, _, [] => True
  | upper, logical, physical, .insert b :: os =>
    L.Ok b ∧ (ops.lower b).Perm upper ∧ ¬ (ops.lower b).Perm (ops.upper b) ∧ FrontierLe (ops.lower b) (ops.upper b) ∧
      Legal L (ops.upper b) logical physical os
  | upper, logical, physical, .setLogical F :: os => FrontierLe logical F ∧ Legal L upper F physical os
  | upper, logical, physical, .setPhysical F :: os => FrontierLe physical F ∧ Legal L upper logical F os
  | upper, logical, physical, .exert _ :: os => Legal L upper logical physical os
  | upper, logical, physical, .introduce _ :: os => Legal L upper logical physical os
  | upper, logical, physical, .fuel _ :: os => Legal L upper logical physical os
  | _, logical, physical, .close :: os => Legal L [] logical physical os

/-- The batches inserted by a sequence of calls; closing a trace that is not closed inserts an empty batch. -/
def inserted (ops : BatchOps B M T) : List T → List (Op B T) → List B
  | _, [] => []
  | _, .insert b :: os => b :: inserted ops (ops.upper b) os
  | upper, .close :: os => (if upper = [] then [] else [ops.empty upper []]) ++ inserted ops [] os
  | upper, _ :: os => inserted ops upper os

/-- The number of records, real or pretended, that a sequence of calls introduces, up to a constant factor. -/
def introduced (ops : BatchOps B M T) : List (Op B T) → Nat
  | [] => 0
  | .insert b :: os => (4 * ops.len b + 2) + introduced ops os
  | .exert (some effort) :: os => (4 * effort + 2) + introduced ops os
  | .introduce level :: os => 2 * 2 ^ level + introduced ops os
  | .close :: os => 2 + introduced ops os
  | _ :: os => introduced ops os

/-- The frontier reached after inserting these batches. -/
def boundary (ops : BatchOps B M T) (bs : List B) : List T :=
  match bs.getLast? with
  | none => [⊥]
  | some b => ops.upper b

/-- The batches tile the interval of frontiers from `lo` to `hi`. -/
def Contiguous (ops : BatchOps B M T) : List T → List B → List T → Prop
  | lo, [], hi => lo.Perm hi
  | lo, b :: bs, hi => lo.Perm (ops.lower b) ∧ Contiguous ops (ops.upper b) bs hi

end Spine
end DD
