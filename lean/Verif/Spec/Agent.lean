import Verif.Model.Agent
import Verif.Spec.Spine

/-!
# What sharing a trace promises
-/

namespace DD
variable {T : Type*} [Lattice T] [DecidableLE T] [DecidableEq T]

/-- The logical compaction frontier of a trace that had `F` and received these calls. -/
def appliedLogical : List T → List (TraceCall T) → List T
  | F, [] => F
  | _, .logical G :: cs => appliedLogical G cs
  | F, .physical _ :: cs => appliedLogical F cs

/-- The physical compaction frontier of a trace that had `F` and received these calls. -/
def appliedPhysical : List T → List (TraceCall T) → List T
  | F, [] => F
  | F, .logical _ :: cs => appliedPhysical F cs
  | _, .physical G :: cs => appliedPhysical G cs

/-- The calls only advance a trace's compaction frontiers, as its documentation demands. -/
def CallsAdvance : List T → List T → List (TraceCall T) → Prop
  | _, _, [] => True
  | L, P, .logical F :: cs => FrontierLe L F ∧ CallsAdvance F P cs
  | L, P, .physical F :: cs => FrontierLe P F ∧ CallsAdvance L F cs

/-- The new frontier of a handle: the given one, joined with what the handle had promised already. -/
def JoinsFrontier (F G H : List T) : Prop := IsAntichainList H ∧ ∀ q, Beyond H q ↔ Beyond F q ∧ Beyond G q

end DD
