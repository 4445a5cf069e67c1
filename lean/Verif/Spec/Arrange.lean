import Verif.Model.Arrange
import Verif.Spec.Batch

/-!
# What an arrangement of a stream means, and what the environment of the operator guarantees
-/

namespace DD
variable {D T R : Type*} [LinearOrder D] [PartialOrder T] [LinearOrder (Lin T)] [AddCommMonoid R] [DecidableEq R]

/-- All updates received. -/
def arrReceived (acts : List (ArrAct D T R)) : Upds D T R := acts.flatMap fun a => a.msgs.flatMap fun m => m.2.map Prod.fst

/-- What timely and the sender guarantee after the frontier `F` was seen: messages carry capabilities beyond `F`, and updates at or after the time of their
message; the next frontier is an antichain and does not go back. -/
def LegalArr : List T → List (ArrAct D T R) → Prop
  | _, [] => True
  | F, act :: acts =>
    (∀ m ∈ act.msgs, Beyond F m.1 ∧ ∀ u ∈ m.2, m.1 ≤ u.1.2.1) ∧ IsAntichainList act.frontier ∧ (∀ f ∈ act.frontier, Beyond F f) ∧
      LegalArr act.frontier acts

/-- The frontier last seen. -/
def arrFrontier : List T → List (ArrAct D T R) → List T
  | F, [] => F
  | _, act :: acts => arrFrontier act.frontier acts

/-- The batches tile the interval of frontiers from `lo` to `hi`: each starts where the previous one ended (frontiers are lists up to order) and ends strictly later.
They contain only updates in their interval, and are sorted and consolidated. -/
def ArrTiles : List T → List (ArrBatch D T R) → List T → Prop
  | lo, [], hi => lo.Perm hi
  | lo, b :: bs, hi => lo.Perm b.desc.lower ∧ FrontierLe b.desc.lower b.desc.upper ∧ ¬ b.desc.lower.Perm b.desc.upper ∧ IsAntichainList b.desc.upper ∧
    (∀ u ∈ b.upds, Beyond b.desc.lower u.2.1 ∧ ¬ Beyond b.desc.upper u.2.1) ∧ Consolidated b.upds ∧ ArrTiles b.desc.upper bs hi

/-- The messages sent are the batches of the trace in order, each at a capability in its interval that precedes all its updates, save that some batches without
updates are not sent. -/
def ArrSent : List (T × ArrBatch D T R) → List (ArrBatch D T R) → Prop
  | sent, [] => sent = []
  | sent, b :: bs =>
    (∃ c rest, sent = (c, b) :: rest ∧ Beyond b.desc.lower c ∧ ¬ Beyond b.desc.upper c ∧ (∀ u ∈ b.upds, c ≤ u.2.1) ∧ ArrSent rest bs) ∨
    (b.upds = [] ∧ ArrSent sent bs)

end DD
