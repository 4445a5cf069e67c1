import Verif.Model.Arranged
import Verif.Spec.Arrange
import Verif.Spec.JoinOp

/-!
# What a dataflow with arrangements may rely on
-/

namespace DD
variable {B N B1 B2 N1 N2 D D1 D2 K V V1 V2 T R R1 R2 S O M : Type*}

/-- What an arrangement receives. -/
def ArrangedEv.received : ArrangedEv D T R → Upds D T R
  | .arrange act => act.msgs.flatMap fun m => m.2.map Prod.fst
  | _ => []

/-- The times of the messages that an arrangement receives. -/
def ArrangedEv.times : ArrangedEv D T R → List T
  | .arrange act => act.msgs.map Prod.fst
  | _ => []

/-- What an arrangement receives in a sequence of events. -/
def arrangedInput (es : List (ArrangedEv D T R)) : Upds D T R := es.flatMap ArrangedEv.received

/-- What timely, the senders and the readers of an arrangement guarantee, given the last frontier shown to the operator and the last compaction frontiers. Messages carry capabilities
beyond the frontier, and updates at or after the time of their message. Frontiers do not go back. -/
def LegalArranged [LE T] : List T → List T → List T → List (ArrangedEv D T R) → Prop
  | _, _, _, [] => True
  | F, logical, physical, .arrange act :: es =>
    (∀ m ∈ act.msgs, Beyond F m.1 ∧ ∀ u ∈ m.2, m.1 ≤ u.1.2.1) ∧ IsAntichainList act.frontier ∧ (∀ f ∈ act.frontier, Beyond F f) ∧
      LegalArranged act.frontier logical physical es
  | F, logical, physical, .compact L P :: es => FrontierLe logical L ∧ FrontierLe physical P ∧ LegalArranged F L P es
  | F, logical, physical, .exert _ :: es => LegalArranged F logical physical es
  | F, logical, physical, .take :: es => LegalArranged F logical physical es

/-- The frontier last shown to the operator. -/
def arrangedFrontier : List T → List (ArrangedEv D T R) → List T
  | F, [] => F
  | _, .arrange act :: es => arrangedFrontier act.frontier es
  | F, .compact _ _ :: es => arrangedFrontier F es
  | F, .exert _ :: es => arrangedFrontier F es
  | F, .take :: es => arrangedFrontier F es

/-- The compaction frontiers last given to the trace. -/
def arrangedCompaction : List T × List T → List (ArrangedEv D T R) → List T × List T
  | C, [] => C
  | C, .arrange _ :: es => arrangedCompaction C es
  | _, .compact logical physical :: es => arrangedCompaction (logical, physical) es
  | C, .exert _ :: es => arrangedCompaction C es
  | C, .take :: es => arrangedCompaction C es

/-- The events at the first arrangement. -/
def side1Events : List (JoinSysEv D1 D2 T R1 R2) → List (ArrangedEv D1 T R1)
  | [] => []
  | .side1 e :: es => e :: side1Events es
  | .side2 _ :: es => side1Events es
  | .rest _ _ :: es => side1Events es

/-- The events at the second arrangement. -/
def side2Events : List (JoinSysEv D1 D2 T R1 R2) → List (ArrangedEv D2 T R2)
  | [] => []
  | .side1 _ :: es => side2Events es
  | .side2 e :: es => e :: side2Events es
  | .rest _ _ :: es => side2Events es

/-- The reader with this handle, if it still has it, allows these compaction frontiers: it has itself asked for compaction as far as that, or farther. A trace is compacted as far as
all its readers allow (C20). -/
def Permits [LE T] [Bot T] (trace : Option (TraceHandle T)) (logical physical : List T) : Prop :=
  ∀ h ∈ trace, FrontierLe logical (h.logical.getLastD [⊥]) ∧ FrontierLe physical (h.physical.getLastD [⊥])

/-- What the frontier `F` of the output of an arrangement promises: it is not past any message that waits, any capability that the operator holds, or any message that the operator
has yet to receive. -/
def OutputHolds [LE T] (F : List T) (a : Arranged B N D T R) (later : List (ArrangedEv D T R)) : Prop :=
  (∀ m ∈ a.queue, Beyond F m.1) ∧ (∀ c ∈ a.arr.capabilities, Beyond F c) ∧ ∀ t ∈ later.flatMap ArrangedEv.times, Beyond F t

section
variable [LinearOrder D1] [LinearOrder D2] [LinearOrder K] [LinearOrder V1] [LinearOrder V2] [Lattice T] [OrderBot T] [DecidableLE T] [DecidableEq T] [LinearOrder (Lin T)]
  [AddCommMonoid R1] [DecidableEq R1] [AddCommMonoid R2] [DecidableEq R2]

/-- The frontiers that the join has been shown, after an event. -/
def JoinSysEv.frontiers (F : List T × List T) : JoinSysEv D1 D2 T R1 R2 → List T × List T
  | .rest G1 G2 => (G1, G2)
  | _ => F

/-- What the readers and timely guarantee when an event happens, given the frontiers that the join was last shown and the events to come: compaction is permitted by the join, and the
frontiers it is shown do not go back, and are not past what it has yet to receive. -/
def LegalSysEv (F : List T × List T) (s : JoinSys B1 N1 D1 V1 B2 N2 D2 V2 K T R1 R2 S O M) (later : List (JoinSysEv D1 D2 T R1 R2)) : JoinSysEv D1 D2 T R1 R2 → Prop
  | .side1 (.compact logical physical) => Permits s.join.trace1 logical physical
  | .side2 (.compact logical physical) => Permits s.join.trace2 logical physical
  | .rest G1 G2 => FrontierLe F.1 G1 ∧ FrontierLe F.2 G2 ∧ OutputHolds G1 s.side1 (side1Events later) ∧ OutputHolds G2 s.side2 (side2Events later)
  | _ => True

/-- A run in which every event is legal. -/
def LegalJoinSys (Y1 : TraceKind B1 N1 D1 K V1 T R1) (Y2 : TraceKind B2 N2 D2 K V2 T R2) (OB : OutBuilder S O T M) (logic : K → V1 → V2 → T → R1 → R2 → List (O × T × M))
    (cap : Nat) (budget : Int) : List T × List T → JoinSys B1 N1 D1 V1 B2 N2 D2 V2 K T R1 R2 S O M → List (JoinSysEv D1 D2 T R1 R2) → Prop
  | _, _, [] => True
  | F, s, e :: es => LegalSysEv F s es e ∧
    ∀ rounds s', s.step Y1 Y2 OB logic cap rounds budget e = some s' → LegalJoinSys Y1 Y2 OB logic cap budget (e.frontiers F) s' es

/-- The frontiers last shown to the join. -/
def lastRest : List T × List T → List (JoinSysEv D1 D2 T R1 R2) → List T × List T
  | F, [] => F
  | F, e :: es => lastRest (e.frontiers F) es

end
end DD
