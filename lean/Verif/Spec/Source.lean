import Verif.Spec.Capture
import Verif.Model.Source

/-!
# What happens when captured messages are read back
-/

namespace DD
variable {D T R : Type*} {W : Nat}

/-- The message is about the updates `U`: updates listed are among them, and counts of updates at the times of an interval are right. -/
def CaptureMsg.Correct [LE T] [DecidableEq T] (U : Upds D T R) : CaptureMsg D T R → Prop
  | .updates us => ∀ u ∈ us, u ∈ U
  | .progress p =>
    (∀ t, Beyond p.lower t → ¬ Beyond p.upper t → ((p.counts.filter fun c => c.1 = t).map (·.2)).sum = updatesAt U t) ∧
      ∀ c ∈ p.counts, Beyond p.lower c.1 ∧ ¬ Beyond p.upper c.1

/-- What may happen. Sources only yield correct messages, in any order and any number of times. Operators receive what was sent to them. The frontier shown to UPDATES is not beyond any capability that is
still held, and does not go back: that is what timely promises. -/
def SourceEvent.Legal [LE T] [DecidableEq T] (U : Upds D T R) (s : SourceState W D T R) : SourceEvent W D T R → Prop
  | .messages _ ms => ∀ m ∈ ms, m.Correct U
  | .updates w frontier got rest => (got ++ rest).Perm (s.toUpdates w) ∧ FrontierLe (s.frontier w) frontier ∧ ∀ v, ∀ c ∈ s.caps v, Beyond frontier c
  | .progress w counts restCounts statements restStatements => (counts ++ restCounts).Perm (s.toCounts w) ∧ (statements ++ restStatements).Perm (s.toProgress w)
  | .feedback _ _ => True

/-- States that can be reached by legal events. -/
inductive SourceReach [Lattice T] [OrderBot T] [DecidableLE T] [DecidableEq D] [DecidableEq T] [DecidableEq R] (toU : D × T × R → Fin W) (toT : T → Fin W) (U : Upds D T R) : SourceState W D T R → Prop
  | init : SourceReach toU toT U (SourceState.init W D T R)
  | step {s s' : SourceState W D T R} {e : SourceEvent W D T R} : SourceReach toU toT U s → e.Legal U s → s.step toU toT e = some s' → SourceReach toU toT U s'

/-- Nothing is under way, and MESSAGES has seen the frontiers that FEEDBACK shares. -/
structure SourceState.Quiet [Lattice T] [DecidableLE T] [DecidableEq T] (s : SourceState W D T R) : Prop where
  updates : ∀ w, s.toUpdates w = []
  statements : ∀ w, s.toProgress w = []
  counts : ∀ w, s.toCounts w = []
  feedback : ∀ v w, s.toFeedback v w = []
  caps : ∀ w, s.caps w = messagesFrontier (s.shared w)

/-- The messages of a capture up to the frontier `hi` were read: among them are all updates at times not beyond `hi`, and progress statements that lead to it. -/
structure SourceState.HasRead [LE T] [OrderBot T] (U : Upds D T R) (hi : List T) (s : SourceState W D T R) : Prop where
  updates : ∀ u ∈ U, ¬ Beyond hi u.2.1 → ∃ us, .updates us ∈ s.read ∧ u ∈ us
  statements : ∃ ps, ProgressChain [⊥] ps hi ∧ ∀ p ∈ ps, .progress p ∈ s.read

end DD
