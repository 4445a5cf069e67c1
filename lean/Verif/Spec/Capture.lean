import Verif.Spec.Batch
import Verif.Model.Capture

/-!
# What the messages of a capture say, and what it means to decode them
-/

namespace DD
variable {D T R : Type*}

/-- The number of updates at a time. -/
def updatesAt [DecidableEq T] (U : Upds D T R) (t : T) : Nat := (U.filter fun u => u.2.1 = t).length

/-- A message is a true statement about the updates `U` of a collection: updates listed are among them, each once, and counts of updates at the times of an interval are right. -/
def CaptureMsg.TrueOf [LE T] [DecidableEq T] (U : Upds D T R) : CaptureMsg D T R → Prop
  | .updates us => us.Nodup ∧ ∀ u ∈ us, u ∈ U
  | .progress p =>
    (∀ t, Beyond p.lower t → ¬ Beyond p.upper t → ((p.counts.filter fun c => c.1 = t).map (·.2)).sum = updatesAt U t) ∧
      ∀ c ∈ p.counts, Beyond p.lower c.1 ∧ ¬ Beyond p.upper c.1

/-- Progress statements one after the other. -/
def ProgressChain (lo : List T) : List (Progress T) → List T → Prop
  | [], hi => lo = hi
  | p :: ps, hi => p.lower = lo ∧ ProgressChain p.upper ps hi

/-- What a capture of `U` up to the frontier `hi` consists of: all messages are true, each update is in one of them, and progress statements lead from `lo` to `hi`. -/
structure CaptureOf [LE T] [DecidableEq T] (U : Upds D T R) (lo hi : List T) (ms : List (CaptureMsg D T R)) : Prop where
  allTrue : ∀ m ∈ ms, m.TrueOf U
  hasUpdates : ∀ u ∈ U, ∃ us, .updates us ∈ ms ∧ u ∈ us
  hasProgress : ∃ ps, ProgressChain lo ps hi ∧ ∀ p ∈ ps, .progress p ∈ ms

/-- The intervals of times that a sequence of outputs announces, starting at `lo`: the updates of each output lie between the previous frontier and its own. -/
def OutputsTile [LE T] (lo : List T) : List (Upds D T R × List T) → Prop
  | [] => True
  | out :: outs => FrontierLe lo out.2 ∧ (∀ u ∈ out.1, Beyond lo u.2.1 ∧ ¬ Beyond out.2 u.2.1) ∧ OutputsTile out.2 outs

/-- The last frontier announced. -/
def lastAnnounced (lo : List T) (outs : List (Upds D T R × List T)) : List T := (outs.getLast?.map (·.2)).getD lo

/-! ### The sink -/

/-- One activation of the operator that writes progress statements: counts received, input frontier, and the answers of the writer. -/
structure ProgressAct (T : Type*) where
  counts : List (T × Int)
  frontier : List T
  polls : List Bool

/-- The input frontier only advances, and counts are not received for times that it passed. -/
def LegalActs [LE T] (frontier : List T) : List (ProgressAct T) → Prop
  | [] => True
  | a :: as => (∀ c ∈ a.counts, Beyond frontier c.1) ∧ FrontierLe frontier a.frontier ∧ IsAntichainList a.frontier ∧ LegalActs a.frontier as

/-- A run of the operator. -/
def ProgressWriter.run [PartialOrder T] [DecidableLE T] [DecidableEq T] (w : ProgressWriter D T R) : List (ProgressAct T) → ProgressWriter D T R
  | [] => w
  | a :: as => (w.activate a.counts a.frontier (some a.polls)).run as

/-- A run of the operator that writes updates: batches received and answers of the writer. -/
def UpdatesWriter.run (w : UpdatesWriter D T R) : List (List (Upds D T R) × List Bool) → UpdatesWriter D T R
  | [] => w
  | a :: as => (w.activate a.1 (some a.2)).run as

end DD
