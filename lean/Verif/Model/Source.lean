import Verif.Model.Capture
import Mathlib.Order.BoundedOrder.Basic

/-!
# Model of `capture::source` (capture.rs:247-550)

Four operators on each of `W` workers, and the channels between them. Operators are activated in any order. What is sent from one operator to another is received in any portions; only the frontier changes
from one worker to another are received in the order sent. The messages that sources read are events. That the token is dropped (capture.rs:336-342) is not modelled. `updates_caps` and `progress_caps` are
always downgraded together and are modelled as one set.
-/

namespace DD
variable {D T R : Type*}

/-- The updates in a message. -/
def CaptureMsg.listed : CaptureMsg D T R → Upds D T R
  | .updates us => us
  | .progress _ => []

/-- The progress statement of a message. -/
def CaptureMsg.stated : CaptureMsg D T R → List (Progress T)
  | .updates _ => []
  | .progress p => [p]

/-- `CapabilitySet::downgrade` (timely, external): capabilities for a frontier, each delayed from one that there is, without which it panics. -/
def downgradeCaps [LE T] [DecidableLE T] (caps frontier : List T) : Option (List T) := if frontier.all (lessEqual caps) then some frontier else none

/-- The part of a progress statement for one worker (capture.rs:366-383). -/
def Progress.partFor {W : Nat} (toT : T → Fin W) (v : Fin W) (p : Progress T) : Progress T := { p with counts := p.counts.filter fun c => toT c.1 = v }

/-- Updates received by the UPDATES operator, each with the time of its capability, in turn (capture.rs:422-431). Returns the updates to keep and those to send; `none` is a panic. -/
def admit [LE T] [DecidableLE T] [DecidableEq D] [DecidableEq T] [DecidableEq R] (frontier : List T) (pending : Upds D T R) : List (T × D × T × R) → Option (Upds D T R × List (T × D × T × R))
  | [] => some (pending, [])
  | m :: ms =>
    if lessEqual frontier m.2.2.1 then
      match pending.find? fun p => p.1 = m.2.1 ∧ p.2.1 = m.2.2.1 with
      | some prior => if prior.2.2 = m.2.2.2 then admit frontier pending ms else none
      | none => (admit frontier (pending ++ [m.2]) ms).map fun r => (r.1, m :: r.2)
    else admit frontier pending ms

/-- An activation of the UPDATES operator (capture.rs:409-436). The counts sent are -1 for the time of each update sent; their consolidation by `ChangeBatch` is not modelled. -/
def updatesActivate [LE T] [DecidableLE T] [DecidableEq D] [DecidableEq T] [DecidableEq R] (frontier : List T) (pending : Upds D T R) (got : List (T × D × T × R)) :
    Option (Upds D T R × List (T × D × T × R)) :=
  admit frontier (pending.filter fun u => lessEqual frontier u.2.1) got

/-- The state of the PROGRESS operator (capture.rs:455-458): `counts` are the changes of `updates_frontier`. -/
structure SourceProgress (T : Type*) where
  queue : List (Progress T)
  progress : List T
  counts : List (T × Int)
  reported : List T

section
variable [Lattice T] [DecidableLE T] [DecidableEq T]

/-- Acts on a progress statement taken from the queue (capture.rs:486-502). -/
def SourceProgress.actOn (o : SourceProgress T) (p : Progress T) (queue : List (Progress T)) : SourceProgress T :=
  { o with
    queue := queue
    counts := o.counts ++ (p.counts.filter fun c => lessEqual o.progress c.1).map fun c => (c.1, (c.2 : Int))
    progress := acJoin p.upper o.progress }

/-- The loop over actionable progress statements (capture.rs:480-503); the first argument bounds the rounds: each takes a statement from the queue. -/
def SourceProgress.drain : Nat → SourceProgress T → SourceProgress T
  | 0, o => o
  | n + 1, o =>
    match takeActionable o.progress o.queue with
    | none => o
    | some (p, queue) => SourceProgress.drain n (o.actOn p queue)

/-- `lower_bound` (capture.rs:506-507). -/
def SourceProgress.lowerBound (o : SourceProgress T) : List T := acExtend o.progress (messagesFrontier o.counts)

/-- An activation of the PROGRESS operator (capture.rs:460-520), with the counts and statements received. Returns the changes to be sent to each worker, if there are any; `none` is a panic, when there are
without any input, and so without a capability. -/
def SourceProgress.activate (o : SourceProgress T) (counts : List (T × Int)) (statements : List (Progress T)) : Option (SourceProgress T × Option (List (T × Int))) :=
  let o := { o with counts := o.counts ++ counts, queue := o.queue ++ statements }
  let o := o.drain o.queue.length
  if acEq o.lowerBound o.reported then some (o, none)
  else if counts = [] ∧ statements.isEmpty then none
  else some ({ o with reported := o.lowerBound }, some (o.lowerBound.map (fun t => (t, 1)) ++ o.reported.map fun t => (t, -1)))

end

/-- The states of all operators, and what is under way. -/
structure SourceState (W : Nat) (D T R : Type*) where
  /-- MESSAGES: the capabilities, by workers. -/
  caps : Fin W → List T
  /-- From MESSAGES to UPDATES: updates with the time of their capability, by receiving workers. -/
  toUpdates : Fin W → List (T × D × T × R)
  /-- From MESSAGES to PROGRESS. -/
  toProgress : Fin W → List (Progress T)
  /-- UPDATES: `pending`. -/
  pending : Fin W → Upds D T R
  /-- UPDATES: the input frontier when last activated. -/
  frontier : Fin W → List T
  /-- From UPDATES to PROGRESS. -/
  toCounts : Fin W → List (T × Int)
  /-- PROGRESS. -/
  progress : Fin W → SourceProgress T
  /-- From PROGRESS of the first worker to FEEDBACK of the second: changes, oldest first. -/
  toFeedback : Fin W → Fin W → List (List (T × Int))
  /-- FEEDBACK: the changes of `shared_frontier`. -/
  shared : Fin W → List (T × Int)
  /-- What was sent to the output so far, by any worker: updates with the time of their capability. -/
  emitted : List (T × D × T × R)
  /-- The messages read so far, by any worker. -/
  read : List (CaptureMsg D T R)

/-- The state at the beginning (capture.rs:301-307, 329-330, 407, 455-458). -/
def SourceState.init (W : Nat) (D T R : Type*) [Bot T] : SourceState W D T R where
  caps := fun _ => [⊥]
  toUpdates := fun _ => []
  toProgress := fun _ => []
  pending := fun _ => []
  frontier := fun _ => [⊥]
  toCounts := fun _ => []
  progress := fun _ => ⟨[], [⊥], [], [⊥]⟩
  toFeedback := fun _ _ => []
  shared := fun _ => [(⊥, W)]
  emitted := []
  read := []

/-- What can happen. -/
inductive SourceEvent (W : Nat) (D T R : Type*)
  /-- MESSAGES is activated on a worker, and its source yields messages. -/
  | messages (w : Fin W) (ms : List (CaptureMsg D T R))
  /-- UPDATES is activated, with an input frontier, receives `got` and leaves `rest`. -/
  | updates (w : Fin W) (frontier : List T) (got rest : List (T × D × T × R))
  /-- PROGRESS is activated, and receives some of the counts and some of the statements sent. -/
  | progress (w : Fin W) (counts restCounts : List (T × Int)) (statements restStatements : List (Progress T))
  /-- FEEDBACK of `w` receives the next changes from `v`. -/
  | feedback (w v : Fin W)

/-- Changes one entry. -/
def setAt {W : Nat} {A : Type*} (f : Fin W → A) (w : Fin W) (a : A) : Fin W → A := fun v => if v = w then a else f v

variable {W : Nat}

/-- An event. The exchange functions of the channels are `toU` and `toT`: the latter is that of counts (capture.rs:447) and the one by which counts of statements are distributed (capture.rs:370). -/
def SourceState.step [Lattice T] [DecidableLE T] [DecidableEq D] [DecidableEq T] [DecidableEq R] (toU : D × T × R → Fin W) (toT : T → Fin W) (s : SourceState W D T R) :
    SourceEvent W D T R → Option (SourceState W D T R)
  -- capture.rs:334-387
  | .messages w ms =>
    match downgradeCaps (s.caps w) (messagesFrontier (s.shared w)) with
    | none => none
    | some [] => some { s with caps := setAt s.caps w [] }
    | some (c :: cs) => some { s with
      caps := setAt s.caps w (c :: cs)
      toUpdates := fun v => s.toUpdates v ++ ((ms.flatMap CaptureMsg.listed).filter fun u => toU u = v).map fun u => (c, u)
      toProgress := fun v => s.toProgress v ++ (ms.flatMap CaptureMsg.stated).map (Progress.partFor toT v)
      read := s.read ++ ms }
  -- capture.rs:409-436
  | .updates w frontier got rest =>
    match updatesActivate frontier (s.pending w) got with
    | none => none
    | some (pending, sent) => some { s with
      toUpdates := setAt s.toUpdates w rest
      pending := setAt s.pending w pending
      frontier := setAt s.frontier w frontier
      toCounts := fun v => s.toCounts v ++ (sent.filter fun m => toT m.2.2.1 = v).map fun m => (m.2.2.1, -1)
      emitted := s.emitted ++ sent }
  -- capture.rs:460-520
  | .progress w counts restCounts statements restStatements =>
    match (s.progress w).activate counts statements with
    | none => none
    | some (o, changes) => some { s with
      toCounts := setAt s.toCounts w restCounts
      toProgress := setAt s.toProgress w restStatements
      progress := setAt s.progress w o
      toFeedback := match changes with
        | none => s.toFeedback
        | some c => setAt s.toFeedback w fun v => s.toFeedback w v ++ [c] }
  -- capture.rs:530-544
  | .feedback w v =>
    match s.toFeedback v w with
    | [] => some s
    | c :: cs => some { s with
      toFeedback := setAt s.toFeedback v (setAt (s.toFeedback v) w cs)
      shared := setAt s.shared w (s.shared w ++ c) }

end DD
