import Verif.Spec.Basic
import Verif.Model.Lattice

/-!
# Model of capture and replay (capture.rs)

Models the messages (capture.rs:16-43), the deduplicating, re-ordering iterator (53-218) and the two operators of the sink (586-724). Hash sets are modelled by lists without
duplicates; the order in which they are iterated is not modelled. `MutableAntichain` and `ChangeBatch` (timely, external) are modelled by lists of changes to the counts of times: the
frontier of the former consists of the minimal times with positive counts, draining the latter gives each time with non-zero count once.
-/

namespace DD
variable {D T R : Type*}

/-- `Progress` (capture.rs:28-43). -/
structure Progress (T : Type*) where
  lower : List T
  upper : List T
  counts : List (T × Nat)

/-- `Message` (capture.rs:15-26). -/
inductive CaptureMsg (D T R : Type*)
  | updates (us : Upds D T R)
  | progress (p : Progress T)

/-- The count of a time in a list of changes. -/
def countAt [DecidableEq T] (cs : List (T × Int)) (t : T) : Int := (cs.map fun c => if c.1 = t then c.2 else 0).sum

/-- `Iter` (capture.rs:70-111) without its source. -/
structure CaptureIter (D T R : Type*) where
  updates : Upds D T R
  reported : List T
  progress : List T
  messages : List (T × Int)
  queue : List (Progress T)

/-- `Iter::new` (capture.rs:207-216). -/
def CaptureIter.new (minimum : T) : CaptureIter D T R := ⟨[], [minimum], [minimum], [], []⟩

section
variable [Lattice T] [DecidableLE T] [DecidableEq T]

/-- `MutableAntichain::frontier` (timely, external): the minimal times with positive counts. -/
def messagesFrontier (cs : List (T × Int)) : List T := acExtend [] ((cs.map (·.1)).filter fun t => 0 < countAt cs t)

/-- The first progress statement that is actionable, removed from the queue (capture.rs:150-156). -/
def takeActionable (frontier : List T) : List (Progress T) → Option (Progress T × List (Progress T))
  | [] => none
  | p :: queue =>
    if acLe p.lower frontier then some (p, queue)
    else
      match takeActionable frontier queue with
      | none => none
      | some (x, queue) => some (x, p :: queue)

/-- Acts on a progress statement taken from the queue (capture.rs:157-177). -/
def CaptureIter.actOn (it : CaptureIter D T R) (p : Progress T) (queue : List (Progress T)) : CaptureIter D T R :=
  let counts := p.counts.filter fun c => lessEqual it.progress c.1
  let frontier := acJoin p.upper it.progress
  { it with
    messages := it.messages ++ counts.map fun c => (c.1, (c.2 : Int))
    queue := queue.filter fun p => !acLe p.upper frontier
    progress := frontier }

/-- The loop over actionable progress statements (capture.rs:150-178); the first argument bounds the rounds: each takes a statement from the queue. -/
def CaptureIter.drain : Nat → CaptureIter D T R → CaptureIter D T R
  | 0, it => it
  | n + 1, it =>
    match takeActionable it.progress it.queue with
    | none => it
    | some (p, queue) => CaptureIter.drain n (it.actOn p queue)

variable [DecidableEq D] [DecidableEq R]

/-- `HashSet::extend`. -/
def setExtend {A : Type*} [DecidableEq A] (s : List A) : List A → List A
  | [] => s
  | x :: xs => setExtend (if x ∈ s then s else s ++ [x]) xs

/-- Receives a message (capture.rs:129-145). -/
def CaptureIter.receive (it : CaptureIter D T R) : CaptureMsg D T R → CaptureIter D T R
  | .updates us =>
    let us := us.filter fun u => lessEqual it.reported u.2.1 && !decide (u ∈ it.updates)
    { it with messages := it.messages ++ us.map fun u => (u.2.1, -1), updates := setExtend it.updates us }
  | .progress p => { it with queue := it.queue ++ [p] }

/-- Checks whether there is something to report (capture.rs:180-193). -/
def CaptureIter.report (it : CaptureIter D T R) : CaptureIter D T R × Option (Upds D T R × List T) :=
  let lower_bound := acExtend it.progress (messagesFrontier it.messages)
  if !acEq lower_bound it.reported then
    let to_publish := it.updates.filter fun u => !lessEqual lower_bound u.2.1
    ({ it with updates := it.updates.filter fun u => lessEqual lower_bound u.2.1, reported := lower_bound }, some (to_publish, lower_bound))
  else (it, none)

/-- One round of the loop in `next` (capture.rs:128-194). -/
def CaptureIter.step (it : CaptureIter D T R) (m : CaptureMsg D T R) : CaptureIter D T R × Option (Upds D T R × List T) :=
  let it := it.receive m
  (CaptureIter.drain it.queue.length it).report

/-- `next` (capture.rs:122-196), with the messages left in the source. -/
def CaptureIter.next (it : CaptureIter D T R) : List (CaptureMsg D T R) → CaptureIter D T R × List (CaptureMsg D T R) × Option (Upds D T R × List T)
  | [] => (it, [], none)
  | m :: ms =>
    match it.step m with
    | (it, some out) => (it, ms, some out)
    | (it, none) => it.next ms

/-- Calling `next` until it returns `None`; the first argument bounds the calls: each but the last takes a message from the source. -/
def CaptureIter.collect : Nat → CaptureIter D T R → List (CaptureMsg D T R) → CaptureIter D T R × List (Upds D T R × List T)
  | 0, it, _ => (it, [])
  | n + 1, it, ms =>
    match it.next ms with
    | (it, _, none) => (it, [])
    | (it, ms, some out) => let r := CaptureIter.collect n it ms; (r.1, out :: r.2)

end

/-! ### The sink -/

/-- The state of the operator `UpdatesWriter` (capture.rs:597-598), with the messages its writer accepted and the counts it sent. -/
structure UpdatesWriter (D T R : Type*) where
  queue : List (CaptureMsg D T R)
  written : List (CaptureMsg D T R)
  sent : List (T × Int)

/-- The loop that offers messages to a writer (capture.rs:622-630 and 702-711): `polls` are the answers of `poll`, `true` for success. -/
def offer (polls : List Bool) (queue : List (CaptureMsg D T R)) : List (CaptureMsg D T R) × List (CaptureMsg D T R) :=
  match queue, polls with
  | [], _ => ([], [])
  | m :: queue, true :: polls => let r := offer polls queue; (m :: r.1, r.2)
  | queue, _ => ([], queue)

/-- An activation of `UpdatesWriter` (capture.rs:599-640) with the batches received. `polls` is `none` if the sink is closed. Counts of times are sent one by one, their consolidation by
`ChangeBatch` is not modelled. -/
def UpdatesWriter.activate (w : UpdatesWriter D T R) (batches : List (Upds D T R)) (polls : Option (List Bool)) : UpdatesWriter D T R :=
  let sent := w.sent ++ batches.flatMap fun us => us.map fun u => (u.2.1, 1)
  let queue := w.queue ++ batches.map .updates
  match polls with
  | some polls => let r := offer polls queue; ⟨r.2, w.written ++ r.1, sent⟩
  | none => ⟨[], w.written, sent⟩

/-- The state of the operator `ProgressWriter` (capture.rs:649-656), with the messages its writer accepted. -/
structure ProgressWriter (D T R : Type*) where
  frontier : List T
  timestamps : List (T × Int)
  queue : List (CaptureMsg D T R)
  written : List (CaptureMsg D T R)

/-- The initial state (capture.rs:651-655). -/
def ProgressWriter.new (minimum : T) : ProgressWriter D T R := ⟨[minimum], [], [], []⟩

/-- `ChangeBatch::drain` (timely, external): each time with non-zero count once. The order is not modelled. -/
def drainCounts [DecidableEq T] (cs : List (T × Int)) : List (T × Int) := ((cs.map (·.1)).dedup.map fun t => (t, countAt cs t)).filter fun c => c.2 ≠ 0

/-- An activation of `ProgressWriter` on the worker that writes (capture.rs:659-722), with the counts received and the input frontier. `polls` is `none` if the sink is closed. -/
def ProgressWriter.activate [PartialOrder T] [DecidableLE T] [DecidableEq T] (w : ProgressWriter D T R) (counts : List (T × Int)) (new_frontier : List T)
    (polls : Option (List Bool)) : ProgressWriter D T R :=
  let timestamps := w.timestamps ++ counts
  match polls with
  | some polls =>
    if acLe w.frontier new_frontier && !acEq w.frontier new_frontier then
      let drained := drainCounts timestamps
      let announce := (drained.filter fun c => !lessEqual new_frontier c.1).map fun c => (c.1, c.2.toNat)
      let retain := drained.filter fun c => lessEqual new_frontier c.1
      let queue := w.queue ++ [.progress ⟨w.frontier, new_frontier, announce⟩]
      let r := offer polls queue
      ⟨new_frontier, retain, r.2, w.written ++ r.1⟩
    else ⟨w.frontier, timestamps, w.queue, w.written⟩
  | none => ⟨w.frontier, [], [], w.written⟩

end DD
