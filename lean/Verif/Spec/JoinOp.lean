import Verif.Spec.ReduceOp
import Verif.Model.JoinOp

/-!
# What the `join` operator may rely on, and what it means for its output to be right
-/

namespace DD
variable {K V V1 V2 T R R1 R2 D M S : Type*}

/-- The join of two collections: nested loops over their updates. Updates with the same key join, at the join of their times, with the product of their differences. -/
def nestedJoin [DecidableEq K] [Max T] (result : K → V1 → V2 → List D) (mul : R1 → R2 → M) (us1 : Upds (K × V1) T R1) (us2 : Upds (K × V2) T R2) : Upds D T M :=
  us1.flatMap fun a => us2.flatMap fun b =>
    if a.1.1 = b.1.1 then (result a.1.1 a.1.2 b.1.2).map fun d => (d, a.2.1 ⊔ b.2.1, mul a.2.2 b.2.2) else []

/-- The updates whose times are not beyond a frontier. -/
def before [LE T] [DecidableLE T] (us : Upds D T R) (F : List T) : Upds D T R := us.filter fun u => ¬ Beyond F u.2.1

/-- The updates whose times are beyond `lower` and not beyond `upper`. -/
def within [LE T] [DecidableLE T] (us : Upds D T R) (lower upper : List T) : Upds D T R := us.filter fun u => Beyond lower u.2.1 ∧ ¬ Beyond upper u.2.1

/-- A builder hands out what is pushed into it, possibly consolidated: there is an account `held` of what it holds. -/
structure OutBuilder.Keeps [DecidableEq D] [LE T] [DecidableLE T] [AddCommMonoid M] (B : OutBuilder S D T M) (ok : S → Prop) (held : S → Upds D T M) : Prop where
  init : ok B.init ∧ held B.init = []
  push : ∀ s u, ok s → ∃ s', B.push s u = some s' ∧ ok s' ∧ (∀ d q, accum (held s') d q = accum (held s ++ [u]) d q) ∧
    ∀ x ∈ held s', ∃ y ∈ held s ++ [u], y.2.1 = x.2.1
  extractAll : ∀ s, ok s → ∃ s' cs, B.extractAll s = some (s', cs) ∧ ok s' ∧ (∀ d q, accum (cs.flatten ++ held s') d q = accum (held s) d q) ∧
    ∀ x ∈ cs.flatten ++ held s', ∃ y ∈ held s, y.2.1 = x.2.1
  finishAll : ∀ s, ok s → ∃ s' cs, B.finishAll s = some (s', cs) ∧ (∀ d q, accum cs.flatten d q = accum (held s) d q) ∧
    ∀ x ∈ cs.flatten, ∃ y ∈ held s, y.2.1 = x.2.1

/-- One of the two inputs: all updates that its arrangement comes to hold during the run, the frontier up to which its trace was compacted when the operator got it, and the frontiers
at which batches of its stream start and end. -/
structure JoinSide (K V T R : Type*) where
  upds : Upds (K × V) T R
  since : List T
  bound : List T → Prop

/-- Batch boundaries are antichains, one beyond the other. -/
structure JoinSide.Chain [LE T] (s : JoinSide K V T R) : Prop where
  antichain : ∀ F, s.bound F → IsAntichainList F
  total : ∀ F G, s.bound F → s.bound G → FrontierLe F G ∨ FrontierLe G F

section
variable [Lattice T] [DecidableLE T] [LinearOrder K] [LinearOrder V] [LinearOrder V1] [LinearOrder V2] [AddCommMonoid R] [AddCommMonoid R1] [AddCommMonoid R2]

/-- What a trace presents through a frontier. The promise is made only for batch boundaries at or beyond the permissions for physical compaction. Accumulations are right at times at or
beyond the permissions for logical compaction. -/
def ShowsThrough (s : JoinSide K V T R) (h : TraceHandle T) (F : List T) (c : Contents K V T R) : Prop :=
  s.bound F → (∀ P ∈ h.physical, FrontierLe P F) →
    ContentsSorted c ∧ ∀ k v q, Beyond s.since q → (∀ L ∈ h.logical, Beyond L q) → accum (keyUpds c k) v q = accum (before s.upds F) (k, v) q

/-- A batch arrives on a stream whose frontier is `frontier`, and on which the previous batch ended at `got`. -/
structure LegalBatch (s : JoinSide K V T R) (got frontier : List T) (time : T) (lower upper : List T) (batch : Contents K V T R) : Prop where
  /-- Batches come in order. -/
  inOrder : FrontierLe got lower
  interval : FrontierLe lower upper
  bounds : s.bound lower ∧ s.bound upper
  /-- The batch is one of the stream: no boundary lies within it. -/
  whole : ∀ F, s.bound F → FrontierLe F lower ∨ FrontierLe upper F
  /-- Batches that were skipped are empty. -/
  skipped : ∀ u ∈ s.upds, Beyond got u.2.1 → Beyond lower u.2.1
  /-- The batch presents the updates between its bounds, and they are not before the time of its capability. -/
  shows : ShowsBatch batch (within s.upds lower upper)
  times : ∀ u ∈ within s.upds lower upper, time ≤ u.2.1

/-- The batches of a trace. Those before the permissions for physical compaction may have been merged, and nothing is said about those. If another presents no updates, then the updates
of each stream batch that it consists of accumulate to zero, at least at times beyond the permissions for logical compaction. -/
structure LegalShown (s : JoinSide K V T R) (h : TraceHandle T) (d : Description T × Bool) : Prop where
  bounds : s.bound d.1.lower ∧ s.bound d.1.upper
  interval : FrontierLe d.1.lower d.1.upper
  empty : d.2 = true → (∀ P ∈ h.physical, FrontierLe P d.1.lower) → ∀ F, s.bound F → FrontierLe d.1.lower F → FrontierLe F d.1.upper →
    ∀ kv q, Beyond s.since q → (∀ L ∈ h.logical, Beyond L q) → accum (within s.upds d.1.lower F) kv q = 0

/-- Up to where batches were received from the two streams, and their frontiers. -/
structure JoinFeed (T : Type*) where
  got1 : List T
  got2 : List T
  frontier1 : List T
  frontier2 : List T

/-- What the operator may rely on. Batches from before the upper frontier of the trace at the start are only required to respect the frontier. -/
def LegalEv (s1 : JoinSide K V1 T R1) (s2 : JoinSide K V2 T R2) (f : JoinFeed T) (st : JoinOp K V1 V2 T R1 R2 S D M) : JoinEv K V1 V2 T R1 R2 → Prop
  | .batch1 time lower upper batch through2 =>
    Beyond f.frontier1 time ∧
      (¬ FrontierLe upper st.pre1 → LegalBatch s1 f.got1 f.frontier1 time lower upper batch ∧ ∀ h ∈ st.trace2, ShowsThrough s2 h st.ack2 (through2 st.ack2))
  | .batch2 time lower upper batch through1 =>
    Beyond f.frontier2 time ∧
      (¬ FrontierLe upper st.pre2 → LegalBatch s2 f.got2 f.frontier2 time lower upper batch ∧ ∀ h ∈ st.trace1, ShowsThrough s1 h st.ack1 (through1 st.ack1))
  | .rest shown1 shown2 frontier1 frontier2 =>
    FrontierLe f.frontier1 frontier1 ∧ FrontierLe f.frontier2 frontier2 ∧
      (∀ u ∈ s1.upds, Beyond f.got1 u.2.1 → Beyond frontier1 u.2.1) ∧ (∀ u ∈ s2.upds, Beyond f.got2 u.2.1 → Beyond frontier2 u.2.1) ∧
      (∀ h ∈ st.trace1, ∀ d ∈ shown1, LegalShown s1 h d) ∧ (∀ h ∈ st.trace2, ∀ d ∈ shown2, LegalShown s2 h d)

/-- What the events say about the streams. -/
def JoinFeed.next (f : JoinFeed T) (st : JoinOp K V1 V2 T R1 R2 S D M) : JoinEv K V1 V2 T R1 R2 → JoinFeed T
  | .batch1 _ _ upper _ _ => if acLe upper st.pre1 then f else { f with got1 := upper }
  | .batch2 _ _ upper _ _ => if acLe upper st.pre2 then f else { f with got2 := upper }
  | .rest _ _ frontier1 frontier2 => { f with frontier1 := frontier1, frontier2 := frontier2 }

variable [DecidableEq T] [LinearOrder (Lin T)] [DecidableEq R1] [DecidableEq R2]

/-- A run in which every event is legal. -/
def LegalJoin (B : OutBuilder S D T M) (logic : K → V1 → V2 → T → R1 → R2 → List (D × T × M)) (budget : Int) (s1 : JoinSide K V1 T R1) (s2 : JoinSide K V2 T R2) :
    JoinFeed T → JoinOp K V1 V2 T R1 R2 S D M → List (JoinEv K V1 V2 T R1 R2) → Prop
  | _, _, [] => True
  | f, st, e :: es => LegalEv s1 s2 f st e ∧ ∀ rounds st', st.step B logic rounds budget e = some st' → LegalJoin B logic budget s1 s2 (f.next st e) st' es

/-- The frontiers of the two inputs, as of the last activation. -/
def lastFrontiers : List T × List T → List (JoinEv K V1 V2 T R1 R2) → List T × List T
  | f, [] => f
  | _, .rest _ _ frontier1 frontier2 :: es => lastFrontiers (frontier1, frontier2) es
  | f, _ :: es => lastFrontiers f es

/-- What the operator may rely on when it is constructed: the traces are complete through their upper frontiers, which are batch boundaries, and present their updates through these. -/
structure LegalStart [OrderBot T] (s1 : JoinSide K V1 T R1) (s2 : JoinSide K V2 T R2) (physical1 physical2 : List T) (uppers1 : List (List T))
    (batches2 : List (List T × Contents K V2 T R2)) (through1 : List T → Contents K V1 T R1) : Prop where
  bound1 : s1.bound (uppers1.foldl (fun _ u => u) [⊥])
  bound2 : s2.bound (batches2.foldl (fun _ b => b.1) [⊥])
  atPhysical1 : FrontierLe physical1 (uppers1.foldl (fun _ u => u) [⊥])
  atPhysical2 : FrontierLe physical2 (batches2.foldl (fun _ b => b.1) [⊥])
  shows1 : ShowsThrough s1 ⟨[], [physical1]⟩ (uppers1.foldl (fun _ u => u) [⊥]) (through1 (uppers1.foldl (fun _ u => u) [⊥]))
  sorted2 : ∀ b ∈ batches2, ContentsSorted b.2
  shows2 : ∀ k v q, Beyond s2.since q →
    (batches2.map fun b => accum (keyUpds b.2 k) v q).sum = accum (before s2.upds (batches2.foldl (fun _ b => b.1) [⊥])) (k, v) q

/-- Where the streams start: nothing received beyond what the traces held. -/
def JoinFeed.start [OrderBot T] (st : JoinOp K V1 V2 T R1 R2 S D M) : JoinFeed T := ⟨st.pre1, st.pre2, [⊥], [⊥]⟩

/-- A read of a trace respects the permissions given before: the frontier is not before the permissions for physical compaction, the work happens at times beyond those for logical
compaction. -/
def JoinRead.Respects (r : JoinRead T) : Prop := (∀ P ∈ r.handle.physical, FrontierLe P r.frontier) ∧ ∀ L ∈ r.handle.logical, Beyond L r.time

end
end DD
