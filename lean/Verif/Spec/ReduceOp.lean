import Verif.Spec.Reduce
import Verif.Spec.History
import Verif.Spec.Tile
import Verif.Model.ReduceOp

/-!
# What the `reduce` operator may rely on, and what it means for its output to be right
-/

namespace DD
variable {K V V1 V2 T R R1 R2 : Type*}

/-- The updates of a key. -/
def ofKey [DecidableEq K] (us : Upds (K × V) T R) (k : K) : Upds V T R :=
  us.filterMap fun u => if u.1.1 = k then some (u.1.2, u.2) else none

/-- A cursor over a trace presents its updates, possibly compacted: sorted, and with the right accumulations at times at or beyond `lower`. -/
structure ShowsHistory [LinearOrder K] [LinearOrder V] [LE T] [DecidableLE T] [AddCommMonoid R] (lower : List T) (t : Contents K V T R) (us : Upds (K × V) T R) : Prop where
  sorted : ContentsSorted t
  agrees : ∀ k v q, Beyond lower q → accum (keyUpds t k) v q = accum us (k, v) q

/-- A cursor over batches presents their updates: sorted, with the right accumulations, and with no other times. -/
structure ShowsBatch [LinearOrder K] [LinearOrder V] [LE T] [DecidableLE T] [AddCommMonoid R] (t : Contents K V T R) (us : Upds (K × V) T R) : Prop where
  sorted : ContentsSorted t
  agrees : ∀ k v q, accum (keyUpds t k) v q = accum us (k, v) q
  times : ∀ k, ∀ s ∈ (keyUpds t k).map (·.2.1), ∃ u ∈ us, u.1.1 = k ∧ u.2.1 = s

/-- The updates received in an activation. -/
def ReduceAct.upds (a : ReduceAct K V1 V2 T R1 R2) : Upds (K × V1) T R1 := a.msgs.flatMap fun m => m.2.flatMap (·.upds)

/-- The updates received in a sequence of activations. -/
def inputsOf (as : List (ReduceAct K V1 V2 T R1 R2)) : Upds (K × V1) T R1 := as.flatMap ReduceAct.upds

/-- The times of the messages received in a sequence of activations. -/
def messageTimes (as : List (ReduceAct K V1 V2 T R1 R2)) : List T := as.flatMap fun a => a.msgs.map (·.1)

/-- The updates the operator has sent. -/
def ReduceOp.sentUpds (st : ReduceOp K V2 T R2) : Upds (K × V2) T R2 := st.sent.flatMap (·.2.upds)

section
variable [Lattice T] [DecidableLE T] [DecidableEq T] [LinearOrder (Lin T)] [LinearOrder K] [LinearOrder V1] [LinearOrder V2]
  [AddCommMonoid R1] [DecidableEq R1] [AddCommMonoid R2] [DecidableEq R2]

/-- What the operator may rely on in an activation. `inputs` are the updates it has received before, `later` the times of messages it will receive afterwards. -/
structure LegalAct (st : ReduceOp K V2 T R2) (inputs : Upds (K × V1) T R1) (later : List T) (a : ReduceAct K V1 V2 T R1 R2) : Prop where
  /-- The updates of a batch are no earlier than the time of its message, and not beyond its upper frontier. -/
  updates : ∀ m ∈ a.msgs, ∀ b ∈ m.2, ∀ u ∈ b.upds, m.1 ≤ u.2.1 ∧ ¬ Beyond b.desc.upper u.2.1
  /-- Batches come in order. -/
  inOrder : (a.msgs.flatMap (·.2)).Pairwise fun b c => FrontierLe b.desc.upper c.desc.upper
  /-- Batches are not before those that came, or that the operator saw in the trace, before. -/
  notBefore : ∀ b ∈ a.msgs.flatMap (·.2), FrontierLe st.upper b.desc.upper
  /-- Messages that come later are beyond the upper frontiers of batches. -/
  laterBatches : ∀ b ∈ a.msgs.flatMap (·.2), ∀ t ∈ later, Beyond b.desc.upper t
  /-- Batches of the trace are intervals. -/
  intervals : ∀ d ∈ a.shown, IsAntichainList d.1.lower ∧ FrontierLe d.1.lower d.1.upper
  /-- No message that comes later is at a time in an empty batch of the trace. -/
  laterShown : ∀ d ∈ a.shown, d.2 = true → ∀ t ∈ later, Beyond d.1.lower t → Beyond d.1.upper t
  /-- Messages that come later are beyond the input frontier. -/
  laterFrontier : ∀ t ∈ later, Beyond a.frontier t
  /-- The cursors present what they should. The traces may be compacted up to the previous upper frontier of the operator. -/
  source : ShowsHistory st.upper a.source inputs
  output : ShowsHistory st.upper a.output st.sentUpds
  fresh : ShowsBatch a.fresh a.upds

/-- A run in which every activation is legal and satisfies `extra`. -/
def LegalRun [OrderBot T] (logic : K → List (V1 × R1) → List (V2 × R2) → List (V2 × R2))
    (extra : ReduceOp K V2 T R2 → ReduceAct K V1 V2 T R1 R2 → Prop) : ReduceOp K V2 T R2 → Upds (K × V1) T R1 → List (ReduceAct K V1 V2 T R1 R2) → Prop
  | _, _, [] => True
  | st, inputs, a :: as =>
    LegalAct st inputs (messageTimes as) a ∧ extra st a ∧
      ∀ fuel st', st.act fuel logic a = some st' → LegalRun logic extra st' (inputs ++ a.upds) as

/-- The times the traces present are those of updates from before the previous upper frontier, advanced no further than to that frontier: each is at most the join of a time before
the frontier and any of its elements. -/
def InThePast (st : ReduceOp K V2 T R2) (a : ReduceAct K V1 V2 T R1 R2) : Prop :=
  ∀ k, ∀ w ∈ (keyUpds a.source k).map (·.2.1) ++ (keyUpds a.output k).map (·.2.1), ∀ l ∈ st.upper, ∃ w', ¬ Beyond st.upper w' ∧ w ≤ w' ⊔ l

/-- The history of each key is `HistoryHeeded`. -/
def Heeded (st : ReduceOp K V2 T R2) (a : ReduceAct K V1 V2 T R1 R2) : Prop :=
  ∀ k, HistoryHeeded (a.nextUpper st.upper) (keyUpds a.fresh k)
    (st.pending.filterMap fun p => if p.1 = k ∧ lessEqual (a.nextUpper st.upper) p.2 = false then some p.2 else none)
    ((keyUpds a.source k).map (·.2.1) ++ (keyUpds a.output k).map (·.2.1))

end
end DD
