import Verif.Model.HalfJoin
import Verif.Spec.CursorContract
import Verif.Spec.Batch

/-!
# What a half join must compute, and what it may rely on
-/

namespace DD
variable {K V V2 T R R2 M DOut : Type*}

/-- The answers owed to proposals by an arrangement: for each proposal and each update of the arrangement with the same key, whose time compares before the proposal's initial time, one
update at the initial time, carrying the join of the times, with the product of the differences. -/
def halfMatches [DecidableEq K] [Max T] (comparison : T → T → Bool) (logic : K → V → V2 → DOut) (mul : R → R2 → M) (proposals : Upds (PropData K V T) T R)
    (trace : Upds (K × V2) T R2) : Upds (DOut × T) T M :=
  proposals.flatMap fun p => trace.flatMap fun u =>
    if u.1.1 = p.1.key ∧ comparison u.2.1 p.2.1 = true then [((logic p.1.key p.1.val u.1.2, u.2.1 ⊔ p.1.time), p.2.1, mul p.2.2 u.2.2)] else []

/-- Two times that cannot be told apart by comparing them with times beyond a frontier. -/
def SameBeyond [LE T] (F : List T) (s t : T) : Prop := ∀ q, Beyond F q → (s ≤ q ↔ t ≤ q)

/-- `shown` is a compaction of `us` to `F`: up to consolidation, each update has the same data and difference, at a time that cannot be told apart from its own beyond `F`. -/
def CompactionOf {D : Type*} [DecidableEq D] [LE T] [DecidableEq T] [AddCommMonoid R] (F : List T) (us shown : Upds D T R) : Prop :=
  ∃ us', List.Forall₂ (fun u u' => u'.1 = u.1 ∧ u'.2.2 = u.2.2 ∧ SameBeyond F u.2.1 u'.2.1) us us' ∧ ∀ d t, total shown d t = total us' d t

/-- What the caller promises about the comparison and the compaction frontiers derived from times. -/
structure HalfJoinFns [LE T] (comparison : T → T → Bool) (frontier_func : T → List T) : Prop where
  /-- Whatever is before a time that compares before another also does. -/
  down : ∀ s t initial, s ≤ t → comparison t initial = true → comparison s initial = true
  /-- Compaction for a time does not affect times at or after it, -/
  beyond : ∀ h initial, h ≤ initial → Beyond (frontier_func h) initial
  /-- nor the comparison with these. -/
  stable : ∀ h initial s t, h ≤ initial → SameBeyond (frontier_func h) s t → comparison s initial = comparison t initial

section
variable [LinearOrder K] [LinearOrder V2] [Lattice T] [DecidableLE T] [DecidableEq T] [LinearOrder (Lin T)] [AddCommMonoid R] [AddCommMonoid R2]

/-- An activation that the operator may see, if the frontier of its first input was `F1` and it last allowed the trace to be compacted to `logical`; `trace` are all updates that the
arrangement ever holds. Proposals are at or after the time of their message, which is beyond the frontier; and their time is at or after their initial time. The frontier advances.
The trace presents the updates that it holds so far, compacted at most as allowed, and those it does not hold yet are beyond the frontier of the second input. -/
structure LegalHalf (trace : Upds (K × V2) T R2) (F1 logical : List T) (act : HalfJoinAct K V V2 T R R2) : Prop where
  msgs : ∀ m ∈ act.msgs, Beyond F1 m.1 ∧ ∀ p ∈ m.2, m.1 ≤ p.2.1 ∧ p.2.1 ≤ p.1.time
  advances : ∀ f ∈ act.frontier1, Beyond F1 f
  sorted : ContentsSorted act.contents
  shows : ∃ now later, trace.Perm (now ++ later) ∧ (∀ u ∈ later, Beyond act.frontier2 u.2.1) ∧ CompactionOf logical now act.contents.flatten
  order : ∀ l, (act.order l).Perm l

end

section
variable [LinearOrder K] [LinearOrder V] [LinearOrder V2] [Lattice T] [DecidableLE T] [DecidableEq T] [LinearOrder (Lin T)]
  [AddCommMonoid R] [DecidableEq R] [AddCommMonoid R2] [DecidableEq R2]

/-- A sequence of legal activations. -/
def LegalHalfRun (comparison : T → T → Bool) (frontier_func : T → List T) (logic : K → V → V2 → DOut) (mul : R → R2 → M) (trace : Upds (K × V2) T R2) :
    List T → HalfJoin K V T R → List (HalfJoinAct K V V2 T R R2) → Prop
  | _, _, [] => True
  | F1, st, act :: acts => LegalHalf trace F1 st.logical act ∧
    ∀ st' outs, st.activate comparison frontier_func logic mul act = some (st', outs) → LegalHalfRun comparison frontier_func logic mul trace act.frontier1 st' acts

end

end DD
