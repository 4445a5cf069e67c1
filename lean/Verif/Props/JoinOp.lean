import Verif.Proofs.JoinRun
import Verif.Proofs.JoinBuilder
import Verif.Proofs.TimeOrd
import Mathlib.Algebra.Ring.Int.Defs

/-!
# C25, C26: the `join` operator

Any run of the operator is covered: any batches preloaded in the traces, any interleaving of batches of both inputs with other work, any work budget, any batch boundaries, any
compaction of the traces that respects the operator's permissions. The builder of outputs is `ConsolidatingContainerBuilder`, with any preferred container size and any capacities.
-/

namespace DD
variable {K V1 V2 T R1 R2 S D M : Type*} [Lattice T] [OrderBot T] [DecidableLE T] [DecidableEq T] [LinearOrder (Lin T)] [LinearOrder K] [LinearOrder V1] [LinearOrder V2]
  [LinearOrder D] [AddCommMonoid R1] [DecidableEq R1] [AddCommMonoid R2] [DecidableEq R2] [AddCommMonoid M] [DecidableEq M]

/-- C25: the operator never panics, and at every time complete on both inputs and with no work outstanding, what was sent accumulates to the join of the inputs, computed by nested loops
over their updates. -/
theorem C25_join (preferred : Nat) (hp : 0 < preferred) (capacity : Nat → Nat) (result : K → V1 → V2 → List D) (mul : R1 →+ R2 →+ M)
    (s1 : JoinSide K V1 T R1) (s2 : JoinSide K V2 T R2) (c1 : s1.Chain) (c2 : s2.Chain)
    (physical1 physical2 : List T) (uppers1 : List (List T)) (batches2 : List (List T × Contents K V2 T R2)) (through1 : List T → Contents K V1 T R1)
    (hs : LegalStart s1 s2 physical1 physical2 uppers1 batches2 through1) (budget : Int) (es : List (JoinEv K V1 V2 T R1 R2))
    (hes : ∀ st, JoinOp.start (CCB.outBuilder (D := D) (M := M) preferred capacity) physical1 physical2 uppers1 batches2 through1 = some st →
      LegalJoin (CCB.outBuilder preferred capacity) (joinCoreLogic result fun a b => mul a b) budget s1 s2 (JoinFeed.start st) st es) :
    ∃ st0 st n, JoinOp.start (CCB.outBuilder preferred capacity) physical1 physical2 uppers1 batches2 through1 = some st0 ∧
      (∀ rounds, n ≤ rounds → st0.run (CCB.outBuilder preferred capacity) (joinCoreLogic result fun a b => mul a b) rounds budget es = some st) ∧
      ∀ q, Beyond s1.since q → Beyond s2.since q → ¬ Beyond (lastFrontiers ([⊥], [⊥]) es).1 q → ¬ Beyond (lastFrontiers ([⊥], [⊥]) es).2 q →
        (∀ w ∈ st.todo0 ++ st.todo1, ¬ w.1 ≤ q) →
        ∀ d, accum (st.sent.flatMap (·.2)) d q = accum (nestedJoin result (fun a b => mul a b) s1.upds s2.upds) d q := by
  have hB := CCB.keeps (D := D) (T := T) (M := M) hp capacity
  obtain ⟨st0, a1, a2⟩ := joinStart_inv hB (result := result) (mul := mul) hs
  obtain ⟨n, st, f, b1, b2, b3⟩ := joinRun_inv hB c1 c2 budget es a2 (hes st0 a1)
  refine ⟨st0, st, n, a1, b1, ?_⟩
  intro q q1 q2 n1 n2 hq d
  have e : (f.frontier1, f.frontier2) = lastFrontiers ([⊥], [⊥]) es := b3
  rw [← e] at n1 n2
  exact b2.complete q1 q2 n1 n2 hq d

/-- C25, for the join that pairs values: the accumulation of `(k, v1, v2)` is the product of the accumulations of `(k, v1)` and `(k, v2)` in the inputs. -/
theorem C25_product (preferred : Nat) (hp : 0 < preferred) (capacity : Nat → Nat) (mul : R1 →+ R2 →+ M) [LinearOrder (K × V1 × V2)]
    (s1 : JoinSide K V1 T R1) (s2 : JoinSide K V2 T R2) (c1 : s1.Chain) (c2 : s2.Chain)
    (physical1 physical2 : List T) (uppers1 : List (List T)) (batches2 : List (List T × Contents K V2 T R2)) (through1 : List T → Contents K V1 T R1)
    (hs : LegalStart s1 s2 physical1 physical2 uppers1 batches2 through1) (budget : Int) (es : List (JoinEv K V1 V2 T R1 R2))
    (hes : ∀ st, JoinOp.start (CCB.outBuilder (D := K × V1 × V2) (M := M) preferred capacity) physical1 physical2 uppers1 batches2 through1 = some st →
      LegalJoin (CCB.outBuilder preferred capacity) (joinCoreLogic (fun k v1 v2 => [(k, v1, v2)]) fun a b => mul a b) budget s1 s2 (JoinFeed.start st) st es) :
    ∃ st0 st n, JoinOp.start (CCB.outBuilder preferred capacity) physical1 physical2 uppers1 batches2 through1 = some st0 ∧
      (∀ rounds, n ≤ rounds → st0.run (CCB.outBuilder preferred capacity) (joinCoreLogic (fun k v1 v2 => [(k, v1, v2)]) fun a b => mul a b) rounds budget es = some st) ∧
      ∀ q, Beyond s1.since q → Beyond s2.since q → ¬ Beyond (lastFrontiers ([⊥], [⊥]) es).1 q → ¬ Beyond (lastFrontiers ([⊥], [⊥]) es).2 q →
        (∀ w ∈ st.todo0 ++ st.todo1, ¬ w.1 ≤ q) →
        ∀ k v1 v2, accum (st.sent.flatMap (·.2)) (k, v1, v2) q = mul (accum s1.upds (k, v1) q) (accum s2.upds (k, v2) q) := by
  obtain ⟨st0, st, n, a1, a2, a3⟩ := C25_join preferred hp capacity (fun k v1 v2 => [(k, v1, v2)]) mul s1 s2 c1 c2 physical1 physical2 uppers1 batches2 through1 hs budget es hes
  refine ⟨st0, st, n, a1, a2, ?_⟩
  intro q q1 q2 n1 n2 hq k v1 v2
  have h := a3 q q1 q2 n1 n2 hq (k, v1, v2)
  have e := accum_nestedJoin_pairs mul s1.upds s2.upds k v1 v2 q
  rw [← e]
  convert h

/-- C25: each container is sent under a capability that is not beyond the times of its updates. -/
theorem C25_capability (preferred : Nat) (hp : 0 < preferred) (capacity : Nat → Nat) (result : K → V1 → V2 → List D) (mul : R1 →+ R2 →+ M)
    (s1 : JoinSide K V1 T R1) (s2 : JoinSide K V2 T R2) (c1 : s1.Chain) (c2 : s2.Chain)
    (physical1 physical2 : List T) (uppers1 : List (List T)) (batches2 : List (List T × Contents K V2 T R2)) (through1 : List T → Contents K V1 T R1)
    (hs : LegalStart s1 s2 physical1 physical2 uppers1 batches2 through1) (budget : Int) (es : List (JoinEv K V1 V2 T R1 R2))
    (hes : ∀ st, JoinOp.start (CCB.outBuilder (D := D) (M := M) preferred capacity) physical1 physical2 uppers1 batches2 through1 = some st →
      LegalJoin (CCB.outBuilder preferred capacity) (joinCoreLogic result fun a b => mul a b) budget s1 s2 (JoinFeed.start st) st es) :
    ∃ st0 st n, JoinOp.start (CCB.outBuilder preferred capacity) physical1 physical2 uppers1 batches2 through1 = some st0 ∧
      (∀ rounds, n ≤ rounds → st0.run (CCB.outBuilder preferred capacity) (joinCoreLogic result fun a b => mul a b) rounds budget es = some st) ∧
      ∀ s ∈ st.sent, ∀ u ∈ s.2, s.1 ≤ u.2.1 := by
  have hB := CCB.keeps (D := D) (T := T) (M := M) hp capacity
  obtain ⟨st0, a1, a2⟩ := joinStart_inv hB (result := result) (mul := mul) hs
  obtain ⟨n, st, f, b1, b2, b3⟩ := joinRun_inv hB c1 c2 budget es a2 (hes st0 a1)
  exact ⟨st0, st, n, a1, b1, b2.sent⟩

/-- C25: work does not stay outstanding. After any run there is a number of further activations, without new batches, after which no work is left. -/
theorem C25_progress (preferred : Nat) (hp : 0 < preferred) (capacity : Nat → Nat) (result : K → V1 → V2 → List D) (mul : R1 →+ R2 →+ M)
    (s1 : JoinSide K V1 T R1) (s2 : JoinSide K V2 T R2) (c1 : s1.Chain) (c2 : s2.Chain)
    (physical1 physical2 : List T) (uppers1 : List (List T)) (batches2 : List (List T × Contents K V2 T R2)) (through1 : List T → Contents K V1 T R1)
    (hs : LegalStart s1 s2 physical1 physical2 uppers1 batches2 through1) (budget : Int) (hb : 0 ≤ budget) (es : List (JoinEv K V1 V2 T R1 R2))
    (hes : ∀ st, JoinOp.start (CCB.outBuilder (D := D) (M := M) preferred capacity) physical1 physical2 uppers1 batches2 through1 = some st →
      LegalJoin (CCB.outBuilder preferred capacity) (joinCoreLogic result fun a b => mul a b) budget s1 s2 (JoinFeed.start st) st es) :
    ∃ st0, JoinOp.start (CCB.outBuilder preferred capacity) physical1 physical2 uppers1 batches2 through1 = some st0 ∧
      ∃ N, ∀ idle : List (JoinEv K V1 V2 T R1 R2), N ≤ idle.length → (∀ e ∈ idle, ∃ shown1 shown2 frontier1 frontier2, e = .rest shown1 shown2 frontier1 frontier2) →
        LegalJoin (CCB.outBuilder preferred capacity) (joinCoreLogic result fun a b => mul a b) budget s1 s2 (JoinFeed.start st0) st0 (es ++ idle) →
        ∃ st n, (∀ rounds, n ≤ rounds → st0.run (CCB.outBuilder preferred capacity) (joinCoreLogic result fun a b => mul a b) rounds budget (es ++ idle) = some st) ∧
          st.todo0 = [] ∧ st.todo1 = [] := by
  have hB := CCB.keeps (D := D) (T := T) (M := M) hp capacity
  obtain ⟨st0, a1, a2⟩ := joinStart_inv hB (result := result) (mul := mul) hs
  obtain ⟨N, hN⟩ := joinRun_idle hB c1 c2 hb es a2 (hes st0 a1)
  exact ⟨st0, a1, N, hN⟩

/-- C26: when a batch arrives and the other trace is read for it, the frontier it is read through is at or beyond every permission for physical compaction that the operator gave before,
and the time that all of the work happens at or beyond is beyond every permission for logical compaction. -/
theorem C26_reads (preferred : Nat) (hp : 0 < preferred) (capacity : Nat → Nat) (result : K → V1 → V2 → List D) (mul : R1 →+ R2 →+ M)
    (s1 : JoinSide K V1 T R1) (s2 : JoinSide K V2 T R2) (c1 : s1.Chain) (c2 : s2.Chain)
    (physical1 physical2 : List T) (uppers1 : List (List T)) (batches2 : List (List T × Contents K V2 T R2)) (through1 : List T → Contents K V1 T R1)
    (hs : LegalStart s1 s2 physical1 physical2 uppers1 batches2 through1) (budget : Int) (es : List (JoinEv K V1 V2 T R1 R2))
    (hes : ∀ st, JoinOp.start (CCB.outBuilder (D := D) (M := M) preferred capacity) physical1 physical2 uppers1 batches2 through1 = some st →
      LegalJoin (CCB.outBuilder preferred capacity) (joinCoreLogic result fun a b => mul a b) budget s1 s2 (JoinFeed.start st) st es) :
    ∃ st0 st n, JoinOp.start (CCB.outBuilder preferred capacity) physical1 physical2 uppers1 batches2 through1 = some st0 ∧
      (∀ rounds, n ≤ rounds → st0.run (CCB.outBuilder preferred capacity) (joinCoreLogic result fun a b => mul a b) rounds budget es = some st) ∧
      ∀ r ∈ st.reads, (∀ P ∈ r.handle.physical, FrontierLe P r.frontier) ∧ ∀ L ∈ r.handle.logical, Beyond L r.time := by
  have hB := CCB.keeps (D := D) (T := T) (M := M) hp capacity
  obtain ⟨st0, a1, a2⟩ := joinStart_inv hB (result := result) (mul := mul) hs
  obtain ⟨n, st, f, b1, b2, b3⟩ := joinRun_inv hB c1 c2 budget es a2 (hes st0 a1)
  exact ⟨st0, st, n, a1, b1, b2.reads⟩

/-- C26: permissions only advance, and those for logical compaction of a trace never pass the frontier of the other input. -/
theorem C26_permissions (preferred : Nat) (hp : 0 < preferred) (capacity : Nat → Nat) (result : K → V1 → V2 → List D) (mul : R1 →+ R2 →+ M)
    (s1 : JoinSide K V1 T R1) (s2 : JoinSide K V2 T R2) (c1 : s1.Chain) (c2 : s2.Chain)
    (physical1 physical2 : List T) (uppers1 : List (List T)) (batches2 : List (List T × Contents K V2 T R2)) (through1 : List T → Contents K V1 T R1)
    (hs : LegalStart s1 s2 physical1 physical2 uppers1 batches2 through1) (budget : Int) (es : List (JoinEv K V1 V2 T R1 R2))
    (hes : ∀ st, JoinOp.start (CCB.outBuilder (D := D) (M := M) preferred capacity) physical1 physical2 uppers1 batches2 through1 = some st →
      LegalJoin (CCB.outBuilder preferred capacity) (joinCoreLogic result fun a b => mul a b) budget s1 s2 (JoinFeed.start st) st es) :
    ∃ st0 st n, JoinOp.start (CCB.outBuilder preferred capacity) physical1 physical2 uppers1 batches2 through1 = some st0 ∧
      (∀ rounds, n ≤ rounds → st0.run (CCB.outBuilder preferred capacity) (joinCoreLogic result fun a b => mul a b) rounds budget es = some st) ∧
      (∀ h ∈ st.trace1, h.physical.Pairwise FrontierLe ∧ h.logical.Pairwise FrontierLe ∧ ∀ L ∈ h.logical, FrontierLe L (lastFrontiers ([⊥], [⊥]) es).2) ∧
      ∀ h ∈ st.trace2, h.physical.Pairwise FrontierLe ∧ h.logical.Pairwise FrontierLe ∧ ∀ L ∈ h.logical, FrontierLe L (lastFrontiers ([⊥], [⊥]) es).1 := by
  have hB := CCB.keeps (D := D) (T := T) (M := M) hp capacity
  obtain ⟨st0, a1, a2⟩ := joinStart_inv hB (result := result) (mul := mul) hs
  obtain ⟨n, st, f, b1, b2, b3⟩ := joinRun_inv hB c1 c2 budget es a2 (hes st0 a1)
  have e : (f.frontier1, f.frontier2) = lastFrontiers ([⊥], [⊥]) es := b3
  refine ⟨st0, st, n, a1, b1, ?_, ?_⟩
  · rw [← e]
    exact fun h hh => ⟨b2.side1.ordered h hh, b2.logical1 h hh⟩
  · rw [← e]
    exact fun h hh => ⟨b2.side2.ordered h hh, b2.logical2 h hh⟩

/-- C26: traces are not held back. An activation gives permission for logical compaction up to the frontier of the other input, for physical compaction up to what is acknowledged, and
drops the trace when the other input is complete. -/
theorem C26_release (B : OutBuilder S D T M) (logic : K → V1 → V2 → T → R1 → R2 → List (D × T × M)) (rounds : Nat) (budget : Int)
    (st st' : JoinOp K V1 V2 T R1 R2 S D M) (shown1 shown2 : List (Description T × Bool)) (frontier1 frontier2 : List T)
    (h : st.step B logic rounds budget (.rest shown1 shown2 frontier1 frontier2) = some st') :
    (frontier2 = [] → st'.trace1 = none) ∧ (frontier1 = [] → st'.trace2 = none) ∧
      (∀ h ∈ st'.trace1, h.logical.getLast? = some frontier2 ∧ h.physical.getLast? = some st'.ack1) ∧
      ∀ h ∈ st'.trace2, h.logical.getLast? = some frontier1 ∧ h.physical.getLast? = some st'.ack2 := by
  simp only [JoinOp.step, JoinOp.onRest] at h
  cases h0 : drainQueue B logic rounds budget st.todo0 with
  | none => rw [h0] at h; simp at h
  | some x =>
    cases h1 : drainQueue B logic rounds budget st.todo1 with
    | none => rw [h0, h1] at h; simp at h
    | some y =>
      rw [h0, h1] at h
      simp only [Option.some.injEq] at h
      subst h
      refine ⟨?_, ?_, ?_, ?_⟩
      · rintro rfl
        simp only [TraceHandle.maintain]
        cases st.trace1 <;> simp
      · rintro rfl
        simp only [TraceHandle.maintain]
        cases st.trace2 <;> simp
      · intro t ht
        simp only [TraceHandle.maintain] at ht
        cases hs : st.trace1 with
        | none => rw [hs] at ht; simp at ht
        | some handle =>
          rw [hs] at ht
          by_cases hf : frontier2.isEmpty = true
          · simp [hf] at ht
          · simp only [hf, Bool.false_eq_true, if_false, Option.mem_def, Option.some.injEq] at ht
            subst ht
            simp
      · intro t ht
        simp only [TraceHandle.maintain] at ht
        cases hs : st.trace2 with
        | none => rw [hs] at ht; simp at ht
        | some handle =>
          rw [hs] at ht
          by_cases hf : frontier1.isEmpty = true
          · simp [hf] at ht
          · simp only [hf, Bool.false_eq_true, if_false, Option.mem_def, Option.some.injEq] at ht
            subst ht
            simp

/-! ### A run that meets the hypotheses -/

section example_run

/-- Frontiers of the example: times are pairs. -/
private def b0 : List (ℕ × ℕ) := [(0, 0)]
private def b1 : List (ℕ × ℕ) := [(1, 0), (0, 1)]
private def b2 : List (ℕ × ℕ) := [(1, 1)]
private def b3 : List (ℕ × ℕ) := []

/-- The first input: updates before `b1`, preloaded in its trace, and updates between `b1` and `b2`, at incomparable times. -/
private def left : JoinSide ℕ ℕ (ℕ × ℕ) ℤ :=
  { upds := [((1, 10), (0, 0), 1), ((1, 11), (0, 2), 2), ((2, 20), (3, 0), 1)]
    since := [(0, 0)]
    bound := fun F => F ∈ [b0, b1, b2, b3] }

/-- The second input: updates before `b1`, preloaded, none between `b1` and `b2`, and one later. -/
private def right : JoinSide ℕ ℕ (ℕ × ℕ) ℤ :=
  { upds := [((1, 7), (0, 0), 1), ((2, 8), (0, 0), 5), ((1, 7), (2, 1), 3)]
    since := [(0, 0)]
    bound := fun F => F ∈ [b0, b1, b2, b3] }

private def batches2 : List (List (ℕ × ℕ) × Contents ℕ ℕ (ℕ × ℕ) ℤ) := [(b1, [(1, [(7, [((0, 0), 1)])]), (2, [(8, [((0, 0), 5)])])])]

/-- What the first trace presents through `b1` at the start, and through `b2` later, when it is compacted up to `(1, 1)`. -/
private def through1 (F : List (ℕ × ℕ)) : Contents ℕ ℕ (ℕ × ℕ) ℤ :=
  if F = b1 then [(1, [(10, [((0, 0), 1)])])] else [(1, [(10, [((1, 1), 1)]), (11, [((1, 2), 2)])]), (2, [(20, [((3, 1), 1)])])]

private def through2 (_ : List (ℕ × ℕ)) : Contents ℕ ℕ (ℕ × ℕ) ℤ := [(1, [(7, [((0, 0), 1)])]), (2, [(8, [((0, 0), 5)])])]

/-- A batch that was preloaded is replayed, then a new batch arrives on the first input, then an activation in which the trace of the second input shows an empty batch, then a batch of
the second input, joined with the compacted first trace, and the end of both inputs. -/
private def events : List (JoinEv ℕ ℕ ℕ (ℕ × ℕ) ℤ ℤ) :=
  [.batch1 (0, 0) b0 b1 [(1, [(10, [((0, 0), 1)])])] through2,
   .batch1 (0, 0) b1 b2 [(1, [(11, [((0, 2), 2)])]), (2, [(20, [((3, 0), 1)])])] through2,
   .rest [] [(⟨b1, b2, [(0, 0)]⟩, true)] b2 b2,
   .batch2 (1, 1) b2 b3 [(1, [(7, [((2, 1), 3)])])] through1,
   .rest [] [] b3 b3]

private abbrev Bd : OutBuilder (CCB ℕ (ℕ × ℕ) ℤ × ℕ) ℕ (ℕ × ℕ) ℤ := CCB.outBuilder 2 fun n => n % 3

/-- Outputs are numbers made of key and values. -/
private def encode (k v1 v2 : ℕ) : List ℕ := [k * 10000 + v1 * 100 + v2]

private abbrev product : ℤ →+ ℤ →+ ℤ := AddMonoidHom.mul

private abbrev logic := joinCoreLogic (T := ℕ × ℕ) encode fun a b => product a b

theorem joinEx_frontierLe {F G : List (ℕ × ℕ)} (h : acLe F G = true) : FrontierLe F G := (acLe_iff F G).1 h

private theorem bounds_chain : left.Chain := by
  refine ⟨?_, ?_⟩
  · intro F hF
    simp only [left, List.mem_cons, List.not_mem_nil, or_false] at hF
    rcases hF with rfl | rfl | rfl | rfl <;> (unfold IsAntichainList; decide +kernel)
  · intro F G hF hG
    have : ∀ F ∈ [b0, b1, b2, b3], ∀ G ∈ [b0, b1, b2, b3], acLe F G = true ∨ acLe G F = true := by decide +kernel
    exact (this F hF G hG).imp joinEx_frontierLe joinEx_frontierLe

private theorem right_chain : right.Chain := ⟨bounds_chain.antichain, bounds_chain.total⟩

private theorem shows_batch {c : Contents ℕ ℕ (ℕ × ℕ) ℤ} {us : Upds (ℕ × ℕ) (ℕ × ℕ) ℤ} (hs : ContentsSorted c) (h : contentsUpds c = us) : ShowsBatch c us := by
  subst h
  refine ⟨hs, fun k v q => (accum_contentsUpds c k v q).symm, ?_⟩
  intro k s hs
  simp only [keyUpds, List.mem_map, List.mem_flatMap] at hs
  obtain ⟨x, ⟨kv, hkv, hx⟩, rfl⟩ := hs
  split_ifs at hx with hk
  · exact ⟨((k, x.1), x.2), List.mem_flatMap.2 ⟨kv, hkv, List.mem_map.2 ⟨x, hx, by rw [hk]⟩⟩, rfl, rfl⟩
  · simp at hx

private theorem shows_through {s : JoinSide ℕ ℕ (ℕ × ℕ) ℤ} {h : TraceHandle (ℕ × ℕ)} {F : List (ℕ × ℕ)} {c : Contents ℕ ℕ (ℕ × ℕ) ℤ} (hs : ContentsSorted c) (m : ℕ × ℕ)
    (hm : ∀ q, Beyond s.since q → (∀ L ∈ h.logical, Beyond L q) → m ≤ q) (he : contentsUpds c = (before s.upds F).map fun u => (u.1, u.2.1 ⊔ m, u.2.2)) :
    ShowsThrough s h F c := by
  refine fun _ _ => ⟨hs, fun k v q h1 h2 => ?_⟩
  rw [← accum_contentsUpds, he]
  have hq := hm q h1 h2
  generalize before s.upds F = us
  induction us with
  | nil => rfl
  | cons u us ih =>
    rw [List.map_cons, accum_cons, accum_cons, ih]
    simp only [sup_le_iff, hq, and_true]

private theorem legal_start : LegalStart left right b0 b0 [b1] batches2 through1 where
  bound1 := show _ ∈ [b0, b1, b2, b3] by decide +kernel
  bound2 := show _ ∈ [b0, b1, b2, b3] by decide +kernel
  atPhysical1 := joinEx_frontierLe (by decide +kernel)
  atPhysical2 := joinEx_frontierLe (by decide +kernel)
  shows1 := shows_through ⟨by decide +kernel, by decide +kernel⟩ (0, 0) (fun q _ _ => ⟨Nat.zero_le _, Nat.zero_le _⟩) (by decide +kernel)
  sorted2 := by
    intro b hb
    simp only [batches2, List.mem_singleton] at hb
    subst hb
    exact ⟨by decide +kernel, by decide +kernel⟩
  shows2 := by
    intro k v q _
    simp only [batches2, List.map_cons, List.map_nil, List.sum_cons, List.sum_nil, add_zero]
    rw [← accum_contentsUpds]
    congr 1

deriving instance DecidableEq for TraceHandle
deriving instance DecidableEq for JoinFeed

private def st0 : JoinOp ℕ ℕ ℕ (ℕ × ℕ) ℤ ℤ (CCB ℕ (ℕ × ℕ) ℤ × ℕ) ℕ ℤ := (JoinOp.start Bd b0 b0 [b1] batches2 through1).get (by decide +kernel)

private theorem st0_eq : JoinOp.start Bd b0 b0 [b1] batches2 through1 = some st0 := by rw [st0, Option.some_get]

private def e1 : JoinEv ℕ ℕ ℕ (ℕ × ℕ) ℤ ℤ := .batch1 (0, 0) b0 b1 [(1, [(10, [((0, 0), 1)])])] through2
private def e2 : JoinEv ℕ ℕ ℕ (ℕ × ℕ) ℤ ℤ := .batch1 (0, 0) b1 b2 [(1, [(11, [((0, 2), 2)])]), (2, [(20, [((3, 0), 1)])])] through2
private def e3 : JoinEv ℕ ℕ ℕ (ℕ × ℕ) ℤ ℤ := .rest [] [(⟨b1, b2, [(0, 0)]⟩, true)] b2 b2
private def e4 : JoinEv ℕ ℕ ℕ (ℕ × ℕ) ℤ ℤ := .batch2 (1, 1) b2 b3 [(1, [(7, [((2, 1), 3)])])] through1
private def e5 : JoinEv ℕ ℕ ℕ (ℕ × ℕ) ℤ ℤ := .rest [] [] b3 b3

private def st1 := (st0.step Bd logic 50 1000 e1).get (by decide +kernel)
private def st2 := (st1.step Bd logic 50 1000 e2).get (by decide +kernel)
private def st3 := (st2.step Bd logic 50 1000 e3).get (by decide +kernel)
private def st4 := (st3.step Bd logic 50 1000 e4).get (by decide +kernel)
private def st5 := (st4.step Bd logic 50 1000 e5).get (by decide +kernel)

private theorem le_of_beyond {q : ℕ × ℕ} {m : ℕ × ℕ} (h : Beyond [m] q) : m ≤ q := by
  obtain ⟨x, hx, hq⟩ := h
  rw [List.mem_singleton.1 hx] at hq
  exact hq

private theorem whole {lower upper : List (ℕ × ℕ)} (h : ∀ F ∈ [b0, b1, b2, b3], acLe F lower = true ∨ acLe upper F = true) :
    ∀ F, F ∈ [b0, b1, b2, b3] → FrontierLe F lower ∨ FrontierLe upper F := fun F hF => (h F hF).imp joinEx_frontierLe joinEx_frontierLe

private theorem legal_run : LegalJoin Bd logic 1000 left right (JoinFeed.start st0) st0 events := by
  refine legalJoin_cons (n := 50) (st1 := st1) (e := e1) ⟨⟨(0, 0), by decide +kernel, by decide +kernel⟩, ?_⟩ (by rw [st1, Option.some_get]) ?_
  · intro h
    exact absurd (joinEx_frontierLe (by decide +kernel)) h
  rw [show (JoinFeed.start st0).next st0 e1 = ⟨b1, b1, b0, b0⟩ by decide +kernel]
  refine legalJoin_cons (n := 50) (st1 := st2) (e := e2) ⟨⟨(0, 0), by decide +kernel, by decide +kernel⟩, fun _ => ⟨?_, ?_⟩⟩ (by rw [st2, Option.some_get]) ?_
  · exact
      { inOrder := joinEx_frontierLe (by decide +kernel), interval := joinEx_frontierLe (by decide +kernel), bounds := ⟨show _ ∈ [b0, b1, b2, b3] by decide +kernel, show _ ∈ [b0, b1, b2, b3] by decide +kernel⟩
        whole := whole (by decide +kernel), skipped := fun u _ h => h
        shows := shows_batch ⟨by decide +kernel, by decide +kernel⟩ (by decide +kernel), times := by decide +kernel }
  · intro h hh
    refine shows_through ⟨by decide +kernel, by decide +kernel⟩ (0, 0) (fun q _ _ => ⟨Nat.zero_le _, Nat.zero_le _⟩) (by decide +kernel)
  rw [show JoinFeed.next ⟨b1, b1, b0, b0⟩ st1 e2 = ⟨b2, b1, b0, b0⟩ by decide +kernel]
  refine legalJoin_cons (n := 50) (st1 := st3) (e := e3) ⟨joinEx_frontierLe (by decide +kernel), joinEx_frontierLe (by decide +kernel), by decide +kernel, by decide +kernel,
    by simp, ?_⟩ (by rw [st3, Option.some_get]) ?_
  · intro h _ d hd
    rw [List.mem_singleton.1 hd]
    refine ⟨⟨show _ ∈ [b0, b1, b2, b3] by decide +kernel, show _ ∈ [b0, b1, b2, b3] by decide +kernel⟩, joinEx_frontierLe (by decide +kernel), ?_⟩
    intro _ _ F hF _ _ kv q _ _
    have : ∀ F ∈ [b0, b1, b2, b3], acLe F b2 = true → within right.upds b1 F = [] := by decide +kernel
    rw [this F hF ((acLe_iff _ _).2 (by assumption)), accum_nil]
  rw [show JoinFeed.next ⟨b2, b1, b0, b0⟩ st2 e3 = ⟨b2, b1, b2, b2⟩ by decide +kernel]
  refine legalJoin_cons (n := 50) (st1 := st4) (e := e4) ⟨⟨(1, 1), by decide +kernel, by decide +kernel⟩, fun _ => ⟨?_, ?_⟩⟩ (by rw [st4, Option.some_get]) ?_
  · exact
      { inOrder := joinEx_frontierLe (by decide +kernel), interval := joinEx_frontierLe (by decide +kernel), bounds := ⟨show _ ∈ [b0, b1, b2, b3] by decide +kernel, show _ ∈ [b0, b1, b2, b3] by decide +kernel⟩
        whole := whole (by decide +kernel), skipped := by decide +kernel
        shows := shows_batch ⟨by decide +kernel, by decide +kernel⟩ (by decide +kernel), times := by decide +kernel }
  · intro h hh
    have e : st3.trace1 = some ⟨[b2], [b0, b2]⟩ := by decide +kernel
    rw [e, Option.mem_def, Option.some.injEq] at hh
    subst hh
    exact shows_through ⟨by decide +kernel, by decide +kernel⟩ (1, 1) (fun q _ h2 => le_of_beyond (h2 b2 (List.mem_singleton.2 rfl))) (by decide +kernel)
  rw [show JoinFeed.next ⟨b2, b1, b2, b2⟩ st3 e4 = ⟨b2, b3, b2, b2⟩ by decide +kernel]
  refine legalJoin_cons (n := 50) (st1 := st5) (e := e5) ⟨joinEx_frontierLe (by decide +kernel), joinEx_frontierLe (by decide +kernel), by decide +kernel, by decide +kernel,
    by simp, by simp⟩ (by rw [st5, Option.some_get]) trivial

/-- The run meets the hypotheses of `C25_join`, and its outputs accumulate to the join at every time. -/
example : ∃ st0 st n, JoinOp.start Bd b0 b0 [b1] batches2 through1 = some st0 ∧ (∀ rounds, n ≤ rounds → st0.run Bd logic rounds 1000 events = some st) ∧
    ∀ q : ℕ × ℕ, (∀ w ∈ st.todo0 ++ st.todo1, ¬ w.1 ≤ q) →
      ∀ d, accum (st.sent.flatMap (·.2)) d q = accum (nestedJoin encode (fun a b => product a b) left.upds right.upds) d q := by
  obtain ⟨st0', st, n, a, b, c⟩ := C25_join 2 (by decide) (fun n => n % 3) encode product left right bounds_chain right_chain b0 b0 [b1] batches2 through1 legal_start 1000 events
    (fun st h => by rw [st0_eq, Option.some.injEq] at h; subst h; exact legal_run)
  refine ⟨st0', st, n, a, b, fun q hq d => c q ⟨(0, 0), by decide, Nat.zero_le _, Nat.zero_le _⟩ ⟨(0, 0), by decide, Nat.zero_le _, Nat.zero_le _⟩ ?_ ?_ hq d⟩ <;>
    (rintro ⟨x, hx, _⟩; simp [events, lastFrontiers, b3] at hx)

set_option synthInstance.maxSize 2000 in
/-- What is sent: three outputs at the first activation with work, and outputs for the compacted trace at the second. -/
example : (st0.run Bd logic 50 1000 events).map (fun st => (st.sent, st.todo0.length, st.todo1.length, st.trace1, st.trace2))
    = some ([((0, 0), [(11107, (0, 2), 2), (22008, (3, 0), 5)]), ((0, 0), [(11007, (0, 0), 1)]), ((1, 1), [(11007, (2, 1), 3), (11107, (2, 2), 6)])], 0, 0, none, none) := by
  decide +kernel

set_option synthInstance.maxSize 2000 in
/-- The reads of traces in the run. -/
example : (st0.run Bd logic 50 1000 events).map (fun st => st.reads.map fun r => (r.frontier, r.handle, r.time))
    = some [(b1, ⟨[], [b0]⟩, (0, 0)), (b2, ⟨[b2], [b0, b2]⟩, (1, 1))] := by
  decide +kernel

end example_run
end DD
