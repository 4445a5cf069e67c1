import Verif.Props.OrdVal
import Verif.Proofs.SpineRun

/-!
# `OrdValBatch` meets the contract the spine relies on
-/

namespace DD
variable {K V T R : Type*} [LinearOrder K] [LinearOrder V] [DecidableEq T] [Lattice T] [OrderBot T] [DecidableLE T] [LinearOrder (Lin T)] [AddCommMonoid R] [DecidableEq R]

/-- `impl Batch for OrdValBatch` and `impl Merger for OrdValMerger` (ord_neu.rs:326-345, 361-424). -/
def ValBatch.ops : BatchOps (ValBatch K V T R) (ValMerger K V T R) T where
  len b := b.updates
  lower b := b.description.lower
  upper b := b.description.upper
  beginMerge := ValMerger.new
  work m b1 b2 fuel := m.work b1 b2 fuel
  done := ValMerger.done
  empty := ValBatch.empty

theorem ValMerger.works_append (m : ValMerger K V T R) (b1 b2 : ValBatch K V T R) (fuels : List Int) (fuel : Int) :
    m.works b1 b2 (fuels ++ [fuel]) =
      match m.works b1 b2 fuels with
      | none => none
      | some (m1, lefts) =>
        match m1.work b1 b2 fuel with
        | none => none
        | some (m2, left) => some (m2, lefts ++ [left]) := by
  induction fuels generalizing m with
  | nil =>
    simp only [List.nil_append, ValMerger.works]
    cases m.work b1 b2 fuel with
    | none => rfl
    | some x => rfl
  | cons f fuels ih =>
    rw [List.cons_append, ValMerger.works, ValMerger.works]
    cases hw : m.work b1 b2 f with
    | none => rfl
    | some x =>
      obtain ⟨m1, left⟩ := x
      simp only
      rw [ih]
      cases m1.works b1 b2 fuels with
      | none => rfl
      | some y =>
        obtain ⟨m2, lefts⟩ := y
        simp only
        cases m2.work b1 b2 fuel with
        | none => rfl
        | some z => rfl

/-- The accumulation of a batch, as read by its cursor. -/
def ValBatch.acc (b : ValBatch K V T R) (d : K ×ₗ V) (q : T) : R :=
  match b.storage.readAll with
  | some us => accum us d q
  | none => 0

theorem ValBatch.acc_eq {b : ValBatch K V T R} {us : Upds (K ×ₗ V) T R} (h : b.storage.readAll = some us) (d : K ×ₗ V) (q : T) :
    b.acc d q = accum us d q := by
  rw [ValBatch.acc, h]

/-- Reachable batches satisfy the contract. -/
def ValBatch.laws : BatchLaws (ValBatch.ops : BatchOps (ValBatch K V T R) (ValMerger K V T R) T) (K ×ₗ V) R where
  Ok b := ReachableBatch b ∧ IsAntichainList b.description.lower ∧ IsAntichainList b.description.upper
  MOk F b1 b2 m c := (ReachableBatch b1 ∧ IsAntichainList b1.description.lower) ∧ (ReachableBatch b2 ∧ IsAntichainList b2.description.upper) ∧
    ∃ m0 fuels lefts, ValMerger.new b1 b2 F = some m0 ∧ m0.works b1 b2 fuels = some (m, lefts) ∧ (c : Int) = fuels.sum - lefts.sum
  acc := ValBatch.acc
  since b := b.description.since
  lower_antichain b h := h.2.1
  upper_antichain b h := h.2.2
  acc_of_len b h hl d q := by
    obtain ⟨us, h1, -, h3⟩ := C09_reachable b h.1
    have h0 : us.length = 0 := by rw [← h3]; exact hl
    rw [ValBatch.acc_eq h1, List.length_eq_zero_iff.mp h0]; rfl
  begin_ok F b1 b2 h1 h2 hadj := by
    obtain ⟨us1, hu1, -, -⟩ := C09_reachable b1 h1.1
    obtain ⟨us2, hu2, -, -⟩ := C09_reachable b2 h2.1
    obtain ⟨m, m', lefts, g1, g2, -⟩ := C12_merge b1 b2 h1.1 h2.1 us1 us2 hu1 hu2 F hadj []
    exact ⟨m, g1, ⟨h1.1, h1.2.1⟩, ⟨h2.1, h2.2.2⟩, m, [], [], g1, by rw [ValMerger.works], by simp⟩
  spent_le F b1 b2 m c h := by
    obtain ⟨⟨h1, -⟩, ⟨h2, -⟩, m0, fuels, lefts, g1, g2, g3⟩ := h
    have := C13_total b1 b2 h1 h2 F m0 m fuels lefts g1 g2
    show c ≤ b1.updates + b2.updates
    omega
  work_ok F b1 b2 m c fuel h := by
    obtain ⟨⟨h1, h1l⟩, ⟨h2, h2u⟩, m0, fuels, lefts, g1, g2, g3⟩ := h
    obtain ⟨m', left, w1, w2, -⟩ := C13_work b1 b2 h1 h2 F m0 m fuels lefts g1 g2 fuel
    have hworks : m0.works b1 b2 (fuels ++ [fuel]) = some (m', lefts ++ [left]) := by
      rw [ValMerger.works_append, g2]; simp only [w1]
    refine ⟨m', left, c + (fuel - left).toNat, w1, ⟨⟨h1, h1l⟩, ⟨h2, h2u⟩, m0, fuels ++ [fuel], lefts ++ [left], g1, hworks, ?_⟩, by omega, by omega, ?_⟩
    · simp only [List.sum_append, List.sum_cons, List.sum_nil]; omega
    · intro hpos
      have hmem : left ∈ lefts ++ [left] := by simp
      have hadj : acEq b1.description.upper b2.description.lower = true := by
        rw [ValMerger.new] at g1
        split_ifs at g1 with hh
        exact hh
      obtain ⟨us1, hu1, -, hl1⟩ := C09_reachable b1 h1
      obtain ⟨us2, hu2, -, hl2⟩ := C09_reachable b2 h2
      obtain ⟨n, n', ls, k1, k2, k3⟩ := C12_merge b1 b2 h1 h2 us1 us2 hu1 hu2 F hadj (fuels ++ [fuel])
      rw [g1] at k1; cases k1
      rw [hworks] at k2; cases k2
      obtain ⟨r1, r2, us, r3, -, -⟩ := k3 left hmem hpos
      refine ⟨⟨r1, ?_, ?_⟩, ?_, ?_, ?_, ?_⟩
      · show IsAntichainList m'.done.description.lower
        rw [r2]; exact h1l
      · show IsAntichainList m'.done.description.upper
        rw [r2]; exact h2u
      · show m'.done.description.lower.Perm _
        rw [r2]; exact List.Perm.refl _
      · show m'.done.description.upper.Perm _
        rw [r2]; exact List.Perm.refl _
      · have e1 := C13_consumed b1 b2 h1 h2 F m0 m' _ _ g1 hworks
        have e2 := C13_total b1 b2 h1 h2 F m0 m' _ _ g1 hworks
        show m'.done.updates ≤ b1.updates + b2.updates
        omega
      · intro q q1 q2 q3
        refine ⟨?_, fun d => ?_⟩
        · show Beyond m'.done.description.since q
          rw [r2, beyond_acJoin, beyond_acJoin]
          exact ⟨⟨q1, q2⟩, q3⟩
        · show m'.done.acc d q = _
          rw [ValBatch.acc_eq r3, ValBatch.acc_eq hu1, ValBatch.acc_eq hu2]
          exact C12_accum b1 b2 h1 h2 us1 us2 us hu1 hu2 F _ _ m0 m' g1 hworks left hmem hpos r3 d q q3 q1 q2
  empty_ok lower upper h1 h2 _ := ⟨.empty lower upper, h1, h2⟩
  empty_len _ _ := rfl
  empty_lower _ _ := rfl
  empty_upper _ _ := rfl

end DD
