import Verif.Proofs.ChunkSpine
import Verif.Props.ChunkHarness

/-!
# Batches of chunks of any type meet the contract the spine relies on
-/

namespace DD
variable {C D T R : Type*} [LinearOrder D] [DecidableEq T] [Lattice T] [OrderBot T] [DecidableLE T] [LinearOrder (Lin T)] [AddCommMonoid R] [DecidableEq R]

/-- `impl Batch for ChunkBatch` and `impl Merger for ChunkBatchMerger` (trace/chunk/mod.rs:257-281, 597-668). A panic of `done` is shown as an empty batch. -/
def ChunkOps.batchOps (ops : ChunkOps C T) : BatchOps (BatchOf C T) (ChunkOps.Merger C T) T where
  len b := ops.batchLen b
  lower b := b.description.lower
  upper b := b.description.upper
  beginMerge b1 b2 F := some (ChunkOps.newMerger b1 b2 F)
  work m b1 b2 fuel := ops.work m b1 b2 fuel
  done m := (ops.done m).getD ⟨[], ⟨m.lower, m.upper, m.frontier⟩⟩
  empty lower upper := ⟨[], ⟨lower, upper, [⊥]⟩⟩

/-- Batches of valid chunks whose updates are consolidated satisfy the contract. -/
def ChunkContract.laws {ops : ChunkOps C T} {view : C → Upds D T R} {valid : C → Prop} {cap : Nat} {rest : List C → List C → Prop} (h : ChunkContract ops view valid cap rest) :
    BatchLaws ops.batchOps D R where
  Ok b := ((∀ c ∈ b.chunks, valid c) ∧ Consolidated (b.chunks.flatMap view)) ∧
    IsAntichainList b.description.lower ∧ IsAntichainList b.description.upper ∧ FrontierLe b.description.lower b.description.upper
  MOk F b1 b2 m c :=
    (((∀ c ∈ b1.chunks, valid c) ∧ Consolidated (b1.chunks.flatMap view)) ∧
      IsAntichainList b1.description.lower ∧ IsAntichainList b1.description.upper ∧ FrontierLe b1.description.lower b1.description.upper) ∧
    (((∀ c ∈ b2.chunks, valid c) ∧ Consolidated (b2.chunks.flatMap view)) ∧
      IsAntichainList b2.description.lower ∧ IsAntichainList b2.description.upper ∧ FrontierLe b2.description.lower b2.description.upper) ∧
    acEq b1.description.upper b2.description.lower = true ∧
    ChunkContract.MergerOk view valid cap rest b1 b2 m c ∧ m.frontier = F ∧ m.lower = acMeet b1.description.lower b2.description.lower ∧
    m.upper = acJoin b1.description.upper b2.description.upper
  acc b d q := accum (b.chunks.flatMap view) d q
  since b := b.description.since
  lower_antichain b h := h.2.1
  upper_antichain b h := h.2.2.1
  acc_of_len b hb hl d q := by
    have h0 : b.chunks.flatMap view = [] := by
      have : ops.batchLen b = 0 := hl
      rw [ChunkOps.batchLen, h.sum_len hb.1.1] at this
      exact List.length_eq_zero_iff.1 this
    rw [h0]; rfl
  begin_ok F b1 b2 h1 h2 hadj := ⟨_, rfl, h1, h2, hadj, h.newMerger_ok b1 b2 F, rfl, rfl, rfl⟩
  spent_le F b1 b2 m c hm := by
    obtain ⟨h1, h2, -, hm, -⟩ := hm
    have := hm.spent
    show c ≤ ops.batchLen b1 + ops.batchLen b2
    rw [ChunkOps.batchLen, ChunkOps.batchLen, h.sum_len h1.1.1, h.sum_len h2.1.1]; omega
  work_ok F b1 b2 m c fuel hm := by
    obtain ⟨h1, h2, hadj, hm, m1, m2, m3⟩ := hm
    obtain ⟨m', left, c', w1, w2, w3, w4, w5, w6, w7, w8, -⟩ := h.work_spec h1.1.1 h2.1.1 h1.1.2 h2.1.2 hm fuel
    refine ⟨m', left, c', w1, ⟨h1, h2, hadj, w2, w6.trans m1, w7.trans m2, w8.trans m3⟩, w3, w4, fun hpos => ?_⟩
    obtain ⟨q1, q2, q3, q4⟩ := w2.closed (w5 hpos)
    have hdone : ops.batchOps.done m' = ⟨m'.settled, ⟨m'.lower, m'.upper, m'.frontier⟩⟩ := by
      show (ops.done m').getD _ = _
      rw [ChunkOps.done, q1, q2]
      simp only [List.isEmpty_nil, Bool.and_self, if_true]
      rw [h.newBatch_spec w2.valids]
      rfl
    rw [hdone]
    have hp : b1.description.upper.Perm b2.description.lower := perm_of_acEq hadj (nodup_of_isAntichain h1.2.2.1)
    have h12 : FrontierLe b1.description.lower b2.description.lower := h1.2.2.2.trans (frontierLe_of_perm hp)
    have h12' : FrontierLe b1.description.upper b2.description.upper := (frontierLe_of_perm hp).trans h2.2.2.2
    have hl : m'.lower.Perm b1.description.lower := by
      rw [w7, m2]
      refine perm_of_beyond_eq (isAntichain_acMeet _ _) h1.2.1 fun q => ?_
      rw [beyond_acMeet]
      exact ⟨fun h => h.elim id (h12 q), .inl⟩
    have hu : m'.upper.Perm b2.description.upper := by
      rw [w8, m3]
      refine perm_of_beyond_eq (isAntichain_acJoin _ _) h2.2.2.1 fun q => ?_
      rw [beyond_acJoin]
      exact ⟨fun h => h.2, fun h => ⟨h12' q h, h⟩⟩
    have hf : m'.frontier = F := w6.trans m1
    rw [hf] at q4
    refine ⟨⟨⟨w2.valids, ?_⟩, ?_, ?_, ?_⟩, hl, hu, ?_, fun q g1 g2 g3 => ⟨?_, fun d => ?_⟩⟩
    · show Consolidated (m'.settled.flatMap view)
      rw [q4]; exact consolidated_consolidatedU _
    · show IsAntichainList m'.lower
      rw [w7, m2]; exact isAntichain_acMeet _ _
    · show IsAntichainList m'.upper
      rw [w8, m3]; exact isAntichain_acJoin _ _
    · show FrontierLe m'.lower m'.upper
      exact (frontierLe_of_perm hl).trans (h12.trans (h2.2.2.2.trans (frontierLe_of_perm hu.symm)))
    · show (m'.settled.map ops.len).sum ≤ (b1.chunks.map ops.len).sum + (b2.chunks.map ops.len).sum
      rw [h.sum_len w2.valids, h.sum_len h1.1.1, h.sum_len h2.1.1, q4]
      refine (length_consolidatedU_le _).trans ?_
      rw [retimed, List.length_map]
      exact length_flatMerge_le _ _
    · show Beyond m'.frontier q
      rw [hf]; exact g3
    · show accum (m'.settled.flatMap view) d q = _
      rw [q4]
      unfold advanced
      rw [accum_consolidatedU]
      rw [accum_retimed _ _ _ _ g3, ← accum_append]
      exact accum_of_total (fun d t => by rw [total_append, total_flatMerge]) d q
  empty_ok lower upper h1 h2 h3 := ⟨⟨by simp [ChunkOps.batchOps], by
    show Consolidated ([] : Upds D T R)
    simp [Consolidated]⟩, h1, h2, h3⟩
  empty_len _ _ := rfl
  empty_lower _ _ := rfl
  empty_upper _ _ := rfl

end DD
