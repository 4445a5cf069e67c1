import Verif.Props.Chunk
import Verif.Proofs.SpineRun

/-!
# `ChunkBatch` meets the contract the spine relies on
-/

namespace DD
variable {D T R : Type*} [LinearOrder D] [DecidableEq T] [Lattice T] [OrderBot T] [DecidableLE T] [LinearOrder (Lin T)] [AddCommMonoid R] [DecidableEq R]

/-- `impl Batch for ChunkBatch` and `impl Merger for ChunkBatchMerger` (mod.rs:257-281, 597-668). -/
def ChunkBatch.ops (cap : Nat) : BatchOps (ChunkBatch D T R) (ChunkBatchMerger D T R) T where
  len b := b.len
  lower b := b.description.lower
  upper b := b.description.upper
  beginMerge b1 b2 F := some (ChunkBatchMerger.new b1 b2 F)
  work m b1 b2 fuel := m.work cap b1 b2 fuel
  done := ChunkBatchMerger.done
  empty := ChunkBatch.empty

/-- The accumulation of a batch. -/
def ChunkBatch.acc (b : ChunkBatch D T R) (d : D) (q : T) : R := accum b.chunks.flatten d q

omit [Lattice T] [OrderBot T] [DecidableLE T] in
theorem length_consolidatedU_le (us : Upds D T R) : (consolidatedU us).length ≤ us.length := by
  have h1 : ((consolidatedU us).map fun u => (u.1, toLin u.2.1)).Nodup := by
    rw [List.Nodup, List.pairwise_map]
    refine (consolidated_consolidatedU us).1.imp fun {u v} h he => ?_
    have he := Prod.mk.inj he
    rcases h with h | ⟨-, h⟩
    · exact absurd he.1 h.ne
    · exact absurd he.2 h.ne
  have h2 : ((consolidatedU us).map fun u => (u.1, toLin u.2.1)) ⊆ us.map fun u => (u.1, toLin u.2.1) := by
    intro x hx
    obtain ⟨u, hu, rfl⟩ := List.mem_map.1 hx
    obtain ⟨v, hv, e1, e2⟩ := mem_consolidatedU us u hu
    exact List.mem_map.2 ⟨v, hv, by rw [e1, e2]⟩
  simpa using (List.subperm_of_subset h1 h2).length_le

omit [DecidableEq T] [OrderBot T] [LinearOrder (Lin T)] [DecidableEq R] in
theorem accum_retimed (us : Upds D T R) (F : List T) (d : D) (q : T) (hq : Beyond F q) :
    accum (retimed (fun t => advanceBy t F) us) d q = accum us d q := by
  unfold accum retimed
  rw [List.map_map]
  congr 1
  apply List.map_congr_left
  intro u _
  simp only [Function.comp, advanceBy_le_iff _ _ _ hq]

/-- Consolidated batches satisfy the contract. -/
def ChunkBatch.laws {cap : Nat} (hcap : 0 < cap) : BatchLaws (ChunkBatch.ops cap : BatchOps (ChunkBatch D T R) (ChunkBatchMerger D T R) T) D R where
  Ok b := b.Good ∧ IsAntichainList b.description.lower ∧ IsAntichainList b.description.upper ∧ FrontierLe b.description.lower b.description.upper
  MOk F b1 b2 m c :=
    (b1.Good ∧ IsAntichainList b1.description.lower ∧ IsAntichainList b1.description.upper ∧ FrontierLe b1.description.lower b1.description.upper) ∧
    (b2.Good ∧ IsAntichainList b2.description.lower ∧ IsAntichainList b2.description.upper ∧ FrontierLe b2.description.lower b2.description.upper) ∧
    acEq b1.description.upper b2.description.lower = true ∧
    m.Ok cap b1 b2 c ∧ m.frontier = F ∧ m.lower = acMeet b1.description.lower b2.description.lower ∧
    m.upper = acJoin b1.description.upper b2.description.upper
  acc := ChunkBatch.acc
  since b := b.description.since
  lower_antichain b h := h.2.1
  upper_antichain b h := h.2.2.1
  acc_of_len b h hl d q := by
    have h0 : b.chunks.flatten = [] := by
      have : b.len = 0 := hl
      rw [ChunkBatch.len] at this
      exact List.length_eq_zero_iff.1 (by simpa using this)
    rw [ChunkBatch.acc, h0]; rfl
  begin_ok F b1 b2 h1 h2 hadj := ⟨_, rfl, h1, h2, hadj, ChunkBatchMerger.new_ok b1 b2 F, rfl, rfl, rfl⟩
  spent_le F b1 b2 m c h := by
    obtain ⟨-, -, -, h, -⟩ := h
    have e : ∀ b : ChunkBatch D T R, b.len = b.chunks.flatten.length := fun b => by simp [ChunkBatch.len]
    have := h.spent
    show c ≤ b1.len + b2.len
    rw [e, e]; omega
  work_ok F b1 b2 m c fuel h := by
    obtain ⟨h1, h2, hadj, hm, m1, m2, m3⟩ := h
    obtain ⟨m', left, c', w1, w2, w3, w4, w5, w6, w7, w8⟩ := ChunkBatchMerger.work_spec hcap h1.1 h2.1 hm fuel
    refine ⟨m', left, c', w1, ⟨h1, h2, hadj, w2, w6.trans m1, w7.trans m2, w8.trans m3⟩, w3, w4, fun hpos => ?_⟩
    obtain ⟨q1, q2, q3, q4⟩ := w2.closed (w5 hpos)
    have hp : b1.description.upper.Perm b2.description.lower := perm_of_acEq hadj (nodup_of_isAntichain h1.2.2.1)
    have h12 : FrontierLe b1.description.lower b2.description.lower := h1.2.2.2.trans (frontierLe_of_perm hp)
    have h12' : FrontierLe b1.description.upper b2.description.upper := (frontierLe_of_perm hp).trans h2.2.2.2
    have hl : m'.lower.Perm b1.description.lower := by
      rw [w7, m2]
      refine perm_of_beyond_eq (isAntichain_acMeet _ _) h1.2.1 fun q => ?_
      rw [beyond_acMeet]
      exact ⟨fun h => h.elim id (h12 q), .inl⟩
    have hu : m'.upper.Perm b2.description.upper := by
      rw [w8, m3]
      refine perm_of_beyond_eq (isAntichain_acJoin _ _) h2.2.2.1 fun q => ?_
      rw [beyond_acJoin]
      exact ⟨fun h => h.2, fun h => ⟨h12' q h, h⟩⟩
    have hf : m'.frontier = F := w6.trans m1
    rw [hf] at q4
    refine ⟨⟨⟨q3.full, ?_⟩, ?_, ?_, ?_⟩, hl, hu, ?_, fun q g1 g2 g3 => ⟨?_, fun d => ?_⟩⟩
    · show Consolidated m'.settled.flatten
      rw [q4]; exact consolidated_consolidatedU _
    · show IsAntichainList m'.lower
      rw [w7, m2]; exact isAntichain_acMeet _ _
    · show IsAntichainList m'.upper
      rw [w8, m3]; exact isAntichain_acJoin _ _
    · show FrontierLe m'.lower m'.upper
      exact (frontierLe_of_perm hl).trans (h12.trans (h2.2.2.2.trans (frontierLe_of_perm hu.symm)))
    · have e : ∀ b : ChunkBatch D T R, b.len = b.chunks.flatten.length := fun b => by simp [ChunkBatch.len]
      show m'.done.len ≤ b1.len + b2.len
      rw [e, e, e]
      show m'.settled.flatten.length ≤ _
      rw [q4]
      refine (length_consolidatedU_le _).trans ?_
      rw [retimed, List.length_map]
      exact length_flatMerge_le _ _
    · show Beyond m'.frontier q
      rw [hf]; exact g3
    · show accum m'.settled.flatten d q = _
      rw [q4]
      unfold advanced
      rw [accum_consolidatedU]
      rw [accum_retimed _ _ _ _ g3, ChunkBatch.acc, ChunkBatch.acc, ← accum_append]
      exact accum_of_total (fun d t => by rw [total_append, total_flatMerge]) d q
  empty_ok lower upper h1 h2 h3 := ⟨⟨by simp [Full, ChunkBatch.ops, ChunkBatch.empty], by
    show Consolidated ([] : Chain D T R).flatten
    simp [Consolidated]⟩, h1, h2, h3⟩
  empty_len _ _ := rfl
  empty_lower _ _ := rfl
  empty_upper _ _ := rfl

end DD
