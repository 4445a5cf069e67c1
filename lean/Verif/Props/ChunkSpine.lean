import Verif.Proofs.ChunkSpine
import Verif.Props.Spine

/-!
# Properties C14-C17 for spines of chunked batches
-/

namespace DD
variable {D T R : Type*} [LinearOrder D] [DecidableEq T] [Lattice T] [OrderBot T] [DecidableLE T] [LinearOrder (Lin T)] [AddCommMonoid R] [DecidableEq R]

/-- C14 for spines of chunked batches, for any target size of chunks. -/
theorem C14_chunk {cap : Nat} (hcap : 0 < cap) (effort : Nat) (os : List (Spine.Op (ChunkBatch D T R) T))
    (hleg : Spine.Legal (ChunkBatch.laws hcap) [⊥] [⊥] [⊥] os)
    (hlen : ((((Spine.inserted (ChunkBatch.ops cap) [⊥] os).map ChunkBatch.len).sum : Nat) : Int) < isizeMax) :
    ∃ s, (Spine.init effort).run (ChunkBatch.ops cap) os = some s := C14_no_panic (ChunkBatch.laws hcap) effort os hleg hlen

/-- C15 for spines of chunked batches: the updates in the chunks of the batches exposed accumulate as those inserted. -/
theorem C15_chunk {cap : Nat} (hcap : 0 < cap) (effort : Nat) (os : List (Spine.Op (ChunkBatch D T R) T))
    (hleg : Spine.Legal (ChunkBatch.laws hcap) [⊥] [⊥] [⊥] os)
    (hlen : ((((Spine.inserted (ChunkBatch.ops cap) [⊥] os).map ChunkBatch.len).sum : Nat) : Int) < isizeMax)
    (s : Spine (ChunkBatch D T R) (ChunkBatchMerger D T R) T) (hs : (Spine.init effort).run (ChunkBatch.ops cap) os = some s) (d : D) (q : T)
    (hq : Beyond s.logical_frontier q) (hsince : ∀ b ∈ Spine.inserted (ChunkBatch.ops cap) [⊥] os, Beyond b.description.since q) :
    (s.mapBatches.map fun b => accum b.chunks.flatten d q).sum =
      ((Spine.inserted (ChunkBatch.ops cap) [⊥] os).map fun b => accum b.chunks.flatten d q).sum :=
  (C15_contents (ChunkBatch.laws hcap) effort os hleg hlen s hs).2.2 d q hq hsince

/-- C16 for spines of chunked batches. -/
theorem C16_chunk {cap : Nat} (hcap : 0 < cap) (effort : Nat) (os : List (Spine.Op (ChunkBatch D T R) T))
    (hleg : Spine.Legal (ChunkBatch.laws hcap) [⊥] [⊥] [⊥] os)
    (hlen : ((((Spine.inserted (ChunkBatch.ops cap) [⊥] os).map ChunkBatch.len).sum : Nat) : Int) < isizeMax)
    (s : Spine (ChunkBatch D T R) (ChunkBatchMerger D T R) T) (hs : (Spine.init effort).run (ChunkBatch.ops cap) os = some s)
    (before after : List (ChunkBatch D T R)) (hsplit : Spine.inserted (ChunkBatch.ops cap) [⊥] os = before ++ after) (F : List T)
    (hF : F.Perm (Spine.boundary (ChunkBatch.ops cap) before)) (hphys : FrontierLe s.physical_frontier F) (hlog : s.logical_frontier ≠ []) :
    ∃ bs, s.batchesThrough (ChunkBatch.ops cap) F = some bs ∧
      ∀ d q, Beyond s.logical_frontier q → (∀ b ∈ before, Beyond b.description.since q) →
        (bs.map fun b => accum b.chunks.flatten d q).sum = (before.map fun b => accum b.chunks.flatten d q).sum :=
  (C16_batches_through (ChunkBatch.laws hcap) effort os hleg hlen s hs before after hsplit F hF hphys hlog).2.2

/-- C17 for spines of chunked batches. -/
theorem C17_chunk {cap : Nat} (hcap : 0 < cap) (effort : Nat) (os : List (Spine.Op (ChunkBatch D T R) T))
    (hleg : Spine.Legal (ChunkBatch.laws hcap) [⊥] [⊥] [⊥] os)
    (hlen : ((((Spine.inserted (ChunkBatch.ops cap) [⊥] os).map ChunkBatch.len).sum : Nat) : Int) < isizeMax)
    (s : Spine (ChunkBatch D T R) (ChunkBatchMerger D T R) T) (hs : (Spine.init effort).run (ChunkBatch.ops cap) os = some s) :
    s.mapBatches.length ≤ 2 * (1 + Nat.log 2 (Spine.introduced (ChunkBatch.ops cap : BatchOps _ (ChunkBatchMerger D T R) T) os)) +
      ((Spine.inserted (ChunkBatch.ops cap) [⊥] os).filter fun b => !acLe b.description.upper s.physical_frontier).length :=
  (C17_logarithmic (ChunkBatch.laws hcap) effort os hleg hlen s hs).2

/-! ### Non-vacuity -/

private def batch (lower upper : Nat) (chunks : Chain Nat Nat Int) : ChunkBatch Nat Nat Int := ⟨chunks, ⟨[lower], [upper], [0]⟩⟩

private def calls : List (Spine.Op (ChunkBatch Nat Nat Int) Nat) :=
  [.insert (batch 0 1 [[(1, 0, 1), (2, 0, 1)], [(3, 0, 1)]]), .setPhysical [1],
   .insert (batch 1 2 [[(1, 1, -1)]]), .setPhysical [2], .setLogical [1],
   .insert (batch 2 3 []), .insert (batch 3 4 [[(2, 3, -1), (4, 3, 1)]]), .setPhysical [4],
   .exert (some 2), .exert (some 2), .exert (some 2), .insert (batch 4 5 [[(5, 4, 1)]]), .close]

private theorem batch_legal (lower upper : Nat) (chunks : Chain Nat Nat Int) (hf : Full chunks) (h : Consolidated chunks.flatten) (hlt : lower < upper) :
    (ChunkBatch.laws (D := Nat) (T := Nat) (R := Int) (cap := 2) (by omega)).Ok (batch lower upper chunks) ∧
    ((ChunkBatch.ops 2 : BatchOps _ (ChunkBatchMerger Nat Nat Int) Nat).lower (batch lower upper chunks)).Perm [lower] ∧
    ¬ ((ChunkBatch.ops 2 : BatchOps _ (ChunkBatchMerger Nat Nat Int) Nat).lower (batch lower upper chunks)).Perm
      ((ChunkBatch.ops 2 : BatchOps _ (ChunkBatchMerger Nat Nat Int) Nat).upper (batch lower upper chunks)) ∧
    FrontierLe ((ChunkBatch.ops 2 : BatchOps _ (ChunkBatchMerger Nat Nat Int) Nat).lower (batch lower upper chunks))
      ((ChunkBatch.ops 2 : BatchOps _ (ChunkBatchMerger Nat Nat Int) Nat).upper (batch lower upper chunks)) := by
  have hle : FrontierLe [lower] [upper] := by
    rintro q ⟨f, hf, hq⟩
    simp only [List.mem_singleton] at hf
    subst hf
    exact ⟨lower, by simp, by omega⟩
  refine ⟨⟨⟨hf, h⟩, List.pairwise_singleton _ _, List.pairwise_singleton _ _, hle⟩, List.Perm.refl _, ?_, hle⟩
  intro hp
  have : ([lower] : List Nat).Perm [upper] := hp
  have := List.perm_singleton.mp this
  simp at this; omega

/-- The calls are legal. -/
example : Spine.Legal (ChunkBatch.laws (D := Nat) (T := Nat) (R := Int) (cap := 2) (by omega)) [⊥] [⊥] [⊥] calls := by
  have le1 : ∀ {a b : Nat}, a ≤ b → FrontierLe [a] [b] := by
    rintro a b hab q ⟨f, hf, hq⟩
    simp only [List.mem_singleton] at hf
    subst hf
    exact ⟨a, by simp, by omega⟩
  unfold calls
  obtain ⟨a1, a2, a3, a4⟩ := batch_legal 0 1 [[(1, 0, 1), (2, 0, 1)], [(3, 0, 1)]] (by unfold Full; decide +kernel) (by unfold Consolidated; decide +kernel) (by omega)
  obtain ⟨b1, b2, b3, b4⟩ := batch_legal 1 2 [[(1, 1, -1)]] (by unfold Full; decide +kernel) (by unfold Consolidated; decide +kernel) (by omega)
  obtain ⟨c1, c2, c3, c4⟩ := batch_legal 2 3 [] (by unfold Full; decide +kernel) (by unfold Consolidated; decide +kernel) (by omega)
  obtain ⟨d1, d2, d3, d4⟩ := batch_legal 3 4 [[(2, 3, -1), (4, 3, 1)]] (by unfold Full; decide +kernel) (by unfold Consolidated; decide +kernel) (by omega)
  obtain ⟨e1, e2, e3, e4⟩ := batch_legal 4 5 [[(5, 4, 1)]] (by unfold Full; decide +kernel) (by unfold Consolidated; decide +kernel) (by omega)
  exact ⟨a1, a2, a3, a4, le1 (by decide), b1, b2, b3, b4, le1 (by omega), le1 (by decide), c1, c2, c3, c4,
    d1, d2, d3, d4, le1 (by omega), e1, e2, e3, e4, trivial⟩

set_option synthInstance.maxSize 2000 in
/-- They leave one merged batch, repacked, at times advanced to 1, with the batches pending. -/
example : ((Spine.init 1).run (ChunkBatch.ops 2) calls).map (fun s => (s.mapBatches.map (fun b => b.chunks), s.pending.length, s.merging.length))
    = some ([[[(2, 1, 1), (2, 3, -1)], [(3, 1, 1), (4, 3, 1)]], [[(5, 4, 1)]], []], 2, 4) := by decide +kernel

end DD
