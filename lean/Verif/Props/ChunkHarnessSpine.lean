import Verif.Proofs.ChunkHarnessSpine
import Verif.Props.Spine

/-!
# Properties C14-C17 for spines of batches of chunks of any type
-/

namespace DD

section generic
variable {C D T R : Type*} [LinearOrder D] [DecidableEq T] [Lattice T] [OrderBot T] [DecidableLE T] [LinearOrder (Lin T)] [AddCommMonoid R] [DecidableEq R]
variable {ops : ChunkOps C T} {view : C → Upds D T R} {valid : C → Prop} {cap : Nat} {rest : List C → List C → Prop}

/-- **C64**, with C14 and C15: a spine of batches of any type of chunk that keeps the contract never panics, and the updates in the batches it exposes accumulate as those
inserted. -/
theorem C64_spine (h : ChunkContract ops view valid cap rest) (effort : Nat) (os : List (Spine.Op (BatchOf C T) T)) (hleg : Spine.Legal h.laws [⊥] [⊥] [⊥] os)
    (hlen : ((((Spine.inserted ops.batchOps [⊥] os).map ops.batchLen).sum : Nat) : Int) < isizeMax) :
    ∃ s, (Spine.init effort).run ops.batchOps os = some s ∧
      ∀ d q, Beyond s.logical_frontier q → (∀ b ∈ Spine.inserted ops.batchOps [⊥] os, Beyond b.description.since q) →
        (s.mapBatches.map fun b => accum (b.chunks.flatMap view) d q).sum =
          ((Spine.inserted ops.batchOps [⊥] os).map fun b => accum (b.chunks.flatMap view) d q).sum := by
  obtain ⟨s, hs⟩ := C14_no_panic h.laws effort os hleg hlen
  exact ⟨s, hs, fun d q hq hsince => (C15_contents h.laws effort os hleg hlen s hs).2.2 d q hq hsince⟩

/-- **C64**, with C17: the number of batches is logarithmic. -/
theorem C64_spine_logarithmic (h : ChunkContract ops view valid cap rest) (effort : Nat) (os : List (Spine.Op (BatchOf C T) T)) (hleg : Spine.Legal h.laws [⊥] [⊥] [⊥] os)
    (hlen : ((((Spine.inserted ops.batchOps [⊥] os).map ops.batchLen).sum : Nat) : Int) < isizeMax)
    (s : Spine (BatchOf C T) (ChunkOps.Merger C T) T) (hs : (Spine.init effort).run ops.batchOps os = some s) :
    s.mapBatches.length ≤ 2 * (1 + Nat.log 2 (Spine.introduced ops.batchOps os)) +
      ((Spine.inserted ops.batchOps [⊥] os).filter fun b => !acLe b.description.upper s.physical_frontier).length :=
  (C17_logarithmic h.laws effort os hleg hlen s hs).2

end generic

section columnar
variable {K V T R : Type*} [LinearOrder K] [LinearOrder V] [LinearOrder (Lin T)] [AddCommMonoid R] [DecidableEq R] [Lattice T] [OrderBot T] [DecidableLE T] [DecidableEq T]

/-- **C64** for spines of columnar batches. -/
theorem C64_columnar_spine {cap : Nat} (hcap : 0 < cap) (effort : Nat) (os : List (Spine.Op (BatchOf (ColTrie K V T R) T) T))
    (hleg : Spine.Legal (colChunk_lawful (K := K) (V := V) (T := T) (R := R) hcap).laws [⊥] [⊥] [⊥] os)
    (hlen : ((((Spine.inserted (colChunkOps cap).batchOps [⊥] os).map (colChunkOps cap).batchLen).sum : Nat) : Int) < isizeMax) :
    ∃ s, (Spine.init effort).run (colChunkOps cap).batchOps os = some s ∧
      ∀ d q, Beyond s.logical_frontier q → (∀ b ∈ Spine.inserted (colChunkOps cap).batchOps [⊥] os, Beyond b.description.since q) →
        (s.mapBatches.map fun b => accum (b.chunks.flatMap colView) d q).sum =
          ((Spine.inserted (colChunkOps cap).batchOps [⊥] os).map fun b => accum (b.chunks.flatMap colView) d q).sum :=
  C64_spine (colChunk_lawful hcap) effort os hleg hlen

end columnar

/-! ### Non-vacuity -/

private abbrev cops : BatchOps (BatchOf (ColTrie Nat Nat Nat Int) Nat) (ChunkOps.Merger (ColTrie Nat Nat Nat Int) Nat) Nat := (colChunkOps 3).batchOps

private theorem one_le {a b : Nat} (hab : a ≤ b) : FrontierLe [a] [b] := by
  rintro q ⟨f, hf, hq⟩
  simp only [List.mem_singleton] at hf
  subst hf
  exact ⟨a, by simp, by omega⟩

private theorem col_legal (lower upper : Nat) (chunks : List (ColTrie Nat Nat Nat Int)) (U : Chain (Nat ×ₗ Nat) Nat Int) (hh : HoldsAll chunks U) (hf : Full U) (h : Consolidated U.flatten)
    (hlt : lower < upper) :
    (colChunk_lawful (K := Nat) (V := Nat) (T := Nat) (R := Int) (cap := 3) (by omega)).laws.Ok ⟨chunks, ⟨[lower], [upper], [0]⟩⟩ ∧
    (cops.lower ⟨chunks, ⟨[lower], [upper], [0]⟩⟩).Perm [lower] ∧
    ¬ (cops.lower ⟨chunks, ⟨[lower], [upper], [0]⟩⟩).Perm (cops.upper ⟨chunks, ⟨[lower], [upper], [0]⟩⟩) ∧
    FrontierLe (cops.lower ⟨chunks, ⟨[lower], [upper], [0]⟩⟩) (cops.upper ⟨chunks, ⟨[lower], [upper], [0]⟩⟩) := by
  obtain ⟨rfl, hv⟩ := valid_of_holdsAll hh hf
  refine ⟨⟨⟨hv, by rw [List.flatMap_def]; exact h⟩, List.pairwise_singleton _ _, List.pairwise_singleton _ _, one_le hlt.le⟩, List.Perm.refl _, ?_, one_le hlt.le⟩
  intro hp
  have : ([lower] : List Nat).Perm [upper] := hp
  have := List.perm_singleton.mp this
  simp at this; omega

private def exCalls : List (Spine.Op (BatchOf (ColTrie Nat Nat Nat Int) Nat) Nat) :=
  [.insert ⟨[exT1, exT2], ⟨[0], [6], [0]⟩⟩, .setPhysical [6], .setLogical [4], .insert ⟨[exT3], ⟨[6], [7], [0]⟩⟩, .setPhysical [7], .insert ⟨[], ⟨[7], [8], [0]⟩⟩, .insert ⟨[exT3], ⟨[8], [9], [0]⟩⟩, .setPhysical [9], .insert ⟨[], ⟨[9], [10], [0]⟩⟩, .exert (some 9), .exert (some 9)]

/-- The calls are legal (the updates of the second batch are before its lower frontier, which the spine does not look at). -/
example : Spine.Legal (colChunk_lawful (K := Nat) (V := Nat) (T := Nat) (R := Int) (cap := 3) (by omega)).laws [⊥] [⊥] [⊥] exCalls := by
  unfold exCalls
  obtain ⟨a1, a2, a3, a4⟩ := col_legal 0 6 [exT1, exT2] exU1 (.cons exT1_holds (.cons exT2_holds .nil)) (by unfold Full; decide +kernel) ⟨by decide +kernel, by decide +kernel⟩ (by omega)
  obtain ⟨b1, b2, b3, b4⟩ := col_legal 6 7 [exT3] exU2 (.cons exT3_holds .nil) (by unfold Full; decide +kernel) ⟨by decide +kernel, by decide +kernel⟩ (by omega)
  obtain ⟨c1, c2, c3, c4⟩ := col_legal 7 8 [] [] .nil (by unfold Full; decide +kernel) ⟨by decide +kernel, by decide +kernel⟩ (by omega)
  obtain ⟨d1, d2, d3, d4⟩ := col_legal 8 9 [exT3] exU2 (.cons exT3_holds .nil) (by unfold Full; decide +kernel) ⟨by decide +kernel, by decide +kernel⟩ (by omega)
  obtain ⟨e1, e2, e3, e4⟩ := col_legal 9 10 [] [] .nil (by unfold Full; decide +kernel) ⟨by decide +kernel, by decide +kernel⟩ (by omega)
  exact ⟨a1, a2, a3, a4, one_le (by decide), one_le (by decide), b1, b2, b3, b4, one_le (by omega), c1, c2, c3, c4, d1, d2, d3, d4, one_le (by omega), e1, e2, e3, e4, trivial⟩

set_option synthInstance.maxSize 2000 in
/-- The three batches with updates end up in one, repacked, at times advanced to 4. -/
example : ((Spine.init 1).run cops exCalls).map (fun s => s.mapBatches.map (fun b => b.chunks.map colView))
    = some [[[(toLex (1, 1), 4, 1), (toLex (1, 2), 4, 1), (toLex (1, 2), 5, 1)], [(toLex (3, 1), 4, 14), (toLex (4, 1), 4, 1)]], []] := by decide +kernel

end DD
