import Verif.Proofs.ChunkLaws

/-!
# Property C64: batches of chunks of any type whose operations keep the contract of `Chunk`

The theorems are stated for any type of chunks, and `C64_vec_lawful` and `C64_col_lawful` say that the two types of chunks of the library keep the contract.
-/

namespace DD

section generic
variable {C D T R : Type*} [LinearOrder D] [LinearOrder (Lin T)] [AddCommMonoid R] [DecidableEq R] [Lattice T] [DecidableLE T] [DecidableEq T]
variable {ops : ChunkOps C T} {view : C → Upds D T R} {valid : C → Prop} {cap : Nat} {rest : List C → List C → Prop}

/-- **C64**: the merge batcher's merge of two consolidated chains is the consolidation of their updates, in valid chunks that are maximally packed. -/
theorem C64_batcher_merge (h : ChunkContract ops view valid cap rest) {list1 list2 : List C} (v1 : ∀ c ∈ list1, valid c) (v2 : ∀ c ∈ list2, valid c)
    (c1 : Consolidated (list1.flatMap view)) (c2 : Consolidated (list2.flatMap view)) :
    ∃ out, ops.mergerMerge list1 list2 = some out ∧ (∀ c ∈ out, valid c) ∧ Graded cap (out.map view) ∧
      consolidateUpdates (list1.flatMap view ++ list2.flatMap view) = some (out.flatMap view) := by
  obtain ⟨out, e, h1, h2, h3⟩ := h.mergerMerge_spec v1 v2 c1 c2
  exact ⟨out, e, h1, h2, by rw [flatMerge_consolidate c1 c2, h3]⟩

/-- **C64**: the merge batcher's extraction ships the updates not beyond `upper` and keeps the others, each in order and maximally packed; and the frontier becomes
the one generated by itself and the times kept. -/
theorem C64_batcher_extract (h : ChunkContract ops view valid cap rest) {merged : List C} (vm : ∀ c ∈ merged, valid c) (hs : Consolidated (merged.flatMap view)) (upper frontier : List T) :
    ∃ frontier' shipped kept, ops.mergerExtract merged upper frontier = some (frontier', shipped, kept) ∧ (∀ c ∈ shipped, valid c) ∧ (∀ c ∈ kept, valid c) ∧
      shipped.flatMap view = (merged.flatMap view).filter (fun u => ¬ Beyond upper u.2.1) ∧ Graded cap (shipped.map view) ∧
      kept.flatMap view = (merged.flatMap view).filter (fun u => Beyond upper u.2.1) ∧ Graded cap (kept.map view) ∧
      (∀ q, Beyond frontier' q ↔ Beyond frontier q ∨ ∃ u ∈ kept.flatMap view, u.2.1 ≤ q) ∧ (IsAntichainList frontier → IsAntichainList frontier') := by
  obtain ⟨F', shipped, kept, e, h1, h2, h3, h4, h5, h6, h7, h8⟩ := h.mergerExtract_spec vm hs.sortedDT.data upper frontier
  refine ⟨F', shipped, kept, e, h1, h2, h3, h4, h5, h6, fun q => ?_, h8⟩
  rw [h7, h5]
  simp only [List.mem_filter, decide_eq_true_eq, and_assoc]

/-- **C64**: a builder given consolidated updates in any chunks, empty ones included, ends with a maximally packed batch that holds them, in order, under the given
description. -/
theorem C64_builder (h : ChunkContract ops view valid cap rest) {chunks : List C} (hc : ∀ c ∈ chunks, valid c ∨ ops.len c = 0 ∧ view c = [])
    (hs : Consolidated (chunks.flatMap view)) (description : Description T) :
    ∃ b, (chunks.foldlM ops.push ([], [])).bind (fun s => ops.builderDone s description) = some b ∧ b.description = description ∧ (∀ c ∈ b.chunks, valid c) ∧
      Graded cap (b.chunks.map view) ∧ b.chunks.flatMap view = chunks.flatMap view := by
  obtain ⟨b, e, h1, h2, h3, h4⟩ := h.pushes_spec chunks (b := ([], [])) hc (by simp) (by simp) h.rest_nil hs.sortedDT.data
  simp only [List.flatMap_nil, List.nil_append] at h4
  obtain ⟨a, o, k1, k2, k3, k4, k5, k6⟩ := h.settle b.1 [] true b.2 h3 h1 (by simp) h2 (by
    rw [← h4] at hs
    rw [List.append_nil]
    exact (hs.sublist (List.sublist_append_right _ _)).sortedDT.data)
  rw [List.append_nil] at k1
  obtain ⟨rfl, k7⟩ := k5 rfl
  refine ⟨⟨o, description⟩, ?_, rfl, k3, k7, by simpa [h4] using k4⟩
  rw [e, Option.bind_some, ChunkOps.builderDone, k1, Option.bind_some]
  exact h.newBatch_spec k3 description

/-- **C64**: `seal` builds the batch of a chain of consolidated updates. -/
theorem C64_seal (h : ChunkContract ops view valid cap rest) {chain : List C} (hc : ∀ c ∈ chain, valid c) (hs : Consolidated (chain.flatMap view)) (description : Description T) :
    ∃ b, ops.sealBatch chain description = some b ∧ b.description = description ∧ (∀ c ∈ b.chunks, valid c) ∧ Graded cap (b.chunks.map view) ∧
      b.chunks.flatMap view = chain.flatMap view := by
  obtain ⟨a, o, k1, k2, k3, k4, k5, k6⟩ := h.settle [] chain true [] h.rest_nil (by simp) hc (by simp) hs.sortedDT.data
  rw [List.nil_append] at k1
  obtain ⟨rfl, k7⟩ := k5 rfl
  refine ⟨⟨o, description⟩, ?_, rfl, k3, k7, by simpa using k4⟩
  rw [ChunkOps.sealBatch, k1, Option.bind_some]
  exact h.newBatch_spec k3 description

/-- **C64**: `merge_chains` of two consolidated chains appends exactly the consolidation of their updates to the output. -/
theorem C64_merge_chains (h : ChunkContract ops view valid cap rest) {chain1 chain2 out : List C} (v1 : ∀ c ∈ chain1, valid c) (v2 : ∀ c ∈ chain2, valid c) (vo : ∀ c ∈ out, valid c)
    (c1 : Consolidated (chain1.flatMap view)) (c2 : Consolidated (chain2.flatMap view)) :
    ∃ out' merged, ops.mergeChains chain1 chain2 out = some out' ∧ (∀ c ∈ out', valid c) ∧
      consolidateUpdates (chain1.flatMap view ++ chain2.flatMap view) = some merged ∧ out'.flatMap view = out.flatMap view ++ merged := by
  obtain ⟨in1, in2, out', e, h1, h2, h3, h4, h5⟩ := h.chainsLoop_spec _ (chain1.length + chain2.length) v1 v2 vo c1 c2 le_rfl rfl
  refine ⟨out' ++ in1 ++ in2, _, by rw [ChunkOps.mergeChains, e]; rfl, ?_, flatMerge_consolidate c1 c2, ?_⟩
  · intro c hc
    simp only [List.mem_append] at hc
    rcases hc with (hc | hc) | hc
    exacts [h3 c hc, h1 c hc, h2 c hc]
  · rw [← h5]
    rcases h4 with rfl | rfl
    · simp [flatMerge]
    · simp [flatMerge_nil_right]

/-- A merger given fuel repeatedly: `none` if it panics; otherwise the merger, and the fuel each call left. -/
def ChunkOps.works (ops : ChunkOps C T) (s1 s2 : BatchOf C T) : List Int → ChunkOps.Merger C T → Option (ChunkOps.Merger C T × List Int)
  | [], m => some (m, [])
  | fuel :: fuels, m => (ops.work m s1 s2 fuel).bind fun r => (works ops s1 s2 fuels r.1).map fun r' => (r'.1, r.2 :: r'.2)

/-- **C64**: merging any two consolidated batches, with times advanced to any frontier `F`, in any number of calls with any fuel: no call panics; the fuel used is at most
the number of updates of the two batches; and once a call leaves fuel, `done` succeeds with a maximally packed batch whose updates are the consolidation of those of the
two batches with their times advanced by `F`, and whose description goes from the meet of the lower frontiers to the join of the upper ones, compacted to `F`. -/
theorem C64_batch_merge (h : ChunkContract ops view valid cap rest) {b1 b2 : BatchOf C T} (v1 : ∀ c ∈ b1.chunks, valid c) (v2 : ∀ c ∈ b2.chunks, valid c)
    (c1 : Consolidated (b1.chunks.flatMap view)) (c2 : Consolidated (b2.chunks.flatMap view)) (F : List T) (fuels : List Int) :
    ∃ m lefts, ops.works b1 b2 fuels (ChunkOps.newMerger b1 b2 F) = some (m, lefts) ∧ lefts.length = fuels.length ∧ fuels.sum - lefts.sum ≤ ops.batchLen b1 + ops.batchLen b2 ∧
      ((∃ left ∈ lefts, 0 < left) → ∃ b, ops.done m = some b ∧ (∀ c ∈ b.chunks, valid c) ∧ Graded cap (b.chunks.map view) ∧
        consolidateUpdates (retimed (fun t => advanceBy t F) (b1.chunks.flatMap view ++ b2.chunks.flatMap view)) = some (b.chunks.flatMap view) ∧
        b.description = ⟨acMeet b1.description.lower b2.description.lower, acJoin b1.description.upper b2.description.upper, F⟩) := by
  have key : ∀ (fuels : List Int) (m0 : ChunkOps.Merger C T) (c : Nat), ChunkContract.MergerOk view valid cap rest b1 b2 m0 c →
      ∃ m lefts c', ops.works b1 b2 fuels m0 = some (m, lefts) ∧ lefts.length = fuels.length ∧ ChunkContract.MergerOk view valid cap rest b1 b2 m c' ∧
        fuels.sum - lefts.sum = (c' : Int) - c ∧ ((m0.complete = true ∨ ∃ left ∈ lefts, 0 < left) → m.complete = true) ∧
        m.frontier = m0.frontier ∧ m.lower = m0.lower ∧ m.upper = m0.upper := by
    intro fuels
    induction fuels with
    | nil => intro m0 c h; exact ⟨m0, [], c, rfl, rfl, h, by simp, by simp, rfl, rfl, rfl⟩
    | cons fuel fuels ih =>
      intro m0 c hm
      obtain ⟨m1, left, c1', w1, w2, w3, w4, w5, w6, w7, w8, w9⟩ := h.work_spec v1 v2 c1 c2 hm fuel
      obtain ⟨m, lefts, c', k1, k2, k3, k4, k5, k6, k7, k8⟩ := ih m1 c1' w2
      refine ⟨m, left :: lefts, c', ?_, by simp [k2], k3, ?_, ?_, k6.trans w6, k7.trans w7, k8.trans w8⟩
      · simp [ChunkOps.works, w1, k1]
      · simp only [List.sum_cons]; omega
      · rintro (hc | ⟨l, hl, hp⟩)
        · exact k5 (.inl (w9 hc))
        · rcases List.mem_cons.1 hl with rfl | hl
          · exact k5 (.inl (w5 hp))
          · exact k5 (.inr ⟨l, hl, hp⟩)
  obtain ⟨m, lefts, c', k1, k2, k3, k4, k5, k6, k7, k8⟩ := key fuels _ 0 (h.newMerger_ok b1 b2 F)
  refine ⟨m, lefts, k1, k2, ?_, fun hl => ?_⟩
  · have h1 := k3.spent
    rw [ChunkOps.batchLen, ChunkOps.batchLen, h.sum_len v1, h.sum_len v2]
    omega
  · obtain ⟨q1, q2, q3, q4⟩ := k3.closed (k5 (.inr hl))
    refine ⟨⟨m.settled, ⟨m.lower, m.upper, m.frontier⟩⟩, ?_, k3.valids, q3, ?_, by rw [k6, k7, k8]; rfl⟩
    · rw [ChunkOps.done, q1, q2]
      exact h.newBatch_spec k3.valids _
    · rw [consolidateUpdates_eq]
      change _ = some (m.settled.flatMap view)
      rw [q4, k6]
      exact congrArg some (advanced_congr F fun d t => by rw [total_append, total_flatMerge])

end generic

/-- **C64**: chunks that are lists of updates keep the contract. -/
theorem C64_vec_lawful {D T R : Type*} [LinearOrder D] [LinearOrder (Lin T)] [AddCommMonoid R] [DecidableEq R] [Lattice T] [DecidableLE T] [DecidableEq T] {cap : Nat} (hcap : 0 < cap) :
    ∃ rest, ChunkContract (vecChunkOps (D := D) (T := T) (R := R) cap) id (fun us => us ≠ []) cap rest := ⟨_, vecChunk_lawful hcap⟩

/-- **C64**: columnar chunks keep the contract: those that hold some updates are valid, and the sequence is the one read by the iterator. -/
theorem C64_col_lawful {K V T R : Type*} [LinearOrder K] [LinearOrder V] [LinearOrder (Lin T)] [AddCommMonoid R] [DecidableEq R] [Lattice T] [DecidableLE T] [DecidableEq T]
    {cap : Nat} (hcap : 0 < cap) :
    ∃ rest, ChunkContract (colChunkOps (K := K) (V := V) (T := T) (R := R) cap) (fun t => t.iter.getD []) (fun t => ∃ us, t.Holds us ∧ us ≠ []) cap rest := ⟨_, colChunk_lawful hcap⟩

section columnar
variable {K V T R : Type*} [LinearOrder K] [LinearOrder V] [LinearOrder (Lin T)] [AddCommMonoid R] [DecidableEq R] [Lattice T] [DecidableLE T] [DecidableEq T]

/-- **C64**, for columnar batches: the merge of two batches that hold consolidated updates, with any frontier and fuel. -/
theorem C64_columnar_batch_merge {cap : Nat} (hcap : 0 < cap) {b1 b2 : BatchOf (ColTrie K V T R) T} {U1 U2 : Chain (K ×ₗ V) T R}
    (h1 : HoldsAll b1.chunks U1) (h2 : HoldsAll b2.chunks U2) (f1 : Full U1) (f2 : Full U2) (c1 : Consolidated U1.flatten) (c2 : Consolidated U2.flatten) (F : List T) (fuels : List Int) :
    ∃ m lefts, (colChunkOps cap).works b1 b2 fuels (ChunkOps.newMerger b1 b2 F) = some (m, lefts) ∧ lefts.length = fuels.length ∧
      fuels.sum - lefts.sum ≤ U1.flatten.length + U2.flatten.length ∧
      ((∃ left ∈ lefts, 0 < left) → ∃ b U, (colChunkOps cap).done m = some b ∧ HoldsAll b.chunks U ∧ Graded cap U ∧
        consolidateUpdates (retimed (fun t => advanceBy t F) (U1.flatten ++ U2.flatten)) = some U.flatten ∧
        b.description = ⟨acMeet b1.description.lower b2.description.lower, acJoin b1.description.upper b2.description.upper, F⟩) := by
  obtain ⟨rfl, v1⟩ := valid_of_holdsAll h1 f1
  obtain ⟨rfl, v2⟩ := valid_of_holdsAll h2 f2
  have hl := colChunk_lawful (K := K) (V := V) (T := T) (R := R) hcap
  rw [← List.flatMap_def] at c1 c2 ⊢
  rw [← List.flatMap_def]
  obtain ⟨m, lefts, k1, k2, k3, k4⟩ := C64_batch_merge hl v1 v2 c1 c2 F fuels
  refine ⟨m, lefts, k1, k2, ?_, fun hx => ?_⟩
  · rw [ChunkOps.batchLen, ChunkOps.batchLen, hl.sum_len v1, hl.sum_len v2] at k3
    exact_mod_cast k3
  · obtain ⟨b, g1, g2, g3, g4, g5⟩ := k4 hx
    exact ⟨b, b.chunks.map colView, g1, (holdsAll_of_valid g2).1, g3, by rw [← List.flatMap_def]; exact g4, g5⟩

end columnar

/-! ## The hypotheses are met -/

section examples

def exCB1 : BatchOf (ColTrie Nat Nat Nat Int) Nat := ⟨[exT1, exT2], ⟨[0], [4], [0]⟩⟩
def exCB2 : BatchOf (ColTrie Nat Nat Nat Int) Nat := ⟨[exT3], ⟨[4], [6], [0]⟩⟩

example : HoldsAll exCB1.chunks exU1 ∧ HoldsAll exCB2.chunks exU2 ∧ Full exU1 ∧ Full exU2 ∧ Consolidated exU1.flatten ∧ Consolidated exU2.flatten :=
  ⟨.cons exT1_holds (.cons exT2_holds .nil), .cons exT3_holds .nil, by unfold Full; decide +kernel, by unfold Full; decide +kernel, ⟨by decide +kernel, by decide +kernel⟩,
    ⟨by decide +kernel, by decide +kernel⟩⟩

set_option synthInstance.maxSize 2000 in
/-- The merge, in steps of fuel 2, 3 and 3. -/
example : (((colChunkOps 3).works exCB1 exCB2 [2, 3, 3] (ChunkOps.newMerger exCB1 exCB2 [4])).bind fun r => ((colChunkOps 3).done r.1).map fun b => (b.chunks.map colView, r.2)) =
    some ([[(toLex (1, 1), 4, 1), (toLex (1, 2), 4, 2), (toLex (1, 2), 5, 1)], [(toLex (3, 1), 4, 7), (toLex (4, 1), 4, 1)]], [0, 0, 2]) := by decide +kernel
example : (((colChunkOps 3).mergerMerge [exT1, exT2] [exT3]).map fun b => b.map colView) =
    some [[(toLex (1, 1), 0, 1), (toLex (1, 2), 0, 1)], [(toLex (1, 2), 4, 1), (toLex (1, 2), 5, 1), (toLex (3, 1), 0, 7)], [(toLex (4, 1), 2, 1)]] := by decide +kernel
set_option synthInstance.maxSize 2000 in
example : (((colChunkOps 2).mergerExtract [exT1, exT2] [3] []).map fun b => (b.1, b.2.1.map colView, b.2.2.map colView)) =
    some ([3], [[(toLex (1, 1), 0, 1), (toLex (1, 2), 0, 1)], [(toLex (4, 1), 2, 1)]], [[(toLex (1, 2), 3, 2), (toLex (1, 2), 5, 1)]]) := by decide +kernel
example : (([exT1, ColTrie.empty, exT2].foldlM (colChunkOps 2).push ([], [])).bind fun s => ((colChunkOps 2).builderDone s exCB1.description).map fun b => b.chunks.map colView) =
    some [[(toLex (1, 1), 0, 1), (toLex (1, 2), 0, 1)], [(toLex (1, 2), 3, 2)], [(toLex (1, 2), 5, 1), (toLex (4, 1), 2, 1)]] := by decide +kernel
example : (((colChunkOps 3).sealBatch [exT2, Forest.layout [[(5, [(1, [(0, [1])])])]]] exCB1.description).map fun b => b.chunks.map colView) =
    some [[(toLex (1, 2), 5, 1), (toLex (4, 1), 2, 1), (toLex (5, 1), 0, 1)]] := by decide +kernel
example : (((colChunkOps 3).mergeChains [exT1, exT2] [exT3] []).map fun b => b.map colView) =
    some [[(toLex (1, 1), 0, 1), (toLex (1, 2), 0, 1)], [(toLex (1, 2), 4, 1), (toLex (1, 2), 5, 1), (toLex (3, 1), 0, 7)], [(toLex (4, 1), 2, 1)]] := by decide +kernel

end examples

end DD
