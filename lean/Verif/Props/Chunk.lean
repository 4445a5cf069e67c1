import Verif.Proofs.ChunkBatch
import Verif.Proofs.TimeOrd
import Mathlib.Order.Nat
import Mathlib.Order.Lattice.Nat

/-!
# Property C37: chunks are maximally packed, and chunked operations agree with operations on flat sequences
-/

namespace DD

section pack
variable {D T R : Type*}

/-- A caller of `settle`: each delivery of chunks is appended to what the last call left, and settled with `done = false`. -/
def settleRun (cap : Nat) (deliveries : List (Chain D T R)) : Chain D T R × Chain D T R :=
  deliveries.foldl (fun r more => chunkSettle cap (r.1 ++ more) false r.2) ([], [])

/-- C37: however non-empty chunks (of any sizes) are delivered, after each call what has been settled is a maximal packing, and what has
been settled followed by what has been left is the sequence of updates delivered. -/
theorem C37_settle {cap : Nat} (hcap : 0 < cap) (deliveries : List (Chain D T R)) (hf : ∀ more ∈ deliveries, Full more) :
    Graded cap (settleRun cap deliveries).2 ∧
    (settleRun cap deliveries).2.flatten ++ (settleRun cap deliveries).1.flatten = deliveries.flatten.flatten ∧
    (settleRun cap deliveries).1.flatten.length < cap ∧
    (chunkSettle cap (settleRun cap deliveries).1 true (settleRun cap deliveries).2).1 = [] ∧
    Graded cap (chunkSettle cap (settleRun cap deliveries).1 true (settleRun cap deliveries).2).2 ∧
    (chunkSettle cap (settleRun cap deliveries).1 true (settleRun cap deliveries).2).2.flatten = deliveries.flatten.flatten := by
  have key : ∀ (ds : List (Chain D T R)), (∀ more ∈ ds, Full more) → ∀ r : Chain D T R × Chain D T R, SettleOk cap r.1 r.2 →
      let r' := ds.foldl (fun r more => chunkSettle cap (r.1 ++ more) false r.2) r
      SettleOk cap r'.1 r'.2 ∧ r'.2.flatten ++ r'.1.flatten = r.2.flatten ++ r.1.flatten ++ ds.flatten.flatten := by
    intro ds
    induction ds with
    | nil => intro _ r hr; exact ⟨hr, by simp⟩
    | cons d ds ih =>
      intro hds r hr
      obtain ⟨a1, a2⟩ := settle_more hcap hr (hds d List.mem_cons_self)
      obtain ⟨b1, b2⟩ := ih (fun m hm => hds m (List.mem_cons_of_mem _ hm)) _ a1
      refine ⟨b1, ?_⟩
      rw [List.foldl_cons]
      rw [b2, a2]; simp
  obtain ⟨k1, k2⟩ := key deliveries hf ([], []) (settleOk_init cap)
  obtain ⟨d1, d2, d3⟩ := settle_done hcap k1 (more := []) (by simp [Full])
  rw [List.append_nil] at d1 d2 d3
  refine ⟨k1.graded, by simpa [settleRun] using k2, ?_, d1, d2, ?_⟩
  · obtain ⟨⟨carry, h1, h2⟩⟩ := k1
    change (settleRun cap deliveries).1 = _ at h1
    rw [h1]
    cases carry with
    | none => simpa using hcap
    | some c => simpa using (h2.carry c rfl).2.1
  · have : (settleRun cap deliveries).2.flatten ++ (settleRun cap deliveries).1.flatten = deliveries.flatten.flatten := by
      simpa [settleRun] using k2
    exact d3.trans (by rw [List.flatten_nil, List.append_nil]; exact this)

/-- C37: `settle_all` packs any non-empty chunks maximally and keeps the sequence of updates. -/
theorem C37_settle_all {cap : Nat} (hcap : 0 < cap) (chunks : Chain D T R) (hf : Full chunks) :
    Graded cap (settleAll cap chunks) ∧ (settleAll cap chunks).flatten = chunks.flatten := by
  obtain ⟨-, d2, d3⟩ := settle_done hcap (settleOk_init cap) hf
  exact ⟨d2, by simpa [settleAll] using d3⟩

/-- C37: `is_graded` decides whether non-empty chunks are maximally packed. -/
theorem C37_is_graded (cap : Nat) (chunks : Chain D T R) (hf : Full chunks) : isGraded cap chunks = true ↔ Graded cap chunks := by
  have key : ∀ chunks : Chain D T R, ((chunks.zip chunks.tail).all fun w => w.1.length + w.2.length > cap) = true ↔
      chunks.IsChain fun a b => cap < a.length + b.length := by
    intro chunks
    induction chunks with
    | nil => simp
    | cons a l ih =>
      cases l with
      | nil => simp
      | cons b l =>
        simp only [List.tail_cons, List.zip_cons_cons, List.all_cons, Bool.and_eq_true, List.isChain_cons_cons, decide_eq_true_eq, gt_iff_lt] at ih ⊢
        rw [ih]
  rw [isGraded, Bool.and_eq_true, key, List.all_eq_true]
  constructor
  · rintro ⟨h1, h2⟩
    exact ⟨fun c hc => ⟨List.length_pos_iff.2 (hf c hc), by simpa using h1 c hc⟩, h2⟩
  · rintro ⟨h1, h2⟩
    exact ⟨fun c hc => by simpa using (h1 c hc).2, h2⟩

/-- C37: a builder given any chunks, empty ones included, ends with a batch (no assertion fails) that is maximally packed and holds the
updates pushed, in order, under the given description. -/
theorem C37_builder {cap : Nat} (hcap : 0 < cap) (chunks : Chain D T R) (description : Description T) :
    ∃ b, (chunks.foldl (ChunkBatchBuilder.push cap) ⟨[], []⟩).done cap description = some b ∧
      b.description = description ∧ Graded cap b.chunks ∧ b.chunks.flatten = chunks.flatten := by
  have key : ∀ (chunks : Chain D T R) (b : ChunkBatchBuilder D T R), SettleOk cap b.input b.output →
      let b' := chunks.foldl (ChunkBatchBuilder.push cap) b
      SettleOk cap b'.input b'.output ∧ b'.output.flatten ++ b'.input.flatten = b.output.flatten ++ b.input.flatten ++ chunks.flatten := by
    intro chunks
    induction chunks with
    | nil => intro b hb; exact ⟨hb, by simp⟩
    | cons c chunks ih =>
      intro b hb
      rw [List.foldl_cons]
      by_cases hc : c.length > 0
      · obtain ⟨a1, a2⟩ := settle_more hcap hb (more := [c]) (by intro x hx; rw [List.mem_singleton.1 hx]; exact List.length_pos_iff.1 hc)
        have e : ChunkBatchBuilder.push cap b c = ⟨(chunkSettle cap (b.input ++ [c]) false b.output).1, (chunkSettle cap (b.input ++ [c]) false b.output).2⟩ := by
          rw [ChunkBatchBuilder.push, if_pos hc]
        obtain ⟨b1, b2⟩ := ih (ChunkBatchBuilder.push cap b c) (by rw [e]; exact a1)
        refine ⟨b1, ?_⟩
        rw [b2, e]
        change (chunkSettle cap (b.input ++ [c]) false b.output).2.flatten ++ (chunkSettle cap (b.input ++ [c]) false b.output).1.flatten ++ _ = _
        rw [a2]; simp
      · have e : ChunkBatchBuilder.push cap b c = b := by rw [ChunkBatchBuilder.push, if_neg hc]
        obtain ⟨b1, b2⟩ := ih b hb
        have : c = [] := List.length_eq_zero_iff.1 (by omega)
        rw [e]
        exact ⟨b1, by rw [b2, this]; simp⟩
  obtain ⟨k1, k2⟩ := key chunks ⟨[], []⟩ (settleOk_init cap)
  obtain ⟨-, d2, d3⟩ := settle_done hcap k1 (more := []) (by simp [Full])
  rw [List.append_nil] at d2 d3
  refine ⟨⟨_, description⟩, ?_, rfl, d2, by rw [d3, k2]; simp⟩
  rw [ChunkBatchBuilder.done, ChunkBatch.new, if_pos]
  rw [List.all_eq_true]
  intro c hc
  simpa using (d2.size c hc).1

/-- C37: `seal` builds the batch of a chain of non-empty chunks. -/
theorem C37_seal {cap : Nat} (hcap : 0 < cap) (chain : Chain D T R) (hf : Full chain) (description : Description T) :
    ∃ b, ChunkBatchBuilder.seal cap chain description = some b ∧ b.description = description ∧ Graded cap b.chunks ∧ b.chunks.flatten = chain.flatten := by
  obtain ⟨h1, h2⟩ := C37_settle_all hcap chain hf
  refine ⟨⟨settleAll cap chain, description⟩, ?_, rfl, h1, h2⟩
  rw [ChunkBatchBuilder.seal, ChunkBatch.new, if_pos]
  rw [List.all_eq_true]
  intro c hc
  simpa using (h1.size c hc).1

end pack

section merge
variable {D T R : Type*} [LinearOrder D] [DecidableEq T] [LinearOrder (Lin T)] [AddCommMonoid R] [DecidableEq R]

/-- C37: `Chunk::merge` of two non-empty runs of chunks uses up one of them, and its output followed by the merge of what is left is the
merge of the inputs; appended to whatever was in the output. -/
theorem C37_merge {cap : Nat} (hcap : 0 < cap) {in1 in2 out : Chain D T R} (n1 : in1 ≠ []) (n2 : in2 ≠ []) (f1 : Full in1) (f2 : Full in2)
    (fo : Full out) (c1 : Consolidated in1.flatten) (c2 : Consolidated in2.flatten) :
    ∃ in1' in2' out', chunkMerge cap in1 in2 out = some (in1', in2', out') ∧ Full in1' ∧ Full in2' ∧ Full out' ∧ (in1' = [] ∨ in2' = []) ∧
      in1'.flatten <:+ in1.flatten ∧ in2'.flatten <:+ in2.flatten ∧
      ∃ merged, consolidateUpdates (in1.flatten ++ in2.flatten) = some merged ∧ out'.flatten ++ in1'.flatten ++ in2'.flatten = out.flatten ++ merged := by
  obtain ⟨in1', in2', out', h1, h2, h3, h4, h5, -, -, h8, h9, h10⟩ := chunkMerge_spec hcap n1 n2 f1 f2 fo c1.sortedDT c2.sortedDT
  refine ⟨in1', in2', out', h1, h2, h3, h4, h5, h8, h9, _, flatMerge_consolidate c1 c2, ?_⟩
  have := h10 [] []
  simp only [List.append_nil] at this
  rw [← this]
  rcases h5 with rfl | rfl
  · simp [flatMerge]
  · simp [flatMerge_nil_right]

/-- C37: `merge_chains` of two consolidated chains appends exactly the consolidation of their updates to the output. -/
theorem C37_merge_chains {cap : Nat} (hcap : 0 < cap) {in1 in2 out : Chain D T R} (f1 : Full in1) (f2 : Full in2) (fo : Full out)
    (c1 : Consolidated in1.flatten) (c2 : Consolidated in2.flatten) :
    ∃ out' merged, mergeChains cap in1 in2 out = some out' ∧ Full out' ∧ consolidateUpdates (in1.flatten ++ in2.flatten) = some merged ∧
      out'.flatten = out.flatten ++ merged := by
  by_cases h : in1 ≠ [] ∧ in2 ≠ []
  · obtain ⟨in1', in2', out', h1, h2, h3, h4, h5, -, -, merged, h6, h7⟩ := C37_merge hcap h.1 h.2 f1 f2 fo c1 c2
    refine ⟨out' ++ in1' ++ in2', merged, ?_, ?_, h6, by simpa using h7⟩
    · obtain ⟨n, hn⟩ : ∃ n, in1.length + in2.length = n + 1 := by
        have := List.length_pos_iff.2 h.1
        exact ⟨in1.length + in2.length - 1, by omega⟩
      rw [mergeChains, hn, mergeChainsLoop, if_pos h, h1]
      have hstop : ¬ (in1' ≠ [] ∧ in2' ≠ []) := by rintro ⟨a, b⟩; exact h5.elim a b
      have : mergeChainsLoop cap n in1' in2' out' = some (in1', in2', out') := by
        cases n with
        | zero => rfl
        | succ n => rw [mergeChainsLoop, if_neg hstop]
      simp only [this]
    · intro c hc
      simp only [List.mem_append] at hc
      rcases hc with (hc | hc) | hc
      exacts [h4 c hc, h2 c hc, h3 c hc]
  · refine ⟨out ++ in1 ++ in2, _, ?_, ?_, flatMerge_consolidate c1 c2, ?_⟩
    · have : mergeChainsLoop cap (in1.length + in2.length) in1 in2 out = some (in1, in2, out) := by
        cases hn : in1.length + in2.length with
        | zero => rfl
        | succ n => rw [mergeChainsLoop, if_neg h]
      simp only [mergeChains, this]
    · intro c hc
      simp only [List.mem_append] at hc
      rcases hc with (hc | hc) | hc
      exacts [fo c hc, f1 c hc, f2 c hc]
    · have : in1 = [] ∨ in2 = [] := by
        by_cases e : in1 = []
        · exact .inl e
        · exact .inr (by by_contra e'; exact h ⟨e, e'⟩)
      rcases this with rfl | rfl
      · simp [flatMerge]
      · simp [flatMerge_nil_right]

/-- C37: the merge batcher's merge of two consolidated chains is the consolidation of their updates, maximally packed. -/
theorem C37_batcher_merge {cap : Nat} (hcap : 0 < cap) {list1 list2 : Chain D T R} (f1 : Full list1) (f2 : Full list2)
    (c1 : Consolidated list1.flatten) (c2 : Consolidated list2.flatten) :
    ∃ out, chunkMergerMerge cap list1 list2 = some out ∧ Graded cap out ∧ consolidateUpdates (list1.flatten ++ list2.flatten) = some out.flatten := by
  obtain ⟨out, h1, h2, h3⟩ := chunkMergerMerge_spec hcap f1 f2 c1.sortedDT c2.sortedDT
  exact ⟨out, h1, h3, by rw [h2, flatMerge_consolidate c1 c2]⟩

end merge

section extract
variable {D T R : Type*} [PartialOrder T] [DecidableLE T]

/-- C37: the merge batcher's extraction ships the updates not beyond `upper` and keeps the others, each in order and maximally packed; and
the frontier becomes the one generated by itself and the times kept. -/
theorem C37_batcher_extract {cap : Nat} (hcap : 0 < cap) (merged : Chain D T R) (upper frontier : List T) :
    let r := chunkMergerExtract cap merged upper frontier
    r.2.1.flatten = merged.flatten.filter (fun u => ¬ Beyond upper u.2.1) ∧ Graded cap r.2.1 ∧
    r.2.2.flatten = merged.flatten.filter (fun u => Beyond upper u.2.1) ∧ Graded cap r.2.2 ∧
    (∀ q, Beyond r.1 q ↔ Beyond frontier q ∨ ∃ u ∈ r.2.2.flatten, u.2.1 ≤ q) ∧ (IsAntichainList frontier → IsAntichainList r.1) := by
  intro r
  obtain ⟨h1, h2, h3, h4, h5⟩ := chunkMergerExtract_spec hcap merged upper frontier
  have e : ∀ t : T, lessEqual upper t = decide (Beyond upper t) := fun t => by
    rw [Bool.eq_iff_iff, lessEqual_iff]; simp
  refine ⟨h2.trans ?_, h3, h4.trans ?_, h5, fun q => ?_, fun hF => ?_⟩
  · refine List.filter_congr fun u _ => ?_
    rw [e]; simp
  · exact List.filter_congr fun u _ => e _
  · change Beyond (chunkMergerExtract cap merged upper frontier).1 q ↔ _
    rw [h1, beyond_acExtend]
    change _ ↔ _ ∨ ∃ u ∈ (chunkMergerExtract cap merged upper frontier).2.2.flatten, _
    rw [h4]
    refine or_congr Iff.rfl ?_
    constructor
    · rintro ⟨f, hf, hq⟩
      obtain ⟨u, hu, rfl⟩ := List.mem_map.1 hf
      exact ⟨u, hu, hq⟩
    · rintro ⟨u, hu, hq⟩
      exact ⟨_, List.mem_map.2 ⟨u, hu, rfl⟩, hq⟩
  · change IsAntichainList (chunkMergerExtract cap merged upper frontier).1
    rw [h1]; exact isAntichain_acExtend _ _ hF

end extract

section batches
variable {D T R : Type*} [LinearOrder D] [Lattice T] [DecidableLE T] [DecidableEq T] [LinearOrder (Lin T)] [AddCommMonoid R] [DecidableEq R]

/-- A merger given fuel repeatedly: `none` if it panics; otherwise the merger, and the fuel each call left. -/
def ChunkBatchMerger.works (cap : Nat) (s1 s2 : ChunkBatch D T R) : List Int → ChunkBatchMerger D T R → Option (ChunkBatchMerger D T R × List Int)
  | [], m => some (m, [])
  | fuel :: fuels, m => do
    let r ← m.work cap s1 s2 fuel
    let r' ← ChunkBatchMerger.works cap s1 s2 fuels r.1
    some (r'.1, r.2 :: r'.2)

theorem ChunkBatchMerger.new_ok {cap : Nat} (b1 b2 : ChunkBatch D T R) (F : List T) : (ChunkBatchMerger.new b1 b2 F).Ok cap b1 b2 0 where
  full1 := by simp [Full, ChunkBatchMerger.new]
  full2 := by simp [Full, ChunkBatchMerger.new]
  suffix1 := by simp [ChunkBatchMerger.new]
  suffix2 := by simp [ChunkBatchMerger.new]
  fullm := by simp [Full, ChunkBatchMerger.new]
  count := by simp [ChunkBatchMerger.new]
  spent := by simp [ChunkBatchMerger.new]
  open' := fun _ => ⟨[], by simp [ChunkBatchMerger.new], by simp, by simp, settleOk_init cap, by
    simp only [ChunkBatchMerger.new, List.flatten_nil, List.append_nil]
    exact (consolidatedU_of_canon (v := ([] : Upds D T R)) (by simp [Consolidated])).symm⟩
  closed := fun h => by simp [ChunkBatchMerger.new] at h

/-- C37: merging any two consolidated batches, with times advanced to any frontier `F`, in any number of calls with any fuel: no call
panics; the fuel used is at most the number of updates of the two batches; and once a call leaves fuel, the merge is complete, so that
`done` succeeds with a maximally packed batch whose updates are the consolidation of those of the two batches with their times advanced by
`F`, and whose description goes from the meet of the lower frontiers to the join of the upper ones, compacted to `F`. -/
theorem C37_batch_merge {cap : Nat} (hcap : 0 < cap) {b1 b2 : ChunkBatch D T R} (f1 : Full b1.chunks) (f2 : Full b2.chunks)
    (c1 : Consolidated b1.chunks.flatten) (c2 : Consolidated b2.chunks.flatten) (F : List T) (fuels : List Int) :
    ∃ m lefts, (ChunkBatchMerger.new b1 b2 F).works cap b1 b2 fuels = some (m, lefts) ∧ lefts.length = fuels.length ∧
      fuels.sum - lefts.sum ≤ b1.len + b2.len ∧
      ((∃ left ∈ lefts, 0 < left) → m.doneOk = true ∧ Graded cap m.done.chunks ∧
        consolidateUpdates (retimed (fun t => advanceBy t F) (b1.chunks.flatten ++ b2.chunks.flatten)) = some m.done.chunks.flatten ∧
        m.done.description = ⟨acMeet b1.description.lower b2.description.lower, acJoin b1.description.upper b2.description.upper, F⟩) := by
  have hb1 : b1.Good := ⟨f1, c1⟩
  have hb2 : b2.Good := ⟨f2, c2⟩
  have key : ∀ (fuels : List Int) (m0 : ChunkBatchMerger D T R) (c : Nat), m0.Ok cap b1 b2 c →
      ∃ m lefts c', m0.works cap b1 b2 fuels = some (m, lefts) ∧ lefts.length = fuels.length ∧ m.Ok cap b1 b2 c' ∧
        fuels.sum - lefts.sum = (c' : Int) - c ∧ ((m0.complete = true ∨ ∃ left ∈ lefts, 0 < left) → m.complete = true) ∧
        m.frontier = m0.frontier ∧ m.lower = m0.lower ∧ m.upper = m0.upper := by
    intro fuels
    induction fuels with
    | nil => intro m0 c h; exact ⟨m0, [], c, rfl, rfl, h, by simp, by simp, rfl, rfl, rfl⟩
    | cons fuel fuels ih =>
      intro m0 c h
      obtain ⟨m1, left, c1', w1, w2, w3, w4, w5, w6, w7, w8⟩ := ChunkBatchMerger.work_spec hcap hb1 hb2 h fuel
      obtain ⟨m, lefts, c', k1, k2, k3, k4, k5, k6, k7, k8⟩ := ih m1 c1' w2
      refine ⟨m, left :: lefts, c', ?_, by simp [k2], k3, ?_, ?_, k6.trans w6, k7.trans w7, k8.trans w8⟩
      · simp [ChunkBatchMerger.works, w1, k1]
      · simp only [List.sum_cons]; omega
      · rintro (hc | ⟨l, hl, hp⟩)
        · refine k5 (.inl ?_)
          rw [ChunkBatchMerger.work, if_pos hc] at w1
          cases w1; exact hc
        · rcases List.mem_cons.1 hl with rfl | hl
          · exact k5 (.inl (w5 hp))
          · exact k5 (.inr ⟨l, hl, hp⟩)
  obtain ⟨m, lefts, c', k1, k2, k3, k4, k5, k6, k7, k8⟩ := key fuels _ 0 (ChunkBatchMerger.new_ok b1 b2 F)
  refine ⟨m, lefts, k1, k2, ?_, fun hl => ?_⟩
  · have h1 := k3.spent
    have e : ∀ b : ChunkBatch D T R, b.len = b.chunks.flatten.length := fun b => by simp [ChunkBatch.len]
    rw [e, e]; omega
  · obtain ⟨q1, q2, q3, q4⟩ := k3.closed (k5 (.inr hl))
    refine ⟨?_, q3, ?_, ?_⟩
    · rw [ChunkBatchMerger.doneOk, q1, q2]
      simp only [List.isEmpty_nil, Bool.true_and, List.all_eq_true]
      intro c hc
      simpa using (q3.size c hc).1
    · rw [ChunkBatchMerger.done, consolidateUpdates_eq]
      change _ = some m.settled.flatten
      rw [q4, k6]
      exact congrArg some (advanced_congr F fun d t => by rw [total_append, total_flatMerge])
    · rw [ChunkBatchMerger.done, k6, k7, k8]; rfl

end batches

/-! ## The hypotheses are met -/

section examples

/-- Deliveries of chunks smaller and greater than the target. -/
def exampleDeliveries : List (Chain Nat Nat Int) :=
  [[[(1, 0, 1)], [(2, 0, 1), (2, 1, 1)]], [], [[(3, 0, 1), (3, 1, 1), (3, 2, 1), (4, 0, 1), (5, 0, 1), (6, 0, 1), (7, 0, 1)]], [[(8, 0, 1)]]]

example : (∀ more ∈ exampleDeliveries, Full more) ∧
    ((chunkSettle 3 (settleRun 3 exampleDeliveries).1 true (settleRun 3 exampleDeliveries).2).2.map List.length) = [3, 3, 3, 2] ∧
    isGraded 3 (exampleDeliveries.flatten) = false := by
  refine ⟨?_, ?_, ?_⟩
  · unfold Full; decide +kernel
  · decide +kernel
  · decide +kernel

def exampleChunks1 : ChunkBatch Nat Nat Int := ⟨[[(1, 0, 1), (1, 2, 1)], [(1, 3, -2), (3, 1, 1)]], ⟨[0], [4], [0]⟩⟩
def exampleChunks2 : ChunkBatch Nat Nat Int := ⟨[[(1, 4, 1)], [(2, 5, 1), (3, 4, -1)]], ⟨[4], [6], [0]⟩⟩

example : Full exampleChunks1.chunks ∧ Full exampleChunks2.chunks ∧ Consolidated exampleChunks1.chunks.flatten ∧
    Consolidated exampleChunks2.chunks.flatten := by
  refine ⟨?_, ?_, ?_, ?_⟩
  · unfold Full; decide +kernel
  · unfold Full; decide +kernel
  · exact ⟨by decide +kernel, by decide +kernel⟩
  · exact ⟨by decide +kernel, by decide +kernel⟩

set_option synthInstance.maxSize 2000 in
/-- The merge, in steps of fuel 3: with frontier 4 the times before 4 become 4, and all but two of the updates cancel or coalesce. -/
example : ((ChunkBatchMerger.new exampleChunks1 exampleChunks2 [4]).works 2 exampleChunks1 exampleChunks2 [3, 3, 3]).map
    (fun r => (r.1.doneOk, r.1.done.chunks, r.2)) = some (true, [[(1, 4, 1), (2, 5, 1)]], [-3, 2, 3]) := by
  decide +kernel

example : (chunkMergerMerge 2 exampleChunks1.chunks exampleChunks2.chunks) =
    some [[(1, 0, 1), (1, 2, 1)], [(1, 3, -2), (1, 4, 1)], [(2, 5, 1), (3, 1, 1)], [(3, 4, -1)]] := by
  decide +kernel

set_option synthInstance.maxSize 2000 in
example : chunkMergerExtract 2 exampleChunks1.chunks [2] [] = ([2], [[(1, 0, 1), (3, 1, 1)]], [[(1, 2, 1), (1, 3, -2)]]) := by
  decide +kernel

end examples

end DD
