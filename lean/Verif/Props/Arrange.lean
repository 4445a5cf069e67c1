import Verif.Proofs.Arrange
import Verif.Proofs.TimeOrd
import Mathlib.Order.Nat

/-!
# Property C22: arrangements of streams
-/

namespace DD
variable {D T R : Type*} [LinearOrder D] [PartialOrder T] [OrderBot T] [LinearOrder (Lin T)] [AddCommMonoid R] [DecidableEq R] [DecidableLE T] [DecidableEq T]

private theorem total_tile_zero {lo hi : List T} {bs : List (ArrBatch D T R)} (h : ArrTiles lo bs hi) (d : D) (t : T)
    (ht : Beyond hi t ∨ ¬ Beyond lo t) : total (bs.flatMap ArrBatch.upds) d t = 0 := by
  by_contra hne
  obtain ⟨r, hr⟩ := total_ne_zero_mem hne
  rcases ht with ht | ht
  · exact h.complete _ hr ht
  · clear hne
    induction bs generalizing lo with
    | nil => simp at hr
    | cons b bs ih =>
      obtain ⟨a1, a2, a3, a4, a5, a6, a7⟩ := h
      rw [List.flatMap_cons, List.mem_append] at hr
      rcases hr with hr | hr
      · exact ht ((beyond_perm a1 t).2 (a5 _ hr).1)
      · exact ih a7 hr fun hb => ht ((beyond_perm a1 t).2 (a2 t hb))

/-- C22. However messages and frontiers arrive, and wherever the chunker is found to be full, the operator does not panic. The batches it inserts into the trace tile
time from the minimum to the input frontier. They hold exactly the updates received at completed times. All but some empty ones are sent, in order, each with
one capability in the batch's interval and no later than any of its updates. -/
theorem C22_arrange (cap : Nat) (hcap : 0 < cap) (acts : List (ArrAct D T R)) (hl : LegalArr [⊥] acts) :
    ∃ s, ArrState.init.run cap acts = some s ∧ ArrTiles [⊥] s.writer.trace (arrFrontier [⊥] acts) ∧ ArrSent s.sent s.writer.trace ∧
      (∀ b ∈ s.writer.trace, b.desc.since = [⊥]) ∧
      ∀ d t, (¬ Beyond (arrFrontier [⊥] acts) t → total (s.writer.trace.flatMap ArrBatch.upds) d t = total (arrReceived acts) d t) ∧
        (Beyond (arrFrontier [⊥] acts) t → total (s.writer.trace.flatMap ArrBatch.upds) d t = 0) := by
  obtain ⟨s, h1, h2⟩ := ArrInv.run hcap acts ArrInv.init hl
  rw [List.nil_append] at h2
  have ht : ArrTiles [⊥] s.writer.trace (arrFrontier [⊥] acts) := h2.tiles.permRight h2.upper
  refine ⟨s, h1, ht, h2.sent, h2.since, fun d t => ⟨fun hb => ?_, fun hb => total_tile_zero ht d t (Or.inl hb)⟩⟩
  rw [h2.sum]
  by_cases hz : total (held s.batcher.chains) d t + total s.chunker.retained d t = 0
  · rw [hz, add_zero]
  · obtain ⟨c, hc, hct⟩ := h2.pending d t hz
    exact absurd (beyond_mono (h2.capsF c hc) hct) hb

/-- C22: each batch holds exactly the updates received at the times in its own interval. -/
theorem C22_batch (cap : Nat) (hcap : 0 < cap) (acts : List (ArrAct D T R)) (hl : LegalArr [⊥] acts) (s : ArrState D T R)
    (hs : ArrState.init.run cap acts = some s) (b : ArrBatch D T R) (hb : b ∈ s.writer.trace) (d : D) (t : T)
    (h1 : Beyond b.desc.lower t) (h2 : ¬ Beyond b.desc.upper t) : total b.upds d t = total (arrReceived acts) d t := by
  obtain ⟨s', g1, g2, -, -, g5⟩ := C22_arrange cap hcap acts hl
  rw [hs] at g1; cases g1
  have key : ∀ (bs : List (ArrBatch D T R)) (lo hi : List T), ArrTiles lo bs hi → b ∈ bs →
      ¬ Beyond hi t ∧ total (bs.flatMap ArrBatch.upds) d t = total b.upds d t := by
    intro bs
    induction bs with
    | nil => simp
    | cons a bs ih =>
      intro lo hi h hm
      obtain ⟨a1, a2, a3, a4, a5, a6, a7⟩ := h
      rw [List.flatMap_cons, total_append]
      rcases List.mem_cons.1 hm with rfl | hm
      · exact ⟨fun hbt => h2 (a7.le t hbt), by rw [total_tile_zero a7 d t (Or.inr h2), add_zero]⟩
      · obtain ⟨i1, i2⟩ := ih _ _ a7 hm
        refine ⟨i1, ?_⟩
        have hal : Beyond a.desc.upper t := by
          clear i1 i2 ih a5 a6 a2 a3 a4 a1
          generalize a.desc.upper = u at a7
          induction bs generalizing u with
          | nil => simp at hm
          | cons c bs ih =>
            obtain ⟨c1, c2, -, -, -, -, c7⟩ := a7
            rcases List.mem_cons.1 hm with rfl | hm
            · exact (beyond_perm c1 t).2 h1
            · exact (beyond_perm c1 t).2 (c2 t (ih (by simp [hm]) hm _ c7))
        have hz : total a.upds d t = 0 := by
          by_contra hne
          obtain ⟨r, hr⟩ := total_ne_zero_mem hne
          exact (a5 _ hr).2 hal
        rw [hz, zero_add, i2]
  obtain ⟨k1, k2⟩ := key _ _ _ g2 hb
  rw [← k2]
  exact (g5 d t).1 k1

/-- C22: at every completed time the trace accumulates to what was received. -/
theorem C22_accumulation (cap : Nat) (hcap : 0 < cap) (acts : List (ArrAct D T R)) (hl : LegalArr [⊥] acts) (s : ArrState D T R)
    (hs : ArrState.init.run cap acts = some s) (d : D) (q : T) (hq : ¬ Beyond (arrFrontier [⊥] acts) q) :
    accum (s.writer.trace.flatMap ArrBatch.upds) d q = accum (arrReceived acts) d q := by
  obtain ⟨s', g1, g2, -, -, g5⟩ := C22_arrange cap hcap acts hl
  rw [hs] at g1; cases g1
  have hf : ∀ us : Upds D T R, accum us d q = accum (us.filter fun u => decide (u.2.1 ≤ q)) d q := by
    intro us
    induction us with
    | nil => rfl
    | cons u us ih =>
      rw [accum_cons, ih]
      by_cases h : u.2.1 ≤ q
      · rw [List.filter_cons_of_pos (by simpa using h), accum_cons]
      · rw [List.filter_cons_of_neg (by simpa using h), if_neg (fun hc => h hc.2), zero_add]
  rw [hf, hf (arrReceived acts)]
  refine accum_of_total (fun d t => ?_) d q
  rw [total_filter _ (fun t => decide (t ≤ q)), total_filter _ (fun t => decide (t ≤ q))]
  by_cases h : t ≤ q
  · simp only [h, decide_true, if_true]
    exact (g5 d t).1 fun hb => hq (beyond_mono hb h)
  · simp [h]

/-! ### Non-vacuity: partially ordered times, a frontier with two elements, and two capabilities retired by one frontier advance -/

private def demo : List (ArrAct Nat (Nat × Nat) Int) :=
  [⟨[((0, 1), [((7, (0, 1), 1), false), ((8, (0, 2), 1), true)]), ((1, 0), [((7, (1, 0), 1), false), ((7, (1, 0), 1), false), ((9, (1, 1), -1), false)])], [(0, 1), (1, 0)]⟩,
   ⟨[((0, 3), [((9, (0, 3), 1), false)])], [(0, 2), (2, 0)]⟩,
   ⟨[], []⟩]

example : LegalArr [⊥] demo := by
  simp [demo, LegalArr, IsAntichainList, Beyond]
  refine ⟨⟨fun a b c d => ⟨?_, ?_⟩, ?_⟩, ?_⟩ <;> omega

example : (ArrState.init.run 4 demo).map (fun s => s.sent.flatMap fun x => x.2.upds.map fun u => (x.1, u)) = some
    [((0, 1), 7, (0, 1), 1), ((1, 0), 7, (1, 0), 2), ((1, 0), 9, (1, 1), -1), ((0, 2), 8, (0, 2), 1), ((0, 2), 9, (0, 3), 1)] := by
  decide +kernel

example : (ArrState.init.run 4 demo).map (fun s => s.writer.trace.map fun b => b.desc.upper) = some
    [[(0, 1), (1, 0)], [(0, 2), (1, 0)], [(0, 2), (2, 0)], []] := by
  decide +kernel

end DD
