import Verif.Proofs.SpineRun
import Verif.Proofs.OrdValSpine
import Verif.Proofs.OrdKeySpine
import Mathlib.Order.Nat

/-!
# Properties C14–C17: the fueled merging spine

First for every batch type that meets the contract `BatchLaws`, then for key-value and key-only batches.
-/

namespace DD

section
variable {B M T D R : Type*} [PartialOrder T] [OrderBot T] [DecidableLE T] [DecidableEq T] [AddCommMonoid R] {ops : BatchOps B M T}
  (L : BatchLaws ops D R)

theorem run_spine (effort : Nat) (os : List (Spine.Op B T)) (hleg : Spine.Legal L [⊥] [⊥] [⊥] os)
    (hlen : (((Spine.inserted ops [⊥] os).map ops.len).sum : Int) < isizeMax) :
    ∃ s', (Spine.init effort : Spine B M T).run ops os = some s' ∧ SpineInv L s' (Spine.inserted ops [⊥] os) (Spine.introduced ops os) ∧
      Stuck ops s' := by
  obtain ⟨s', h1, h2, h3⟩ := spine_run_inv (L := L) os (SpineInv.init effort) (by intro b hb; simp [Spine.init] at hb)
    (frontierLe_refl _) (frontierLe_refl _) hleg hlen
  rw [List.nil_append, Nat.zero_add] at h2
  exact ⟨s', h1, h2, h3⟩

/-- C14: from an empty spine with any effort, no legal sequence of insertions, compaction changes, exertions, and direct calls of
`introduce_batch(None, _)` and `apply_fuel` panics. In particular no layer receives a third batch and no merge fails to complete when it must.
The only bound is that fewer than `isize::MAX` updates are inserted. -/
theorem C14_no_panic (effort : Nat) (os : List (Spine.Op B T)) (hleg : Spine.Legal L [⊥] [⊥] [⊥] os)
    (hlen : (((Spine.inserted ops [⊥] os).map ops.len).sum : Int) < isizeMax) :
    ∃ s, (Spine.init effort : Spine B M T).run ops os = some s := by
  obtain ⟨s, h, -⟩ := run_spine L effort os hleg hlen
  exact ⟨s, h⟩

private theorem contiguous_of_contig {lo hi : List T} {l : List B} (h : Contig ops lo l hi) (hok : ∀ b ∈ l, L.Ok b) (hlo : lo.Nodup) :
    Spine.Contiguous ops lo l hi := by
  induction l generalizing lo with
  | nil => exact h
  | cons b l ih =>
    exact ⟨perm_of_acEq h.1 hlo, ih h.2 (fun x hx => hok x (List.mem_cons_of_mem _ hx))
      (nodup_of_isAntichain (L.upper_antichain b (hok b List.mem_cons_self)))⟩

/-- C15: after any legal sequence of calls, the batches a spine exposes are contiguous from the minimum frontier to its upper, and at every
time beyond the logical compaction frontier (and beyond any frontier to which inserted batches were already compacted) their accumulation
equals that of the inserted batches. -/
theorem C15_contents (effort : Nat) (os : List (Spine.Op B T)) (hleg : Spine.Legal L [⊥] [⊥] [⊥] os)
    (hlen : (((Spine.inserted ops [⊥] os).map ops.len).sum : Int) < isizeMax) (s : Spine B M T)
    (hs : (Spine.init effort : Spine B M T).run ops os = some s) :
    Spine.Contiguous ops [⊥] s.mapBatches s.upper ∧ s.upper.Perm (Spine.boundary ops (Spine.inserted ops [⊥] os)) ∧
    ∀ d q, Beyond s.logical_frontier q → (∀ b ∈ Spine.inserted ops [⊥] os, Beyond (L.since b) q) →
      (s.mapBatches.map fun b => L.acc b d q).sum = ((Spine.inserted ops [⊥] os).map fun b => L.acc b d q).sum := by
  obtain ⟨s', h, hinv, -⟩ := run_spine L effort os hleg hlen
  rw [hs] at h; cases h
  have hco := hinv.mapBatches
  exact ⟨contiguous_of_contig L (hco.contig hinv.contig) (hco.ok hinv.ok) (List.nodup_singleton _), contig_boundary hinv.contig,
    fun d q hq hb => (hco.acc hq hb d).2⟩

/-- C16: `batches_through(F)` succeeds for each frontier `F` between inserted batches that is not before the physical compaction frontier of a
spine that is not fully compacted; the batches inserted before `F` are exactly those whose upper is at or before `F`; and the result
accumulates, at times beyond the logical compaction frontier, as those batches do. -/
theorem C16_batches_through (effort : Nat) (os : List (Spine.Op B T)) (hleg : Spine.Legal L [⊥] [⊥] [⊥] os)
    (hlen : (((Spine.inserted ops [⊥] os).map ops.len).sum : Int) < isizeMax) (s : Spine B M T)
    (hs : (Spine.init effort : Spine B M T).run ops os = some s) (before after : List B)
    (hsplit : Spine.inserted ops [⊥] os = before ++ after) (F : List T) (hF : F.Perm (Spine.boundary ops before))
    (hphys : FrontierLe s.physical_frontier F) (hlog : s.logical_frontier ≠ []) :
    (∀ b ∈ before, FrontierLe (ops.upper b) F) ∧ (∀ b ∈ after, ¬ FrontierLe (ops.upper b) F) ∧
    ∃ bs, s.batchesThrough ops F = some bs ∧
      ∀ d q, Beyond s.logical_frontier q → (∀ b ∈ before, Beyond (L.since b) q) →
        (bs.map fun b => L.acc b d q).sum = (before.map fun b => L.acc b d q).sum := by
  obtain ⟨s', h, hinv, -⟩ := run_spine L effort os hleg hlen
  rw [hs] at h; cases h
  obtain ⟨b1, b2, -⟩ := hinv.boundary hsplit
  exact ⟨fun b hb => (b1 b hb).trans (frontierLe_of_perm hF.symm), fun b hb hc => (b2 b hb).2 (hc.trans (frontierLe_of_perm hF)),
    hinv.through hsplit hF hphys hlog⟩

/-- C17: the number of batches a spine exposes, apart from those inserted batches that the physical compaction frontier does not yet allow to be
merged, is at most `2 (1 + log₂ N)`, where `N` counts four for each inserted update (or unit of exerted effort) and two for each insertion. -/
theorem C17_logarithmic (effort : Nat) (os : List (Spine.Op B T)) (hleg : Spine.Legal L [⊥] [⊥] [⊥] os)
    (hlen : (((Spine.inserted ops [⊥] os).map ops.len).sum : Int) < isizeMax) (s : Spine B M T)
    (hs : (Spine.init effort : Spine B M T).run ops os = some s) :
    s.merging.length ≤ 1 + Nat.log 2 (Spine.introduced ops os) ∧
    s.mapBatches.length ≤ 2 * (1 + Nat.log 2 (Spine.introduced ops os)) +
      ((Spine.inserted ops [⊥] os).filter fun b => !acLe (ops.upper b) s.physical_frontier).length := by
  obtain ⟨s', h, hinv, hst⟩ := run_spine L effort os hleg hlen
  rw [hs] at h; cases h
  have h1 : s.merging.length ≤ 1 + Nat.log 2 (Spine.introduced ops os) := by
    by_cases h0 : s.merging.length = 0
    · omega
    · have h2 := hinv.top.layers h0
      have h3 := hinv.weight
      have := Nat.le_log_of_pow_le (b := 2) (by omega) (show 2 ^ (s.merging.length - 1) ≤ Spine.introduced ops os by omega)
      omega
  refine ⟨h1, ?_⟩
  rw [Spine.mapBatches, mapBatches_eq, List.length_append, hinv.pending_eq hst]
  have := length_chain_le (lay s.merging) s.merging.length
  omega

end

/-! ### Key-value and key-only batches -/

section
variable {K V T R : Type*} [LinearOrder K] [LinearOrder V] [DecidableEq T] [Lattice T] [OrderBot T] [DecidableLE T] [LinearOrder (Lin T)]
  [AddCommMonoid R] [DecidableEq R]

/-- C14 for spines of key-value batches. -/
theorem C14_val (effort : Nat) (os : List (Spine.Op (ValBatch K V T R) T)) (hleg : Spine.Legal ValBatch.laws [⊥] [⊥] [⊥] os)
    (hlen : ((((Spine.inserted ValBatch.ops [⊥] os).map ValBatch.updates).sum : Nat) : Int) < isizeMax) :
    ∃ s, (Spine.init effort).run ValBatch.ops os = some s := C14_no_panic ValBatch.laws effort os hleg hlen

/-- C14 for spines of key-only batches. -/
theorem C14_key (effort : Nat) (os : List (Spine.Op (KeyBatch K T R) T)) (hleg : Spine.Legal KeyBatch.laws [⊥] [⊥] [⊥] os)
    (hlen : ((((Spine.inserted KeyBatch.ops [⊥] os).map KeyBatch.updates).sum : Nat) : Int) < isizeMax) :
    ∃ s, (Spine.init effort).run KeyBatch.ops os = some s := C14_no_panic KeyBatch.laws effort os hleg hlen

/-- C15 for spines of key-value batches, read by their cursors. -/
theorem C15_val (effort : Nat) (os : List (Spine.Op (ValBatch K V T R) T)) (hleg : Spine.Legal ValBatch.laws [⊥] [⊥] [⊥] os)
    (hlen : ((((Spine.inserted ValBatch.ops [⊥] os).map ValBatch.updates).sum : Nat) : Int) < isizeMax) (s : Spine (ValBatch K V T R) (ValMerger K V T R) T)
    (hs : (Spine.init effort).run ValBatch.ops os = some s) (d : K ×ₗ V) (q : T) (hq : Beyond s.logical_frontier q)
    (hsince : ∀ b ∈ Spine.inserted ValBatch.ops [⊥] os, Beyond b.description.since q) :
    (s.mapBatches.map fun b => b.acc d q).sum = ((Spine.inserted ValBatch.ops [⊥] os).map fun b => b.acc d q).sum :=
  (C15_contents ValBatch.laws effort os hleg hlen s hs).2.2 d q hq hsince

/-- C15 for spines of key-only batches, read by their cursors. -/
theorem C15_key (effort : Nat) (os : List (Spine.Op (KeyBatch K T R) T)) (hleg : Spine.Legal KeyBatch.laws [⊥] [⊥] [⊥] os)
    (hlen : ((((Spine.inserted KeyBatch.ops [⊥] os).map KeyBatch.updates).sum : Nat) : Int) < isizeMax) (s : Spine (KeyBatch K T R) (KeyMerger K T R) T)
    (hs : (Spine.init effort).run KeyBatch.ops os = some s) (d : K) (q : T) (hq : Beyond s.logical_frontier q)
    (hsince : ∀ b ∈ Spine.inserted KeyBatch.ops [⊥] os, Beyond b.description.since q) :
    (s.mapBatches.map fun b => b.acc d q).sum = ((Spine.inserted KeyBatch.ops [⊥] os).map fun b => b.acc d q).sum :=
  (C15_contents KeyBatch.laws effort os hleg hlen s hs).2.2 d q hq hsince

end

/-! ### Non-vacuity -/

private def keyBatch (lower upper : Nat) (us : Upds Nat Nat Int) : KeyBatch Nat Nat Int :=
  (KeyBatch.build [us] ⟨[lower], [upper], [0]⟩).getD (KeyBatch.empty [lower] [upper])

private def calls : List (Spine.Op (KeyBatch Nat Nat Int) Nat) :=
  [.insert (keyBatch 0 1 [(1, 0, 1), (2, 0, 1), (3, 0, 1)]), .setPhysical [1],
   .insert (keyBatch 1 2 [(1, 1, -1)]), .setPhysical [2], .setLogical [1],
   .insert (keyBatch 2 3 []), .insert (keyBatch 3 4 [(2, 3, -1), (4, 3, 1)]), .setPhysical [4],
   .exert (some 2), .insert (keyBatch 4 5 [(5, 4, 1)]), .close]

private theorem keyBatch_reachable (lower upper : Nat) (us : Upds Nat Nat Int) (h : Consolidated us) :
    ReachableKeyBatch (keyBatch lower upper us) ∧ (keyBatch lower upper us).description = ⟨[lower], [upper], [0]⟩ := by
  obtain ⟨b, h1, -, -, h4⟩ := C09_key_round_trip [us] ⟨[lower], [upper], [0]⟩ (by simpa using h)
  have hb : keyBatch lower upper us = b := by rw [keyBatch, h1]; rfl
  rw [hb]
  exact ⟨.built [us] _ b (by simpa using h) h1, h4⟩

private theorem keyBatch_legal (lower upper : Nat) (us : Upds Nat Nat Int) (h : Consolidated us) (hlt : lower < upper) :
    (KeyBatch.laws (K := Nat) (T := Nat) (R := Int)).Ok (keyBatch lower upper us) ∧
    (KeyBatch.ops.lower (keyBatch lower upper us)).Perm [lower] ∧
    ¬ (KeyBatch.ops.lower (keyBatch lower upper us)).Perm (KeyBatch.ops.upper (keyBatch lower upper us)) ∧
    FrontierLe (KeyBatch.ops.lower (keyBatch lower upper us)) (KeyBatch.ops.upper (keyBatch lower upper us)) ∧
    KeyBatch.ops.upper (keyBatch lower upper us) = [upper] := by
  obtain ⟨h1, h2⟩ := keyBatch_reachable lower upper us h
  have hl : KeyBatch.ops.lower (keyBatch lower upper us) = [lower] := by show (keyBatch lower upper us).description.lower = _; rw [h2]
  have hu : KeyBatch.ops.upper (keyBatch lower upper us) = [upper] := by show (keyBatch lower upper us).description.upper = _; rw [h2]
  refine ⟨⟨h1, ?_, ?_⟩, ?_, ?_, ?_, hu⟩
  · show IsAntichainList (KeyBatch.ops.lower (keyBatch lower upper us)); rw [hl]; exact List.pairwise_singleton _ _
  · show IsAntichainList (KeyBatch.ops.upper (keyBatch lower upper us)); rw [hu]; exact List.pairwise_singleton _ _
  · rw [hl]
  · rw [hl, hu]; intro hp; have := List.perm_singleton.mp hp; simp at this; omega
  · rw [hl, hu]
    rintro q ⟨f, hf, hq⟩
    simp only [List.mem_singleton] at hf
    subst hf
    exact ⟨lower, by simp, by omega⟩

/-- The calls are legal. -/
example : Spine.Legal (KeyBatch.laws (K := Nat) (T := Nat) (R := Int)) [⊥] [⊥] [⊥] calls := by
  have le1 : ∀ {a b : Nat}, a ≤ b → FrontierLe [a] [b] := by
    rintro a b hab q ⟨f, hf, hq⟩
    simp only [List.mem_singleton] at hf
    subst hf
    exact ⟨a, by simp, by omega⟩
  unfold calls
  obtain ⟨a1, a2, a3, a4, a5⟩ := keyBatch_legal 0 1 [(1, 0, 1), (2, 0, 1), (3, 0, 1)] (by unfold Consolidated; decide +kernel) (by omega)
  obtain ⟨b1, b2, b3, b4, b5⟩ := keyBatch_legal 1 2 [(1, 1, -1)] (by unfold Consolidated; decide +kernel) (by omega)
  obtain ⟨c1, c2, c3, c4, c5⟩ := keyBatch_legal 2 3 [] (by unfold Consolidated; decide +kernel) (by omega)
  obtain ⟨d1, d2, d3, d4, d5⟩ := keyBatch_legal 3 4 [(2, 3, -1), (4, 3, 1)] (by unfold Consolidated; decide +kernel) (by omega)
  obtain ⟨e1, e2, e3, e4, e5⟩ := keyBatch_legal 4 5 [(5, 4, 1)] (by unfold Consolidated; decide +kernel) (by omega)
  refine ⟨a1, a2, a3, a4, le1 (by decide), b1, by rw [a5]; exact b2, b3, b4, le1 (by omega), le1 (by decide), c1, by rw [b5]; exact c2, c3, c4,
    d1, by rw [c5]; exact d2, d3, d4, le1 (by omega), e1, by rw [d5]; exact e2, e3, e4, trivial⟩

/-- They leave merges in progress, a batch and the closing batch pending, at time 4 all eight updates have been accounted for. -/
example : ((Spine.init 1).run KeyBatch.ops calls).map (fun s => (s.mapBatches.map (fun b => b.updates), s.pending.length, s.merging.length))
    = some ([3, 1, 2, 1, 0], 2, 3) := by decide +kernel
example : ((Spine.init 1).run KeyBatch.ops calls).map (fun s => (s.mapBatches.map fun b => b.acc 1 4).sum) = some 0 := by decide +kernel
example : ((Spine.init 1).run KeyBatch.ops calls).map (fun s => (s.mapBatches.map fun b => b.acc 4 4).sum) = some 1 := by decide +kernel
/-- A cursor through the boundary 4 excludes the pending batches. -/
example : ((Spine.init 1).run KeyBatch.ops calls).bind (fun s => (s.batchesThrough KeyBatch.ops [4]).map fun bs => (bs.map fun b => b.acc 5 4).sum)
    = some 0 := by decide +kernel

end DD
