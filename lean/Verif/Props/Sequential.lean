import Verif.Proofs.SequentialFlow
import Verif.Proofs.Colors
import Mathlib.Tactic.IntervalCases

/-!
# C58: sequential graph algorithms
-/

namespace DD
variable {N V T : Type*} [LinearOrder N] [LinearOrder V] [PartialOrder T] [DecidableLE T] [DecidableEq T] {F : SequenceFlow N V T} {logic : N → List (V × Int) → V}
  {state : Nat → Upds (N × V) T Int} {edges : Nat → Upds (N × N) T Int} {n0 : Nat} {t : T} {S : Finset N}

open Classical in
/-- Once the states and edges are complete for a time, so is the output in the end. Each node with an edge from another is in it once, with a new state, and nothing else is. The new state is what the logic makes
of the node's neighbours, which are given sorted, each value once, with its multiplicity: the new states of the smaller ones, and the old states of the larger ones. -/
theorem C58_sequence (h : F.Runs logic state edges) (H : SequenceInput state edges n0 t S) (hmax : S.card < maxRound) :
    ∃ n, Settled F.out n t ∧ ∃ new : N → V,
      (∀ m x, accum (F.out n) (m, x) t = if Addressed (collectionAt (edges n0) t) m ∧ x = some (new m) then 1 else 0) ∧
      ∀ m, Addressed (collectionAt (edges n0) t) m → ∃ vs, ConsolidatedPairs vs ∧
        (∀ v, weight vs v = weight (heard (collectionAt (edges n0) t) (collectionAt (state n0) t) new m) v) ∧ new m = logic m vs := by
  obtain ⟨n, h1, h2⟩ := sequence_out h H hmax
  obtain ⟨new, h3, h4⟩ := weight_seqIter logic (H.nonneg t le_rfl) (H.nonneg' t le_rfl) (H.connected t le_rfl) (H.mem t le_rfl) (show S.card < S.card + 2 by omega)
  refine ⟨n, h1, new, fun m x => by rw [h2, h4], fun m hm => ⟨_, ?_, fun v => Coll.weight_consolidate _ v, h3 m hm⟩⟩
  rw [Coll.consolidate_def]
  exact consolidatedPairs_consolidated _

omit [LinearOrder N] [LinearOrder V] [DecidableEq T] in
/-- And then it is right at each later moment too. -/
theorem C58_stays [DecidableEq N] [DecidableEq V] {out : Nat → Upds (N × Option V) T Int} {n n' : Nat} (h : Settled out n t) (hn : n ≤ n') (x : N × Option V) : accum (out n') x t = accum (out n) x t :=
  h.mono hn le_rfl |>.accum_eq h x

/-- The loop stops. -/
theorem C58_stops (h : F.Runs logic state edges) (H : SequenceInput state edges n0 t S) : ∀ n, ∀ u ∈ (F.result n).upds, u.2.1.1 ≤ t → u.2.1.2 ≤ S.card + 1 := sequence_stops h H

/-- States and edges that do not change have a run. -/
theorem C58_run_exists [OrderBot T] (logic : N → List (V × Int) → V) (s : Coll (N × V)) (e : Coll (N × N)) (hs : s.Nonneg) (he : e.Nonneg) (hc : Connected s e) (hmax : e.length < maxRound - 1) :
    ∃ F : SequenceFlow N V T, F.Runs logic (fun n => (constant s n).upds) fun n => (constant e n).upds := by
  simp only [upds_constant]
  have hS : ∀ x, weight e x ≠ 0 → x.1 ∈ (List.map (fun x => x.1.1) e).toFinset := fun x hx => by
    obtain ⟨y, hy⟩ := Coll.exists_of_weight hx
    exact List.mem_toFinset.2 (List.mem_map.2 ⟨_, hy, rfl⟩)
  have hl : (List.map (fun x => x.1.1) e).toFinset.card ≤ e.length := le_trans (List.toFinset_card_le _) (by rw [List.length_map])
  exact sequence_static (stages_constant (T := T)) logic (A := fun _ => s) (E := fun _ => e) (represents_constant s) (represents_constant e) (m := (List.map (fun x => x.1.1) e).toFinset.card + 1)
    (fun _ i hi => seqIter_stable logic hs he hc hS hi) (by omega)

omit [DecidableEq T] in
private theorem collectionAt_constant {D : Type*} [DecidableEq D] [OrderBot T] (c : Coll D) (n : Nat) (t : T) : collectionAt (constant c n).upds t = c := by
  rw [upds_constant]
  simp [collectionAt, upTo, stamp, List.filter_map, Function.comp_def]

omit [DecidableEq T] in
private theorem settled_constant {D : Type*} [DecidableEq D] [OrderBot T] (c : Coll D) (t : T) : Settled (fun n => (constant c n).upds) 0 t := fun _ _ => by
  simp only [upds_constant]
  exact List.Perm.refl _

/-- A node that no other has an edge to is not taken, and neither are those that wait for it: with the states of two nodes, and an edge from the smaller to the larger, the output is empty. -/
theorem C58_unaddressed [OrderBot T] {F : SequenceFlow Nat V T} {logic : Nat → List (V × Int) → V} {a b : V} (h : F.Runs logic (fun n => (constant [((1, a), 1), ((2, b), 1)] n).upds) fun n => (constant [((1, 2), 1)] n).upds)
    (t : T) : ∃ n, Settled F.out n t ∧ ∀ x, accum (F.out n) x t = 0 := by
  have h1 : seqIter logic [((1, a), 1), ((2, b), 1)] [((1, 2), 1)] 1 = [((2, none), 1)] := by
    rw [seqIter, seqIter, seqRound, show seqMessages [((1, a), 1), ((2, b), 1)] [((1, 2), 1)] (noStates [((1, a), 1), ((2, b), 1)]) = [] from rfl,
      show sendForward (noStates [((1, a), 1), ((2, b), 1)]) [((1, 2), 1)] = [((2, none), 1)] from rfl]
    rfl
  have h2 : ∀ i, seqIter logic [((1, a), 1), ((2, b), 1)] [((1, 2), 1)] (i + 2) = [] := by
    intro i
    induction i with
    | zero => rw [seqIter, h1]; rfl
    | succ i ih => rw [seqIter, ih]; rfl
  obtain ⟨n, h3, h4⟩ := leave_holds (m := 2) (sequence_stops_of h (settled_constant _ t) (settled_constant _ t) fun t' _ i hi => by
    obtain ⟨i, rfl⟩ : ∃ j, i = j + 2 := ⟨i - 2, by omega⟩
    rw [collectionAt_constant, collectionAt_constant, h2, h2 0]
    exact Coll.Same.refl _) (sequence_holds h ((settled_constant _ t).holds le_rfl) ((settled_constant _ t).holds le_rfl) 2 (by unfold maxRound; omega)).2.2.2
  refine ⟨n, h3, fun x => (h4 x).trans ?_⟩
  rw [collectionAt_constant, collectionAt_constant, h2 1]
  rfl

open Classical in
/-- `_color`: when edges go both ways, nodes with an edge between them get different colors. Colors are positive, and the smallest such that smaller neighbours do not have (other than the initial color). -/
theorem C58_color {out : Nat → Upds (N × Option Nat) T Int} (h : Colors edges out) (sE : Settled edges n0 t) (hE : ∀ t', t' ≤ t → ∀ x, 0 ≤ accum (edges n0) x t')
    (hsym : ∀ t', t' ≤ t → ∀ a b, accum (edges n0) (a, b) t' = accum (edges n0) (b, a) t') (hmax : (edges n0).length < maxRound) :
    ∃ n, Settled out n t ∧ ∃ color : N → Nat,
      (∀ a x, accum (out n) (a, x) t = if (∃ b, b ≠ a ∧ 0 < accum (edges n0) (a, b) t) ∧ x = some (color a) then 1 else 0) ∧
      (∀ a b, a ≠ b → 0 < accum (edges n0) (a, b) t → color a ≠ color b) ∧
      ∀ b, (∃ a, a ≠ b ∧ 0 < accum (edges n0) (b, a) t) → 1 ≤ color b ∧ ∀ j, 1 ≤ j → j < color b → j = maxU32 ∨ ∃ a, a < b ∧ 0 < accum (edges n0) (a, b) t ∧ color a = j := by
  obtain ⟨start, F, hst, hF, rfl⟩ := h
  obtain ⟨n1, s1, s2⟩ := hst t _ (sE.holds le_rfl)
  set M := max n0 n1
  have sE' : Settled edges M t := sE.mono (le_max_left _ _) le_rfl
  have sS' : Settled start M t := s1.mono (le_max_right _ _) le_rfl
  have hacc : ∀ t', t' ≤ t → ∀ x, accum (edges M) x t' = accum (edges n0) x t' := fun t' ht' x => (sE.mono (le_max_left n0 n1) ht').accum_eq (sE.mono le_rfl ht') x
  have hsame : ∀ t', t' ≤ t → Coll.Same (collectionAt (start M) t') (bogusColors (collectionAt (edges M) t')) := fun t' ht' => (sS'.holds ht').unique (hst t' _ (sE'.holds ht'))
  have hnn : ∀ t', t' ≤ t → (collectionAt (edges M) t').Nonneg := fun t' ht' x => by
    rw [weight_collectionAt, hacc t' ht']
    exact hE t' ht' x
  have hsy : ∀ t', t' ≤ t → ∀ a b, weight (collectionAt (edges M) t') (a, b) = weight (collectionAt (edges M) t') (b, a) := fun t' ht' a b => by
    rw [weight_collectionAt, weight_collectionAt, hacc t' ht', hacc t' ht', hsym t' ht']
  have hadd : ∀ a, Addressed (collectionAt (edges M) t) a ↔ ∃ b, b ≠ a ∧ 0 < accum (edges n0) (a, b) t := fun a => by
    refine exists_congr fun b => and_congr_right fun _ => ?_
    rw [hsy t le_rfl, weight_collectionAt, hacc t le_rfl]
  have H : SequenceInput start edges M t ((edges n0).map fun u => u.1.1).toFinset := by
    refine ⟨sS', sE', fun t' ht' x => ?_, fun t' ht' x => ?_, fun t' ht' a b hne he => ?_, fun u hu hut => ?_⟩
    · rw [← weight_collectionAt, hsame t' ht' x]
      exact bogusColors_nonneg _ x
    · rw [hacc t' ht']
      exact hE t' ht' x
    · obtain ⟨⟨v, hv⟩, h2⟩ := connected_colors (hnn t' ht') (hsy t' ht') a b hne he
      exact ⟨⟨v, (hsame t' ht' (a, v)).symm ▸ hv⟩, h2⟩
    · have : u ∈ upTo t (edges n0) := (sE M (le_max_left _ _)).mem_iff.1 (List.mem_filter.2 ⟨hu, decide_eq_true hut⟩)
      exact List.mem_toFinset.2 (List.mem_map.2 ⟨u, (List.mem_filter.1 this).1, rfl⟩)
  obtain ⟨n, h1, color, h2, h3⟩ := C58_sequence hF H (lt_of_le_of_lt (List.toFinset_card_le _) (by rwa [List.length_map]))
  have hc := colors_proper (hnn t le_rfl) (hsy t le_rfl) (color := color) fun m hm => by
    obtain ⟨vs, v1, v2, v3⟩ := h3 m hm
    rw [v3]
    congr 1
    refine consolidatedPairs_unique v1 (by rw [Coll.consolidate_def]; exact consolidatedPairs_consolidated _) fun v => ?_
    rw [v2, Coll.weight_consolidate, weight_heard, weight_heard]
    congr 1
    funext e
    unfold hears
    rw [hsame t le_rfl]
  refine ⟨n, h1, color, fun a x => ?_, fun a b hne he => ?_, fun b hb => ?_⟩
  · rw [h2]
    exact if_congr (and_congr_left fun _ => hadd a) rfl rfl
  · exact hc.2 a b hne (by rw [weight_collectionAt, hacc t le_rfl]; exact he)
  · obtain ⟨c1, c2⟩ := hc.1 b ((hadd b).2 hb)
    refine ⟨c1, fun j hj hj' => (c2 j hj hj').imp id fun ⟨a, ha, he, e⟩ => ⟨a, ha, ?_, e⟩⟩
    rwa [weight_collectionAt, hacc t le_rfl] at he

/-- Edges that do not change, and go both ways, have a run. -/
theorem C58_color_run_exists [OrderBot T] (e : Coll (N × N)) (he : e.Nonneg) (hsym : ∀ a b, weight e (a, b) = weight e (b, a)) (hmax : e.length < maxRound - 1) :
    ∃ out : Nat → Upds (N × Option Nat) T Int, Colors (fun n => (constant e n).upds) out := by
  obtain ⟨F, hF⟩ := C58_run_exists (T := T) (fun _ vals => firstAbsent 1 vals) (bogusColors e) e (bogusColors_nonneg e) he (connected_colors he hsym) hmax
  refine ⟨F.out, _, F, ?_, hF, rfl⟩
  simp only [upds_constant]
  exact op1_static (represents_constant e) (represents_constant _) (fun _ _ h => (h.map _).distinct) fun _ => Coll.Same.refl _

section examples

/-- A triangle, with a further node connected to one of its nodes. -/
private def exEdges : Coll (Nat × Nat) := [((1, 2), 1), ((2, 1), 1), ((1, 3), 1), ((3, 1), 1), ((2, 3), 1), ((3, 2), 1), ((3, 4), 1), ((4, 3), 1)]

private theorem ex_sym (a b : Nat) : weight exEdges (a, b) = weight exEdges (b, a) := by
  have key : ∀ a < 5, ∀ b < 5, weight exEdges (a, b) = weight exEdges (b, a) := by decide +kernel
  by_cases h : a < 5 ∧ b < 5
  · exact key a h.1 b h.2
  · have hz : ∀ a b, ¬ (a < 5 ∧ b < 5) → weight exEdges (a, b) = 0 := fun a b h => by
      by_contra hn
      obtain ⟨r, hr⟩ := Coll.exists_of_weight hn
      have : ∀ x ∈ exEdges, x.1.1 < 5 ∧ x.1.2 < 5 := by decide
      exact h (this _ hr)
    rw [hz a b h, hz b a fun e => h e.symm]

private theorem ex_nonneg : exEdges.Nonneg := fun x => by
  have : ∀ c : Coll (Nat × Nat), (∀ y ∈ c, 0 ≤ y.2) → 0 ≤ weight c x := fun c hc => by
    induction c with
    | nil => exact le_rfl
    | cons y c ih =>
      rw [weight_cons]
      have := ih fun y hy => hc y (List.mem_cons_of_mem _ hy)
      have := hc y List.mem_cons_self
      split_ifs <;> omega
  exact this _ (by decide)

open Classical in
/-- There is a run, and the colors are 1, 2, 3 and 1. -/
example : ∃ out : Nat → Upds (Nat × Option Nat) Nat Int, Colors (fun n => (constant exEdges n).upds) out ∧ ∃ n, Settled out n 5 ∧
    accum (out n) (1, some 1) 5 = 1 ∧ accum (out n) (2, some 2) 5 = 1 ∧ accum (out n) (3, some 3) 5 = 1 ∧ accum (out n) (4, some 1) 5 = 1 ∧ accum (out n) (4, some 3) 5 = 0 ∧ accum (out n) (5, some 1) 5 = 0 := by
  obtain ⟨out, h⟩ := C58_color_run_exists (T := Nat) exEdges ex_nonneg ex_sym (by unfold maxRound; decide +kernel)
  have hc : ∀ t x, accum (constant (T := Nat) exEdges 0).upds x t = weight exEdges x := fun t x => by rw [upds_constant, accum_stamp, if_pos bot_le]
  obtain ⟨n, h1, color, h2, h3, h4⟩ := C58_color (n0 := 0) (t := 5) h (settled_constant _ _) (fun t _ x => by rw [hc]; exact ex_nonneg x) (fun t _ a b => by rw [hc, hc]; exact ex_sym a b)
    (by unfold maxRound; decide +kernel)
  simp only [hc] at h3 h4
  have h2 : ∀ a x, accum (out n) (a, x) 5 = if (∃ b, b ≠ a ∧ 0 < weight exEdges (a, b)) ∧ x = some (color a) then 1 else 0 := fun a x => by
    rw [h2]
    simp only [hc]
  have hb : ∀ b < 5, 1 ≤ b → ∃ a, a ≠ b ∧ 0 < weight exEdges (b, a) := by
    have : ∀ b < 5, 1 ≤ b → ∃ a < 5, a ≠ b ∧ 0 < weight exEdges (b, a) := by decide +kernel
    exact fun b h h' => (this b h h').imp fun _ h => h.2
  have up : ∀ b < 5, 1 ≤ b → ∀ k, 1 ≤ k → k < 4 → (∀ a < b, 0 < weight exEdges (a, b) → color a ≠ k) → color b ≤ k := by
    intro b hb1 hb2 k hk hk' hno
    by_contra hc
    rcases (h4 b (hb b hb1 hb2)).2 k hk (by omega) with e | ⟨a, ha, hw, e⟩
    · unfold maxU32 at e
      omega
    · exact hno a ha hw e
  have g := fun b h h' => (h4 b (hb b h h')).1
  have c1 : color 1 = 1 := le_antisymm (up 1 (by decide) (by decide) 1 (by decide) (by decide) fun a ha hw => absurd hw (by interval_cases a; decide)) (g 1 (by decide) (by decide))
  have n12 := h3 1 2 (by decide) (by decide)
  have n13 := h3 1 3 (by decide) (by decide)
  have n23 := h3 2 3 (by decide) (by decide)
  have c2 : color 2 = 2 := by
    have := up 2 (by decide) (by decide) 2 (by decide) (by decide) (fun a ha hw => by
      interval_cases a
      · exact absurd hw (by decide)
      · omega)
    have := g 2 (by decide) (by decide)
    omega
  have c3 : color 3 = 3 := by
    have := up 3 (by decide) (by decide) 3 (by decide) (by decide) (fun a ha hw => by
      interval_cases a
      · exact absurd hw (by decide)
      · omega
      · omega)
    have := g 3 (by decide) (by decide)
    omega
  have c4 : color 4 = 1 := by
    refine le_antisymm (up 4 (by decide) (by decide) 1 (by decide) (by decide) fun a ha hw => ?_) (g 4 (by decide) (by decide))
    interval_cases a
    · exact absurd hw (by decide)
    · exact absurd hw (by decide)
    · exact absurd hw (by decide)
    · omega
  refine ⟨out, h, n, h1, ?_, ?_, ?_, ?_, ?_, ?_⟩
  · rw [h2, if_pos ⟨hb 1 (by decide) (by decide), by rw [c1]⟩]
  · rw [h2, if_pos ⟨hb 2 (by decide) (by decide), by rw [c2]⟩]
  · rw [h2, if_pos ⟨hb 3 (by decide) (by decide), by rw [c3]⟩]
  · rw [h2, if_pos ⟨hb 4 (by decide) (by decide), by rw [c4]⟩]
  · rw [h2, if_neg fun e => by rw [c4] at e; exact absurd e.2 (by decide)]
  · rw [h2, if_neg]
    rintro ⟨⟨b, -, hw⟩, -⟩
    obtain ⟨r, hr⟩ := Coll.exists_of_weight hw.ne'
    exact absurd ((by decide : ∀ x ∈ exEdges, x.1.1 < 5) _ hr) (Nat.lt_irrefl 5)

end examples

end DD
