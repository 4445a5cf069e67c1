import Verif.Proofs.BijkstraRun
import Verif.Proofs.TimeOrd

/-!
# C53: bidirectional search
-/

namespace DD
variable {N T : Type*} [LinearOrder N] [PartialOrder T] [DecidableLE T] [DecidableEq T] {edges goals : Nat → Upds (N × N) T Int} {out : Nat → Upds ((N × N) × Nat) T Int}

private theorem length_collectionAt_le (us : Upds (N × N) T Int) {t t' : T} (h : t' ≤ t) : (collectionAt us t').length ≤ (upTo t us).length := by
  unfold collectionAt
  rw [List.length_map]
  unfold upTo
  rw [← List.countP_eq_length_filter, ← List.countP_eq_length_filter]
  refine List.countP_mono_left fun u _ hu => ?_
  simp only [decide_eq_true_eq] at hu ⊢
  exact hu.trans h

open Classical in
/-- Once the edges and the goals are complete for a time, the output comes to be complete for it, and it is each goal whose target can be reached from its source, as often as the goal is
present, with the distance from the source to the target; goals whose target cannot be reached are absent. -/
theorem C53_bidijkstra (h : Bidijkstra edges goals out) {n0 : Nat} {t : T} (sE : Settled edges n0 t) (sG : Settled goals n0 t) (nnE : ∀ e, 0 ≤ accum (edges n0) e t)
    (nnG : ∀ g, 0 ≤ accum (goals n0) g t) (hm : 2 * (upTo t (edges n0)).length + 1 < 2 ^ 32) :
    ∃ n, Settled out n t ∧ ∀ src dst d, accum (out n) ((src, dst), d) t =
      if IsDistance (fun a b => 0 < accum (edges n0) (a, b) t) (fun r => r = src) dst d then accum (goals n0) (src, dst) t else 0 := by
  obtain ⟨F, reverse, hr, hF, rfl⟩ := h
  obtain ⟨n, h1, h2⟩ := bidi_out hF (sE.holds le_rfl) (hr _ _ (sE.holds le_rfl)) (sG.holds le_rfl)
  refine ⟨n, h1, fun src dst d => ?_⟩
  have hl := length_collectionAt_le (edges n0) (le_refl t)
  have := bidi_final (E := collectionAt (edges n0) t) (G := collectionAt (goals n0) t) (fun e => by rw [weight_collectionAt]; exact nnE e) (fun e => by rw [weight_collectionAt]; exact nnG e)
    (by omega) (i := maxRound) (by unfold maxRound; omega) src dst d
  rw [h2 ((src, dst), d)]
  refine this.trans ?_
  unfold edgesOf
  simp only [weight_collectionAt]

/-- And then it is right at each later moment too. -/
theorem C53_bidijkstra_stays {n n' : Nat} {t : T} (h : Settled out n t) (hn : n ≤ n') (r : (N × N) × Nat) : accum (out n') r t = accum (out n) r t := by
  rw [← accum_upTo, accum_perm (h n' hn), accum_upTo]

/-- The iteration stops: no variable changes in rounds past the number of edges plus one. -/
theorem C53_bidijkstra_stops {F : BidiFlow N T} {reverse : Nat → Upds (N × N) T Int} (hr : Op1 (Coll.map fun x => (x.2, x.1)) edges reverse) (h : F.Runs edges reverse goals) {n0 : Nat} {t : T}
    (sE : Settled edges n0 t) (sG : Settled goals n0 t) (nnE : ∀ t', t' ≤ t → ∀ e, 0 ≤ accum (edges n0) e t') (nnG : ∀ t', t' ≤ t → ∀ g, 0 ≤ accum (goals n0) g t')
    (hm : 2 * (upTo t (edges n0)).length + 1 < 2 ^ 32) (n : Nat) :
    (∀ u ∈ (F.forwardNext n).upds, u.2.1.1 ≤ t → u.2.1.2 ≤ (upTo t (edges n0)).length) ∧ ∀ u ∈ (F.reverseNext n).upds, u.2.1.1 ≤ t → u.2.1.2 ≤ (upTo t (edges n0)).length := by
  classical
  have hEn : ∀ t', t' ≤ t → (collectionAt (edges n0) t').Nonneg := fun t' ht' e => by rw [weight_collectionAt]; exact nnE t' ht' e
  have hGn : ∀ t', t' ≤ t → (collectionAt (goals n0) t').Nonneg := fun t' ht' e => by rw [weight_collectionAt]; exact nnG t' ht' e
  have hmax : (2 : Nat) ^ 32 < maxRound := by decide
  have key : ∀ t', t' ≤ t → ∀ i, (upTo t (edges n0)).length ≤ i → i ≤ maxRound →
      Holds (fun n => (F.forwardNext n).upds) (t', i) (bidiIter (collectionAt (edges n0) t') (reversed (collectionAt (edges n0) t')) (collectionAt (goals n0) t') ((upTo t (edges n0)).length + 1)).1 ∧
      Holds (fun n => (F.reverseNext n).upds) (t', i) (bidiIter (collectionAt (edges n0) t') (reversed (collectionAt (edges n0) t')) (collectionAt (goals n0) t') ((upTo t (edges n0)).length + 1)).2 := by
    intro t' ht' i hi hi'
    have hl := length_collectionAt_le (edges n0) ht'
    obtain ⟨h1, h2⟩ := bidi_next h (sE.holds ht') (hr _ _ (sE.holds ht')) (sG.holds ht') i hi'
    have hs := bidi_stable_le (hEn t' ht') (hGn t' ht') (by omega) (i := (upTo t (edges n0)).length + 1) (j := i + 1) (by omega) (by omega)
    exact ⟨h1.same hs.1.symm, h2.same hs.2.symm⟩
  exact ⟨tidy_stops h.forward.produces h.forward.rounds h.forwardTidy (fun t' ht' i hi hi' => (key t' ht' i hi hi').1) n,
    tidy_stops h.reverse.produces h.reverse.rounds h.reverseTidy (fun t' ht' i hi hi' => (key t' ht' i hi hi').2) n⟩

/-- Each graph and set of goals that do not change have a run. -/
theorem C53_bidijkstra_run_exists [OrderBot T] (E G : Coll (N × N)) (hE : E.Nonneg) (hG : G.Nonneg) (hm : 2 * E.length + 1 < 2 ^ 32) :
    ∃ out, Bidijkstra (fun _ => stamp (⊥ : T) E) (fun _ => stamp ⊥ G) out := by
  obtain ⟨F, hF⟩ := bidi_static (T := T) E G hE hG hm
  exact ⟨F.out, F, _, op1_static (represents_constant E) (represents_constant (reversed E)) (fun _ _ h => h.map _) fun _ => Coll.Same.refl _, hF, rfl⟩

section examples

/-- A cycle with a way out; goals that can be reached, one of them twice present, and one that cannot. -/
private def exEdges : Coll (Nat × Nat) := [((1, 2), 1), ((2, 3), 2), ((3, 4), 1), ((4, 1), 1), ((4, 5), 1), ((9, 1), 1)]
private def exGoals : Coll (Nat × Nat) := [((1, 5), 2), ((3, 2), 1), ((4, 4), 1), ((5, 1), 1)]

example : bidiReached exGoals (bidiIter exEdges (reversed exEdges) exGoals 0) = [(((4, 4), 0), 1)] := by decide +kernel
example : bidiReached exGoals (bidiIter exEdges (reversed exEdges) exGoals 3) = [(((1, 5), 4), 2), (((3, 2), 3), 1), (((4, 4), 0), 1)] := by decide +kernel

private theorem nonneg_of_records {D : Type*} [DecidableEq D] (c : Coll D) (h : ∀ x ∈ c, 0 ≤ x.2) : c.Nonneg := by
  intro d
  induction c with
  | nil => exact le_rfl
  | cons x c ih =>
    rw [weight_cons]
    have := ih fun y hy => h y (List.mem_cons_of_mem _ hy)
    have := h x List.mem_cons_self
    split_ifs <;> omega

/-- The theorem applies to it: the goal that is present twice is reported twice, with distance 4. -/
example : ∃ (out : Nat → Upds ((Nat × Nat) × Nat) Nat Int) (n : Nat), Bidijkstra (fun _ => stamp 0 exEdges) (fun _ => stamp 0 exGoals) out ∧ Settled out n 3 ∧ accum (out n) ((1, 5), 4) 3 = 2 := by
  classical
  have hE : exEdges.Nonneg := nonneg_of_records _ (by decide)
  have hG : exGoals.Nonneg := nonneg_of_records _ (by decide)
  obtain ⟨out, h⟩ := C53_bidijkstra_run_exists (T := Nat) exEdges exGoals hE hG (by decide)
  have a1 : ∀ e, accum (stamp (⊥ : Nat) exEdges) e 3 = weight exEdges e := fun e => by rw [accum_stamp, if_pos bot_le]
  have a2 : ∀ e, accum (stamp (⊥ : Nat) exGoals) e 3 = weight exGoals e := fun e => by rw [accum_stamp, if_pos bot_le]
  obtain ⟨n, h1, h2⟩ := C53_bidijkstra h (n0 := 0) (t := 3) (fun _ _ => List.Perm.refl _) (fun _ _ => List.Perm.refl _)
    (fun e => by rw [a1]; exact hE e) (fun e => by rw [a2]; exact hG e) (by decide)
  refine ⟨out, n, h, h1, ?_⟩
  have e := bidi_final hE hG (by decide) (i := 6) (by decide) 1 5 4
  rw [h2]
  have e1 : (fun a b => 0 < accum (stamp (⊥ : Nat) exEdges) (a, b) 3) = edgesOf exEdges := funext fun a => funext fun b => congrArg (0 < ·) (a1 (a, b))
  refine Eq.trans ?_ (e.symm.trans (by decide +kernel))
  exact if_congr (Iff.of_eq (congrArg (fun x => IsDistance x (fun r => r = 1) 5 4) e1)) (a2 (1, 5)) rfl

end examples
end DD
