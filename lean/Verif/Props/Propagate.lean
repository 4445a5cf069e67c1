import Verif.Proofs.PropagateRun
import Verif.Proofs.TimeOrd

/-!
# C51: label propagation
-/

namespace DD
variable {N L T : Type*} [LinearOrder N] [LinearOrder L] [PartialOrder T] [DecidableLE T] [DecidableEq T] {F : PropagateFlow N L T} {logic : L → Nat}
  {edges : Nat → Upds (N × N) T Int} {nodes out : Nat → Upds (N × L) T Int}

private theorem length_collectionAt_le (us : Upds (N × N) T Int) {t t' : T} (h : t' ≤ t) : (collectionAt us t').length ≤ (upTo t us).length := by
  unfold collectionAt
  rw [List.length_map]
  unfold upTo
  rw [← List.countP_eq_length_filter, ← List.countP_eq_length_filter]
  refine List.countP_mono_left fun u _ hu => ?_
  simp only [decide_eq_true_eq] at hu ⊢
  exact hu.trans h

open Classical in
/-- Once the edges and the labelled nodes are complete for a time, the output comes to be complete for it, and it is each node that can be reached from a labelled node, once, with the
least label from which it can be reached. Whatever `logic` says about when to introduce labels, the outcome is the same. -/
theorem C51_propagate (h : PropagatesAt logic edges nodes out) {n0 : Nat} {t : T} (sE : Settled edges n0 t) (sN : Settled nodes n0 t) (nnE : ∀ e, 0 ≤ accum (edges n0) e t)
    (nnN : ∀ r, 0 ≤ accum (nodes n0) r t) (hm : 16384 + (upTo t (edges n0)).length ≤ maxRound) :
    ∃ n, Settled out n t ∧ ∀ x l, accum (out n) (x, l) t =
      if IsLeastLabel (fun a b => 0 < accum (edges n0) (a, b) t) (fun m l => 0 < accum (nodes n0) (m, l) t) x l then 1 else 0 := by
  obtain ⟨F, hF, rfl⟩ := h
  obtain ⟨n, h1, h2⟩ := propagate_out hF (sE.holds le_rfl) (sN.holds le_rfl)
  refine ⟨n, h1, fun x l => ?_⟩
  rw [h2 (x, l), labelIter_final (fun e => by rw [weight_collectionAt]; exact nnE e) (fun e => by rw [weight_collectionAt]; exact nnN e) (mem_support _)
    (le_trans (Nat.add_le_add_left ((card_support _).trans (length_collectionAt_le _ le_rfl)) _) hm)]
  unfold edgesOf
  simp only [weight_collectionAt]

/-- The iteration stops: there are no updates in rounds past the latest in which a label may be introduced by more than the number of edges. -/
theorem C51_propagate_stops (h : F.Runs logic edges nodes) {n0 : Nat} {t : T} (sE : Settled edges n0 t) (sN : Settled nodes n0 t) (nnE : ∀ t', t' ≤ t → ∀ e, 0 ≤ accum (edges n0) e t')
    (nnN : ∀ t', t' ≤ t → ∀ r, 0 ≤ accum (nodes n0) r t') (n : Nat) :
    ∀ u ∈ (F.labels n).upds, u.2.1.1 ≤ t → u.2.1.2 ≤ 16384 + (upTo t (edges n0)).length := by
  classical
  refine tidy_stops (X := fun t' => labelIter logic (collectionAt (edges n0) t') (collectionAt (nodes n0) t') (16384 + (upTo t (edges n0)).length)) h.grow h.rounds h.tidy
    (fun t' ht' i hi hi' => ?_) n
  refine (propagate_holds h (sE.holds ht') (sN.holds ht') i hi').same fun ⟨x, l⟩ => ?_
  have hc : 16384 + (support (collectionAt (edges n0) t')).card ≤ 16384 + (upTo t (edges n0)).length :=
    Nat.add_le_add_left ((card_support _).trans (length_collectionAt_le _ ht')) _
  have e1 : (collectionAt (edges n0) t').Nonneg := fun e => by rw [weight_collectionAt]; exact nnE t' ht' e
  have e2 : (collectionAt (nodes n0) t').Nonneg := fun e => by rw [weight_collectionAt]; exact nnN t' ht' e
  rw [labelIter_final e1 e2 (mem_support _) (hc.trans hi), labelIter_final e1 e2 (mem_support _) hc]

/-- And then it is right at each later moment too. -/
theorem C51_propagate_stays {n n' : Nat} {t : T} (h : Settled out n t) (hn : n ≤ n') (r : N × L) : accum (out n') r t = accum (out n) r t := by
  rw [← accum_upTo, accum_perm (h n' hn), accum_upTo]

/-- Each labelled graph that does not change has a run. -/
theorem C51_propagate_run_exists [OrderBot T] (logic : L → Nat) (E : Coll (N × N)) (M : Coll (N × L)) (hE : E.Nonneg) (hM : M.Nonneg) (hm : 16384 + E.length < maxRound) :
    ∃ vs : Upds (N × L) T Int, PropagatesAt logic (fun _ => stamp (⊥ : T) E) (fun _ => stamp ⊥ M) fun _ => vs := by
  obtain ⟨vs, h, -⟩ := propagate_static (stages_constant (T := T)) logic (E := fun _ => E) (M := fun _ => M) (represents_constant E) (represents_constant M) (fun _ => hE) (fun _ => hM)
    (B := 16384 + E.length) (S := support E) (fun _ => mem_support E) (Nat.add_le_add_left (card_support E) _) hm
  exact ⟨vs, h⟩

section examples

/-- Two components, one of them with a cycle; labels are introduced late if they are large. -/
private def exEdges : Coll (Nat × Nat) := [((1, 2), 1), ((2, 3), 1), ((3, 1), 2), ((3, 4), 1), ((5, 6), 1)]
private def exNodes : Coll (Nat × Nat) := [((2, 7), 1), ((3, 5), 1), ((5, 9), 1), ((6, 2), 1), ((8, 1), 3)]

example : labelIter (fun _ => 0) exEdges exNodes 0 = [((2, 7), 1), ((3, 5), 1), ((5, 9), 1), ((6, 2), 1), ((8, 1), 1)] := by decide +kernel
example : labelIter (fun _ => 0) exEdges exNodes 3 = [((1, 5), 1), ((4, 5), 1), ((2, 5), 1), ((3, 5), 1), ((5, 9), 1), ((6, 2), 1), ((8, 1), 1)] := by decide +kernel
example : introduceAt (fun l => l) (3, 5) = 768 ∧ introduceAt (fun l => l) (3, 0) = 0 := by decide +kernel

private theorem nonneg_of_records {D : Type*} [DecidableEq D] (c : Coll D) (h : ∀ x ∈ c, 0 ≤ x.2) : c.Nonneg := by
  intro d
  induction c with
  | nil => exact le_rfl
  | cons x c ih =>
    rw [weight_cons]
    have := ih fun y hy => h y (List.mem_cons_of_mem _ hy)
    have := h x List.mem_cons_self
    split_ifs <;> omega

/-- The theorem applies to it: node 2 gets the label of node 3. -/
example : ∃ (vs : Upds (Nat × Nat) Nat Int), PropagatesAt (fun l => l) (fun _ => stamp 0 exEdges) (fun _ => stamp 0 exNodes) (fun _ => vs) ∧ accum vs (2, 5) 4 = 1 ∧ accum vs (2, 7) 4 = 0 := by
  classical
  have hE : exEdges.Nonneg := nonneg_of_records _ (by decide)
  have hM : exNodes.Nonneg := nonneg_of_records _ (by decide)
  obtain ⟨vs, h⟩ := C51_propagate_run_exists (T := Nat) (fun l => l) exEdges exNodes hE hM (by decide)
  obtain ⟨n, -, h2⟩ := C51_propagate h (n0 := 0) (t := 4) (fun _ _ => List.Perm.refl _) (fun _ _ => List.Perm.refl _)
    (fun e => by rw [accum_stamp, if_pos bot_le]; exact hE e) (fun e => by rw [accum_stamp, if_pos bot_le]; exact hM e) (by decide)
  have a1 : ∀ e, accum (stamp (⊥ : Nat) exEdges) e 4 = weight exEdges e := fun e => by rw [accum_stamp, if_pos bot_le]
  have a2 : ∀ e, accum (stamp (⊥ : Nat) exNodes) e 4 = weight exNodes e := fun e => by rw [accum_stamp, if_pos bot_le]
  have key : IsLeastLabel (fun a b => 0 < accum (stamp (⊥ : Nat) exEdges) (a, b) 4) (fun m l => 0 < accum (stamp (⊥ : Nat) exNodes) (m, l) 4) 2 5 := by
    simp only [a1, a2]
    have hw : ∀ a b, 0 < weight exEdges (a, b) → (a, b) ∈ [(1, 2), (2, 3), (3, 1), (3, 4), (5, 6)] := by
      intro a b hab
      obtain ⟨r, hr⟩ := Coll.exists_of_weight hab.ne'
      simp only [exEdges, List.mem_cons, Prod.mk.injEq, List.not_mem_nil, or_false] at hr ⊢
      omega
    refine ⟨⟨3, by decide, 2, .snoc (.snoc .nil (by decide : 0 < weight exEdges (3, 1))) (by decide : 0 < weight exEdges (1, 2))⟩, fun m l' hm ⟨p, hp⟩ => ?_⟩
    have hback : ∀ p y, Walk (fun a b => 0 < weight exEdges (a, b)) m p y → y = 1 ∨ y = 2 ∨ y = 3 → m = 1 ∨ m = 2 ∨ m = 3 := by
      intro p y hp
      induction hp with
      | nil => exact id
      | snoc _ he ih =>
        intro hy
        have := hw _ _ he
        simp only [List.mem_cons, Prod.mk.injEq, List.not_mem_nil, or_false] at this
        exact ih (by omega)
    have hm' := hback p 2 hp (by simp)
    obtain ⟨r, hr⟩ := Coll.exists_of_weight hm.ne'
    simp only [exNodes, List.mem_cons, Prod.mk.injEq, List.not_mem_nil, or_false] at hr
    omega
  refine ⟨vs, h, (h2 2 5).trans (if_pos key), (h2 2 7).trans (if_neg fun h => ?_)⟩
  have w1 : 0 < accum (stamp (⊥ : Nat) exEdges) (3, 1) 4 := by rw [a1]; decide
  have w2 : 0 < accum (stamp (⊥ : Nat) exEdges) (1, 2) 4 := by rw [a1]; decide
  have w3 : 0 < accum (stamp (⊥ : Nat) exNodes) (3, 5) 4 := by rw [a2]; decide
  have := h.2 3 5 w3 ⟨2, .snoc (.snoc .nil w1) w2⟩
  omega

end examples
end DD
