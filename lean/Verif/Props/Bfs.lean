import Verif.Proofs.Bfs
import Verif.Proofs.Synchronous
import Verif.Proofs.TimeOrd

/-!
# C50: breadth-first distances
-/

namespace DD
variable {N T : Type*} [LinearOrder N] [PartialOrder T] [DecidableLE T] [DecidableEq T] {F : BfsFlow N T} {edges : Nat → Upds (N × N) T Int} {roots : Nat → Upds N T Int}

open Classical in
/-- Once the edges and the roots are complete for a time, the output comes to be complete for it, and it is each node that can be reached from a root, once, with its distance. The
iteration stops after at most as many rounds as there are edges. -/
theorem C50_bfs (h : F.Runs edges roots) {n0 : Nat} {t : T} (sE : Settled edges n0 t) (sR : Settled roots n0 t) (nnE : ∀ t', t' ≤ t → ∀ e, 0 ≤ accum (edges n0) e t')
    (nnR : ∀ t', t' ≤ t → ∀ r, 0 ≤ accum (roots n0) r t') (hm : (upTo t (edges n0)).length + 1 < 2 ^ 32) :
    (∀ n, ∀ u ∈ (F.result n).upds, u.2.1.1 ≤ t → u.2.1.2 ≤ (upTo t (edges n0)).length) ∧
    ∃ n, Settled F.out n t ∧ ∀ x d, accum (F.out n) (x, d) t =
      if IsDistance (fun a b => 0 < accum (edges n0) (a, b) t) (fun r => 0 < accum (roots n0) r t) x d then 1 else 0 := by
  set m := (upTo t (edges n0)).length with hmd
  have hlen : ∀ t', t' ≤ t → (collectionAt (edges n0) t').length ≤ m := by
    intro t' ht'
    unfold collectionAt
    rw [List.length_map, hmd]
    unfold upTo
    rw [← List.countP_eq_length_filter, ← List.countP_eq_length_filter]
    refine List.countP_mono_left fun u _ hu => ?_
    simp only [decide_eq_true_eq] at hu ⊢
    exact hu.trans ht'
  have hEn : ∀ t', t' ≤ t → (collectionAt (edges n0) t').Nonneg := fun t' ht' e => by rw [weight_collectionAt]; exact nnE t' ht' e
  have hRn : ∀ t', t' ≤ t → (collectionAt (roots n0) t').Nonneg := fun t' ht' e => by rw [weight_collectionAt]; exact nnR t' ht' e
  have hmm : m ≤ maxRound := by unfold maxRound; omega
  have final : ∀ t', t' ≤ t → ∀ i, m ≤ i → i ≤ maxRound →
      Holds (fun n => (F.result n).upds) (t', i) (bfsIter (collectionAt (edges n0) t') (collectionAt (roots n0) t') (m + 1)) := by
    intro t' ht' i hi hi'
    refine (bfs_holds h (sE.holds ht') (sR.holds ht') i hi').2.same fun ⟨x, d⟩ => ?_
    have hl := hlen t' ht'
    rw [bfs_iter_final (hEn t' ht') (hRn t' ht') (by omega) (by omega), bfs_iter_final (hEn t' ht') (hRn t' ht') (by omega) (by omega)]
  have hstop := tidy_stops h.loop.produces h.loop.rounds h.tidy final
  refine ⟨hstop, ?_⟩
  obtain ⟨n, h1, h2⟩ := leave_holds hstop (final t le_rfl m le_rfl hmm)
  refine ⟨n, h1, fun x d => ?_⟩
  rw [show accum (F.out n) (x, d) t = _ from h2 (x, d), bfs_iter_final (hEn t le_rfl) (hRn t le_rfl) (by have := hlen t le_rfl; omega) (hlen t le_rfl)]
  unfold edgesOf
  simp only [weight_collectionAt]

/-- And then it is right at each later moment too. -/
theorem C50_bfs_stays {n n' : Nat} {t : T} (h : Settled F.out n t) (hn : n ≤ n') (x : N) (d : Nat) : accum (F.out n') (x, d) t = accum (F.out n) (x, d) t := by
  classical
  rw [← accum_upTo, accum_perm (h n' hn), accum_upTo]

/-- Each graph that does not change has a run. -/
theorem C50_bfs_run_exists [OrderBot T] (E : Coll (N × N)) (R : Coll N) (hE : E.Nonneg) (hR : R.Nonneg) (hm : E.length + 1 < 2 ^ 32) :
    ∃ F : BfsFlow N T, F.Runs (fun n => (constant E n).upds) (fun n => (constant R n).upds) := by
  have hfix : ∀ i, E.length ≤ i → Coll.Same (bfsIter E R (i + 1 + 1)) (bfsIter E R (i + 1)) := by
    rintro i hi ⟨x, d⟩
    classical
    rw [bfs_iter_final hE hR hm (by omega), bfs_iter_final hE hR hm hi]
  obtain ⟨recv, hrun, hrecv⟩ := steps_loop (T := T) (R.map fun x => (x, 0)) (fun i => bfsIter E R (i + 1)) (M := E.length) (by unfold maxRound; omega) hfix
  have hrecv' : ∀ t i, Holds recv (t, i) (bfsIter E R i) := by
    rintro t (_ | i)
    · exact hrecv t 0
    · exact hrecv t (i + 1)
  let nodes := R.map fun x => (x, 0)
  let joined : Nat → Coll (N × Nat) := fun i => Coll.join_core (fun _ l d => [(d, addU32 l 1)]) (bfsIter E R i) E
  refine ⟨⟨constant nodes, fun n => (steps (fun _ => E) n).upds, fun n => (steps (fun _ => nodes) n).upds, recv, fun n => (steps joined n).upds,
    fun n => (steps (fun i => (joined i).concat nodes) n).upds, steps fun i => bfsIter E R (i + 1)⟩, ?_, constant_timed _, hrun, ?_, ?_, ?_, ?_, ?_, ?_⟩
  · exact op1_of_constant (fun t => holds_constant R t) (fun t => holds_constant nodes t) (fun _ _ h => h.map _) (Coll.Same.refl _)
  · exact enters_of_rounds (fun t => holds_constant E t) (fun t i => holds_steps _ t i)
  · exact enters_of_rounds (fun t => holds_constant nodes t) (fun t i => holds_steps _ t i)
  · exact op2_of_rounds hrecv' (fun t i => holds_steps (fun _ => E) t i) (fun t i => holds_steps _ t i) (fun _ _ _ _ h h' => h.join_core h' _) (fun _ => Coll.Same.refl _)
  · exact op2_of_rounds (fun t i => holds_steps joined t i) (fun t i => holds_steps (fun _ => nodes) t i) (fun t i => holds_steps _ t i) (fun _ _ _ _ h h' => h.concat h') (fun _ => Coll.Same.refl _)
  · exact op1_of_rounds (fun t i => holds_steps (fun i => (joined i).concat nodes) t i) (fun t i => holds_steps _ t i) (fun _ _ h => h.reduce _) (fun _ => Coll.Same.refl _)
  · exact tidy_steps _

section examples

/-- A cycle with a shortcut, a doubled edge, and a node that cannot be reached. -/
private def exEdges : Coll (Nat × Nat) := [((1, 2), 1), ((2, 3), 1), ((3, 4), 1), ((4, 1), 1), ((1, 3), 2), ((9, 1), 1)]

example : bfsIter exEdges [(1, 1)] 1 = [((2, 1), 1), ((3, 1), 1), ((1, 0), 1)] := by decide +kernel
example : bfsIter exEdges [(1, 1)] 3 = [((4, 2), 1), ((2, 1), 1), ((3, 1), 1), ((1, 0), 1)] := by decide +kernel

/-- The theorem applies to it. -/
example : ∃ (F : BfsFlow Nat Nat) (n : Nat), F.Runs (fun n => (constant exEdges n).upds) (fun n => (constant [(1, 1)] n).upds) ∧ Settled F.out n 5 ∧ accum (F.out n) (4, 2) 5 = 1 := by
  classical
  have nn : ∀ c : Coll (Nat × Nat), (∀ x ∈ c, 0 ≤ x.2) → c.Nonneg := by
    intro c h d
    induction c with
    | nil => exact le_rfl
    | cons x c ih =>
      rw [weight_cons]
      have := ih fun y hy => h y (List.mem_cons_of_mem _ hy)
      have := h x List.mem_cons_self
      split_ifs <;> omega
  have hE : exEdges.Nonneg := nn _ (by decide)
  have hR : Coll.Nonneg [((1 : Nat), (1 : Int))] := by
    intro d
    rw [weight_cons]
    split_ifs <;> simp
  obtain ⟨F, hF⟩ := C50_bfs_run_exists (T := Nat) exEdges [(1, 1)] hE hR (by decide)
  obtain ⟨-, n, h1, h2⟩ := C50_bfs hF (n0 := 0) (t := 5) (fun _ _ => List.Perm.refl _) (fun _ _ => List.Perm.refl _)
    (fun t' _ e => by rw [upds_constant, accum_stamp, if_pos bot_le]; exact hE e) (fun t' _ e => by rw [upds_constant, accum_stamp, if_pos bot_le]; exact hR e) (by decide)
  refine ⟨F, n, hF, h1, ?_⟩
  have e := bfs_iter_final hE hR (by decide) (i := 6) (by decide) 4 2
  rw [h2 4 2]
  have a1 : ∀ e, accum (constant (T := Nat) exEdges 0).upds e 5 = weight exEdges e := fun e => by rw [upds_constant, accum_stamp, if_pos bot_le]
  have a2 : ∀ e, accum (constant (T := Nat) [((1 : Nat), (1 : Int))] 0).upds e 5 = weight [(1, 1)] e := fun e => by rw [upds_constant, accum_stamp, if_pos bot_le]
  refine Eq.trans (if_congr (Iff.of_eq ?_) rfl rfl) (e.symm.trans (by decide +kernel))
  have e1 : (fun a b => 0 < accum (constant (T := Nat) exEdges 0).upds (a, b) 5) = edgesOf exEdges := funext fun a => funext fun b => congrArg (0 < ·) (a1 (a, b))
  have e2 : (fun r => 0 < accum (constant (T := Nat) [((1 : Nat), (1 : Int))] 0).upds r 5) = fun r => 0 < weight [((1 : Nat), (1 : Int))] r := funext fun a => congrArg (0 < ·) (a2 a)
  exact congrArg₂ (fun x y => IsDistance x y 4 2) e1 e2

end examples
end DD
