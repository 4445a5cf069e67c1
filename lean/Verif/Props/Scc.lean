import Verif.Proofs.SccRun
import Verif.Proofs.TimeOrd

/-!
# C52: strongly connected components
-/

namespace DD
variable {N T : Type*} [LinearOrder N] [PartialOrder T] [DecidableLE T] [DecidableEq T] {logic : N → Nat} {graph : Nat → Msgs (N × N) T Int} {out : Nat → Upds (N × N) T Int}

open Classical in
/-- Once the graph is complete for a time, the output comes to be complete for it, and it is the edges both ends of which are in the same component, with their multiplicities. Whatever
`logic` says about when to introduce labels, the outcome is the same. -/
theorem C52_strongly_connected (h : StronglyConnectedAt logic graph out) {n0 : Nat} {t : T} (sE : Settled (fun n => (graph n).upds) n0 t) (nnE : ∀ e, 0 ≤ accum (graph n0).upds e t)
    (hm : 16384 + (upTo t (graph n0).upds).length ≤ maxRound) :
    ∃ n, Settled out n t ∧ ∀ a b, accum (out n) (a, b) t =
      if SameComponent (fun a b => 0 < accum (graph n0).upds (a, b) t) a b then accum (graph n0).upds (a, b) t else 0 := by
  obtain ⟨F, hF, rfl⟩ := h
  obtain ⟨n, h1, h2⟩ := scc_out hF (sE.holds le_rfl)
  refine ⟨n, h1, fun a b => ?_⟩
  have hl : (collectionAt (graph n0).upds t).length = (upTo t (graph n0).upds).length := by
    unfold collectionAt
    exact List.length_map _
  rw [h2 (a, b), sccIter_final (fun e => by rw [weight_collectionAt]; exact nnE e) (by rw [hl]; exact hm) (by rw [hl]; omega)]
  unfold edgesOf
  simp only [weight_collectionAt]

/-- And then it is right at each later moment too. -/
theorem C52_strongly_connected_stays {n n' : Nat} {t : T} (h : Settled out n t) (hn : n ≤ n') (e : N × N) : accum (out n') e t = accum (out n) e t := by
  rw [← accum_upTo, accum_perm (h n' hn), accum_upTo]

/-- Each graph that does not change has a run. -/
theorem C52_strongly_connected_run_exists [OrderBot T] (logic : N → Nat) (E : Coll (N × N)) (hE : E.Nonneg) (hm : 16384 + E.length < maxRound) :
    ∃ out : Nat → Upds (N × N) T Int, StronglyConnectedAt logic (static (stamp (⊥ : T) E)) out := by
  obtain ⟨F, hF⟩ := scc_static (T := T) logic E hE hm
  exact ⟨_, F, hF, rfl⟩

section examples

/-- Two cycles, joined by an edge. -/
private def exEdges : Coll (Nat × Nat) := [((1, 2), 1), ((2, 1), 2), ((2, 3), 1), ((3, 4), 1), ((4, 3), 1)]

/-- The first round of trimming: labels 1 for the first cycle reach the second, so the edge between them is kept at first … -/
example : trimEdges (fun _ => 0) 6 exEdges exEdges = [((2, 1), 1), ((1, 2), 2), ((3, 2), 1), ((4, 3), 1), ((3, 4), 1)] := by decide +kernel

/-- … and removed in the other direction. -/
example : sccIter (fun _ => 0) 6 exEdges 1 = [((1, 2), 1), ((2, 1), 2), ((3, 4), 1), ((4, 3), 1)] := by decide +kernel

/-- The theorem applies to it. -/
example : ∃ out : Nat → Upds (Nat × Nat) Nat Int, StronglyConnectedAt (fun _ => 0) (static (stamp 0 exEdges)) out ∧ ∃ n, Settled out n 4 ∧ accum (out n) (2, 1) 4 = 2 ∧ accum (out n) (2, 3) 4 = 0 := by
  classical
  have hE : exEdges.Nonneg := by
    rintro ⟨a, b⟩
    simp only [exEdges, weight_cons, weight_nil]
    split_ifs <;> omega
  obtain ⟨out, h⟩ := C52_strongly_connected_run_exists (T := Nat) (fun _ => 0) exEdges hE (by decide)
  have a1 : ∀ e, accum (static (stamp (⊥ : Nat) exEdges) 0).upds e 4 = weight exEdges e := fun e => by rw [upds_static, accum_stamp, if_pos bot_le]
  obtain ⟨n, h1, h2⟩ := C52_strongly_connected h (n0 := 0) (t := 4) (fun _ _ => List.Perm.refl _) (fun e => by rw [a1]; exact hE e) (by decide)
  refine ⟨out, h, n, h1, ?_, ?_⟩
  · rw [h2, a1]
    simp only [a1]
    rw [if_pos]
    · decide
    · have w1 : 0 < weight exEdges (2, 1) := by decide
      have w2 : 0 < weight exEdges (1, 2) := by decide
      exact ⟨⟨1, .snoc .nil w1⟩, ⟨1, .snoc .nil w2⟩⟩
  · rw [h2]
    simp only [a1]
    refine if_neg fun ⟨_, p, hp⟩ => ?_
    have hw : ∀ a b, 0 < weight exEdges (a, b) → (a, b) ∈ [(1, 2), (2, 1), (2, 3), (3, 4), (4, 3)] := by
      intro a b hab
      obtain ⟨r, hr⟩ := Coll.exists_of_weight hab.ne'
      simp only [exEdges, List.mem_cons, Prod.mk.injEq, List.not_mem_nil, or_false] at hr ⊢
      omega
    have hfwd : ∀ p y, Walk (fun a b => 0 < weight exEdges (a, b)) 3 p y → y = 3 ∨ y = 4 := by
      intro p y hp
      induction hp with
      | nil => exact .inl rfl
      | snoc _ he ih =>
        have := hw _ _ he
        simp only [List.mem_cons, Prod.mk.injEq, List.not_mem_nil, or_false] at this
        omega
    have := hfwd p 2 hp
    omega

end examples
end DD
