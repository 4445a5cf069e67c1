import Verif.Proofs.Scc
import Verif.Proofs.PropagateRun

/-!
# Runs of strongly connected components
-/

namespace DD
variable {N T ι : Type*} [LinearOrder N] [PartialOrder T] [OrderBot T] [DecidableLE T] [DecidableEq T] [DecidableEq ι]

theorem trims_static {P : T → Prop} {κ : T → ι} (hκ : Stages P κ) (logic : N → Nat) {C E : ι → Coll (N × N)} {usC usE out : Upds (N × N) T Int}
    (hC : Represents usC fun q => C (κ q)) (hE : Represents usE fun q => E (κ q)) (nnC : ∀ k, (C k).Nonneg) (nnE : ∀ k, (E k).Nonneg) {B : Nat}
    {S : Finset (N × N)} (hS : ∀ k a b, edgesOf (C k) a b → (a, b) ∈ S) (hB : 16384 + S.card ≤ B) (hB' : B < maxRound) (hout : Represents out fun q => trimEdges logic B (C (κ q)) (E (κ q))) :
    Trims logic (fun _ => usC) (fun _ => usE) fun _ => out := by
  obtain ⟨nodes, hn, -⟩ := hκ.represents fun k => trimNodes (E k)
  obtain ⟨labels, hl1, hl2⟩ := propagate_static hκ logic hC hn nnC (fun k => trimNodes_nonneg (nnE k)) hS hB hB'
  obtain ⟨sources, hs, -⟩ := hκ.represents fun k => trimSources (E k) (labelIter logic (C k) (trimNodes (E k)) B)
  obtain ⟨both, hb, -⟩ := hκ.represents fun k => trimTargets (trimSources (E k) (labelIter logic (C k) (trimNodes (E k)) B)) (labelIter logic (C k) (trimNodes (E k)) B)
  refine ⟨fun _ => nodes, fun _ => labels, fun _ => sources, fun _ => both, ?_, hl1, ?_, ?_, ?_⟩
  · exact op1_static hE hn (fun _ _ h => trimNodes_same h) fun _ => Coll.Same.refl _
  · exact op2_static hE hl2 hs (fun _ _ _ _ h h' => h.join_core h' _) fun _ => Coll.Same.refl _
  · exact op2_static hs hl2 hb (fun _ _ _ _ h h' => h.join_core h' _) fun _ => Coll.Same.refl _
  · exact op1_static hb hout (fun _ _ h => (h.filter _).map _) fun _ => Coll.Same.refl _

theorem scc_static (logic : N → Nat) (E : Coll (N × N)) (hE : E.Nonneg) (hm : 16384 + E.length < maxRound) : ∃ F : SccFlow N T, F.Runs logic (static (stamp (⊥ : T) E)) := by
  classical
  obtain ⟨B, hB⟩ : ∃ B, B = 16384 + E.length := ⟨_, rfl⟩
  rw [← hB] at hm
  have hle : 16384 + E.length ≤ B := hB.ge
  have hcard : 16384 + (support E).card ≤ B := le_trans (Nat.add_le_add_left (card_support E) _) hle
  let M := E.length + 1
  have hκ := (stages_constant (T := T)).rounds M
  have hstable : ∀ i j, E.length < i → E.length < j → Coll.Same (sccIter logic B E i) (sccIter logic B E j) := by
    rintro i j hi hj ⟨a, b⟩
    rw [sccIter_final hE hle hi, sccIter_final hE hle hj]
  have hsub : ∀ i a b, edgesOf (sccIter logic B E i) a b → (a, b) ∈ support E := by
    intro i a b h
    rw [(sccIter_edges hE hle i).2] at h
    exact mem_support E a b (keptRounds_sub i a b h)
  have hb : (E.map fun x => (x.2, x.1)).Nonneg := hE.map _
  have hsub' : ∀ i a b, edgesOf (trimEdges logic B (sccIter logic B E i) E) a b → (a, b) ∈ support (E.map fun x => (x.2, x.1)) := by
    intro i a b h
    rw [(trimEdges_edges (sccIter_edges hE hle i).1 hE (hsub i) hcard).2] at h
    refine mem_support _ _ _ ((hE.map_pos _ _).2 ⟨(b, a), h.1, rfl⟩)
  have nn : ∀ i, (sccIter logic B E i).Nonneg := fun i => (sccIter_edges hE hle i).1
  have nn2 : ∀ i, (trimEdges logic B (sccIter logic B E i) E).Nonneg := fun i => (trimEdges_edges (nn i) hE (hsub i) hcard).1
  have hcard' : 16384 + (support (E.map fun x => (x.2, x.1))).card ≤ B := le_trans (Nat.add_le_add_left ((card_support _).trans (by unfold Coll.map; rw [List.length_map])) _) hle
  obtain ⟨eIn, heIn, -⟩ := hκ.represents fun _ => E
  obtain ⟨tr, htr, -⟩ := hκ.represents fun _ => E.map fun x => (x.2, x.1)
  obtain ⟨res, hres, hround⟩ := hκ.represents fun k => sccIter logic B E (k.2 + 1)
  obtain ⟨tri, htri, -⟩ := hκ.represents fun k => trimEdges logic B (sccIter logic B E k.2) E
  obtain ⟨inner, hrun, hinner⟩ := static_loop (represents_constant (T := T) E) hres fun u hu => (hround u hu).2.trans_lt (by omega)
  have hinner' : Represents inner fun q => sccIter logic B E (min q.2 M) := by
    refine hinner.congr fun ⟨t, i⟩ => ?_
    cases i with
    | zero => exact Coll.Same.refl _
    | succ i =>
      show Coll.Same (sccIter logic B E (min i M + 1)) (sccIter logic B E (min (i + 1) M))
      by_cases hi : i + 1 ≤ M
      · rw [Nat.min_eq_left (by omega : i ≤ M), Nat.min_eq_left hi]
        exact Coll.Same.refl _
      · exact hstable _ _ (by omega) (by omega)
  have hsucc : ∀ i, sccIter logic B E (i + 1) = trimEdges logic B (trimEdges logic B (sccIter logic B E i) E) (E.map fun x => (x.2, x.1)) := fun _ => rfl
  have hres' : Represents res fun q => trimEdges logic B (trimEdges logic B (sccIter logic B E (min q.2 M)) E) (E.map fun x => (x.2, x.1)) := by
    simp only [hsucc] at hres
    exact hres
  refine ⟨⟨fun _ => eIn, fun _ => tr, fun _ => inner, fun _ => tri, static res⟩, static_timed _, ?_, ?_, hrun, ?_, ?_⟩
  · simp only [upds_static]
    exact enters_static (represents_constant E) heIn
  · exact op1_static heIn htr (fun _ _ h => h.map _) fun _ => Coll.Same.refl _
  · exact trims_static hκ logic (C := fun k => sccIter logic B E k.2) (E := fun _ => E) hinner' heIn (fun k => nn k.2) (fun _ => hE) (fun k => hsub k.2) hcard hm htri
  · simp only [upds_static]
    refine trims_static hκ logic (C := fun k => trimEdges logic B (sccIter logic B E k.2) E) (E := fun _ => E.map fun x => (x.2, x.1)) htri htr (fun k => nn2 k.2) (fun _ => hb)
      (fun k => hsub' k.2) hcard' hm ?_
    exact hres'

end DD
