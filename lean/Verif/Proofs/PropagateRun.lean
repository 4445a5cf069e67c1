import Verif.Proofs.Propagate
import Verif.Proofs.Static

/-!
# Runs of label propagation
-/

namespace DD
variable {N L T ι : Type*} [LinearOrder N] [LinearOrder L] [PartialOrder T] [OrderBot T] [DecidableLE T] [DecidableEq T] [DecidableEq ι]

theorem labelRound_congr {logic : L → Nat} {M M' : Coll (N × L)} (i : Nat) {P P' : Coll (N × L)} (hM : Coll.Same M M') (hP : Coll.Same P P') :
    Coll.Same (labelRound logic M i P) (labelRound logic M' i P') := (hP.concat (hM.filter _)).reduce _

theorem propagate_static {P : T → Prop} {κ : T → ι} (hκ : Stages P κ) (logic : L → Nat) {E : ι → Coll (N × N)} {M : ι → Coll (N × L)} {usE : Upds (N × N) T Int} {usM : Upds (N × L) T Int}
    (hE : Represents usE fun q => E (κ q)) (hM : Represents usM fun q => M (κ q)) (nnE : ∀ k, (E k).Nonneg) (nnM : ∀ k, (M k).Nonneg) {B : Nat}
    {S : Finset (N × N)} (hS : ∀ k a b, edgesOf (E k) a b → (a, b) ∈ S) (hB : 16384 + S.card ≤ B) (hB' : B < maxRound) :
    ∃ vs : Upds (N × L) T Int, PropagatesAt logic (fun _ => usE) (fun _ => usM) (fun _ => vs) ∧ Represents vs fun q => labelIter logic (E (κ q)) (M (κ q)) B := by
  classical
  have hfin : ∀ k i, Coll.Same (labelIter logic (E k) (M k) (min i B)) (labelIter logic (E k) (M k) i) := by
    rintro k i ⟨x, l⟩
    rcases Nat.le_total i B with h | h
    · rw [Nat.min_eq_left h]
    · rw [Nat.min_eq_right h, labelIter_final (nnE k) (nnM k) (hS k) hB, labelIter_final (nnE k) (nnM k) (hS k) (hB.trans h)]
  have hκ' := hκ.rounds B
  obtain ⟨eIn, heIn, -⟩ := hκ'.represents fun k => E k.1
  obtain ⟨nIn, hnIn, -⟩ := hκ'.represents fun k => (M k.1).filter fun r => introduceAt logic r ≤ k.2
  obtain ⟨lab, hlab, hround⟩ := hκ'.represents_tidy fun k => labelIter logic (E k.1) (M k.1) k.2
  obtain ⟨pro, hpro, hround'⟩ := hκ'.represents fun k => proposeRound (E k.1) (labelIter logic (E k.1) (M k.1) k.2)
  have hlab' : Represents (tidied lab) fun q => labelIter logic (E (κ q.1)) (M (κ q.1)) q.2 := hlab.congr fun q => hfin _ _
  have hpro' : Represents pro fun q => proposeRound (E (κ q.1)) (labelIter logic (E (κ q.1)) (M (κ q.1)) q.2) := hpro.congr fun q => (hfin _ _).join_core (Coll.Same.refl _) _
  have hnIn' : Represents nIn fun q => (M (κ q.1)).filter fun r => introduceAt logic r ≤ q.2 := by
    refine hnIn.congr fun q => ?_
    have e : (fun r : N × L => decide (introduceAt logic r ≤ min q.2 B)) = fun r => decide (introduceAt logic r ≤ q.2) := by
      funext r
      have := introduceAt_le (N := N) logic r
      exact decide_eq_decide.2 (by omega)
    show Coll.Same ((M (κ q.1)).filter fun r => decide (introduceAt logic r ≤ min q.2 B)) _
    rw [e]
    exact Coll.Same.refl _
  obtain ⟨recv, hrun, hrecv⟩ := static_scope_loop hpro' fun u hu => (hround' u hu).2.trans_lt hB'
  let cands : Upds (N × L) (T × Nat) Int := recv ++ nIn
  have hcands : Represents cands fun q => Coll.concat (roundsFrom [] (fun i => proposeRound (E (κ q.1)) (labelIter logic (E (κ q.1)) (M (κ q.1)) i)) q.2)
      ((M (κ q.1)).filter fun r => introduceAt logic r ≤ q.2) := by
    intro q d
    rw [accum_append, hrecv q d, hnIn' q d, Coll.weight_concat]
  let F : PropagateFlow N L T := ⟨fun _ => eIn, fun _ => nIn, fun _ => recv, fun _ => cands, static (tidied lab), static pro⟩
  have hF : F.Runs logic (fun _ => usE) (fun _ => usM) := by
    refine ⟨enters_static hE heIn, entersAt_static hM hnIn', hrun, ?_, ?_, ?_, fun _ => List.prefix_rfl, fun n u hu => ?_, tidy_static lab⟩
    · exact op2_static hrecv hnIn' hcands (fun _ _ _ _ h h' => h.concat h') fun _ => Coll.Same.refl _
    · show Op1 _ (fun _ => cands) fun n => (static (tidied lab) n).upds
      simp only [upds_static]
      refine op1_static hcands hlab' (fun _ _ h => h.reduce _) fun q => ?_
      obtain ⟨t, i⟩ := q
      cases i <;> exact Coll.Same.refl _
    · show Op2 _ (fun n => (static (tidied lab) n).upds) (fun _ => eIn) fun n => (static pro n).upds
      simp only [upds_static]
      exact op2_static hlab' heIn hpro' (fun _ _ _ _ h h' => h.join_core h' _) fun _ => Coll.Same.refl _
    · have hu' : u ∈ tidied lab := by have := upds_static (tidied lab) n; rw [← this]; exact hu
      exact ((hround u hu').2.trans_lt hB').le
  refine ⟨F.out 0, ⟨F, hF, rfl⟩, fun q d => ?_⟩
  obtain ⟨n, -, h⟩ := propagate_out hF (hE.holds q) (hM.holds q)
  refine (h d).trans ?_
  have := hfin (κ q) maxRound d
  rw [Nat.min_eq_right hB'.le] at this
  exact this.symm

end DD
