import Verif.Proofs.PrefixSumFlow

/-!
# Runs of prefix sums
-/

namespace DD
variable {K D T ι : Type*} [LinearOrder K] [LinearOrder D] [PartialOrder T] [OrderBot T] [DecidableLE T] [DecidableEq T] [DecidableEq ι]

theorem aggregate_static {P : T → Prop} {κ : T → ι} (hκ : Stages P κ) (combine : K → D → D → D) {C : ι → Coll ((Nat × K) × D)} {us : Upds ((Nat × K) × D) T Int}
    (hC : Represents us fun q => C (κ q)) : ∃ A : AggregateFlow K D T, A.Runs combine (fun _ => us) ∧ ∀ t, Holds A.out t (rangesIter combine (C (κ t)) 65) := by
  have hκ' := hκ.rounds 64
  obtain ⟨unit, hunit, -⟩ := hκ.represents fun k => unitRanges (C k)
  obtain ⟨red, hred, hround⟩ := hκ'.represents_tidy fun k => Coll.reduce (combineHalves combine) (halveRanges (rangesIter combine (C k.1) k.2))
  obtain ⟨hal, hhal, -⟩ := hκ'.represents fun k => halveRanges (rangesIter combine (C k.1) k.2)
  have hm : 64 < maxRound := by unfold maxRound; omega
  let res : Upds ((Nat × Nat × K) × D) (T × Nat) Int := tidied red ++ ((static unit 0).enter (T2 := Nat)).upds
  have hent : Represents ((static unit 0).enter (T2 := Nat)).upds fun q => unitRanges (C (κ q.1)) := by
    rintro ⟨t, i⟩ d
    have h1 : Holds (fun n => (static unit n).upds) t (unitRanges (C (κ t))) := by
      simp only [upds_static]
      exact hunit.holds t
    obtain ⟨n, -, h⟩ := C49_enter (static unit) t i _ h1
    exact h d
  have hres : Represents res fun q => rangesIter combine (C (κ q.1)) (min q.2 64 + 1) := by
    intro q d
    rw [accum_append, hred q d, hent q d, ← Coll.weight_concat]
    rfl
  have hlt : ∀ u ∈ res, u.2.1.2 < maxRound := by
    intro u hu
    rcases List.mem_append.1 hu with hu | hu
    · exact (hround u hu).2.trans_lt hm
    · rw [upds_enter] at hu
      obtain ⟨v, -, rfl⟩ := List.mem_map.1 hu
      exact lt_of_le_of_lt (Nat.zero_le _) hm
  obtain ⟨recv, hrun, hrecv⟩ := static_loop hunit hres hlt
  have hrecv' : Represents recv fun q => rangesIter combine (C (κ q.1)) (min q.2 64) := by
    refine hrecv.congr fun ⟨t, i⟩ => ?_
    cases i with
    | zero => exact Coll.Same.refl _
    | succ i =>
      show Coll.Same (rangesIter combine (C (κ t)) (min i 64 + 1)) (rangesIter combine (C (κ t)) (min (i + 1) 64))
      by_cases hi : i + 1 ≤ 64
      · rw [Nat.min_eq_left (by omega : i ≤ 64), Nat.min_eq_left hi]
        exact Coll.Same.refl _
      · exact rangesIter_stable _ _ (by omega) (by omega)
  let A : AggregateFlow K D T := ⟨static unit, fun _ => recv, fun _ => hal, static (tidied red), static res⟩
  have hA : A.Runs combine fun _ => us := by
    refine ⟨?_, static_timed _, hrun, ?_, ?_, fun _ => List.prefix_rfl, tidy_static red, fun n => ?_⟩
    · show Op1 _ _ fun n => (static unit n).upds
      simp only [upds_static]
      exact op1_static hC hunit (fun _ _ h => h.map _) fun _ => Coll.Same.refl _
    · exact op1_static hrecv' hhal (fun _ _ h => halveRanges_same h) fun _ => Coll.Same.refl _
    · show Op1 _ _ fun n => (static (tidied red) n).upds
      simp only [upds_static]
      exact op1_static hhal hred (fun _ _ h => h.reduce _) fun _ => Coll.Same.refl _
    · show (static res n).upds.Perm ((static (tidied red) n).upds ++ ((static unit n).enter).upds)
      rw [upds_static, upds_static]
      exact List.Perm.refl _
  refine ⟨A, hA, fun t => ?_⟩
  refine leave_holds (m := 64) (fun n u hu _ => ?_) ?_
  · have hu : u ∈ (static res n).upds := hu
    rw [upds_static] at hu
    rcases List.mem_append.1 hu with hu | hu
    · exact (hround u hu).2
    · rw [upds_enter] at hu
      obtain ⟨v, -, rfl⟩ := List.mem_map.1 hu
      exact Nat.zero_le _
  · show Holds (fun n => (static res n).upds) _ _
    simp only [upds_static]
    exact hres.holds (t, 64)

theorem broadcast_static {P : T → Prop} {κ : T → ι} (hκ : Stages P κ) (zero : D) (combine : K → D → D → D) {R : ι → Coll ((Nat × Nat × K) × D)} {Q : ι → Coll (Nat × K)}
    {ranges : Nat → Upds ((Nat × Nat × K) × D) T Int} {us : Upds (Nat × K) T Int} (hR : ∀ t, Holds ranges t (R (κ t))) (hQ : Represents us fun q => Q (κ q))
    (hq : ∀ k x, weight (Q k) x ≠ 0 → x.1 < 2 ^ 64) : ∃ B : BroadcastFlow K D T, B.Runs zero combine ranges fun _ => us := by
  have hκ' := hκ.rounds 64
  have hm : 64 < maxRound := by unfold maxRound; omega
  let U : ι → Coll ((Nat × Nat × K) × D) := fun k => usedRanges zero (R k) (Q k)
  let S : ι → Nat → Coll ((Nat × K) × D) := fun k => statesIter zero combine (U k) (Q k)
  have hst : ∀ k i j, 64 ≤ i → 64 ≤ j → Coll.Same (S k i) (S k j) := fun k i j hi hj => statesIter_stable (fun _ hx => proper_of_used (hq k) hx) hi hj
  obtain ⟨req, hreq, -⟩ := hκ.represents fun k => requestRanges (Q k)
  obtain ⟨full, hfull, -⟩ := hκ.represents fun k => (R k).semijoin (requestRanges (Q k))
  obtain ⟨zer, hzer, -⟩ := hκ.represents fun k => zeroRanges zero ((R k).semijoin (requestRanges (Q k))) (requestRanges (Q k))
  obtain ⟨used, hused, -⟩ := hκ.represents U
  obtain ⟨init, hinit, -⟩ := hκ.represents fun k => initStates zero (Q k)
  obtain ⟨initIn, hinitIn, -⟩ := hκ'.represents fun k => initStates zero (Q k.1)
  obtain ⟨usedIn, husedIn, -⟩ := hκ'.represents fun k => U k.1
  obtain ⟨stepped, hstepped, -⟩ := hκ'.represents fun k => stepStates combine (U k.1) (S k.1 k.2)
  obtain ⟨res, hres, hround⟩ := hκ'.represents_tidy fun k => S k.1 (k.2 + 1)
  obtain ⟨outs, houts, -⟩ := hκ.represents fun k => (S k 65).semijoin (Q k)
  obtain ⟨recv, hrun, hrecv⟩ := static_loop hinit hres fun u hu => (hround u hu).2.trans_lt hm
  have hrecv' : Represents recv fun q => S (κ q.1) (min q.2 64) := by
    refine hrecv.congr fun ⟨t, i⟩ => ?_
    cases i with
    | zero => exact Coll.Same.refl _
    | succ i =>
      show Coll.Same (S (κ t) (min i 64 + 1)) (S (κ t) (min (i + 1) 64))
      by_cases hi : i + 1 ≤ 64
      · rw [Nat.min_eq_left (by omega : i ≤ 64), Nat.min_eq_left hi]
        exact Coll.Same.refl _
      · exact hst _ _ _ (by omega) (by omega)
  refine ⟨⟨fun _ => req, fun _ => full, fun _ => zer, fun _ => used, static init, fun _ => initIn, fun _ => usedIn, fun _ => recv, fun _ => stepped, static (tidied res), fun _ => outs⟩,
    ?_, ?_, ?_, ?_, ?_, static_timed _, hrun, ?_, ?_, ?_, ?_, tidy_static res, ?_⟩
  · exact op1_static hQ hreq (fun _ _ h => (h.flat_map _).distinct) fun _ => Coll.Same.refl _
  · rintro t c1 c2 h1 h2
    exact (hfull.holds t).same (((hR t).unique h1).semijoin (hreq.of_holds h2))
  · exact op2_static hfull hreq hzer (fun _ _ _ _ h h' => (h.map _).negate.concat (h'.map _)) fun _ => Coll.Same.refl _
  · exact op2_static hfull hzer hused (fun _ _ _ _ h h' => h.concat h') fun _ => Coll.Same.refl _
  · simp only [upds_static]
    exact op1_static hQ hinit (fun _ _ h => (h.map _).distinct) fun _ => Coll.Same.refl _
  · simp only [upds_static]
    exact enters_static hinit hinitIn
  · exact enters_static hused husedIn
  · exact op2_static husedIn hrecv' hstepped (fun _ _ _ _ h h' => (h.map _).join_map h' _) fun _ => Coll.Same.refl _
  · simp only [upds_static]
    exact op2_static hstepped hinitIn hres (fun _ _ _ _ h h' => (h.concat h').distinct) fun _ => Coll.Same.refl _
  · rintro t c1 c2 h1 h2
    refine (houts.holds t).same (Coll.Same.semijoin ?_ (hQ.of_holds h2))
    have h3 : Holds (fun n => (iterateReturns (static (tidied res) n)).upds) t (S (κ t) 65) := by
      refine leave_holds (m := 64) (fun n u hu _ => ?_) ?_
      · rw [upds_static] at hu
        exact (hround u hu).2
      · simp only [upds_static]
        exact hres.holds (t, 64)
    exact h3.unique h1

end DD
