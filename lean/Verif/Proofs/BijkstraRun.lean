import Verif.Proofs.Bijkstra
import Verif.Proofs.Static

/-!
# Runs of the bidirectional search
-/

namespace DD
variable {N T : Type*} [LinearOrder N]

section stable
variable {E G : Coll (N × N)} (hE : E.Nonneg) (hG : G.Nonneg) (hm : 2 * E.length + 1 < 2 ^ 32)
include hE hG hm

open Classical in
theorem bidi_weights (i : Nat) (x s : N) (d : Nat) : weight (bidiIter E (reversed E) G (i + 1)).1 (x, (s, d)) = (if (∃ t, goalsOf G s t) ∧ IsDistance (edgesOf E) (fun r => r = s) x d ∧
      d ≤ (radii (edgesOf E) (goalsOf G) (i + 1)).1 s then 1 else 0) ∧
    weight (bidiIter E (reversed E) G (i + 1)).2 (x, (s, d)) = (if (∃ t, goalsOf G t s) ∧ IsDistance (edgesOf (reversed E)) (fun r => r = s) x d ∧
      d ≤ (radii (edgesOf E) (goalsOf G) (i + 1)).2 s then 1 else 0) := by
  rw [radii_succ]
  exact bidi_step hE hG hm (bidi_balls hE hG hm i).1 (bidi_balls hE hG hm i).2 x s d

theorem bidi_stable {i : Nat} (hi : E.length ≤ i) :
    Coll.Same (bidiIter E (reversed E) G (i + 1)).1 (bidiIter E (reversed E) G (i + 2)).1 ∧ Coll.Same (bidiIter E (reversed E) G (i + 1)).2 (bidiIter E (reversed E) G (i + 2)).2 := by
  classical
  have hlen : (reversed E).length = E.length := List.length_map _
  constructor
  · rintro ⟨x, s, d⟩
    rw [(bidi_weights hE hG hm i x s d).1, (bidi_weights hE hG hm (i + 1) x s d).1]
    refine if_congr (and_congr_right fun _ => and_congr_right fun hd => ?_) rfl rfl
    have := edgesOf_le_card hd
    rw [radii_succ (i + 1)]
    dsimp only
    by_cases h : ∃ t, Searching (edgesOf E) (goalsOf G) (radii (edgesOf E) (goalsOf G) (i + 1)) s t
    · rw [if_pos h]
      obtain ⟨t, h⟩ := h
      have := (searching_full h).1
      constructor <;> intro <;> omega
    · rw [if_neg h]
  · rintro ⟨x, s, d⟩
    rw [(bidi_weights hE hG hm i x s d).2, (bidi_weights hE hG hm (i + 1) x s d).2]
    refine if_congr (and_congr_right fun _ => and_congr_right fun hd => ?_) rfl rfl
    have := edgesOf_le_card hd
    rw [radii_succ (i + 1)]
    dsimp only
    by_cases h : ∃ t, Searching (edgesOf E) (goalsOf G) (radii (edgesOf E) (goalsOf G) (i + 1)) t s
    · rw [if_pos h]
      obtain ⟨t, h⟩ := h
      have := (searching_full h).2
      constructor <;> intro <;> omega
    · rw [if_neg h]

theorem bidi_stable_le {i j : Nat} (hi : E.length < i) (hj : i ≤ j) :
    Coll.Same (bidiIter E (reversed E) G i).1 (bidiIter E (reversed E) G j).1 ∧ Coll.Same (bidiIter E (reversed E) G i).2 (bidiIter E (reversed E) G j).2 := by
  induction hj with
  | refl => exact ⟨Coll.Same.refl _, Coll.Same.refl _⟩
  | step h ih =>
    rename_i m
    obtain ⟨k, rfl⟩ : ∃ k, m = k + 1 := ⟨m - 1, by have : i ≤ m := h; omega⟩
    have h2 := bidi_stable hE hG hm (i := k) (by have : i ≤ k + 1 := h; omega)
    exact ⟨ih.1.trans h2.1, ih.2.trans h2.2⟩

end stable

theorem bidiActive_same {c c' : Coll ((N × N) × Nat)} {G G' : Coll (N × N)} (h : Coll.Same c c') (h' : Coll.Same G G') : Coll.Same (bidiActive c G) (bidiActive c' G') :=
  ((((h.negate.map _).concat h').map _).consolidate).map _

variable [PartialOrder T] [OrderBot T] [DecidableLE T] [DecidableEq T]

theorem bidi_static (E G : Coll (N × N)) (hE : E.Nonneg) (hG : G.Nonneg) (hm : 2 * E.length + 1 < 2 ^ 32) :
    ∃ F : BidiFlow N T, F.Runs (fun _ => stamp (⊥ : T) E) (fun _ => stamp (⊥ : T) (reversed E)) fun _ => stamp (⊥ : T) G := by
  classical
  let M := E.length + 1
  have hκ := (stages_constant (T := T)).rounds M
  have hM : M < maxRound := by
    have : maxRound = 2 ^ 64 - 1 := rfl
    omega
  have hzero : bidiIter E (reversed E) G 0 = (bidiSources G, bidiTargets G) := rfl
  have hsucc : ∀ i, bidiIter E (reversed E) G (i + 1) = bidiRound E (reversed E) G (bidiIter E (reversed E) G i) := fun _ => rfl
  have hstable := fun i j => bidi_stable_le hE hG hm (i := i) (j := j)
  generalize bidiIter E (reversed E) G = it at hzero hsucc hstable
  obtain ⟨ac, hac⟩ : ∃ ac : Nat → Coll (N × N), ∀ i, ac i = bidiActive (bidiReached G (it i)) G := ⟨_, fun _ => rfl⟩
  have hs1 : ∀ i, (it (i + 1)).1 = bidiKeep (bidiExtend (bidiSelect (it i).1 (bidiActiveSources (ac i))) E) (it i).1 := fun i => by rw [hsucc, hac]; rfl
  have hs2 : ∀ i, (it (i + 1)).2 = bidiKeep (bidiExtend (bidiSelect (it i).2 (bidiActiveTargets (ac i))) (reversed E)) (it i).2 := fun i => by rw [hsucc, hac]; rfl
  obtain ⟨fe, hfe, -⟩ := hκ.represents fun _ => E
  obtain ⟨re, hre, -⟩ := hκ.represents fun _ => reversed E
  obtain ⟨gi, hgi, -⟩ := hκ.represents fun _ => G
  obtain ⟨fn, hfn, rf⟩ := hκ.represents_tidy fun k => (it (k.2 + 1)).1
  obtain ⟨rn, hrn, rr⟩ := hκ.represents_tidy fun k => (it (k.2 + 1)).2
  obtain ⟨fw, frun, hfw⟩ := static_loop (represents_constant (T := T) (bidiSources G)) hfn fun u hu => (rf u hu).2.trans_lt hM
  obtain ⟨rv, rrun, hrv⟩ := static_loop (represents_constant (T := T) (bidiTargets G)) hrn fun u hu => (rr u hu).2.trans_lt hM
  have hfw : Represents fw fun q => (it (min q.2 M)).1 := by
    refine hfw.congr fun ⟨t, i⟩ => ?_
    cases i with
    | zero =>
      show Coll.Same (bidiSources G) (it 0).1
      rw [hzero]
      exact Coll.Same.refl _
    | succ i =>
      show Coll.Same (it (min i M + 1)).1 (it (min (i + 1) M)).1
      by_cases hi : i + 1 ≤ M
      · rw [Nat.min_eq_left (by omega : i ≤ M), Nat.min_eq_left hi]
        exact Coll.Same.refl _
      · exact (hstable _ _ (by omega) (by omega)).1.symm
  have hrv : Represents rv fun q => (it (min q.2 M)).2 := by
    refine hrv.congr fun ⟨t, i⟩ => ?_
    cases i with
    | zero =>
      show Coll.Same (bidiTargets G) (it 0).2
      rw [hzero]
      exact Coll.Same.refl _
    | succ i =>
      show Coll.Same (it (min i M + 1)).2 (it (min (i + 1) M)).2
      by_cases hi : i + 1 ≤ M
      · rw [Nat.min_eq_left (by omega : i ≤ M), Nat.min_eq_left hi]
        exact Coll.Same.refl _
      · exact (hstable _ _ (by omega) (by omega)).2.symm
  obtain ⟨me, hme, -⟩ := hκ.represents fun k => bidiMeet (it k.2).1 (it k.2).2
  obtain ⟨ra, hra, rra⟩ := hκ.represents fun k => bidiReached G (it k.2)
  obtain ⟨av, hav, -⟩ := hκ.represents fun k => ac k.2
  obtain ⟨fa, hfa, -⟩ := hκ.represents fun k => bidiActiveSources (ac k.2)
  obtain ⟨ta, hta, -⟩ := hκ.represents fun k => bidiActiveTargets (ac k.2)
  obtain ⟨fs, hfs, -⟩ := hκ.represents fun k => bidiSelect (it k.2).1 (bidiActiveSources (ac k.2))
  obtain ⟨rs, hrs, -⟩ := hκ.represents fun k => bidiSelect (it k.2).2 (bidiActiveTargets (ac k.2))
  obtain ⟨fx, hfx, -⟩ := hκ.represents fun k => bidiExtend (bidiSelect (it k.2).1 (bidiActiveSources (ac k.2))) E
  obtain ⟨rx, hrx, -⟩ := hκ.represents fun k => bidiExtend (bidiSelect (it k.2).2 (bidiActiveTargets (ac k.2))) (reversed E)
  refine ⟨⟨static (stamp (⊥ : T) (bidiSources G)), static (stamp (⊥ : T) (bidiTargets G)), fun _ => fe, fun _ => re, fun _ => gi, fun _ => fw, fun _ => rv, fun _ => me, static ra, fun _ => av,
    fun _ => fa, fun _ => ta, fun _ => fs, fun _ => rs, fun _ => fx, fun _ => rx, static (tidied fn), static (tidied rn)⟩,
    { sources := ?_, targets := ?_, sourcesTimed := static_timed _, targetsTimed := static_timed _, forwardEdges := ?_, reverseEdges := ?_, goalsIn := ?_, forward := frun, reverse := rrun,
      meet := ?_, reached := ?_, active := ?_, forwardActive := ?_, reverseActive := ?_, forwardSelect := ?_, reverseSelect := ?_, forwardExtend := ?_, reverseExtend := ?_, forwardNext := ?_, reverseNext := ?_,
      rounds := ?_, forwardTidy := tidy_static fn, reverseTidy := tidy_static rn }⟩
  · simp only [upds_static]
    exact op1_static (represents_constant G) (represents_constant (bidiSources G)) (fun _ _ h => h.map _) fun _ => Coll.Same.refl _
  · simp only [upds_static]
    exact op1_static (represents_constant G) (represents_constant (bidiTargets G)) (fun _ _ h => h.map _) fun _ => Coll.Same.refl _
  · exact enters_static (represents_constant E) hfe
  · exact enters_static (represents_constant (reversed E)) hre
  · exact enters_static (represents_constant G) hgi
  · exact op2_static hfw hrv hme (fun _ _ _ _ h h' => (h.join_map h' _).reduce _) fun _ => Coll.Same.refl _
  · simp only [upds_static]
    exact op2_static hme hgi hra (fun _ _ _ _ h h' => h.semijoin h') fun _ => Coll.Same.refl _
  · simp only [upds_static]
    exact op2_static hra hgi hav (fun _ _ _ _ h h' => bidiActive_same h h') fun q => by rw [hac]; exact Coll.Same.refl _
  · exact op1_static hav hfa (fun _ _ h => (h.map _).distinct) fun _ => Coll.Same.refl _
  · exact op1_static hav hta (fun _ _ h => (h.map _).distinct) fun _ => Coll.Same.refl _
  · exact op2_static hfw hfa hfs (fun _ _ _ _ h h' => ((h.map _).semijoin h').map _) fun _ => Coll.Same.refl _
  · exact op2_static hrv hta hrs (fun _ _ _ _ h h' => ((h.map _).semijoin h').map _) fun _ => Coll.Same.refl _
  · exact op2_static hfs hfe hfx (fun _ _ _ _ h h' => h.join_core h' _) fun _ => Coll.Same.refl _
  · exact op2_static hrs hre hrx (fun _ _ _ _ h h' => h.join_core h' _) fun _ => Coll.Same.refl _
  · simp only [upds_static]
    exact op2_static hfx hfw hfn (fun _ _ _ _ h h' => (((h.concat h').map _).reduce _).map _) fun q => by rw [hs1]; exact Coll.Same.refl _
  · simp only [upds_static]
    exact op2_static hrx hrv hrn (fun _ _ _ _ h h' => (((h.concat h').map _).reduce _).map _) fun q => by rw [hs2]; exact Coll.Same.refl _
  · simp only [upds_static]
    intro n u hu
    exact (rra u hu).2.trans hM.le

end DD
