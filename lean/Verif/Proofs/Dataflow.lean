import Verif.Spec.Dataflow
import Verif.Proofs.Coll
import Verif.Props.Iterate

/-!
# Lemmas about what streams come to hold
-/

namespace DD
variable {D D1 D2 T : Type*} [PartialOrder T] [DecidableLE T] [DecidableEq D]

theorem weight_collectionAt (us : Upds D T Int) (q : T) (d : D) : weight (collectionAt us q) d = accum us d q := by
  rw [← accum_upTo]
  unfold collectionAt
  have hm : ∀ u ∈ upTo q us, u.2.1 ≤ q := fun u hu => by simpa using (List.mem_filter.1 hu).2
  generalize upTo q us = us at hm
  induction us with
  | nil => rfl
  | cons u us ih =>
    rw [List.map_cons, weight_cons, accum_cons, ih fun v hv => hm v (List.mem_cons_of_mem _ hv)]
    simp [hm u List.mem_cons_self]

theorem Settled.holds {s : Nat → Upds D T Int} {n : Nat} {q q' : T} (h : Settled s n q) (hq : q' ≤ q) : Holds s q' (collectionAt (s n) q') :=
  ⟨n, h.mono le_rfl hq, fun d => (weight_collectionAt _ _ d).symm⟩

theorem Holds.same {s : Nat → Upds D T Int} {q : T} {c c' : Coll D} (h : Holds s q c) (hc : Coll.Same c c') : Holds s q c' := by
  obtain ⟨n, h1, h2⟩ := h
  exact ⟨n, h1, fun d => (h2 d).trans (hc d)⟩

theorem Holds.unique {s : Nat → Upds D T Int} {q : T} {c c' : Coll D} (h : Holds s q c) (h' : Holds s q c') : Coll.Same c c' := by
  obtain ⟨n, h1, h2⟩ := h
  obtain ⟨n', h1', h2'⟩ := h'
  intro d
  rw [← h2 d, ← h2' d]
  exact h1.accum_eq h1' d

theorem Settled.accum_of_holds {s : Nat → Upds D T Int} {n : Nat} {q : T} {c : Coll D} (h : Settled s n q) (hc : Holds s q c) (d : D) : accum (s n) d q = weight c d := by
  obtain ⟨m, h1, h2⟩ := hc
  rw [h.accum_eq h1, h2]

/-! ### Loops -/

section loop
variable {passes : Nat → Msgs D (T × Nat) Int → Msgs D (T × Nat) Int} {result : Nat → Msgs D (T × Nat) Int} {recv : Nat → Upds D (T × Nat) Int}
  {src : Nat → Upds D T Int} {sub : Nat → Upds D (T × Nat) Int}

theorem holds_zero (h : LoopRun passes result recv) (hp : Passes passes result src sub) {t : T} {c : Coll D} (hs : Holds src t c) : Holds recv (t, 0) c := by
  obtain ⟨n0, s1, s2⟩ := hs
  obtain ⟨m, h1, h2⟩ := h.settles (settled_passes_zero hp s1)
  refine ⟨m, h1, fun d => ?_⟩
  rw [← accum_upTo, accum_perm h2, hp.eq, upTo_append, upTo_next_zero, List.nil_append, accum_upTo, accum_enter, s2]

theorem holds_succ (h : LoopRun passes result recv) (hp : Passes passes result src sub) {n0 : Nat} {t : T} (hsrc : Settled src n0 t) (hsub : ∀ i, Settled sub n0 (t, i))
    (hneg : ∀ n d i, accum (sub n) d (t, i) = -accum (src n) d t) {i : Nat} (hi : i < maxRound) {c : Coll D} (hc : Holds (fun n => (result n).upds) (t, i) c) :
    Holds recv (t, i + 1) c := by
  obtain ⟨n1, k1, k2⟩ := hc
  obtain ⟨m, h1, h2⟩ := h.settles (settled_passes_succ hp hi hsrc (hsub i) k1)
  refine ⟨m, h1, fun d => ?_⟩
  rw [← accum_upTo, accum_perm h2, hp.eq, accum_upTo, accum_append, accum_next t i hi, accum_enter, accum_append, hneg, neg_add_cancel_right, ← k2 d]
  exact (k1.mono (le_trans (le_max_right n0 n1) (le_max_left _ _)) le_rfl).accum_eq k1 d

/-- A variable with a source holds the source in round 0. -/
theorem loop_zero {source : Nat → Msgs D T Int} (hw : ∀ n, WellTimed (source n)) (h : LoopRun (fun n => iterateReceives (source n)) result recv) {t : T} {c : Coll D}
    (hs : Holds (fun n => (source n).upds) t c) : Holds recv (t, 0) c := holds_zero h (passes_iterate hw h) hs

/-- And in each next round what it is set to. -/
theorem loop_succ {source : Nat → Msgs D T Int} (hw : ∀ n, WellTimed (source n)) (h : LoopRun (fun n => iterateReceives (source n)) result recv) {t : T} {c0 c : Coll D}
    (hs : Holds (fun n => (source n).upds) t c0) {i : Nat} (hi : i < maxRound) (hc : Holds (fun n => (result n).upds) (t, i) c) : Holds recv (t, i + 1) c := by
  obtain ⟨n0, s1, -⟩ := hs
  exact holds_succ h (passes_iterate hw h) s1 (fun _ => sub_settled le_rfl s1) (fun n d i => sub_neg n d t i) hi hc

/-- A variable without a source holds nothing in round 0. -/
theorem scope_zero (h : LoopRun (fun _ => iterateScopeReceives) result recv) (t : T) : Holds recv (t, 0) [] :=
  holds_zero (src := fun _ => []) h (passes_scope h) ⟨0, fun _ _ => List.Perm.refl _, fun _ => rfl⟩

theorem scope_succ (h : LoopRun (fun _ => iterateScopeReceives) result recv) {t : T} {c : Coll D} {i : Nat} (hi : i < maxRound) (hc : Holds (fun n => (result n).upds) (t, i) c) :
    Holds recv (t, i + 1) c :=
  holds_succ (src := fun _ => []) (n0 := 0) h (passes_scope h) (fun _ _ => List.Perm.refl _) (fun _ _ _ => List.Perm.refl _) (fun n d i => by simp [accum]) hi hc

/-- What leaves a scope, if nothing does after round `m`. -/
theorem leave_holds {s : Nat → Msgs D (T × Nat) Int} {t : T} {m : Nat} (hr : ∀ n, ∀ u ∈ (s n).upds, u.2.1.1 ≤ t → u.2.1.2 ≤ m) {c : Coll D}
    (hc : Holds (fun n => (s n).upds) (t, m) c) : Holds (fun n => (s n).leave.upds) t c := by
  obtain ⟨n, h1, h2⟩ := hc
  have e : ∀ n, upTo t ((s n).upds.map fun u => (u.1, u.2.1.1, u.2.2)) = (upTo (t, m) (s n).upds).map fun u => (u.1, u.2.1.1, u.2.2) := by
    intro n
    unfold upTo
    rw [List.filter_map]
    congr 1
    apply List.filter_congr
    intro u hu
    simp only [Function.comp_apply, decide_eq_decide, Prod.le_def]
    exact ⟨fun hle => ⟨hle, hr n u hu hle⟩, fun hle => hle.1⟩
  refine ⟨n, fun k hk => ?_, fun d => ?_⟩
  · simp only [upds_leave, e]
    exact (h1 k hk).map _
  · beta_reduce
    rw [upds_leave, accum_map_leave _ t m d (hr n), accum_leave_through]
    exact h2 d

/-- If a tidy stream holds the same collection in all rounds from `m` on, then it has no updates in rounds after `m`. -/
theorem tidy_stops [DecidableEq T] {s : Nat → Msgs D (T × Nat) Int} (hgrow : ∀ n, s n <+: s (n + 1)) (hround : ∀ n, ∀ u ∈ (s n).upds, u.2.1.2 ≤ maxRound)
    (ht : Tidy fun n => (s n).upds) {t : T} {m : Nat} {X : T → Coll D} (hX : ∀ t', t' ≤ t → ∀ i, m ≤ i → i ≤ maxRound → Holds (fun n => (s n).upds) (t', i) (X t')) :
    ∀ n, ∀ u ∈ (s n).upds, u.2.1.1 ≤ t → u.2.1.2 ≤ m := by
  have hpre : ∀ {n m : Nat}, n ≤ m → (s n).upds <+: (s m).upds := by
    intro n m hnm
    have : s n <+: s m := by
      induction hnm with
      | refl => exact List.prefix_rfl
      | step _ ih => exact ih.trans (hgrow _)
    obtain ⟨l, hl⟩ := this
    exact ⟨Msgs.upds l, by rw [← hl]; exact (List.flatMap_append ..).symm⟩
  intro n u hu hle
  by_contra hgt
  have hk : u.2.1.2 ≤ maxRound := hround n u hu
  obtain ⟨k, hkeq⟩ : ∃ k, u.2.1.2 = k + 1 := ⟨u.2.1.2 - 1, by omega⟩
  obtain ⟨n1, k1, -⟩ := hX t le_rfl (k + 1) (by omega) (by omega)
  obtain ⟨n', k2, k3⟩ := ht n1 (t, k + 1) k1
  have hz : ∀ d t', t' ≤ t → total (s n').upds d (t', k + 1) = 0 := by
    intro d
    apply total_zero_of_sums _ t
    intro t' ht
    have e1 := (k2.mono le_rfl (Prod.mk_le_mk.2 ⟨ht, le_rfl⟩)).accum_of_holds (hX t' ht (k + 1) (by omega) (by omega)) d
    have e2 := (k2.mono le_rfl (Prod.mk_le_mk.2 ⟨ht, Nat.le_succ k⟩)).accum_of_holds (hX t' ht k (by omega) (by omega)) d
    have e3 : ∀ us : Upds D (T × Nat) Int, accum us d (t', k + 1) = accum us d (t', k) + (us.map fun u => if u.1 = d ∧ u.2.1.1 ≤ t' ∧ u.2.1.2 = k + 1 then u.2.2 else 0).sum := by
      intro us
      induction us with
      | nil => simp [accum]
      | cons v us ih =>
        rw [accum_cons, accum_cons, ih, List.map_cons, List.sum_cons]
        have : (if v.1 = d ∧ v.2.1 ≤ (t', k + 1) then v.2.2 else 0)
            = (if v.1 = d ∧ v.2.1 ≤ (t', k) then v.2.2 else 0) + (if v.1 = d ∧ v.2.1.1 ≤ t' ∧ v.2.1.2 = k + 1 then v.2.2 else 0) := by
          simp only [Prod.le_def]
          by_cases h1 : v.1 = d
          · by_cases h2 : v.2.1.1 ≤ t'
            · rcases Nat.lt_trichotomy v.2.1.2 (k + 1) with h3 | h3 | h3
              · simp [h1, h2, show v.2.1.2 ≤ k + 1 by omega, show v.2.1.2 ≤ k by omega, show v.2.1.2 ≠ k + 1 by omega]
              · simp [h1, h2, h3]
              · simp [h1, h2, show ¬ v.2.1.2 ≤ k + 1 by omega, show ¬ v.2.1.2 ≤ k by omega, show v.2.1.2 ≠ k + 1 by omega]
            · simp [h2]
          · simp [h1]
        rw [this]; abel
    have e4 := e3 (s n').upds
    rw [e1, e2] at e4
    exact left_eq_add.1 e4
  have hno : ∀ v ∈ (s n').upds, ¬ (v.2.1.1 ≤ t ∧ v.2.1.2 = k + 1) := by
    rintro v hv ⟨h1, h2⟩
    apply k3 v hv (Prod.le_def.2 ⟨h1, by simp [h2]⟩)
    have := hz v.1 v.2.1.1 h1
    rwa [← h2] at this
  have hu2 : u ∈ upTo (t, k + 1) (s (max n n')).upds := by
    obtain ⟨extra, he⟩ := hpre (le_max_left n n')
    unfold upTo
    rw [List.mem_filter]
    refine ⟨by rw [← he]; simp [hu], ?_⟩
    exact decide_eq_true (Prod.le_def.2 ⟨hle, by simp [hkeq]⟩)
  have hu3 := (k2 (max n n') (le_max_right _ _)).mem_iff.1 hu2
  exact hno u (List.mem_filter.1 hu3).1 ⟨hle, hkeq⟩

end loop

end DD
