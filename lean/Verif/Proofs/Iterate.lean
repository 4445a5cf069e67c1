import Verif.Spec.Iterate
import Verif.Proofs.HalfJoin
import Mathlib.Order.Lattice.Nat

namespace DD

section upTo
variable {D T R : Type*} [PartialOrder T] [DecidableLE T]

theorem upTo_append (q : T) (us vs : Upds D T R) : upTo q (us ++ vs) = upTo q us ++ upTo q vs := List.filter_append ..

theorem upTo_subperm (q : T) {us vs : Upds D T R} (h : us.Subperm vs) : (upTo q us).Subperm (upTo q vs) := by
  obtain ⟨l, hl, hs⟩ := h
  exact ⟨upTo q l, hl.filter _, hs.filter _⟩

theorem accum_upTo [DecidableEq D] [AddCommMonoid R] (us : Upds D T R) (d : D) (q : T) : accum (upTo q us) d q = accum us d q := by
  unfold upTo
  induction us with
  | nil => rfl
  | cons u us ih =>
    rw [accum_cons, ← ih]
    by_cases h : u.2.1 ≤ q
    · rw [List.filter_cons_of_pos (by simpa using h), accum_cons]
    · rw [List.filter_cons_of_neg (by simpa using h), if_neg fun hh => h hh.2, zero_add]

theorem upTo_upTo (q p : T) (h : p ≤ q) (us : Upds D T R) : upTo p (upTo q us) = upTo p us := by
  unfold upTo
  rw [List.filter_filter]
  apply List.filter_congr
  intro u _
  by_cases hp : u.2.1 ≤ p
  · simp [hp, hp.trans h]
  · simp [hp]

theorem Settled.mono {s : Nat → Upds D T R} {n m : Nat} {q p : T} (h : Settled s n q) (hm : n ≤ m) (hp : p ≤ q) : Settled s m p := by
  intro k hk
  have h1 := (h k (hm.trans hk)).trans (h m hm).symm
  have h2 := h1.filter fun u => decide (u.2.1 ≤ p)
  have e : ∀ k, upTo p (upTo q (s k)) = upTo p (s k) := fun k => upTo_upTo q p hp _
  change (upTo p (upTo q (s k))).Perm (upTo p (upTo q (s m))) at h2
  rwa [e, e] at h2

theorem Settled.perm {s : Nat → Upds D T R} {n m : Nat} {q : T} (hn : Settled s n q) (hm : Settled s m q) : (upTo q (s n)).Perm (upTo q (s m)) :=
  (hn (max n m) (le_max_left _ _)).symm.trans (hm (max n m) (le_max_right _ _))

theorem Settled.accum_eq [DecidableEq D] [AddCommMonoid R] {s : Nat → Upds D T R} {n m : Nat} {q : T} (hn : Settled s n q) (hm : Settled s m q) (d : D) :
    accum (s n) d q = accum (s m) d q := by
  rw [← accum_upTo (s n), ← accum_upTo (s m)]
  exact accum_perm (hn.perm hm) d q

end upTo

section loop
variable {D T R : Type*} [PartialOrder T] [DecidableLE T]

/-- The updates' times moved to the next round. -/
def nextUpd (u : D × (T × Nat) × R) : Option (D × (T × Nat) × R) := (nextRound u.2.1).map fun t => (u.1, t, u.2.2)

theorem upds_results_in (step : T → Option T) (ms : Msgs D T R) : (ms.results_in step).upds = ms.upds.filterMap fun u => (step u.2.1).map fun t => (u.1, t, u.2.2) := by
  unfold Msgs.upds Msgs.results_in Msgs.eachMsg
  induction ms with
  | nil => rfl
  | cons m ms ih => rw [List.map_cons, List.flatMap_cons, List.flatMap_cons, List.filterMap_append, ih]

omit [DecidableLE T] in
theorem upds_feedback (ms : Msgs D (T × Nat) R) (h : ∀ m ∈ ms, ∀ u ∈ m.2, m.1 ≤ u.2.1) :
    ((ms.results_in nextRound).feedback nextRound).upds = (ms.results_in nextRound).upds := by
  unfold Msgs.upds Msgs.feedback Msgs.results_in Msgs.eachMsg
  induction ms with
  | nil => rfl
  | cons m ms ih =>
    rw [List.map_cons, List.filterMap_cons, List.flatMap_cons]
    have ih' := ih fun m' hm' => h m' (by simp [hm'])
    cases hn : nextRound m.1 with
    | some t => simp only [Option.map_some, List.flatMap_cons, ih']
    | none =>
      simp only [Option.map_none, ih']
      have : (m.2.filterMap fun (d, t, r) => (nextRound t).map fun t => (d, t, r)) = [] := by
        rw [List.filterMap_eq_nil_iff]
        intro u hu
        have hle := (h m (by simp) u hu).2
        have : nextRound u.2.1 = none := by
          unfold nextRound at hn ⊢
          split_ifs at hn with h1
          rw [if_neg (by omega)]
        simp [this]
      rw [this, List.nil_append]

theorem upds_concat (ms ms' : Msgs D T R) : (ms.concat ms').upds = ms.upds ++ ms'.upds := List.flatMap_append ..

theorem upds_negate [Neg R] (ms : Msgs D T R) : ms.negate.upds = ms.upds.map fun u => (u.1, u.2.1, -u.2.2) := by
  unfold Msgs.upds Msgs.negate Msgs.eachMsg
  induction ms with
  | nil => rfl
  | cons m ms ih => rw [List.map_cons, List.flatMap_cons, List.flatMap_cons, List.map_append, ih]

theorem upds_enter {T2 : Type*} [LE T2] [OrderBot T2] (ms : Msgs D T R) : (ms.enter (T2 := T2)).upds = ms.upds.map fun u => (u.1, (u.2.1, ⊥), u.2.2) := by
  unfold Msgs.upds Msgs.enter
  induction ms with
  | nil => rfl
  | cons m ms ih => rw [List.map_cons, List.flatMap_cons, List.flatMap_cons, List.map_append, ih]

theorem upds_leave (ms : Msgs D (T × Nat) R) : ms.leave.upds = ms.upds.map fun u => (u.1, u.2.1.1, u.2.2) := by
  unfold Msgs.upds Msgs.leave
  induction ms with
  | nil => rfl
  | cons m ms ih => rw [List.map_cons, List.flatMap_cons, List.flatMap_cons, List.map_append, ih]

theorem upds_throughRound (k : Nat) (ms : Msgs D (T × Nat) R) : (throughRound k ms).upds = ms.upds.filter fun u => u.2.1.2 ≤ k := by
  unfold Msgs.upds throughRound
  induction ms with
  | nil => rfl
  | cons m ms ih => rw [List.map_cons, List.flatMap_cons, List.flatMap_cons, List.filter_append, ih]

theorem upTo_next (t : T) (i : Nat) (hi : i < maxRound) (us : Upds D (T × Nat) R) : upTo (t, i + 1) (us.filterMap nextUpd) = (upTo (t, i) us).filterMap nextUpd := by
  unfold upTo
  induction us with
  | nil => rfl
  | cons u us ih =>
    rw [List.filterMap_cons]
    by_cases h : u.2.1 ≤ (t, i)
    · rw [List.filter_cons_of_pos (by simpa using h), List.filterMap_cons]
      have hlt : u.2.1.2 < maxRound := lt_of_le_of_lt h.2 hi
      have e : nextUpd u = some (u.1, (u.2.1.1, u.2.1.2 + 1), u.2.2) := by unfold nextUpd nextRound; rw [if_pos hlt]; rfl
      rw [e]
      simp only
      rw [List.filter_cons_of_pos, ih]
      have : ((u.2.1.1, u.2.1.2 + 1) : T × Nat) ≤ (t, i + 1) := Prod.mk_le_mk.2 ⟨h.1, by have := h.2; simp only at this; omega⟩
      simpa using this
    · rw [List.filter_cons_of_neg (by simpa using h)]
      cases hn : nextUpd u with
      | none => exact ih
      | some v =>
        simp only
        rw [List.filter_cons_of_neg, ih]
        have : ¬ v.2.1 ≤ (t, i + 1) := by
          unfold nextUpd nextRound at hn
          split_ifs at hn with hlt
          · simp only [Option.map_some, Option.some.injEq] at hn
            subst hn
            intro hle
            have h2 := Prod.mk_le_mk.1 hle
            exact h (Prod.le_def.2 ⟨h2.1, by have := h2.2; simp only; omega⟩)
          · simp at hn
        simpa using this

theorem upTo_next_zero (t : T) (us : Upds D (T × Nat) R) : upTo (t, 0) (us.filterMap nextUpd) = [] := by
  unfold upTo
  rw [List.filter_eq_nil_iff]
  intro v hv
  obtain ⟨u, -, hu⟩ := List.mem_filterMap.1 hv
  unfold nextUpd nextRound at hu
  split_ifs at hu with hlt
  · simp only [Option.map_some, Option.some.injEq] at hu
    subst hu
    intro hle
    have := (Prod.mk_le_mk.1 (of_decide_eq_true hle)).2
    omega
  · simp at hu

theorem upTo_enter (t : T) (i : Nat) (us : Upds D T R) :
    upTo (t, i) (us.map fun u => (u.1, ((u.2.1, ⊥) : T × Nat), u.2.2)) = (upTo t us).map fun u => (u.1, ((u.2.1, ⊥) : T × Nat), u.2.2) := by
  unfold upTo
  rw [List.filter_map]
  congr 1
  apply List.filter_congr
  intro u _
  simp only [Function.comp_apply]
  congr 1
  simp [Prod.mk_le_mk]

variable [DecidableEq D]

theorem accum_next [AddCommMonoid R] (t : T) (i : Nat) (hi : i < maxRound) (us : Upds D (T × Nat) R) (d : D) : accum (us.filterMap nextUpd) d (t, i + 1) = accum us d (t, i) := by
  induction us with
  | nil => rfl
  | cons u us ih =>
    rw [List.filterMap_cons, accum_cons, ← ih]
    cases hn : nextUpd u with
    | none =>
      have : ¬ u.2.1 ≤ (t, i) := by
        intro hle
        unfold nextUpd nextRound at hn
        rw [if_pos (lt_of_le_of_lt hle.2 hi)] at hn
        simp at hn
      rw [if_neg fun h => this h.2, zero_add]
    | some v =>
      simp only
      rw [accum_cons]
      unfold nextUpd nextRound at hn
      split_ifs at hn with hlt
      · simp only [Option.map_some, Option.some.injEq] at hn
        subst hn
        simp only [Prod.le_def, Nat.add_le_add_iff_right]
      · simp at hn

theorem accum_enter [AddCommMonoid R] (t : T) (i : Nat) (us : Upds D T R) (d : D) : accum (us.map fun u => (u.1, ((u.2.1, ⊥) : T × Nat), u.2.2)) d (t, i) = accum us d t := by
  induction us with
  | nil => rfl
  | cons u us ih => rw [List.map_cons, accum_cons, accum_cons, ih]; simp [Prod.mk_le_mk]

theorem accum_neg [AddCommGroup R] (us : Upds D T R) (d : D) (q : T) : accum (us.map fun u => (u.1, u.2.1, -u.2.2)) d q = -accum us d q := by
  induction us with
  | nil => simp [accum]
  | cons u us ih =>
    rw [List.map_cons, accum_cons, accum_cons, ih, neg_add]
    congr 1
    split_ifs <;> simp

/-- What a loop passes to its body, in terms of updates. -/
structure Passes (passes : Nat → Msgs D (T × Nat) R → Msgs D (T × Nat) R) (result : Nat → Msgs D (T × Nat) R) (src : Nat → Upds D T R) (sub : Nat → Upds D (T × Nat) R) : Prop where
  eq : ∀ n, (passes n (result n)).upds = ((result n).upds ++ sub n).filterMap nextUpd ++ (src n).map fun u => (u.1, ((u.2.1, ⊥) : T × Nat), u.2.2)

variable {passes : Nat → Msgs D (T × Nat) R → Msgs D (T × Nat) R} {result : Nat → Msgs D (T × Nat) R} {recv : Nat → Upds D (T × Nat) R}
  {src : Nat → Upds D T R} {sub : Nat → Upds D (T × Nat) R}

omit [DecidableEq D] in
theorem LoopRun.mono (h : LoopRun passes result recv) {n m : Nat} (hnm : n ≤ m) : (recv n).Subperm (recv m) := by
  induction hnm with
  | refl => exact List.Subperm.refl _
  | step _ ih => exact ih.trans (h.receives _)

omit [DecidableEq D] in
/-- If what the loop passes on has settled then so will what is received, and it is the same. -/
theorem LoopRun.settles (h : LoopRun passes result recv) {N : Nat} {q : T × Nat} (hs : Settled (fun n => (passes n (result n)).upds) N q) :
    ∃ m, Settled recv m q ∧ (upTo q (recv m)).Perm (upTo q (passes N (result N)).upds) := by
  obtain ⟨m, hm⟩ := h.delivers N
  have key : ∀ k, max N m ≤ k → (upTo q (recv k)).Perm (upTo q (passes N (result N)).upds) := by
    intro k hk
    have h1 := upTo_subperm q (hm.trans (h.mono (le_trans (le_max_right _ _) hk)))
    have h2 := upTo_subperm q (h.sound k)
    have h3 := hs k (le_trans (le_max_left _ _) hk)
    have h4 : (upTo q (recv k)).Subperm (upTo q (passes N (result N)).upds) := h2.trans h3.subperm
    exact h4.antisymm h1
  exact ⟨max N m, fun k hk => (key k hk).trans (key _ le_rfl).symm, key _ le_rfl⟩

omit [DecidableEq D] in
theorem settled_passes_zero (hp : Passes passes result src sub) {n0 : Nat} {t : T} (hsrc : Settled src n0 t) : Settled (fun n => (passes n (result n)).upds) n0 (t, 0) := by
  intro m hm
  simp only [hp.eq, upTo_append, upTo_next_zero, List.nil_append, upTo_enter]
  exact (hsrc m hm).map _

omit [DecidableEq D] in
theorem settled_passes_succ (hp : Passes passes result src sub) {n0 n1 n2 : Nat} {t : T} {i : Nat} (hi : i < maxRound) (hsrc : Settled src n0 t)
    (hsub : Settled sub n2 (t, i)) (hres : Settled (fun n => (result n).upds) n1 (t, i)) :
    Settled (fun n => (passes n (result n)).upds) (max (max n0 n1) n2) (t, i + 1) := by
  intro m hm
  simp only [hp.eq, upTo_append, upTo_next t i hi, upTo_enter]
  have a0 := (hsrc.mono (le_trans (le_max_left n0 n1) (le_max_left _ n2)) le_rfl) m hm
  have a1 := (hres.mono (le_trans (le_max_right n0 n1) (le_max_left _ n2)) le_rfl) m hm
  have a2 := (hsub.mono (le_max_right (max n0 n1) n2) le_rfl) m hm
  exact ((a1.append a2).filterMap _).append (a0.map _)

/-- The rounds of a loop, by induction. `sub` accumulates to minus what `src` does. -/
theorem rounds_ok [AddCommGroup R] {body : T × Nat → (D → R) → D → R} (h : LoopRun passes result recv) (hp : Passes passes result src sub)
    (hc : Computes body recv fun n => (result n).upds) {n0 : Nat} {t : T} (hsrc : Settled src n0 t) (hsub : ∀ i, Settled sub n0 (t, i))
    (hneg : ∀ n d i, accum (sub n) d (t, i) = -accum (src n) d t) : ∀ i, i ≤ maxRound →
    ∃ n, Settled recv n (t, i) ∧ (∀ d, accum (recv n) d (t, i) = iterates (fun d => accum (src n0) d t) (fun j => body (t, j)) i d) ∧
      ∃ n', Settled (fun n => (result n).upds) n' (t, i) ∧ ∀ d, accum (result n').upds d (t, i) = iterates (fun d => accum (src n0) d t) (fun j => body (t, j)) (i + 1) d := by
  have fin : ∀ i, (∃ n, Settled recv n (t, i) ∧ ∀ d, accum (recv n) d (t, i) = iterates (fun d => accum (src n0) d t) (fun j => body (t, j)) i d) →
      ∃ n, Settled recv n (t, i) ∧ (∀ d, accum (recv n) d (t, i) = iterates (fun d => accum (src n0) d t) (fun j => body (t, j)) i d) ∧
      ∃ n', Settled (fun n => (result n).upds) n' (t, i) ∧ ∀ d, accum (result n').upds d (t, i) = iterates (fun d => accum (src n0) d t) (fun j => body (t, j)) (i + 1) d := by
    rintro i ⟨n, h1, h2⟩
    obtain ⟨n', h3, h4⟩ := hc n (t, i) h1
    refine ⟨n, h1, h2, n', h3, fun d => ?_⟩
    rw [h4 d, funext h2]
    rfl
  intro i
  induction i with
  | zero =>
    intro _
    apply fin
    obtain ⟨m, h1, h2⟩ := h.settles (settled_passes_zero hp hsrc)
    refine ⟨m, h1, fun d => ?_⟩
    rw [← accum_upTo, accum_perm h2, hp.eq, upTo_append, upTo_next_zero, List.nil_append, accum_upTo, accum_enter]
    rfl
  | succ i ih =>
    intro hi
    obtain ⟨-, -, -, n1, k1, k2⟩ := ih (by omega)
    apply fin
    obtain ⟨m, h1, h2⟩ := h.settles (settled_passes_succ hp (by omega) hsrc (hsub i) k1)
    refine ⟨m, h1, fun d => ?_⟩
    rw [← accum_upTo, accum_perm h2, hp.eq, accum_upTo, accum_append, accum_next t i (by omega), accum_enter, accum_append, hneg, neg_add_cancel_right]
    rw [← k2 d]
    exact (k1.mono (le_trans (le_max_right n0 n1) (le_max_left _ _)) le_rfl).accum_eq k1 d

theorem accum_leave_through [AddCommMonoid R] (us : Upds D (T × Nat) R) (t : T) (k : Nat) (d : D) :
    accum ((us.filter fun u => u.2.1.2 ≤ k).map fun u => (u.1, u.2.1.1, u.2.2)) d t = accum us d (t, k) := by
  induction us with
  | nil => rfl
  | cons u us ih =>
    rw [accum_cons, ← ih]
    by_cases h : u.2.1.2 ≤ k
    · rw [List.filter_cons_of_pos (by simpa using h), List.map_cons, accum_cons]
      simp [Prod.le_def, h]
    · rw [List.filter_cons_of_neg (by simpa using h)]
      have : ¬ u.2.1 ≤ (t, k) := fun hh => h hh.2
      simp [this]

theorem accum_map_leave [AddCommMonoid R] (us : Upds D (T × Nat) R) (t : T) (k : Nat) (d : D) (hk : ∀ u ∈ us, u.2.1.1 ≤ t → u.2.1.2 ≤ k) :
    accum (us.map fun u => (u.1, u.2.1.1, u.2.2)) d t = accum ((us.filter fun u => u.2.1.2 ≤ k).map fun u => (u.1, u.2.1.1, u.2.2)) d t := by
  induction us with
  | nil => rfl
  | cons u us ih =>
    rw [List.map_cons, accum_cons, ih fun v hv => hk v (by simp [hv])]
    by_cases h : u.2.1.2 ≤ k
    · rw [List.filter_cons_of_pos (by simpa using h), List.map_cons, accum_cons]
    · rw [List.filter_cons_of_neg (by simpa using h), if_neg fun hh => h (hk u (by simp) hh.2), zero_add]

omit [DecidableEq D] in
theorem LoopRun.prefix (h : LoopRun passes result recv) {n m : Nat} (hnm : n ≤ m) : (result n).upds <+: (result m).upds := by
  have : result n <+: result m := by
    induction hnm with
    | refl => exact List.prefix_rfl
    | step _ ih => exact ih.trans (h.produces _)
  obtain ⟨l, hl⟩ := this
  exact ⟨Msgs.upds l, by rw [← hl]; exact (List.flatMap_append ..).symm⟩

theorem iterates_fix {src : D → R} {body : Nat → (D → R) → D → R} {m : Nat} {X : D → R} (hm : iterates src body m = X) (hX : ∀ i, m ≤ i → body i X = X) :
    ∀ i, m ≤ i → iterates src body i = X := by
  intro i hi
  induction hi with
  | refl => exact hm
  | step h ih => rw [iterates, ih, hX _ h]

/-- Accumulations that vanish at all times before a time vanish time by time. -/
theorem total_zero_of_sums [DecidableEq T] [AddCommMonoid R] (us : Upds D (T × Nat) R) (t : T) (k : Nat) (d : D)
    (h : ∀ t', t' ≤ t → (us.map fun u => if u.1 = d ∧ u.2.1.1 ≤ t' ∧ u.2.1.2 = k then u.2.2 else 0).sum = 0) :
    ∀ t', t' ≤ t → total us d (t', k) = 0 := by
  classical
  let S : Finset (D × (T × Nat)) := (us.map fun u => (u.1, u.2.1)).toFinset
  have hS : ∀ u ∈ us, (u.1, u.2.1) ∈ S := by intro u hu; simp only [S, List.mem_toFinset, List.mem_map]; exact ⟨u, hu, rfl⟩
  have e : ∀ t', (us.map fun u => if u.1 = d ∧ u.2.1.1 ≤ t' ∧ u.2.1.2 = k then u.2.2 else 0).sum
      = ∑ x ∈ S, if x.1 = d ∧ x.2.1 ≤ t' ∧ x.2.2 = k then total us x.1 x.2 else 0 := by
    intro t'
    have := meas_eq_sum (fun (d' : D) (q : T × Nat) => if d' = d ∧ q.1 ≤ t' ∧ q.2 = k then AddMonoidHom.id R else 0) us S hS
    unfold meas at this
    refine Eq.trans ?_ (this.trans ?_)
    · congr 1
      apply List.map_congr_left
      intro u _
      by_cases hc : u.1 = d ∧ u.2.1.1 ≤ t' ∧ u.2.1.2 = k <;> simp [hc]
    · apply Finset.sum_congr rfl
      intro x _
      split_ifs <;> rfl
  by_contra hno
  push Not at hno
  obtain ⟨t0, ht0, hne⟩ := hno
  let B : Finset T := (S.image fun x => x.2.1).filter fun t' => t' ≤ t ∧ total us d (t', k) ≠ 0
  have hmem : ∀ t', total us d (t', k) ≠ 0 → (d, (t', k)) ∈ S := by
    intro t' hne'
    by_contra hn
    apply hne'
    unfold total
    apply List.sum_eq_zero
    intro r hr
    obtain ⟨u, hu, rfl⟩ := List.mem_map.1 hr
    rw [if_neg]
    rintro ⟨h1, h2⟩
    exact hn (by rw [← h1, ← h2]; exact hS u hu)
  have hB : B.Nonempty := ⟨t0, by
    simp only [B, Finset.mem_filter, Finset.mem_image]
    exact ⟨⟨_, hmem t0 hne, rfl⟩, ht0, hne⟩⟩
  obtain ⟨t1, ht1, hmin⟩ := B.exists_minimal hB
  simp only [B, Finset.mem_filter, Finset.mem_image] at ht1
  have hz := h t1 ht1.2.1
  rw [e, Finset.sum_eq_single (d, (t1, k))] at hz
  · simp only [le_refl, true_and, and_self, if_true] at hz
    exact ht1.2.2 hz
  · rintro ⟨d', t', k'⟩ hx hxne
    split_ifs with hc
    · simp only at hc ⊢
      obtain ⟨rfl, hle, rfl⟩ := hc
      by_contra hnz
      have : t' ∈ B := by
        simp only [B, Finset.mem_filter, Finset.mem_image]
        exact ⟨⟨_, hx, rfl⟩, hle.trans ht1.2.1, hnz⟩
      have hge := hmin this hle
      exact hxne (by rw [le_antisymm hle hge])
    · rfl
  · intro hn; exact absurd (hmem t1 ht1.2.2) hn

section generic
variable [AddCommGroup R] {body : T × Nat → (D → R) → D → R}

/-- The iterates at an outer time. -/
def itersAt (src : Upds D T R) (body : T × Nat → (D → R) → D → R) (t : T) : Nat → D → R := iterates (fun d => accum src d t) (fun j => body (t, j))

variable (h : LoopRun passes result recv) (hp : Passes passes result src sub) (hc : Computes body recv fun n => (result n).upds) {n0 : Nat} {t : T} (hsrc : Settled src n0 t)
  (hsub : ∀ t' i, t' ≤ t → Settled sub n0 (t', i)) (hneg : ∀ n d t i, accum (sub n) d (t, i) = -accum (src n) d t)
include h hp hc hsrc hsub hneg

/-- What the body has produced through round `i`, once that has settled. -/
theorem result_ok {i : Nat} (hi : i ≤ maxRound) {n : Nat} (hn : Settled (fun n => (result n).upds) n (t, i)) {t' : T} (ht : t' ≤ t) {j : Nat} (hj : j ≤ i) (d : D) :
    accum (result n).upds d (t', j) = itersAt (src n0) body t' (j + 1) d := by
  obtain ⟨-, -, -, n', k1, k2⟩ := rounds_ok h hp hc (hsrc.mono le_rfl ht) (fun i => hsub t' i ht) (fun n d i => hneg n d t' i) j (hj.trans hi)
  rw [itersAt, ← k2 d]
  exact (hn.mono le_rfl (Prod.mk_le_mk.2 ⟨ht, hj⟩)).accum_eq k1 d

theorem quiet_ok {m : Nat} {n : Nat} (hq : Settled (fun n => (result n).leave.upds) n t) (hr : ∀ u ∈ (result n).upds, u.2.1.1 ≤ t → u.2.1.2 ≤ m) :
    ∀ i, m ≤ i → i ≤ maxRound → ∀ d, accum (result n).leave.upds d t = itersAt (src n0) body t (i + 1) d := by
  intro i hmi hi d
  have hs : Settled (fun n => (result n).upds) n (t, i) := by
    intro k hk
    obtain ⟨extra, he⟩ := h.prefix hk
    have hl := (hq k hk).length_eq
    simp only [upds_leave, ← he, List.map_append, upTo_append, List.length_append] at hl
    have h0 : upTo t (extra.map fun u => (u.1, u.2.1.1, u.2.2)) = [] := List.eq_nil_of_length_eq_zero (by omega)
    have h1 : upTo (t, i) extra = [] := by
      unfold upTo at h0 ⊢
      rw [List.filter_eq_nil_iff] at h0 ⊢
      intro u hu hle
      exact h0 _ (List.mem_map.2 ⟨u, hu, rfl⟩) (decide_eq_true (of_decide_eq_true hle).1)
    simp only [← he, upTo_append, h1, List.append_nil]
    exact List.Perm.refl _
  rw [← result_ok h hp hc hsrc hsub hneg hi hs le_rfl le_rfl d, upds_leave, ← accum_leave_through]
  have : (result n).upds.map (fun u => (u.1, u.2.1.1, u.2.2)) = (result n).upds.map fun u => (u.1, u.2.1.1, u.2.2) := rfl
  exact accum_map_leave _ t i d fun u hu hle => (hr u hu hle).trans hmi

theorem terminates_ok [DecidableEq T] (hf : Frugal recv fun n => (result n).upds) {m : Nat} (hm : m ≤ maxRound) {X : T → D → R}
    (hX : ∀ t', t' ≤ t → itersAt (src n0) body t' m = X t' ∧ ∀ i, m ≤ i → body (t', i) (X t') = X t') :
    (∀ n, ∀ u ∈ (result n).upds, u.2.1.1 ≤ t → u.2.1.2 ≤ m) ∧
    ∃ n, Settled (fun n => (result n).leave.upds) n t ∧ ∀ d, accum (result n).leave.upds d t = X t d := by
  have hiter : ∀ t', t' ≤ t → ∀ i, m ≤ i → itersAt (src n0) body t' i = X t' := fun t' ht i hi => iterates_fix (hX t' ht).1 (hX t' ht).2 i hi
  have hr : ∀ n, ∀ u ∈ (result n).upds, u.2.1.1 ≤ t → u.2.1.2 ≤ m := by
    intro n u hu hle
    by_contra hgt
    have hk : u.2.1.2 ≤ maxRound := h.rounds n u hu
    obtain ⟨k, hkeq⟩ : ∃ k, u.2.1.2 = k + 1 := ⟨u.2.1.2 - 1, by omega⟩
    obtain ⟨n1, k1, -, -⟩ := rounds_ok h hp hc hsrc (fun i => hsub t i le_rfl) (fun n d i => hneg n d t i) (k + 1) (by omega)
    obtain ⟨n', k2, k3⟩ := hf n1 (t, k + 1) k1
    have hz : ∀ d t', t' ≤ t → total (result n').upds d (t', k + 1) = 0 := by
      intro d
      apply total_zero_of_sums _ t
      intro t' ht
      have e1 := result_ok h hp hc hsrc hsub hneg (by omega) k2 ht (le_refl (k + 1)) d
      have e2 := result_ok h hp hc hsrc hsub hneg (by omega) k2 ht (Nat.le_succ k) d
      rw [hiter t' ht _ (by omega)] at e1 e2
      have e3 : ∀ us : Upds D (T × Nat) R, accum us d (t', k + 1) = accum us d (t', k) + (us.map fun u => if u.1 = d ∧ u.2.1.1 ≤ t' ∧ u.2.1.2 = k + 1 then u.2.2 else 0).sum := by
        intro us
        induction us with
        | nil => simp [accum]
        | cons v us ih =>
          rw [accum_cons, accum_cons, ih, List.map_cons, List.sum_cons]
          have : (if v.1 = d ∧ v.2.1 ≤ (t', k + 1) then v.2.2 else 0)
              = (if v.1 = d ∧ v.2.1 ≤ (t', k) then v.2.2 else 0) + (if v.1 = d ∧ v.2.1.1 ≤ t' ∧ v.2.1.2 = k + 1 then v.2.2 else 0) := by
            simp only [Prod.le_def]
            by_cases h1 : v.1 = d
            · by_cases h2 : v.2.1.1 ≤ t'
              · rcases Nat.lt_trichotomy v.2.1.2 (k + 1) with h3 | h3 | h3
                · simp [h1, h2, show v.2.1.2 ≤ k + 1 by omega, show v.2.1.2 ≤ k by omega, show v.2.1.2 ≠ k + 1 by omega]
                · simp [h1, h2, h3]
                · simp [h1, h2, show ¬ v.2.1.2 ≤ k + 1 by omega, show ¬ v.2.1.2 ≤ k by omega, show v.2.1.2 ≠ k + 1 by omega]
              · simp [h2]
            · simp [h1]
          rw [this]; abel
      have e4 := e3 (result n').upds
      rw [e1, e2] at e4
      exact left_eq_add.1 e4
    -- so there is no update at that round, now or ever
    have hno : ∀ v ∈ (result n').upds, ¬ (v.2.1.1 ≤ t ∧ v.2.1.2 = k + 1) := by
      rintro v hv ⟨h1, h2⟩
      apply k3 v hv (Prod.le_def.2 ⟨h1, by simp [h2]⟩)
      have := hz v.1 v.2.1.1 h1
      rwa [← h2] at this
    obtain ⟨extra, he⟩ := h.prefix (le_max_left n n')
    have hu2 : u ∈ upTo (t, k + 1) (result (max n n')).upds := by
      unfold upTo
      rw [List.mem_filter]
      refine ⟨by rw [← he]; simp [hu], ?_⟩
      exact decide_eq_true (Prod.le_def.2 ⟨hle, by simp [hkeq]⟩)
    have hu3 := (k2 (max n n') (le_max_right _ _)).mem_iff.1 hu2
    exact hno u (List.mem_filter.1 hu3).1 ⟨hle, hkeq⟩
  refine ⟨hr, ?_⟩
  obtain ⟨-, -, -, n', k1, k2⟩ := rounds_ok h hp hc hsrc (fun i => hsub t i le_rfl) (fun n d i => hneg n d t i) m hm
  have e : ∀ n, upTo t ((result n).upds.map fun u => (u.1, u.2.1.1, u.2.2)) = (upTo (t, m) (result n).upds).map fun u => (u.1, u.2.1.1, u.2.2) := by
    intro n
    unfold upTo
    rw [List.filter_map]
    congr 1
    apply List.filter_congr
    intro u hu
    simp only [Function.comp_apply, decide_eq_decide, Prod.le_def]
    exact ⟨fun hle => ⟨hle, hr n u hu hle⟩, fun hle => hle.1⟩
  have hs : Settled (fun n => (result n).leave.upds) n' t := by
    intro k hk
    simp only [upds_leave, e]
    exact (k1 k hk).map _
  refine ⟨n', hs, fun d => ?_⟩
  rw [quiet_ok h hp hc hsrc hsub hneg hs (hr n') m le_rfl hm d, hiter t le_rfl _ (by omega)]

end generic

end loop

end DD
