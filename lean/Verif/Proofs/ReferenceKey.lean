import Verif.Proofs.ReferenceTimes
import Verif.Proofs.ProxyKey

/-!
# The reference computation of a key
-/

namespace DD

set_option linter.unusedSectionVars false

section
open Classical
variable {T W G : Type*} [Lattice T] [DecidableLE T] [DecidableEq T] [TimeOrd T] [LinearOrder W] [AddCommGroup G]

/-- One update of its own for each time. -/
def tagged (ts : List T) : Upds (Lin T) T Nat := ts.map fun x => (toLin x, x, 1)

theorem updTimes_tagged (ts : List T) : updTimes (tagged ts) = ts := by
  simp [updTimes, tagged, Function.comp_def]

theorem accum_tagged_pos (ts : List T) (x q : T) : accum (tagged ts) (toLin x) q ≠ 0 ↔ x ∈ ts ∧ x ≤ q := by
  induction ts with
  | nil => simp [tagged, accum]
  | cons y ts ih =>
    have : accum (tagged (y :: ts)) (toLin x) q = (if y = x ∧ y ≤ q then 1 else 0) + accum (tagged ts) (toLin x) q := by
      simp only [tagged, accum, List.map_cons, List.sum_cons]
      congr 1
      exact if_congr (by rw [toLin_inj]) rfl rfl
    rw [this]
    by_cases h : y = x ∧ y ≤ q
    · obtain ⟨rfl, h⟩ := h
      simp [h]
    · rw [if_neg h, zero_add, ih, List.mem_cons]
      constructor
      · rintro ⟨a, b⟩; exact ⟨Or.inr a, b⟩
      · rintro ⟨rfl | a, b⟩
        · exact absurd ⟨rfl, b⟩ h
        · exact ⟨a, b⟩

theorem accum_tagged {ts : List T} {x : T} (hx : x ∈ ts) (q : T) : accum (tagged ts) (toLin x) q ≠ 0 ↔ x ≤ q := by
  rw [accum_tagged_pos]; simp [hx]

/-- The times found suffice for anything that is determined by which times of the history and of the new updates have come. -/
theorem discoverFrom_any (pending seeds outs upper : List T) (hp : pending.Pairwise fun a b => toLin a ≤ toLin b) :
    ∃ (N : Nat) (moments pended : List T),
      (∀ fuel, N ≤ fuel → discoverFrom (V := Nat) (R := Nat) fuel none [] pending seeds outs upper = some (moments, pended)) ∧
      (moments.Pairwise fun a b => toLin a < toLin b) ∧
      (∀ m ∈ moments, ¬ Beyond upper m ∧ ∃ s ∈ seeds ++ pending, s ≤ m) ∧ (∀ p ∈ pended, Beyond upper p ∧ ∃ s ∈ seeds ++ pending, s ≤ p) ∧
      ∀ (H : T → W → G) (L : Upds W T G), (∀ u ∈ L, u.2.1 ∈ moments) →
        (∀ q q', (∀ x ∈ seeds ++ outs, x ≤ q ↔ x ≤ q') → ∀ w, H q w = H q' w) →
        (∀ m ∈ moments, ∀ w, accum L w m = H m w) →
        ∀ q, (∃ s ∈ seeds ++ pending, s ≤ q) → (∀ p ∈ pended, ¬ p ≤ q) →
          (∀ x ∈ outs, x ≤ q → Beyond upper x → ∃ s ∈ seeds ++ pending, s ≤ x) →
          ∀ w, accum L w q = H q w := by
  obtain ⟨N, moments, pended, h1, h2, h3, h4, -, h6⟩ := discoverFrom_right (V := Nat) (R := Nat) (W := W) (G := G) none ([] : Upds Nat T Nat) pending seeds (tagged outs)
    (tagged seeds) upper hp (by simp) (fun x hx => by rwa [updTimes_tagged] at hx)
  rw [updTimes_tagged] at h1 h6
  refine ⟨N, moments, pended, h1, h2, h3, h4, ?_⟩
  intro H L hL hH hm q hq hpq hheed
  let Ok : (Lin T → Nat) → (Lin T → Nat) → T → Prop := fun o n q => (∀ x ∈ outs, o (toLin x) ≠ 0 ↔ x ≤ q) ∧ ∀ x ∈ seeds, n (toLin x) ≠ 0 ↔ x ≤ q
  let F : (Nat → Nat) → (Lin T → Nat) → (Lin T → Nat) → W → G := fun _ o n w => if h : ∃ q, Ok o n q then H h.choose w else 0
  have hF : ∀ i q w, F i (fun v => accum (tagged outs) v q) (fun v => accum (tagged seeds) v q) w = H q w := by
    intro i q w
    have h : ∃ q', Ok (fun v => accum (tagged outs) v q) (fun v => accum (tagged seeds) v q) q' := ⟨q, fun x hx => accum_tagged hx q, fun x hx => accum_tagged hx q⟩
    show (if h : ∃ q', Ok (fun v => accum (tagged outs) v q) (fun v => accum (tagged seeds) v q) q' then H h.choose w else 0) = _
    rw [dif_pos h]
    refine hH _ _ (fun x hx => ?_) w
    rcases List.mem_append.1 hx with hx | hx
    · exact (h.choose_spec.2 x hx).symm.trans (accum_tagged hx q)
    · exact (h.choose_spec.1 x hx).symm.trans (accum_tagged hx q)
  have := h6 F L hL (fun m hmm w => (hm m hmm w).trans (hF (fun v => accum ([] : Upds Nat T Nat) v m) m w).symm) q hq hpq (fun x hx => hheed x (by simpa [updTimes] using hx))
  exact fun w => (this w).trans (hF (fun v => accum ([] : Upds Nat T Nat) v q) q w)

end

section
variable {V1 V2 T R1 R2 : Type*} [Lattice T] [DecidableLE T] [DecidableEq T] [TimeOrd T] [LinearOrder V1] [LinearOrder V2] [AddCommMonoid R1] [DecidableEq R1]
  [AddCancelCommMonoid R2] [DecidableEq R2]

theorem accum_congr_times {V R : Type*} [LinearOrder V] [AddCommMonoid R] {us : Upds V T R} {q q' : T} (h : ∀ u ∈ us, u.2.1 ≤ q ↔ u.2.1 ≤ q') (v : V) : accum us v q = accum us v q' := by
  unfold accum
  congr 1
  apply List.map_congr_left
  intro u hu
  simp only [h u hu]

theorem snapshot_total {V R : Type*} [LinearOrder V] [AddCommMonoid R] [DecidableEq R] (I : Upds V T R) (q : T) : ∃ l, IsSnapshot I q l :=
  ⟨consolidated (readAt I q), consolidatedPairs_consolidated _, fun v => by rw [weight_consolidated, weight_readAt]⟩

open Classical in
/-- The times found are those at which the output needs to be looked at. -/
theorem reference_found (f : List (V1 × R1) → List (V2 × R2)) (B0 I0 : Upds V1 T R1) (O0 : Upds V2 T R2) (times upper : List T) (hp : times.Pairwise fun a b => toLin a ≤ toLin b) :
    ∃ (N : Nat) (moments pended : List T),
      (∀ fuel, N ≤ fuel → discoverFrom (V := Nat) (R := Nat) fuel none [] times (updTimes B0) (updTimes I0 ++ updTimes O0) upper = some (moments, pended)) ∧
      (moments.Pairwise fun a b => toLin a < toLin b) ∧
      (∀ m ∈ moments, ¬ Beyond upper m ∧ ∃ s ∈ updTimes B0 ++ times, s ≤ m) ∧ (∀ p ∈ pended, Beyond upper p ∧ ∃ s ∈ updTimes B0 ++ times, s ≤ p) ∧
      ∀ L : Upds V2 T R2, (∀ u ∈ L, u.2.1 ∈ moments) → (∀ m ∈ moments, ReducedAt f (I0 ++ B0) (O0 ++ L) m) →
        ∀ q, (∃ s ∈ updTimes B0 ++ times, s ≤ q) → (∀ p ∈ pended, ¬ p ≤ q) →
          (∀ x ∈ updTimes I0 ++ updTimes O0, x ≤ q → Beyond upper x → ∃ s ∈ updTimes B0 ++ times, s ≤ x) →
          ReducedAt f (I0 ++ B0) (O0 ++ L) q := by
  obtain ⟨N, moments, pended, h1, h2, h3, h4, h5⟩ := discoverFrom_any (W := V2) (G := Algebra.GrothendieckAddGroup R2) times (updTimes B0) (updTimes I0 ++ updTimes O0) upper hp
  refine ⟨N, moments, pended, h1, h2, h3, h4, ?_⟩
  intro L hL hm q hq hpq hheed
  let φ : R2 →+ Algebra.GrothendieckAddGroup R2 := Algebra.GrothendieckAddGroup.of
  have hφ : Function.Injective φ := Algebra.GrothendieckAddGroup.of_injective
  let H : T → V2 → Algebra.GrothendieckAddGroup R2 := fun q v => φ (weight (f (snapshot_total (I0 ++ B0) q).choose) v) - φ (accum O0 v q)
  have hsnap : ∀ q l, IsSnapshot (I0 ++ B0) q l → (snapshot_total (I0 ++ B0) q).choose = l := fun q l hl =>
    consolidatedPairs_unique (snapshot_total (I0 ++ B0) q).choose_spec.1 hl.1 fun v => by rw [(snapshot_total (I0 ++ B0) q).choose_spec.2, hl.2]
  have := h5 H (L.map fun u => (u.1, u.2.1, φ u.2.2)) ?_ ?_ ?_ q hq hpq hheed
  · obtain ⟨l, hl⟩ := snapshot_total (I0 ++ B0) q
    refine ⟨l, hl, fun v => ?_⟩
    have hv := this v
    rw [accum_mapDiff] at hv
    simp only [H, hsnap q l hl] at hv
    rw [eq_sub_iff_add_eq, ← map_add] at hv
    rw [accum_append, add_comm]
    exact hφ hv
  · intro u hu
    obtain ⟨w, hw, rfl⟩ := List.mem_map.1 hu
    exact hL w hw
  · intro q q' hqq v
    have e1 : ∀ v, accum (I0 ++ B0) v q = accum (I0 ++ B0) v q' := accum_congr_times fun u hu => hqq _ (by
      simp only [List.mem_append, mem_updTimes]
      rcases List.mem_append.1 hu with hu | hu
      · exact Or.inr (Or.inl ⟨u, hu, rfl⟩)
      · exact Or.inl ⟨u, hu, rfl⟩)
    have e2 : accum O0 v q = accum O0 v q' := accum_congr_times (fun u hu => hqq _ (by
      simp only [List.mem_append, mem_updTimes]
      exact Or.inr (Or.inr ⟨u, hu, rfl⟩))) v
    simp only [H, e2]
    obtain ⟨l, hl⟩ := snapshot_total (I0 ++ B0) q
    rw [hsnap q l hl, hsnap q' l ⟨hl.1, fun v => by rw [hl.2, e1]⟩]
  · intro m hmm v
    rw [accum_mapDiff]
    obtain ⟨l, hl, hlv⟩ := hm m hmm
    simp only [H, hsnap m l hl]
    rw [eq_sub_iff_add_eq, ← map_add, ← hlv v, accum_append, add_comm]

/-- The state of the second phase: `M` are the active times, of which `rem` are to come. -/
structure ApplyInv (f : List (V1 × R1) → List (V2 × R2)) (B0 I0 : Upds V1 T R1) (O0 : Upds V2 T R2) (held M done rem : List T) (st : ApplyState V1 V2 T R1 R2) : Prop where
  split : done ++ rem = M
  batch : ReplayAt st.batch B0 rem
  input : ReplayAt st.input I0 rem
  output : ReplayAt st.output O0 rem
  produced : BufRel st.produced (st.outputs.flatMap (·.2)) rem
  outs : st.outputs.map (·.1) = held
  filed : ∀ (i : Nat) (o : T × Upds V2 T R2), st.outputs[i]? = some o → ∀ u ∈ o.2, outputIndex held u.2.1 = some i
  times : ∀ u ∈ st.outputs.flatMap (·.2), u.2.1 ∈ done
  right : ∀ m ∈ done, ReducedAt f (I0 ++ B0) (O0 ++ st.outputs.flatMap (·.2)) m

variable {f : List (V1 × R1) → List (V2 × R2)} {logic : List (V1 × R1) → List (V2 × R2) → List (V2 × R2)} {B0 I0 : Upds V1 T R1} {O0 : Upds V2 T R2} {held M done : List T}
  {st : ApplyState V1 V2 T R1 R2}

theorem apply_step (hl : ReducesBy f logic) (hM : M.Pairwise fun a b => toLin a < toLin b) (hheld : ∀ m ∈ M, Beyond held m) {t m : T} {ts ms : List T}
    (hms : timesMeets (t :: ts) = m :: ms) (h : ApplyInv f B0 I0 O0 held M done (t :: ts) st) :
    ∃ st1 st2, st.catchUp t m = some st1 ∧ st1.correct logic t m = some st2 ∧ ms = timesMeets ts ∧ ApplyInv f B0 I0 O0 held M (done ++ [t]) ts st2 := by
  have hsplit := h.split
  have hdone : ∀ d ∈ done, toLin d < toLin t := by
    rw [← hsplit] at hM
    exact fun d hd => (List.pairwise_append.1 hM).2.2 d hd t (by simp)
  have hm : ∀ r ∈ t :: ts, m ≤ r := (timesMeets_spec (t :: ts)).1 m (by rw [hms]; rfl)
  have hms' : ms = timesMeets ts := by
    have := timesMeets_drop (t :: ts) 1
    rw [hms] at this
    simpa using this
  have hsub : ∀ r ∈ ts, r ∈ t :: ts := fun r hr => List.mem_cons_of_mem _ hr
  obtain ⟨hb, b1, b2, b3⟩ := replayAt_moment h.batch List.mem_cons_self hm
  obtain ⟨hi, i1, i2, i3⟩ := replayAt_moment h.input List.mem_cons_self hm
  obtain ⟨ho, o1, o2, o3⟩ := replayAt_moment h.output List.mem_cons_self hm
  have hcatch : st.catchUp t m = some { st with input := hi, batch := hb, output := ho } := by
    unfold ApplyState.catchUp
    rw [i1, b1, o1]
  have hp3 := h.produced.acc t ⟨t, List.mem_cons_self, le_refl _⟩
  obtain ⟨inA, hinA⟩ : ∃ inA, inA = consolidated (readAt hi.buffer t ++ readAt hb.buffer t) := ⟨_, rfl⟩
  obtain ⟨outA, houtA⟩ : ∃ outA, outA = consolidated (readAt ho.buffer t ++ readAt st.produced t) := ⟨_, rfl⟩
  have c1 : ConsolidatedPairs inA := by rw [hinA]; exact consolidatedPairs_consolidated _
  have c2 : ConsolidatedPairs outA := by rw [houtA]; exact consolidatedPairs_consolidated _
  have w1 : ∀ v, weight inA v = accum (I0 ++ B0) v t := fun v => by
    rw [hinA, weight_consolidated, weight_append, weight_readAt, weight_readAt, i3, b3, accum_append]
  have w2 : ∀ v, weight outA v = accum (O0 ++ st.outputs.flatMap (·.2)) v t := fun v => by
    rw [houtA, weight_consolidated, weight_append, weight_readAt, weight_readAt, o3, hp3, accum_append]
  have hsame : (∀ v, accum (O0 ++ st.outputs.flatMap (·.2)) v t = weight (f inA) v) →
      ApplyInv f B0 I0 O0 held M (done ++ [t]) ts { st with input := hi, batch := hb, output := ho } := by
    intro hr
    refine ⟨by simpa using hsplit, b2.mono hsub, i2.mono hsub, o2.mono hsub, h.produced.mono fun r hr => ⟨r, hsub r hr, le_refl _⟩, h.outs, h.filed,
      fun u hu => List.mem_append_left _ (h.times u hu), ?_⟩
    intro d hd
    rcases List.mem_append.1 hd with hd | hd
    · exact h.right d hd
    · obtain rfl := List.mem_singleton.1 hd
      exact ⟨inA, ⟨c1, w1⟩, hr⟩
  refine ⟨{ st with input := hi, batch := hb, output := ho }, ?_⟩
  rw [hcatch]
  unfold ApplyState.correct
  simp only
  rw [consolidate_eq, consolidate_eq, ← hinA, ← houtA]
  simp only
  by_cases he : (inA.isEmpty && outA.isEmpty) = true
  · rw [if_pos he]
    refine ⟨_, trivial, rfl, hms', hsame ?_⟩
    simp only [Bool.and_eq_true, List.isEmpty_iff] at he
    intro v
    rw [← w2 v, he.1, he.2, hl.1]
  · rw [if_neg he, consolidate_eq]
    simp only
    obtain ⟨upd, hupd⟩ : ∃ upd, upd = consolidated (logic inA outA) := ⟨_, rfl⟩
    have wu : ∀ v, weight upd v + accum (O0 ++ st.outputs.flatMap (·.2)) v t = weight (f inA) v := fun v => by
      rw [← w2 v, hupd, weight_consolidated]; exact hl.2 inA outA c1 c2 v
    rw [← hupd]
    by_cases hue : upd.isEmpty = true
    · rw [if_pos hue]
      refine ⟨_, trivial, rfl, hms', hsame ?_⟩
      rw [List.isEmpty_iff] at hue
      intro v
      have := wu v
      rw [hue] at this
      simpa [weight] using this
    · rw [if_neg hue, h.outs]
      have htM : t ∈ M := by rw [← hsplit]; simp
      cases hidx : outputIndex held t with
      | none => exact absurd (hheld t htM) (outputIndex_eq_none.1 hidx)
      | some idx =>
        simp only
        rw [consolidateUpdates_eq]
        simp only
        obtain ⟨new, hnew⟩ : ∃ new : Upds V2 T R2, new = upd.map fun u => (u.1, t, u.2) := ⟨_, rfl⟩
        rw [← hnew]
        have hnt : ∀ u ∈ new, u.2.1 = t := by
          intro u hu
          rw [hnew] at hu
          obtain ⟨c, -, rfl⟩ := List.mem_map.1 hu
          rfl
        have hnw : ∀ v, accum new v t = weight upd v := by
          intro v
          rw [hnew]
          unfold accum weight
          rw [List.map_map]
          congr 1
          apply List.map_congr_left
          intro c _
          simp
        have hlen : idx < st.outputs.length := by
          have := outputIndex_lt hidx
          rw [← h.outs] at this
          simpa using this
        have hperm := modify_flatMap_perm st.outputs idx new hlen
        refine ⟨_, trivial, rfl, hms', ⟨by simpa using hsplit, b2.mono hsub, i2.mono hsub, o2.mono hsub, ?_, ?_, ?_, ?_, ?_⟩⟩
        · have h1 := ((h.produced.append new).joined (some m) (by simpa using hm)).mono fun r hr => ⟨r, hsub r hr, le_refl _⟩
          refine ⟨fun q hq v => ?_, fun e hee => ?_⟩
          · exact (h1.acc q hq v).trans (accum_perm hperm v q).symm
          · obtain ⟨u, a1, a2⟩ := h1.orig e hee
            exact ⟨u, hperm.mem_iff.2 a1, a2⟩
        · rw [← h.outs]
          simp only
          apply List.ext_getElem?
          intro i
          simp only [List.getElem?_map, List.getElem?_modify]
          cases st.outputs[i]? with
          | none => rfl
          | some o => by_cases hi : idx = i <;> simp [hi]
        · intro i o3 h3 u hu
          simp only [List.getElem?_modify] at h3
          cases hoi : st.outputs[i]? with
          | none => rw [hoi] at h3; simp at h3
          | some o =>
            rw [hoi] at h3
            by_cases hi : idx = i
            · subst hi
              simp only [if_true, Option.map_eq_map, Option.map_some, Option.some.injEq] at h3
              subst h3
              rcases List.mem_append.1 hu with hu | hu
              · exact h.filed idx o hoi u hu
              · rw [hnt u hu, hidx]
            · simp only [hi, if_false, Option.map_eq_map, Option.map_some, Option.some.injEq] at h3
              subst h3
              exact h.filed i o hoi u hu
        · intro u hu
          rcases List.mem_append.1 (hperm.mem_iff.1 hu) with hu | hu
          · exact List.mem_append_left _ (h.times u hu)
          · simp [hnt u hu]
        · intro d hd
          have hacc : ∀ v q, accum (O0 ++ (st.outputs.modify idx fun o => (o.1, o.2 ++ new)).flatMap (·.2)) v q = accum (O0 ++ st.outputs.flatMap (·.2)) v q + accum new v q := by
            intro v q
            rw [accum_append, accum_perm hperm, accum_append, accum_append, add_assoc]
          rcases List.mem_append.1 hd with hd | hd
          · refine reducedAt_congr (fun _ => rfl) (fun v => ?_) (h.right d hd)
            rw [hacc, accum_zero_of_not_le (us := new), add_zero]
            intro u hu hle
            rw [hnt u hu] at hle
            exact absurd (TimeOrd.mono hle) (not_le.2 (hdone d hd))
          · obtain rfl := List.mem_singleton.1 hd
            refine ⟨inA, ⟨c1, w1⟩, fun v => ?_⟩
            rw [hacc, hnw, ← wu v, add_comm]

theorem apply_loop (hl : ReducesBy f logic) (hM : M.Pairwise fun a b => toLin a < toLin b) (hheld : ∀ m ∈ M, Beyond held m) (rem : List T) :
    ∀ {done : List T} {st : ApplyState V1 V2 T R1 R2}, ApplyInv f B0 I0 O0 held M done rem st →
      ∃ st', ApplyState.loop logic rem (timesMeets rem) st = some st' ∧ ApplyInv f B0 I0 O0 held M M [] st' := by
  induction rem with
  | nil =>
    intro done st h
    refine ⟨st, rfl, ?_⟩
    have := h.split
    rw [List.append_nil] at this
    rw [this] at h
    exact ⟨by simp, h.batch, h.input, h.output, h.produced, h.outs, h.filed, h.times, h.right⟩
  | cons t ts ih =>
    intro done st h
    obtain ⟨m, ms, hms⟩ : ∃ m ms, timesMeets (t :: ts) = m :: ms := by
      cases hc : timesMeets (t :: ts) with
      | nil => exact absurd ((timesMeets_spec (t :: ts)).2.1 (by rw [hc]; rfl)) (by simp)
      | cons m ms => exact ⟨m, ms, rfl⟩
    obtain ⟨st1, st2, a1, a2, a3, a4⟩ := apply_step hl hM hheld hms h
    obtain ⟨st', b1, b2⟩ := ih a4
    refine ⟨st', ?_, b2⟩
    rw [hms]
    unfold ApplyState.loop
    rw [a1]
    simp only
    rw [a2]
    simp only
    rw [a3]
    exact b1

theorem replayAt_walk {V R : Type*} [LinearOrder V] [AddCommMonoid R] [DecidableEq R] {h : ValueHistory V T R} {I : Upds V T R} (hk : HistOk h I) (rem : List T) : ReplayAt h.walk I rem :=
  ⟨[], I, ⟨hk.dec, hk.meets, hk.sorted⟩, ⟨fun _ _ _ => rfl, by simp [ValueHistory.walk]⟩, fun _ _ _ => rfl⟩

theorem updTimes_of_joinOpt {V R : Type*} {a b : Upds V T R} (h : ∀ u ∈ a, ∃ w ∈ b, u.2.1 = joinOpt none w.2.1) : ∀ x ∈ updTimes a, x ∈ updTimes b := by
  intro x hx
  obtain ⟨u, hu, rfl⟩ := mem_updTimes.1 hx
  obtain ⟨w, hw, e⟩ := h u hu
  rw [e]
  exact mem_updTimes.2 ⟨w, hw, rfl⟩

/-- The seeds: the times of new updates and pending times. -/
theorem referenceKey_spec {K : Type*} [LinearOrder K] (hl : ReducesBy f logic) (key : K) (source : Contents K V1 T R1) (output : Contents K V2 T R2) (batch : Contents K V1 T R1)
    (times later lower upper held : List T)
    (hsrc : source.Pairwise fun x y => x.1 < y.1) (hout : output.Pairwise fun x y => x.1 < y.1) (hbat : ContentsSorted batch)
    (htimes : times.Pairwise fun a b => toLin a ≤ toLin b)
    (hB : ∀ s ∈ updTimes (keyUpds batch key) ++ times, Beyond lower s ∧ ¬ Beyond upper s ∧ Beyond held s)
    (hstart : ∀ q, Beyond lower q → (∀ p ∈ times ++ later, ¬ p ≤ q) → ReducedAt f (keyUpds source key) (keyUpds output key) q) :
    ∃ outs pend N, (∀ fuel, N ≤ fuel → referenceKey fuel key source output batch times logic upper held = some (outs, pend)) ∧
      outs.map (·.1) = held ∧
      (∀ (i : Nat) (o : T × Upds V2 T R2), outs[i]? = some o → ∀ u ∈ o.2, outputIndex held u.2.1 = some i ∧ ¬ Beyond upper u.2.1 ∧
        ∃ s ∈ updTimes (keyUpds batch key) ++ times, s ≤ u.2.1) ∧
      (∀ p ∈ pend, Beyond upper p ∧ ∃ s ∈ updTimes (keyUpds batch key) ++ times, s ≤ p) ∧
      ∀ t, Beyond lower t → (∀ p ∈ pend ++ later, ¬ p ≤ t) →
        (∀ w ∈ updTimes (keyUpds source key) ++ updTimes (keyUpds output key), w ≤ t → Beyond upper w → (∃ p ∈ times, p ≤ w) ∨ ∃ v s, total (keyUpds batch key) v s ≠ 0 ∧ s ≤ w) →
        ReducedAt f (keyUpds source key ++ keyUpds batch key) (keyUpds output key ++ outs.flatMap (·.2)) t := by
  obtain ⟨hb, B0, b1, b2, b3, b4, b5, b6, b7⟩ := replayKey_ok batch hbat.keys key (none : Option T)
  obtain ⟨hs, S0, s1, s2, s3, s4, s5, -⟩ := replayKey_ok source hsrc key (none : Option T)
  obtain ⟨ho, O0, o1, o2, o3, o4, o5, -⟩ := replayKey_ok output hout key (none : Option T)
  obtain ⟨N, M, pend, h1, h2, h3, h4, h5⟩ := reference_found f B0 S0 O0 times upper htimes
  have hBs : ∀ x ∈ updTimes B0, x ∈ updTimes (keyUpds batch key) := updTimes_of_joinOpt b5
  have hseeds : ∀ s ∈ updTimes B0 ++ times, s ∈ updTimes (keyUpds batch key) ++ times := by
    intro s h
    rcases List.mem_append.1 h with h | h
    · exact List.mem_append_left _ (hBs s h)
    · exact List.mem_append_right _ h
  have hheldM : ∀ m ∈ M, Beyond held m := by
    intro m hm
    obtain ⟨-, s, a1, a2⟩ := h3 m hm
    exact beyond_mono (hB s (hseeds s a1)).2.2 a2
  have hinit : ApplyInv f B0 S0 O0 held M [] M
      ({ batch := hb.walk, input := hs.walk, output := ho.walk, produced := [], outputs := held.map fun t => (t, []) } : ApplyState V1 V2 T R1 R2) := by
    have hflat : ((held.map fun t => (t, [])).flatMap (·.2) : Upds V2 T R2) = [] := by simp
    refine ⟨rfl, replayAt_walk b2 M, replayAt_walk s2 M, replayAt_walk o2 M, ?_, by simp [Function.comp_def], ?_, by rw [hflat]; simp, by simp⟩
    · rw [hflat]; exact ⟨fun _ _ _ => rfl, by simp⟩
    · intro i o hio u hu
      simp only [List.getElem?_map, Option.map_eq_some_iff] at hio
      obtain ⟨a, -, rfl⟩ := hio
      simp at hu
  obtain ⟨st, c1, c2⟩ := apply_loop hl h2 hheldM M hinit
  refine ⟨st.outputs, pend, N, fun fuel hf => ?_, c2.outs, ?_, ?_, ?_⟩
  · obtain ⟨rs, r1, r2, r3⟩ := reference_discover b2 s2 o2 times upper fuel (h1 fuel hf)
    unfold referenceKey
    rw [b1, s1, o1]
    simp only
    rw [r1]
    simp only
    rw [r2, r3, sortDedup_eq h2, c1]
    rfl
  · intro i o hio u hu
    have hmem := c2.times u (List.mem_flatMap.2 ⟨o, List.mem_of_getElem? hio, hu⟩)
    obtain ⟨a1, s, a2, a3⟩ := h3 _ hmem
    exact ⟨c2.filed i o hio u hu, a1, s, hseeds s a2, a3⟩
  · intro p hp
    obtain ⟨a1, s, a2, a3⟩ := h4 p hp
    exact ⟨a1, s, hseeds s a2, a3⟩
  · intro t ht hpt hheed
    have e1 : ∀ v, accum (keyUpds source key ++ keyUpds batch key) v t = accum (S0 ++ B0) v t := fun v => by
      rw [accum_append, accum_append, s4 v t (by simp), b4 v t (by simp)]
    have e2 : ∀ v, accum (keyUpds output key ++ st.outputs.flatMap (·.2)) v t = accum (O0 ++ st.outputs.flatMap (·.2)) v t := fun v => by
      rw [accum_append, accum_append, o4 v t (by simp)]
    by_cases hex : ∃ s ∈ updTimes B0 ++ times, s ≤ t
    · refine reducedAt_congr (fun v => (e1 v).symm) (fun v => (e2 v).symm) (h5 _ c2.times c2.right t hex (fun p hp => hpt p (List.mem_append_left _ hp)) ?_)
      intro x hx hxt hbx
      have hx' : x ∈ updTimes (keyUpds source key) ++ updTimes (keyUpds output key) := by
        rcases List.mem_append.1 hx with hx | hx
        · exact List.mem_append_left _ (updTimes_of_joinOpt s5 x hx)
        · exact List.mem_append_right _ (updTimes_of_joinOpt o5 x hx)
      rcases hheed x hx' hxt hbx with ⟨p, a1, a2⟩ | ⟨v, s, a1, a2⟩
      · exact ⟨p, List.mem_append_right _ a1, a2⟩
      · rw [← b6 rfl v s] at a1
        obtain ⟨r, hr⟩ := total_ne_zero_mem a1
        exact ⟨s, List.mem_append_left _ (mem_updTimes.2 ⟨_, hr, rfl⟩), a2⟩
    · have hB0 : ∀ v, accum (keyUpds batch key) v t = 0 := fun v => by
        rw [← b4 v t (by simp)]
        exact accum_zero_of_not_le (fun u hu hle => hex ⟨u.2.1, List.mem_append_left _ (mem_updTimes.2 ⟨u, hu, rfl⟩), hle⟩) v
      have hL0 : ∀ v, accum (st.outputs.flatMap (·.2)) v t = 0 := fun v =>
        accum_zero_of_not_le (fun u hu hle => by
          obtain ⟨-, s, a2, a3⟩ := h3 _ (c2.times u hu)
          exact hex ⟨s, a2, a3.trans hle⟩) v
      refine reducedAt_congr (fun v => ?_) (fun v => ?_) (hstart t ht fun p hp hle => ?_)
      · rw [accum_append, hB0, add_zero]
      · rw [accum_append, hL0, add_zero]
      · rcases List.mem_append.1 hp with hp | hp
        · exact hex ⟨p, List.mem_append_right _ hp, hle⟩
        · exact hpt p (List.mem_append_right _ hp) hle

end
end DD
