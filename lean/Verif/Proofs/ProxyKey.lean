import Verif.Proofs.DiscoverRight
import Verif.Proofs.ReduceLoop
import Verif.Spec.ProxyReduce
import Mathlib.GroupTheory.MonoidLocalization.GrothendieckGroup

/-!
# The proxy reduce, for one key
-/

set_option linter.unusedSectionVars false

namespace DD

section
variable {V V2 T R R2 : Type*} [Lattice T] [DecidableLE T] [DecidableEq T] [TimeOrd T] [LinearOrder V] [AddCancelCommMonoid R] [DecidableEq R] [LinearOrder V2]
  [AddCancelCommMonoid R2]

/-- What the first phase finds for a key. -/
structure Found (f : List (V × R) → List (V2 × R2)) (I : Upds V T R) (O : Upds V2 T R2) (seeds pending upper moments pended : List T) : Prop where
  momSort : moments.Pairwise fun a b => toLin a < toLin b
  pendSort : pended.Pairwise fun a b => toLin a < toLin b
  mom : ∀ m ∈ moments, ¬ Beyond upper m ∧ ∃ s ∈ seeds ++ pending, s ≤ m
  pend : ∀ p ∈ pended, Beyond upper p ∧ ∃ s ∈ seeds ++ pending, s ≤ p
  kept : ∀ s ∈ seeds ++ pending, s ∈ moments ∨ s ∈ pended
  suffices' : ∀ L : Upds V2 T R2, (∀ u ∈ L, u.2.1 ∈ moments) → (∀ m ∈ moments, ReducedAt f I (O ++ L) m) →
    ∀ q, (∃ s ∈ seeds ++ pending, s ≤ q) → (∀ p ∈ pended, ¬ p ≤ q) →
      (∀ x ∈ updTimes I ++ updTimes O, ∀ m, IsGLB {s | s ∈ seeds ++ pending} m → x ⊔ m ≤ q → Beyond upper (x ⊔ m) → ∃ s ∈ seeds ++ pending, s ≤ x ⊔ m) →
      ReducedAt f I (O ++ L) q

theorem accum_mapDiff {G : Type*} [AddCommMonoid G] (φ : R2 →+ G) (L : Upds V2 T R2) (v : V2) (q : T) :
    accum (L.map fun u => (u.1, u.2.1, φ u.2.2)) v q = φ (accum L v q) := by
  unfold accum
  rw [map_list_sum, List.map_map, List.map_map]
  congr 1
  apply List.map_congr_left
  intro u _
  simp only [Function.comp_apply]
  split_ifs <;> simp

theorem snapshot_exists (I : Upds V T R) (q : T) : ∃ l, IsSnapshot I q l :=
  ⟨consolidated (readAt I q), consolidatedPairs_consolidated _, fun v => by rw [weight_consolidated, weight_readAt]⟩

open Classical in
theorem discover_found (f : List (V × R) → List (V2 × R2)) (I : Upds V T R) (O : Upds V2 T R2) (seeds pending upper : List T) (hp : pending.Pairwise fun a b => toLin a ≤ toLin b) :
    ∃ (N : Nat) (moments pended : List T), (∀ fuel, N ≤ fuel → discoverTimes fuel I pending seeds (updTimes O) upper = some (moments, pended)) ∧
      Found f I O seeds pending upper moments pended := by
  obtain ⟨N, moments, pended, h1, h2, h3, h4, h5, h6, h7⟩ := discover_right (W := V2) (G := Algebra.GrothendieckAddGroup R2) I pending seeds O upper hp
  refine ⟨N, moments, pended, h1, h2, h3, h4, h5, h6, ?_⟩
  intro L hL hm q hq hpq hheed
  let φ : R2 →+ Algebra.GrothendieckAddGroup R2 := Algebra.GrothendieckAddGroup.of
  have hφ : Function.Injective φ := Algebra.GrothendieckAddGroup.of_injective
  let snap : (V → R) → List (V × R) := fun i => if h : ∃ l, ConsolidatedPairs l ∧ ∀ v, weight l v = i v then h.choose else []
  have hsnap : ∀ q l, IsSnapshot I q l → snap (fun v => accum I v q) = l := by
    intro q l hl
    have h : ∃ l : List (V × R), ConsolidatedPairs l ∧ ∀ v, weight l v = accum I v q := ⟨l, hl⟩
    show (if h : ∃ l : List (V × R), ConsolidatedPairs l ∧ ∀ v, weight l v = accum I v q then h.choose else []) = l
    rw [dif_pos h]
    exact consolidatedPairs_unique h.choose_spec.1 hl.1 fun v => by rw [h.choose_spec.2, hl.2]
  let F : (V → R) → (V2 → R2) → V2 → Algebra.GrothendieckAddGroup R2 := fun i o v => φ (weight (f (snap i)) v) - φ (o v)
  have := h7 F (L.map fun u => (u.1, u.2.1, φ u.2.2)) ?_ ?_ q hq hpq hheed
  · obtain ⟨l, hl⟩ := snapshot_exists I q
    refine ⟨l, hl, fun v => ?_⟩
    have hv := this v
    rw [accum_mapDiff] at hv
    simp only [F, hsnap q l hl] at hv
    rw [eq_sub_iff_add_eq, ← map_add] at hv
    rw [accum_append, add_comm]
    exact hφ hv
  · intro u hu
    obtain ⟨w, hw, rfl⟩ := List.mem_map.1 hu
    exact hL w hw
  · intro m hmm v
    rw [accum_mapDiff]
    obtain ⟨l, hl, hlv⟩ := hm m hmm
    simp only [F, hsnap m l hl]
    rw [eq_sub_iff_add_eq, ← map_add, ← hlv v, accum_append, add_comm]

end

section
variable {V T R : Type*} [Lattice T] [DecidableLE T] [TimeOrd T] [LinearOrder V] [AddCommMonoid R] [DecidableEq R]

omit [DecidableLE T] in
theorem dropWhile_le_gt {α : Type*} (time : α → T) {l : List α} (hs : l.Pairwise fun a b => toLin (time a) ≤ toLin (time b)) (t : T) :
    ∀ a ∈ l.dropWhile (fun a => decide (toLin (time a) ≤ toLin t)), toLin t < toLin (time a) := by
  induction l with
  | nil => simp
  | cons x xs ih =>
    intro a ha
    by_cases hx : toLin (time x) ≤ toLin t
    · rw [List.dropWhile_cons_of_pos (by simpa using hx)] at ha
      exact ih (List.pairwise_cons.1 hs).2 a ha
    · rw [List.dropWhile_cons_of_neg (by simpa using hx)] at ha
      rcases List.mem_cons.1 ha with rfl | ha
      · exact not_le.1 hx
      · exact (not_le.1 hx).trans_le ((List.pairwise_cons.1 hs).1 a ha)

/-- A replay that is good for the moments `rem` to come. -/
def ReplayAt (h : ValueHistory V T R) (I : Upds V T R) (rem : List T) : Prop :=
  ∃ Is Ir, HistOk h Ir ∧ BufRel h.buffer Is rem ∧ ∀ q, (∃ r ∈ rem, r ≤ q) → ∀ v, accum (Is ++ Ir) v q = accum I v q

theorem ReplayAt.mono {h : ValueHistory V T R} {I : Upds V T R} {rem rem' : List T} (hr : ReplayAt h I rem) (hs : ∀ r ∈ rem', r ∈ rem) : ReplayAt h I rem' := by
  obtain ⟨Is, Ir, h1, h2, h3⟩ := hr
  exact ⟨Is, Ir, h1, h2.mono fun r hr => ⟨r, hs r hr, le_refl _⟩, fun q ⟨r, a, b⟩ => h3 q ⟨r, hs r a, b⟩⟩

theorem replayAt_load (I : Upds V T R) (rem : List T) : ∃ h, ValueHistory.loadIter I (timesMeets rem).head? = some h ∧ ReplayAt h I rem := by
  obtain ⟨h, rest, h1, h2, h3, h4, -⟩ := loadIter_src I (timesMeets rem).head?
  refine ⟨h, h1, [], rest, h2, ?_, ?_⟩
  · rw [h3]; exact ⟨fun _ _ _ => rfl, by simp⟩
  · rintro q ⟨r, hr, hrq⟩ v
    rw [List.nil_append]
    exact h4 v q fun m hm => ((timesMeets_spec rem).1 m hm r hr).trans hrq

theorem replayAt_moment {h : ValueHistory V T R} {I : Upds V T R} {rem : List T} {t m : T} (hr : ReplayAt h I rem) (ht : t ∈ rem) (hm : ∀ r ∈ rem, m ≤ r) :
    ∃ h', (h.stepThrough t).bind (·.advanceBufferBy m) = some h' ∧ ReplayAt h' I rem ∧ ∀ v, accum h'.buffer v t = accum I v t := by
  obtain ⟨Is, Ir, h1, h2, h3⟩ := hr
  have hlen : Ir.length ≤ h.history.length := h1.dec.length_eq.ge
  obtain ⟨h', a1, a2, a3⟩ := ValueHistory.ok_stepWhile (fun x => decide (toLin x ≤ toLin t)) h.history.length h1 hlen
  obtain ⟨h'', b1, b2, b3, -⟩ := ValueHistory.ok_advance a2 m
  have hb : BufRel h'.buffer (Is ++ Ir.takeWhile fun u => decide (toLin u.2.1 ≤ toLin t)) rem := by
    rw [a3]; exact h2.append _
  have hb' : BufRel h''.buffer (Is ++ Ir.takeWhile fun u => decide (toLin u.2.1 ≤ toLin t)) rem := by
    rw [b3]; exact hb.joined (some m) (by simpa using hm)
  have hacc : ∀ q, (∃ r ∈ rem, r ≤ q) → ∀ v, accum ((Is ++ Ir.takeWhile fun u => decide (toLin u.2.1 ≤ toLin t)) ++ Ir.dropWhile fun u => decide (toLin u.2.1 ≤ toLin t)) v q =
      accum I v q := by
    intro q hq v
    rw [List.append_assoc, List.takeWhile_append_dropWhile]
    exact h3 q hq v
  refine ⟨h'', ?_, ⟨_, _, b2, hb', hacc⟩, fun v => ?_⟩
  · unfold ValueHistory.stepThrough
    rw [a1]
    exact b1
  · rw [hb'.acc t ⟨t, ht, le_refl _⟩ v, ← hacc t ⟨t, ht, le_refl _⟩ v, accum_append (Is ++ _) (List.dropWhile _ _)]
    rw [accum_zero_of_not_le (us := List.dropWhile _ _), add_zero]
    intro u hu hle
    have hs := h1.sorted
    have := dropWhile_le_gt (fun u : V × T × R => u.2.1) hs t u hu
    exact absurd (TimeOrd.mono hle) (not_le.2 this)

end

section
variable {T R1 R2 : Type*} [Lattice T] [DecidableLE T] [DecidableEq T] [TimeOrd T] [AddCommMonoid R1] [DecidableEq R1] [AddCommMonoid R2] [DecidableEq R2]

/-- The state of a key in the second phase. `M` are all its moments, `done` those that are past, `L` the corrections so far. -/
structure KeyInv (f : List (Nat × R1) → List (Nat × R2)) (I : Upds Nat T R1) (O : Upds Nat T R2) (M done : List T) (st : ProxyKeyState T R1 R2) (L : Upds Nat T R2) : Prop where
  split : done ++ st.moments = M
  meets : st.meets = timesMeets st.moments
  input : ReplayAt st.input I st.moments
  output : ReplayAt st.output O st.moments
  produced : BufRel st.produced L st.moments
  times : ∀ u ∈ L, u.2.1 ∈ done
  right : ∀ m ∈ done, ReducedAt f I (O ++ L) m

variable {f : List (Nat × R1) → List (Nat × R2)} {I : Upds Nat T R1} {O : Upds Nat T R2} {M done : List T} {st : ProxyKeyState T R1 R2} {L L' : Upds Nat T R2}

theorem KeyInv.perm (h : KeyInv f I O M done st L) (hp : L.Perm L') : KeyInv f I O M done st L' := by
  refine ⟨h.split, h.meets, h.input, h.output, ⟨fun q hq v => by rw [h.produced.acc q hq v, accum_perm hp], fun e he => ?_⟩, fun u hu => h.times u (hp.mem_iff.2 hu), fun m hm => ?_⟩
  · obtain ⟨u, hu, h1⟩ := h.produced.orig e he
    exact ⟨u, hp.mem_iff.1 hu, h1⟩
  · exact reducedAt_congr (fun _ => rfl) (fun v => by rw [accum_append, accum_append, accum_perm hp]) (h.right m hm)

/-- One moment of a key: it is done if both accumulations are empty, or when the corrections are added. -/
theorem prepare_spec (hf : f [] = []) (hM : M.Pairwise fun a b => toLin a < toLin b) (h : KeyInv f I O M done st L) {t : T} {ts : List T} (hst : st.moments = t :: ts) :
    ∃ st' c, st.prepare = some (st', c) ∧ st'.key = st.key ∧ st'.moments = ts ∧ (c = none → KeyInv f I O M (done ++ [t]) st' L) ∧
      ∀ x, c = some x → x.1 = t ∧ ConsolidatedPairs x.2.1 ∧ ConsolidatedPairs x.2.2 ∧
        ∀ corr : List (Nat × R2), (∀ v, weight corr v + weight x.2.2 v = weight (f x.2.1) v) →
          KeyInv f I O M (done ++ [t]) { st' with produced := st'.produced ++ corr.map fun c => (c.1, t, c.2) } (L ++ corr.map fun c => (c.1, t, c.2)) := by
  have hsplit := h.split
  rw [hst] at hsplit
  have hts : ∀ r ∈ ts, toLin t < toLin r := by
    rw [← hsplit] at hM
    exact (List.pairwise_cons.1 (List.pairwise_append.1 hM).2.1).1
  have hdone : ∀ d ∈ done, toLin d < toLin t := by
    rw [← hsplit] at hM
    exact fun d hd => (List.pairwise_append.1 hM).2.2 d hd t (by simp)
  obtain ⟨m, ms, hms⟩ : ∃ m ms, timesMeets (t :: ts) = m :: ms := by
    cases hc : timesMeets (t :: ts) with
    | nil => exact absurd ((timesMeets_spec (t :: ts)).2.1 (by rw [hc]; rfl)) (by simp)
    | cons m ms => exact ⟨m, ms, rfl⟩
  have hm : ∀ r ∈ t :: ts, m ≤ r := (timesMeets_spec (t :: ts)).1 m (by rw [hms]; rfl)
  have hms' : ms = timesMeets ts := by
    have := timesMeets_drop (t :: ts) 1
    rw [hms] at this
    simpa using this
  have hin := h.input
  have hout := h.output
  have hprod := h.produced
  have hmeets := h.meets
  rw [hst] at hin hout hprod hmeets
  obtain ⟨hi, i1, i2, i3⟩ := replayAt_moment hin (List.mem_cons_self) hm
  obtain ⟨ho, o1, o2, o3⟩ := replayAt_moment hout (List.mem_cons_self) hm
  have hp2 : BufRel (consolidatedU (st.produced.map fun u => (u.1, u.2.1 ⊔ m, u.2.2))) L (t :: ts) := hprod.joined (some m) (by simpa using hm)
  have hsub : ∀ r ∈ ts, r ∈ t :: ts := fun r hr => List.mem_cons_of_mem _ hr
  have p3 := hp2.acc t ⟨t, List.mem_cons_self, le_refl _⟩
  have hw1 : ∀ v, weight (consolidated (readAt hi.buffer t)) v = accum I v t := fun v => by rw [weight_consolidated, weight_readAt, i3]
  have hw2 : ∀ v, weight (consolidated (readAt ho.buffer t ++ readAt (consolidatedU (st.produced.map fun u => (u.1, u.2.1 ⊔ m, u.2.2))) t)) v = accum O v t + accum L v t := by
    intro v
    rw [weight_consolidated, weight_append, weight_readAt, weight_readAt, o3, p3]
  have hprep : st.prepare = some ({ st with moments := ts, meets := ms, input := hi, output := ho,
                                            produced := consolidatedU (st.produced.map fun u => (u.1, u.2.1 ⊔ m, u.2.2)) },
      if (consolidated (readAt hi.buffer t)).isEmpty &&
          (consolidated (readAt ho.buffer t ++ readAt (consolidatedU (st.produced.map fun u => (u.1, u.2.1 ⊔ m, u.2.2))) t)).isEmpty then none
        else some (t, consolidated (readAt hi.buffer t),
          consolidated (readAt ho.buffer t ++ readAt (consolidatedU (st.produced.map fun u => (u.1, u.2.1 ⊔ m, u.2.2))) t))) := by
    unfold ProxyKeyState.prepare
    rw [hst, hmeets, hms]
    simp only
    rw [i1, o1, consolidateUpdates_eq]
    simp only
    rw [consolidate_eq, consolidate_eq]
  generalize consolidatedU (st.produced.map fun u => (u.1, u.2.1 ⊔ m, u.2.2)) = pr at *
  obtain ⟨inA, hinA⟩ : ∃ inA, inA = consolidated (readAt hi.buffer t) := ⟨_, rfl⟩
  obtain ⟨outA, houtA⟩ : ∃ outA, outA = consolidated (readAt ho.buffer t ++ readAt pr t) := ⟨_, rfl⟩
  have c1 : ConsolidatedPairs inA := by rw [hinA]; exact consolidatedPairs_consolidated _
  have c2 : ConsolidatedPairs outA := by rw [houtA]; exact consolidatedPairs_consolidated _
  rw [← hinA] at hw1 hprep
  rw [← houtA] at hw2 hprep
  have hright : ∀ (C : Upds Nat T R2), (∀ u ∈ C, u.2.1 = t) → ∀ m ∈ done, ReducedAt f I (O ++ (L ++ C)) m := by
    intro C hC m hmd
    refine reducedAt_congr (fun _ => rfl) (fun v => ?_) (h.right m hmd)
    rw [← List.append_assoc, accum_append (O ++ L) C, accum_zero_of_not_le (us := C), add_zero]
    intro u hu hle
    rw [hC u hu] at hle
    exact absurd (TimeOrd.mono hle) (not_le.2 (hdone m hmd))
  refine ⟨_, _, hprep, rfl, rfl, ?_, ?_⟩
  · intro hc
    split_ifs at hc with he
    simp only [Bool.and_eq_true, List.isEmpty_iff] at he
    refine ⟨by simpa using hsplit, hms', i2.mono hsub, o2.mono hsub, hp2.mono fun r hr => ⟨r, hsub r hr, le_refl _⟩, fun u hu => List.mem_append_left _ (h.times u hu), ?_⟩
    intro d hd
    rcases List.mem_append.1 hd with hd | hd
    · exact h.right d hd
    · obtain rfl := List.mem_singleton.1 hd
      refine ⟨[], ⟨by rw [← he.1]; exact c1, fun v => by rw [← hw1 v, he.1]⟩, fun v => ?_⟩
      rw [accum_append, ← hw2 v, he.2, hf]
  · intro x hc
    split_ifs at hc with he
    obtain rfl := Option.some.inj hc
    refine ⟨rfl, c1, c2, fun corr hcorr => ?_⟩
    refine ⟨by simpa using hsplit, hms', i2.mono hsub, o2.mono hsub, (hp2.mono fun r hr => ⟨r, hsub r hr, le_refl _⟩).append _, ?_, ?_⟩
    · intro u hu
      rcases List.mem_append.1 hu with hu | hu
      · exact List.mem_append_left _ (h.times u hu)
      · obtain ⟨c, -, rfl⟩ := List.mem_map.1 hu
        simp
    · intro d hd
      have hCt : ∀ u ∈ (corr.map fun c => (c.1, t, c.2) : Upds Nat T R2), u.2.1 = t := by
        intro u hu
        obtain ⟨c, -, rfl⟩ := List.mem_map.1 hu
        rfl
      rcases List.mem_append.1 hd with hd | hd
      · exact hright _ hCt d hd
      · obtain rfl := List.mem_singleton.1 hd
        refine ⟨inA, ⟨c1, hw1⟩, fun v => ?_⟩
        have hcw : accum (corr.map fun c => (c.1, d, c.2) : Upds Nat T R2) v d = weight corr v := by
          unfold accum weight
          rw [List.map_map]
          congr 1
          apply List.map_congr_left
          intro c _
          simp
        rw [← hcorr v, accum_append, accum_append, hcw]
        show _ = _ + weight outA v
        rw [hw2 v, ← add_assoc, add_comm]

/-- A key that is exhausted is left as it is. -/
theorem prepare_done (hst : st.moments = []) : st.prepare = some (st, none) := by
  unfold ProxyKeyState.prepare
  rw [hst]

end
end DD
