import Verif.Proofs.DiscoverLoop
import Verif.Proofs.TwoPhase
import Mathlib.Algebra.BigOperators.Group.Finset.Piecewise
import Mathlib.Algebra.BigOperators.Pi
import Mathlib.Data.Finset.Lattice.Fold

/-!
# The times found suffice

If the output is corrected at the times found by `discover_times`, it is right at all times that are not at or beyond one of the times found pending.
-/

set_option linter.unusedSectionVars false

namespace DD

section
variable {V T R : Type*} [LinearOrder V] [AddCommMonoid R]

theorem sum_sumAt (us : Upds V T R) (v : V) (S : Finset T) (p : T → Prop) [DecidablePred p] :
    ∑ j ∈ S with p j, sumAt us v (· = j) = sumAt us v fun t => t ∈ S ∧ p t := by
  classical
  induction us with
  | nil => simp
  | cons u us ih =>
    simp only [sumAt_cons]
    rw [Finset.sum_add_distrib, ih]
    congr 1
    by_cases hv : u.1 = v
    · simp [hv, Finset.sum_ite_eq]
    · simp [hv]

end

section
variable {V T R : Type*} [Lattice T] [DecidableLE T] [DecidableEq T] [TimeOrd T] [LinearOrder V] [AddCommMonoid R] [DecidableEq R]

/-- `discover_times` with the histories advanced by a given `meet` at first, and without the final sorting of the times found pending. -/
def discoverFrom (fuel : Nat) (meet : Option T) (records : Upds V T R) (pending seedTimes outTimes upper : List T) : Option (List T × List T) :=
  match ValueHistory.loadIter records meet with
  | none => none
  | some input =>
    let st : DiscoverState V T R :=
      { batch := TimeHistory.load seedTimes none, input := input, output := TimeHistory.load outTimes meet, synth := [], times := pending, meets := timesMeets pending,
        current := [], meet := meet, moments := [], pended := [] }
    (st.loop upper fuel).map fun st => (st.moments, st.pended)

theorem discoverFrom_run (meet : Option T) (records : Upds V T R) (pending seeds outs upper : List T) (hp : pending.Pairwise fun a b => toLin a ≤ toLin b)
    (hmeet : ∀ m ∈ meet, ∀ s ∈ seeds ++ pending, m ≤ s) :
    ∃ (N : Nat) (B0 : List T) (I0 : Upds V T R) (O0 : List T) (Cl : Set T) (g : DGhost V T R) (st : DiscoverState V T R),
      (∀ fuel, N ≤ fuel → discoverFrom fuel meet records pending seeds outs upper = some (st.moments, st.pended)) ∧
      (∀ x, x ∈ B0 ↔ x ∈ seeds) ∧ O0.Perm (outs.map (joinOpt meet)) ∧
      (∀ v q, (∀ m ∈ meet, m ≤ q) → accum I0 v q = accum records v q) ∧ (∀ u ∈ I0, ∃ w ∈ records, u.2.1 = joinOpt meet w.2.1) ∧
      DInv B0 I0 O0 pending upper Cl g st ∧ g.rem st = [] := by
  obtain ⟨B0, b1, b2, b3⟩ := TimeHistory.load_ok seeds (none : Option T)
  obtain ⟨hI, I0, i1, i2, i3, i4, i5⟩ := loadIter_src records meet
  obtain ⟨O0, o1, o2, o3⟩ := TimeHistory.load_ok outs meet
  have hB0 : ∀ x, x ∈ B0 ↔ x ∈ seeds := fun x => by rw [b2.mem_iff]; simp [joinOpt]
  obtain ⟨st0, hst0⟩ : ∃ st0 : DiscoverState V T R, st0 =
    { batch := TimeHistory.load seeds none, input := hI, output := TimeHistory.load outs meet, synth := [], times := pending, meets := timesMeets pending, current := [],
      meet := meet, moments := [], pended := [] } := ⟨_, rfl⟩
  obtain ⟨g0, hg0⟩ : ∃ g0 : DGhost V T R, g0 = { Bs := [], Br := B0, Is := [], Ir := I0, Os := [], Or := O0, used := [], vis := [] } := ⟨_, rfl⟩
  have hmr : ∀ m ∈ meet, ∀ r ∈ g0.rem st0, m ≤ r := by
    intro m hm r hr
    subst hg0 hst0
    simp only [DGhost.rem, List.append_nil, List.mem_append] at hr
    rcases hr with ((hr | hr) | hr) | hr
    · exact hmeet m hm r (by simp [(hB0 r).1 hr])
    · exact hmeet m hm r (by simp [hr])
    · obtain ⟨u, hu, rfl⟩ := mem_updTimes.1 hr
      obtain ⟨w, -, e⟩ := i5 u hu
      rw [e]; exact le_joinOpt_right meet _ m hm
    · obtain ⟨w, -, rfl⟩ := List.mem_map.1 (o2.mem_iff.1 hr)
      exact le_joinOpt_right meet _ m hm
  let Cl : Set T := supClosure {x | x ∈ B0 ++ updTimes I0 ++ O0 ++ pending}
  have hfin : Cl.Finite := (List.finite_toSet _).supClosure
  have hcl : ∀ x ∈ B0 ++ updTimes I0 ++ O0 ++ pending, x ∈ Cl := fun x hx => subset_supClosure hx
  have hi0 : DInv B0 I0 O0 pending upper Cl g0 st0 := by
    refine ⟨⟨?_, ?_, ?_, ?_, ?_, ?_, ?_, ?_⟩, ?_, ?_, ?_, ?_, ?_, ?_, ?_, ?_, ?_, ?_, ?_, ?_, ?_, ?_, ?_, ?_, ?_, ?_, ?_⟩
    · subst hg0 hst0; exact b1
    · subst hg0 hst0; exact i2
    · subst hg0 hst0; exact o1
    · subst hg0 hst0; rw [b3]; intro μ _ x; simp
    · subst hg0 hst0; rw [i3]; intro μ _; exact ⟨fun _ _ => rfl, by simp⟩
    · subst hg0 hst0; rw [o3]; intro μ _ x; simp
    · subst hg0 hst0; intro μ _ x; simp
    · have : st0.meet = meet := by subst hst0; rfl
      rw [this]; exact hmr
    all_goals subst hg0 hst0
    all_goals simp [updTimes, hp]
  obtain ⟨g', st', c1, c2, c3⟩ := dLoop_spec hfin supClosed_supClosure hcl (dMeasure hfin g0 st0) g0 st0 hi0 (le_refl _)
  refine ⟨dMeasure hfin g0 st0, B0, I0, O0, Cl, g', st', fun fuel hf => ?_, hB0, o2, i4, i5, c2, c3⟩
  have := c1 fuel hf
  unfold discoverFrom
  rw [i1]
  simp only
  rw [← hst0, this]
  rfl

/-- The meet `discover_times` starts from. -/
theorem discover_meet (pending seeds : List T) :
    ∃ meet : Option T, meet = updateMeet (updateMeet none (timesMeets pending).head?) (TimeHistory.load seeds none).meet ∧ LowerMeet meet (seeds ++ pending) := by
  obtain ⟨B0, b1, b2, b3⟩ := TimeHistory.load_ok seeds (none : Option T)
  have hb : LowerMeet (TimeHistory.load seeds none).meet B0 := by
    cases B0 with
    | nil => exact ⟨by simp, by simp, by rw [TimeHistory.ok_meet_nil b1]; simp⟩
    | cons t rest =>
      obtain ⟨m, m1, m2⟩ := TimeHistory.ok_meet b1
      rw [m1]
      refine ⟨?_, by simp, ?_⟩
      · rintro x hx y hy
        obtain rfl := Option.some.inj hx
        exact m2.1 hy
      · rintro x hx y hy
        obtain rfl := Option.some.inj hx
        exact m2.2 hy
  have hmeet : LowerMeet (updateMeet (updateMeet none (timesMeets pending).head?) (TimeHistory.load seeds none).meet) (pending ++ B0) :=
    lowerMeet_update (by simpa [updateMeet] using (lowerMeet_update (m := none) (ts := []) ⟨by simp, fun _ => rfl, by simp⟩ (timesMeets_spec pending))) hb
  have hB0 : ∀ x, x ∈ pending ++ B0 ↔ x ∈ seeds ++ pending := fun x => by
    simp only [List.mem_append, b2.mem_iff, or_comm]
    simp [joinOpt]
  refine ⟨_, rfl, fun x hx t ht => hmeet.1 x hx t ((hB0 t).2 ht), fun hn => ?_, fun x hx y hy => hmeet.2.2 x hx y fun t ht => hy t ((hB0 t).1 ht)⟩
  have := hmeet.2.1 hn
  refine List.eq_nil_iff_forall_not_mem.2 fun x hx => ?_
  have h := (hB0 x).2 hx
  rw [this] at h
  simp at h

theorem discoverTimes_eq (fuel : Nat) (records : Upds V T R) (pending seeds outs upper : List T) :
    discoverTimes fuel records pending seeds outs upper =
      (discoverFrom fuel (updateMeet (updateMeet none (timesMeets pending).head?) (TimeHistory.load seeds none).meet) records pending seeds outs upper).map
        fun r => (r.1, sortDedup r.2) := by
  unfold discoverTimes discoverFrom
  simp only
  cases ValueHistory.loadIter records (updateMeet (updateMeet none (timesMeets pending).head?) (TimeHistory.load seeds none).meet) with
  | none => rfl
  | some input => simp [Option.map_map, Function.comp_def]

end

section
open Classical
variable {V V2 V3 T R R2 R3 W G : Type*} [Lattice T] [DecidableLE T] [DecidableEq T] [TimeOrd T] [LinearOrder V] [AddCancelCommMonoid R] [DecidableEq R] [LinearOrder V2]
  [AddCancelCommMonoid R2] [LinearOrder V3] [AddCancelCommMonoid R3] [LinearOrder W] [AddCommGroup G]

theorem upToAt_sumAt {V R : Type*} [LinearOrder V] [AddCommMonoid R] {us : Upds V T R} {Vis : Finset T} (h : ∀ u ∈ us, u.2.1 ∈ Vis) (v : V) (q : T) :
    ∑ j ∈ Vis with j ≤ q, sumAt us v (· = j) = accum us v q := by
  rw [sum_sumAt, accum_eq_sumAt]
  exact sumAt_congr fun u hu => ⟨fun h => h.2, fun h' => ⟨h u hu, h'⟩⟩

/-- What the times found are, and that they suffice. -/
theorem discoverFrom_right (meet : Option T) (records : Upds V T R) (pending seeds : List T) (outs : Upds V2 T R2) (news : Upds V3 T R3) (upper : List T)
    (hp : pending.Pairwise fun a b => toLin a ≤ toLin b) (h2 : ∀ m ∈ meet, ∀ s ∈ seeds ++ pending, m ≤ s)
    (hnews : ∀ x ∈ updTimes news, x ∈ seeds) :
    ∃ (N : Nat) (moments pended : List T),
      (∀ fuel, N ≤ fuel → discoverFrom fuel meet records pending seeds (updTimes outs) upper = some (moments, pended)) ∧
      (moments.Pairwise fun a b => toLin a < toLin b) ∧
      (∀ m ∈ moments, ¬ Beyond upper m ∧ ∃ s ∈ seeds ++ pending, s ≤ m) ∧ (∀ p ∈ pended, Beyond upper p ∧ ∃ s ∈ seeds ++ pending, s ≤ p) ∧
      (∀ s ∈ seeds ++ pending, s ∈ moments ∨ s ∈ pended) ∧
      ∀ (F : (V → R) → (V2 → R2) → (V3 → R3) → W → G) (L : Upds W T G), (∀ u ∈ L, u.2.1 ∈ moments) →
        (∀ m ∈ moments, ∀ w, accum L w m = F (fun v => accum records v m) (fun v => accum outs v m) (fun v => accum news v m) w) →
        ∀ q, (∃ s ∈ seeds ++ pending, s ≤ q) → (∀ p ∈ pended, ¬ p ≤ q) →
          (∀ x ∈ updTimes records ++ updTimes outs, joinOpt meet x ≤ q → Beyond upper (joinOpt meet x) → ∃ s ∈ seeds ++ pending, s ≤ joinOpt meet x) →
          ∀ w, accum L w q = F (fun v => accum records v q) (fun v => accum outs v q) (fun v => accum news v q) w := by
  obtain ⟨N, B0, I0, O0, Cl, g, st, h1, h3, h4, h5, h6, hi, hrem⟩ := discoverFrom_run meet records pending seeds (updTimes outs) upper hp h2
  have hr : g.Br = [] ∧ g.Ir = [] ∧ g.Or = [] ∧ st.times = [] ∧ st.synth = [] := by
    unfold DGhost.rem at hrem
    simp only [List.append_eq_nil_iff, updTimes, List.map_eq_nil_iff] at hrem
    tauto
  obtain ⟨rB, rI, rO, rT, rS⟩ := hr
  have hB : g.Bs = B0 := by have := hi.eqB; rwa [rB, List.append_nil] at this
  have hI : g.Is = I0 := by have := hi.eqI; rwa [rI, List.append_nil] at this
  have hO : g.Os = O0 := by have := hi.eqO; rwa [rO, List.append_nil] at this
  have hseed : ∀ s, s ∈ B0 ++ pending ↔ s ∈ seeds ++ pending := fun s => by simp only [List.mem_append, h3]
  have hperm : ∀ s ∈ B0 ++ pending, s ∈ g.Bs ++ g.used := by
    intro s hs
    rcases List.mem_append.1 hs with hs | hs
    · rw [hB]; simp [hs]
    · rcases hi.psub s hs with h | h
      · simp [h]
      · rw [rT] at h; simp at h
  have hpermS : ∀ s ∈ g.Bs ++ g.used, ∃ s' ∈ B0 ++ pending, s' ≤ s := by
    intro s hs
    rcases List.mem_append.1 hs with hs | hs
    · rw [hB] at hs; exact ⟨s, by simp [hs], le_refl _⟩
    · exact hi.seed s (by simp [hs])
  have hpermV : ∀ s ∈ g.Bs ++ g.used, s ∈ g.vis := by
    intro s hs
    refine hi.visSub s ?_
    rcases List.mem_append.1 hs with hs | hs <;> simp [hs]
  refine ⟨N, st.moments, st.pended, h1, hi.momSort, ?_, ?_, ?_, ?_⟩
  · intro m hm
    obtain ⟨-, a2, s, a3, a4⟩ := (hi.momIff m).1 hm
    obtain ⟨s', b1, b2⟩ := hpermS s a3
    exact ⟨a2, s', (hseed s').1 b1, b2.trans a4⟩
  · intro p hp
    obtain ⟨s, a1, a2⟩ := hi.seed p (by simp [hp])
    exact ⟨hi.pend p hp, s, (hseed s).1 a1, a2⟩
  · intro s hs
    have a1 := hperm s ((hseed s).2 hs)
    by_cases hb : Beyond upper s
    · right
      exact hi.intPend s (hpermV s a1) hb ⟨s, a1, le_refl _⟩
    · left
      exact (hi.momIff s).2 ⟨hpermV s a1, hb, s, a1, le_refl _⟩
  intro F L hL hc q hsq hpq hheed w
  -- the presentation of the output, advanced
  let O1 : Upds V2 T R2 := outs.map fun u => (u.1, joinOpt meet u.2.1, u.2.2)
  have hO1 : ∀ x, x ∈ updTimes O1 ↔ x ∈ O0 := by
    intro x
    rw [h4.mem_iff]
    simp [O1, updTimes, List.map_map, Function.comp_def]
  have hO1acc : ∀ v q, (∀ m ∈ meet, m ≤ q) → accum O1 v q = accum outs v q := by
    intro v q hq
    rw [accum_eq_sumAt, accum_eq_sumAt]
    show sumAt (outs.map fun u => (u.1, joinOpt meet u.2.1, u.2.2)) v _ = _
    rw [sumAt_map]
    exact sumAt_congr fun u _ => joinOpt_le_iff hq _
  have hmeetq : ∀ q, (∃ s ∈ seeds ++ pending, s ≤ q) → ∀ m ∈ meet, m ≤ q := by
    rintro q ⟨s, hs, hsq⟩ m hm
    exact (h2 m hm s hs).trans hsq
  let Vis : Finset T := g.vis.toFinset
  have hVis : ∀ x, x ∈ Vis ↔ x ∈ g.vis := fun x => List.mem_toFinset
  have hI0V : ∀ u ∈ I0, u.2.1 ∈ Vis := by
    intro u hu
    rw [hVis]
    refine hi.visSub _ ?_
    have : u.2.1 ∈ updTimes g.Is := by rw [hI]; exact mem_updTimes.2 ⟨u, hu, rfl⟩
    simp [this]
  have hO1V : ∀ u ∈ O1, u.2.1 ∈ Vis := by
    intro u hu
    rw [hVis]
    refine hi.visSub _ ?_
    have : u.2.1 ∈ g.Os := by rw [hO, ← hO1]; exact mem_updTimes.2 ⟨u, hu, rfl⟩
    simp [this]
  have hNB : ∀ u ∈ news, u.2.1 ∈ g.Bs := by
    intro u hu
    rw [hB]
    exact (h3 _).2 (hnews _ (mem_updTimes.2 ⟨u, hu, rfl⟩))
  have hNV : ∀ u ∈ news, u.2.1 ∈ Vis := fun u hu => (hVis _).2 (hpermV _ (List.mem_append_left _ (hNB u hu)))
  have hLV : ∀ u ∈ L, u.2.1 ∈ Vis := fun u hu => (hVis _).2 ((hi.momIff _).1 (hL u hu)).1
  have hglb : ∀ y, ∃ m, y ∈ Vis → IsGLB {z | z ∈ Vis ∧ toLin y ≤ toLin z} m := by
    intro y
    by_cases hy : y ∈ Vis
    · have hne : (Vis.filter fun z : T => toLin y ≤ toLin z).Nonempty := ⟨y, Finset.mem_filter.2 ⟨hy, le_refl _⟩⟩
      refine ⟨(Vis.filter fun z : T => toLin y ≤ toLin z).inf' hne id, fun _ => ⟨?_, ?_⟩⟩
      · rintro z ⟨hz, hl⟩
        exact Finset.inf'_le (s := Vis.filter fun z : T => toLin y ≤ toLin z) id (Finset.mem_filter.2 ⟨hz, hl⟩)
      · intro z hz
        refine Finset.le_inf' hne id fun x hx => ?_
        obtain ⟨a1, a2⟩ := Finset.mem_filter.1 hx
        exact hz ⟨a1, a2⟩
    · exact ⟨y, fun h => absurd h hy⟩
  choose μ hμ using hglb
  let perm : T → Prop := fun s => s ∈ g.Bs ++ g.used
  let In : T → Prop := fun q => (∀ p ∈ st.pended, ¬ p ≤ q) ∧ ∀ x ∈ updTimes I0 ++ O0, x ≤ q → Beyond upper x → ∃ s ∈ B0 ++ pending, s ≤ x
  let ι : T → (V → R) × (V2 → R2) × (V3 → R3) := fun j => (fun v => sumAt I0 v (· = j), fun v => sumAt O1 v (· = j), fun v => sumAt news v (· = j))
  let c : T → W → G := fun j w => sumAt L w (· = j)
  let FF : (V → R) × (V2 → R2) × (V3 → R3) → W → G := fun p => F p.1 p.2.1 p.2.2
  have hup : ∀ q, upToAt ι Vis q = (fun v => accum I0 v q, fun v => accum O1 v q, fun v => accum news v q) := by
    intro q
    refine Prod.ext ?_ (Prod.ext ?_ ?_)
    · funext v
      show _ = accum I0 v q
      rw [← upToAt_sumAt hI0V v q]
      unfold upToAt
      rw [Prod.fst_sum, Finset.sum_apply]
      apply Finset.sum_congr _ fun _ _ => rfl
      ext; simp only [Finset.mem_filter]
    · funext v
      show _ = accum O1 v q
      rw [← upToAt_sumAt hO1V v q]
      unfold upToAt
      rw [Prod.snd_sum, Prod.fst_sum, Finset.sum_apply]
      apply Finset.sum_congr _ fun _ _ => rfl
      ext; simp only [Finset.mem_filter]
    · funext v
      show _ = accum news v q
      rw [← upToAt_sumAt hNV v q]
      unfold upToAt
      rw [Prod.snd_sum, Prod.snd_sum, Finset.sum_apply]
      apply Finset.sum_congr _ fun _ _ => rfl
      ext; simp only [Finset.mem_filter]
  have hupc : ∀ q w, upToAt c Vis q w = accum L w q := by
    intro q w
    rw [← upToAt_sumAt hLV w q]
    unfold upToAt
    rw [Finset.sum_apply]
    apply Finset.sum_congr _ fun _ _ => rfl
    ext; simp only [Finset.mem_filter]
  have hupF : ∀ q, (∃ s ∈ seeds ++ pending, s ≤ q) → FF (upToAt ι Vis q) = F (fun v => accum records v q) (fun v => accum outs v q) (fun v => accum news v q) := by
    intro q hq
    rw [hup]
    show F _ _ _ = _
    congr 1
    · funext v; exact h5 v q (hmeetq q hq)
    · funext v; exact hO1acc v q (hmeetq q hq)
  -- times of interest that are visited are before the upper frontier
  have hInU : ∀ y ∈ Vis, In y → ¬ Beyond upper y := by
    intro y hy hin hb
    have hsrc := hi.visSrc y ((hVis y).1 hy)
    have hs : ∃ s ∈ g.Bs ++ g.used, s ≤ y := by
      simp only [List.mem_append] at hsrc
      rcases hsrc with ((h | h) | h) | h
      · exact ⟨y, by simp [h], le_refl _⟩
      · rw [hI] at h
        obtain ⟨s, a1, a2⟩ := hin.2 y (by simp [h]) (le_refl _) hb
        exact ⟨s, hperm s a1, a2⟩
      · rw [hO] at h
        obtain ⟨s, a1, a2⟩ := hin.2 y (by simp [h]) (le_refl _) hb
        exact ⟨s, hperm s a1, a2⟩
      · exact ⟨y, by simp [h], le_refl _⟩
    exact hin.1 y (hi.intPend y ((hVis y).1 hy) hb hs) (le_refl _)
  have hmem : ∀ z, z ∈ st.pended ++ st.synth ++ g.used → In z → z ∈ Vis ∧ perm z := by
    intro z hz hin
    rw [rS] at hz
    simp only [List.append_nil, List.mem_append] at hz
    rcases hz with hz | hz
    · exact absurd (le_refl z) (hin.1 z hz)
    · have : z ∈ g.Bs ++ g.used := by simp [hz]
      exact ⟨(hVis z).2 (hpermV z this), this⟩
  have hdown : ∀ p q, p ≤ q → In q → In p := by
    rintro p q hpq ⟨a1, a2⟩
    exact ⟨fun x hx hxp => a1 x hx (hxp.trans hpq), fun x hx hxp => a2 x hx (hxp.trans hpq)⟩
  have htp : TwoPhase Vis perm In ι μ c FF := by
    refine ⟨hdown, ?_, ?_, ?_, ?_, ?_, ?_⟩
    · intro y hy z hz hl
      exact (hμ y hy).1 ⟨hz, hl⟩
    · intro y hy z hz hl
      exact (hμ z hz).2 fun x ⟨hx, hxl⟩ => (hμ y hy).1 ⟨hx, hl.trans hxl⟩
    · rintro y hy ⟨s, -, hs1, hs2⟩ e he hin hle
      have hyU := hInU y hy (hdown _ _ le_sup_right hin)
      have hμy : μ y ≤ y := (hμ y hy).1 ⟨hy, le_refl _⟩
      have hne : (∃ v, ∑ j ∈ visUpTo Vis y with j ⊔ μ y = e, sumAt I0 v (· = j) ≠ 0) ∨ (∃ v, ∑ j ∈ visUpTo Vis y with j ⊔ μ y = e, sumAt O1 v (· = j) ≠ 0) ∨
          ∃ v, ∑ j ∈ visUpTo Vis y with j ⊔ μ y = e, sumAt news v (· = j) ≠ 0 := by
        by_contra hcon
        push Not at hcon
        apply he
        unfold groupAt
        refine Prod.ext ?_ (Prod.ext ?_ ?_)
        · funext v
          rw [Prod.fst_sum, Finset.sum_apply]
          refine Eq.trans ?_ (hcon.1 v)
          apply Finset.sum_congr _ fun _ _ => rfl
          ext; simp only [Finset.mem_filter]
        · funext v
          rw [Prod.snd_sum, Prod.fst_sum, Finset.sum_apply]
          refine Eq.trans ?_ (hcon.2.1 v)
          apply Finset.sum_congr _ fun _ _ => rfl
          ext; simp only [Finset.mem_filter]
        · funext v
          rw [Prod.snd_sum, Prod.snd_sum, Finset.sum_apply]
          refine Eq.trans ?_ (hcon.2.2 v)
          apply Finset.sum_congr _ fun _ _ => rfl
          ext; simp only [Finset.mem_filter]
      have halive : DAlive g y (μ y) e → e ⊔ y ∈ Vis ∧ perm (e ⊔ y) := by
        intro hal
        refine hmem _ (hi.joinsI y ((hVis y).1 hy) hyU ⟨s, hs1, hs2⟩ (μ y) hμy ?_ e hal hle) hin
        intro x hx
        refine (hμ y hy).2 fun z ⟨hz, hl⟩ => hx z ?_
        simp [(hVis z).1 hz, hl]
      rcases hne with ⟨v, hv⟩ | ⟨v, hv⟩ | ⟨v, hv⟩
      · refine halive (Or.inl ⟨v, ?_⟩)
        rw [hI]
        rw [sum_sumAt] at hv
        convert hv using 1
        refine sumAt_congr fun u hu => ?_
        simp only [visUpTo, Finset.mem_filter, hI0V u hu, true_and]
      · refine halive (Or.inr ?_)
        rw [sum_sumAt] at hv
        by_contra hcon
        apply hv
        refine sumAt_zero fun u hu => ?_
        rintro ⟨b1, b2⟩
        refine hcon ⟨u.2.1, ?_, ?_, b2⟩
        · rw [hO, ← hO1]; exact mem_updTimes.2 ⟨u, hu, rfl⟩
        · simp only [visUpTo, Finset.mem_filter] at b1
          exact b1.2
      · rw [sum_sumAt] at hv
        by_contra hcon
        apply hv
        refine sumAt_zero fun u hu => ?_
        rintro ⟨b1, b2⟩
        apply hcon
        simp only [visUpTo, Finset.mem_filter] at b1
        have he2 : e ⊔ y = u.2.1 ⊔ y := by rw [← b2, sup_assoc, sup_eq_right.2 hμy]
        have hu' : u.2.1 ∈ g.Bs ++ g.used := List.mem_append_left _ (hNB u hu)
        have hle' : ¬ u.2.1 ≤ y := fun h => hle (by rw [← b2]; exact sup_le h hμy)
        have := hi.joinsP y ((hVis y).1 hy) hyU u.2.1 hu' b1.2 hle'
        rw [← he2] at this
        exact hmem _ this hin
    · intro y hy s hs hsp hl hin hle
      exact hmem _ (hi.joinsP y ((hVis y).1 hy) (hInU y hy (hdown _ _ le_sup_right hin)) s hsp hl hle) hin
    · rintro y hy hin ⟨s, -, hs1, hs2⟩
      have hm : y ∈ st.moments := (hi.momIff y).2 ⟨(hVis y).1 hy, hInU y hy hin, s, hs1, hs2⟩
      obtain ⟨s', b1, b2⟩ := hpermS s hs1
      rw [hupF y ⟨s', (hseed s').1 b1, b2.trans hs2⟩]
      funext w
      rw [hupc]
      exact hc y hm w
    · intro y hy hn
      funext w
      refine sumAt_zero fun u hu e => hn ?_
      obtain ⟨-, -, s, a1, a2⟩ := (hi.momIff _).1 (hL u hu)
      rw [e] at a2
      exact ⟨s, (hVis s).2 (hpermV s a1), a1, a2⟩
  have hInq : In q := by
    refine ⟨fun p hp => hpq p hp, fun x hx hxq hb => ?_⟩
    obtain ⟨x', hx', e⟩ : ∃ x' ∈ updTimes records ++ updTimes outs, x = joinOpt meet x' := by
      rcases List.mem_append.1 hx with hx | hx
      · obtain ⟨u, hu, rfl⟩ := mem_updTimes.1 hx
        obtain ⟨w, hw, e⟩ := h6 u hu
        exact ⟨w.2.1, List.mem_append_left _ (mem_updTimes.2 ⟨w, hw, rfl⟩), e⟩
      · obtain ⟨w, hw, e⟩ := List.mem_map.1 (h4.mem_iff.1 hx)
        exact ⟨w, List.mem_append_right _ hw, e.symm⟩
    subst e
    obtain ⟨s, a1, a2⟩ := hheed x' hx' hxq hb
    exact ⟨s, (hseed s).2 a1, a2⟩
  obtain ⟨s0, hs0, hs0q⟩ := hsq
  have hs0' := hperm s0 ((hseed s0).2 hs0)
  have := congrFun (htp.right hInq ⟨s0, (hVis s0).2 (hpermV s0 hs0'), hs0', hs0q⟩) w
  rw [hupc, hupF q ⟨s0, hs0, hs0q⟩] at this
  exact this

theorem discover_right (records : Upds V T R) (pending seeds : List T) (outs : Upds V2 T R2) (upper : List T) (hp : pending.Pairwise fun a b => toLin a ≤ toLin b) :
    ∃ (N : Nat) (moments pended : List T),
      (∀ fuel, N ≤ fuel → discoverTimes fuel records pending seeds (updTimes outs) upper = some (moments, pended)) ∧
      (moments.Pairwise fun a b => toLin a < toLin b) ∧ (pended.Pairwise fun a b => toLin a < toLin b) ∧
      (∀ m ∈ moments, ¬ Beyond upper m ∧ ∃ s ∈ seeds ++ pending, s ≤ m) ∧ (∀ p ∈ pended, Beyond upper p ∧ ∃ s ∈ seeds ++ pending, s ≤ p) ∧
      (∀ s ∈ seeds ++ pending, s ∈ moments ∨ s ∈ pended) ∧
      ∀ (F : (V → R) → (V2 → R2) → W → G) (L : Upds W T G), (∀ u ∈ L, u.2.1 ∈ moments) →
        (∀ m ∈ moments, ∀ w, accum L w m = F (fun v => accum records v m) (fun v => accum outs v m) w) →
        ∀ q, (∃ s ∈ seeds ++ pending, s ≤ q) → (∀ p ∈ pended, ¬ p ≤ q) →
          (∀ x ∈ updTimes records ++ updTimes outs, ∀ m, IsGLB {s | s ∈ seeds ++ pending} m → x ⊔ m ≤ q → Beyond upper (x ⊔ m) → ∃ s ∈ seeds ++ pending, s ≤ x ⊔ m) →
          ∀ w, accum L w q = F (fun v => accum records v q) (fun v => accum outs v q) w := by
  obtain ⟨meet, hm, h2⟩ := discover_meet pending seeds
  obtain ⟨N, moments, pended, a1, a2, a3, a4, a5, a6⟩ := discoverFrom_right (V3 := Nat) (R3 := Nat) (W := W) (G := G) meet records pending seeds outs [] upper hp h2.1 (by simp [updTimes])
  refine ⟨N, moments, sortDedup pended, fun fuel hf => ?_, a2, sortDedup_sorted _, a3, fun p hp => a4 p ((mem_sortDedup _ _).1 hp), fun s hs => ?_, ?_⟩
  · rw [discoverTimes_eq, ← hm, a1 fuel hf]; rfl
  · rw [mem_sortDedup]; exact a5 s hs
  · intro F L hL hc q hsq hpq hheed
    refine a6 (fun i o _ => F i o) L hL hc q hsq (fun p hp => hpq p ((mem_sortDedup _ _).2 hp)) fun x hx hxq hb => ?_
    obtain ⟨m, hmm⟩ : ∃ m, meet = some m := by
      cases hmm : meet with
      | none =>
        obtain ⟨s0, hs0, -⟩ := hsq
        rw [h2.2.1 hmm] at hs0
        simp at hs0
      | some m => exact ⟨m, rfl⟩
    rw [hmm] at hxq hb ⊢
    exact hheed x hx m ⟨fun s hs => h2.1 m hmm s hs, fun z hz => h2.2.2 m hmm z fun t ht => hz ht⟩ hxq hb

end
end DD
