import Verif.Proofs.Discover

/-!
# The loop of `discover_times`
-/

namespace DD

section
variable {V T R : Type*} [Lattice T] [DecidableLE T] [DecidableEq T] [TimeOrd T] [LinearOrder V] [AddCommMonoid R] [DecidableEq R]

/-- Updates or output times at times up to `y` are left at `e`, when advanced to `μ`. -/
def DAlive (g : DGhost V T R) (y μ e : T) : Prop :=
  (∃ v, sumAt g.Is v (fun t => toLin t ≤ toLin y ∧ t ⊔ μ = e) ≠ 0) ∨ ∃ o ∈ g.Os, toLin o ≤ toLin y ∧ o ⊔ μ = e

/-- The invariant. -/
structure DInv (B0 : List T) (I0 : Upds V T R) (O0 P0 upper : List T) (Cl : Set T) (g : DGhost V T R) (st : DiscoverState V T R) : Prop where
  bufs : DBufs g st (g.rem st)
  eqB : g.Bs ++ g.Br = B0
  eqI : g.Is ++ g.Ir = I0
  eqO : g.Os ++ g.Or = O0
  tsort : st.times.Pairwise fun a b => toLin a ≤ toLin b
  ssort : st.synth.Pairwise fun a b => toLin a < toLin b
  meets : st.meets = timesMeets st.times
  tsub : ∀ p ∈ st.times, p ∈ P0
  psub : ∀ p ∈ P0, p ∈ g.used ∨ p ∈ st.times
  past : ∀ y ∈ g.vis, ∀ r ∈ g.rem st, toLin y < toLin r
  visSub : ∀ x ∈ g.Bs ++ updTimes g.Is ++ g.Os ++ g.used, x ∈ g.vis
  visSrc : ∀ x ∈ g.vis, x ∈ g.Bs ++ updTimes g.Is ++ g.Os ++ g.used
  seed : ∀ x ∈ g.used ++ st.synth ++ st.pended, ∃ s ∈ B0 ++ P0, s ≤ x
  pend : ∀ x ∈ st.pended, Beyond upper x
  cl : ∀ x ∈ g.used ++ st.synth, x ∈ Cl
  momIff : ∀ y, y ∈ st.moments ↔ y ∈ g.vis ∧ ¬ Beyond upper y ∧ ∃ s ∈ g.Bs ++ g.used, s ≤ y
  momSort : st.moments.Pairwise fun a b => toLin a < toLin b
  intPend : ∀ y ∈ g.vis, Beyond upper y → (∃ s ∈ g.Bs ++ g.used, s ≤ y) → y ∈ st.pended
  joinsP : ∀ y ∈ g.vis, ¬ Beyond upper y → ∀ s ∈ g.Bs ++ g.used, toLin s ≤ toLin y → ¬ s ≤ y → s ⊔ y ∈ st.pended ++ st.synth ++ g.used
  joinsI : ∀ y ∈ g.vis, ¬ Beyond upper y → (∃ s ∈ g.Bs ++ g.used, s ≤ y) → ∀ μ, μ ≤ y →
    AboveMeet (g.vis.filter (fun z => decide (toLin y ≤ toLin z)) ++ g.rem st) μ → ∀ e, DAlive g y μ e → ¬ e ≤ y → e ⊔ y ∈ st.pended ++ st.synth ++ g.used

theorem dNext_none {g : DGhost V T R} {st : DiscoverState V T R} {rem : List T} (hb : DBufs g st rem) (h : st.nextTime = none) : g.rem st = [] := by
  have h := minTime_none h
  rw [TimeHistory.ok_time hb.okB, ValueHistory.ok_time hb.okI, TimeHistory.ok_time hb.okO] at h
  simp only [List.mem_cons, List.not_mem_nil, or_false, forall_eq_or_imp, forall_eq, Option.map_eq_none_iff, List.head?_eq_none_iff] at h
  obtain ⟨h1, h2, h3, h4, h5⟩ := h
  simp [DGhost.rem, updTimes, h1, h2, h3, h4, h5]

variable {B0 : List T} {I0 : Upds V T R} {O0 P0 upper : List T} {Cl : Set T} {g : DGhost V T R} {st st3 : DiscoverState V T R} {int : Bool} {next : T}

theorem dNext_some (hi : DInv B0 I0 O0 P0 upper Cl g st) (h : st.nextTime = some next) : next ∈ g.rem st ∧ ∀ r ∈ g.rem st, toLin next ≤ toLin r := by
  obtain ⟨h1, h2⟩ := minTime_some h
  rw [TimeHistory.ok_time hi.bufs.okB, ValueHistory.ok_time hi.bufs.okI, TimeHistory.ok_time hi.bufs.okO] at h1 h2
  constructor
  · simp only [List.mem_cons, List.not_mem_nil, or_false] at h1
    unfold DGhost.rem
    simp only [List.mem_append]
    rcases h1 with h1 | h1 | h1 | h1 | h1
    · exact Or.inl (Or.inl (Or.inl (Or.inl (List.mem_of_mem_head? (by rw [Option.mem_def, h1])))))
    · exact Or.inl (Or.inl (Or.inl (Or.inr (List.mem_of_mem_head? (by rw [Option.mem_def, h1])))))
    · refine Or.inl (Or.inl (Or.inr ?_))
      cases hl : g.Ir with
      | nil => rw [hl] at h1; simp at h1
      | cons u l => rw [hl] at h1; simp only [List.head?_cons, Option.map_some, Option.some.injEq] at h1; simp [updTimes, h1]
    · exact Or.inl (Or.inr (List.mem_of_mem_head? (by rw [Option.mem_def, h1])))
    · exact Or.inr (List.mem_of_mem_head? (by rw [Option.mem_def, h1]))
  · intro r hr
    unfold DGhost.rem at hr
    simp only [List.mem_append, mem_updTimes] at hr
    rcases hr with (((hr | hr) | ⟨u, hu, rfl⟩) | hr) | hr
    · exact sorted_head_le id hi.bufs.okB.sorted (fun b hb => h2 b (by simp at hb; simp [hb])) r hr
    · exact sorted_head_le id hi.tsort (fun b hb => h2 b (by simp at hb; simp [hb])) r hr
    · exact sorted_head_le (fun u : V × T × R => u.2.1) hi.bufs.okI.sorted (fun b hb => h2 b (by simp [hb])) u hu
    · exact sorted_head_le id hi.bufs.okO.sorted (fun b hb => h2 b (by simp at hb; simp [hb])) r hr
    · exact sorted_head_le id (hi.ssort.imp fun h => h.le) (fun b hb => h2 b (by simp at hb; simp [hb])) r hr

/-- After the visit, all is as before, but later than `next`; or a join with `next`. -/
theorem dRem_visit (hi : DInv B0 I0 O0 P0 upper Cl g st) (hmin : ∀ r ∈ g.rem st, toLin next ≤ toLin r) (hr : DRaw upper g st st3 int next (g.rem st)) :
    ∀ r ∈ (g.visit st next).rem st3, toLin next < toLin r ∧ (r ∈ g.rem st ∨ next ≤ r) := by
  have hmemB : ∀ u ∈ g.Br, u ∈ g.rem st := fun u hu => by simp [DGhost.rem, hu]
  have hmemI : ∀ u ∈ g.Ir, u.2.1 ∈ g.rem st := fun u hu => by
    simp only [DGhost.rem, List.mem_append, mem_updTimes]; exact Or.inl (Or.inl (Or.inr ⟨u, hu, rfl⟩))
  have hmemO : ∀ u ∈ g.Or, u ∈ g.rem st := fun u hu => by simp [DGhost.rem, hu]
  have hmemT : ∀ u ∈ st.times, u ∈ g.rem st := fun u hu => by simp [DGhost.rem, hu]
  have hmemY : ∀ u ∈ st.synth, u ∈ g.rem st := fun u hu => by simp [DGhost.rem, hu]
  intro r h
  simp only [DGhost.rem, List.mem_append, mem_updTimes] at h
  rcases h with (((h | h) | ⟨u, hu, rfl⟩) | h) | h
  · exact ⟨dropWhile_gt id hi.bufs.okB.sorted (fun a ha => hmin _ (hmemB a ha)) r h, Or.inl (hmemB r ((List.dropWhile_sublist _).subset h))⟩
  · rw [hr.times] at h
    exact ⟨dropWhile_gt id hi.tsort (fun a ha => hmin _ (hmemT a ha)) r h, Or.inl (hmemT r ((List.dropWhile_sublist _).subset h))⟩
  · exact ⟨dropWhile_gt (fun u : V × T × R => u.2.1) hi.bufs.okI.sorted (fun a ha => hmin _ (hmemI a ha)) u hu,
      Or.inl (hmemI u ((List.dropWhile_sublist _).subset hu))⟩
  · exact ⟨dropWhile_gt id hi.bufs.okO.sorted (fun a ha => hmin _ (hmemO a ha)) r h, Or.inl (hmemO r ((List.dropWhile_sublist _).subset h))⟩
  · rcases (hr.synth r).1 h with h | ⟨-, -, e, -, h1, rfl⟩
    · exact ⟨dropWhile_gt id (hi.ssort.imp fun h => h.le) (fun a ha => hmin _ (hmemY a ha)) r h, Or.inl (hmemY r ((List.dropWhile_sublist _).subset h))⟩
    · refine ⟨TimeOrd.lt_mono (lt_of_le_of_ne le_sup_right ?_), Or.inr le_sup_right⟩
      intro he
      exact h1 (by rw [he]; exact le_sup_left)

theorem dRem_mem_cl (hi : DInv B0 I0 O0 P0 upper Cl g st) (hcl : ∀ x ∈ B0 ++ updTimes I0 ++ O0 ++ P0, x ∈ Cl) : ∀ r ∈ g.rem st, r ∈ Cl := by
  intro r hr
  simp only [DGhost.rem, List.mem_append] at hr
  rcases hr with (((hr | hr) | hr) | hr) | hr
  · exact hcl r (by rw [← hi.eqB]; simp [hr])
  · exact hcl r (by simp [hi.tsub r hr])
  · refine hcl r ?_
    rw [← hi.eqI]
    obtain ⟨u, hu, rfl⟩ := mem_updTimes.1 hr
    simp only [List.mem_append, mem_updTimes]
    exact Or.inl (Or.inl (Or.inr ⟨u, Or.inr hu, rfl⟩))
  · exact hcl r (by rw [← hi.eqO]; simp [hr])
  · exact hi.cl r (by simp [hr])

theorem dVisit_eqs (hi : DInv B0 I0 O0 P0 upper Cl g st) :
    (g.visit st next).Bs ++ (g.visit st next).Br = B0 ∧ (g.visit st next).Is ++ (g.visit st next).Ir = I0 ∧ (g.visit st next).Os ++ (g.visit st next).Or = O0 := by
  simp only [DGhost.visit, List.append_assoc, List.takeWhile_append_dropWhile]
  exact ⟨hi.eqB, hi.eqI, hi.eqO⟩

theorem dVisit_used (hi : DInv B0 I0 O0 P0 upper Cl g st) (hcl : ∀ x ∈ B0 ++ updTimes I0 ++ O0 ++ P0, x ∈ Cl) :
    ∀ c ∈ (g.visit st next).used, c ∈ Cl ∧ ∃ s ∈ B0 ++ P0, s ≤ c := by
  intro c hc
  simp only [DGhost.visit, List.mem_append] at hc
  rcases hc with (hc | hc) | hc
  · exact ⟨hi.cl c (by simp [hc]), hi.seed c (by simp [hc])⟩
  · have hc := (List.takeWhile_sublist _).subset hc
    exact ⟨hi.cl c (by simp [hc]), hi.seed c (by simp [hc])⟩
  · have hc := hi.tsub c ((List.takeWhile_sublist _).subset hc)
    exact ⟨hcl c (by simp [hc]), c, by simp [hc], le_refl _⟩

/-- A time joined with `next` stands for one stepped over. -/
theorem dJoinable_src (hi : DInv B0 I0 O0 P0 upper Cl g st) (hcl : ∀ x ∈ B0 ++ updTimes I0 ++ O0 ++ P0, x ∈ Cl) (hn : next ∈ g.rem st)
    (hr : DRaw upper g st st3 int next (g.rem st)) {e : T} (he : dJoinable st3 int e) :
    (∃ s ∈ Cl, e ⊔ next = s ⊔ next) ∧ ∃ s ∈ B0 ++ P0, s ≤ e ⊔ next := by
  obtain ⟨eB, eI, eO⟩ := dVisit_eqs (next := next) hi
  have hab := aboveMeet_mem hn
  have hBcl : ∀ s ∈ (g.visit st next).Bs, s ∈ B0 := fun s hs => by rw [← eB]; simp [hs]
  have hint : int = true → ∃ s ∈ B0 ++ P0, s ≤ next := by
    intro h
    obtain ⟨s, h1, h2⟩ := hr.intIff.1 h
    rcases List.mem_append.1 h1 with h1 | h1
    · exact ⟨s, by simp [hBcl s h1], h2⟩
    · obtain ⟨p, h3, h4⟩ := (dVisit_used hi hcl s h1).2
      exact ⟨p, h3, h4.trans h2⟩
  rcases he with he | he | ⟨hit, he | he⟩
  · obtain ⟨s, h1, h2⟩ := (hr.bufs.bufB next hab _).1 ⟨e, he, rfl⟩
    exact ⟨⟨s, hcl s (by simp [hBcl s h1]), h2.symm⟩, s, by simp [hBcl s h1], by rw [← h2]; exact le_sup_left⟩
  · obtain ⟨s, h1, h2⟩ := (hr.bufs.bufC next hab _).1 ⟨e, he, rfl⟩
    obtain ⟨h3, p, h4, h5⟩ := dVisit_used hi hcl s h1
    exact ⟨⟨s, h3, h2.symm⟩, p, h4, by rw [← h2]; exact h5.trans le_sup_left⟩
  · obtain ⟨p, h4, h5⟩ := hint hit
    obtain ⟨b, hb, rfl⟩ := mem_updTimes.1 he
    obtain ⟨s, h1, h2⟩ := (hr.bufs.bufI next hab).2 b hb
    refine ⟨⟨s.2.1, hcl _ ?_, h2.symm⟩, p, h4, h5.trans le_sup_right⟩
    rw [← eI]
    simp only [List.mem_append, mem_updTimes]
    exact Or.inl (Or.inl (Or.inr ⟨s, Or.inl h1, rfl⟩))
  · obtain ⟨p, h4, h5⟩ := hint hit
    obtain ⟨s, h1, h2⟩ := (hr.bufs.bufO next hab _).1 ⟨e, he, rfl⟩
    exact ⟨⟨s, hcl s (by rw [← eO]; simp [h1]), h2.symm⟩, p, h4, h5.trans le_sup_right⟩

theorem dConclude_meet {g' : DGhost V T R} {rem : List T} (hb : DBufs g' st3 rem) (hm : st3.meets = timesMeets st3.times) :
    ∀ m ∈ st3.conclude.meet, ∀ r ∈ g'.rem st3, m ≤ r := by
  have ht : ∀ {h : TimeHistory T} {rest : List T}, TimesOk h rest → LowerMeet h.meet rest := by
    intro h rest hk
    cases rest with
    | nil => rw [TimeHistory.ok_meet_nil hk]; exact ⟨by simp, fun _ => rfl, by simp⟩
    | cons t rest =>
      obtain ⟨m, h1, h2⟩ := TimeHistory.ok_meet hk
      rw [h1]
      refine ⟨?_, by simp, ?_⟩
      · intro x hx t' ht'
        simp only [Option.mem_def, Option.some.injEq] at hx
        subst hx
        exact h2.1 ht'
      · intro x hx w hw
        simp only [Option.mem_def, Option.some.injEq] at hx
        subst hx
        exact h2.2 fun y hy => hw y hy
  have h1 : LowerMeet (none : Option T) ([] : List T) := ⟨by simp, fun _ => rfl, by simp⟩
  have h2 := lowerMeet_update (lowerMeet_update (lowerMeet_update h1 (ht hb.okB)) (lowerMeet_hist hb.okI)) (ht hb.okO)
  have h3 := lowerMeet_foldl st3.synth h2
  have h4 : LowerMeet st3.meets.head? st3.times := by rw [hm]; exact timesMeets_spec st3.times
  have h5 := lowerMeet_update h3 h4
  intro m hmm r hr
  refine h5.1 m hmm r ?_
  simp only [DGhost.rem, List.mem_append] at hr ⊢
  tauto

theorem dInv_step (hi : DInv B0 I0 O0 P0 upper Cl g st) (hcl : ∀ x ∈ B0 ++ updTimes I0 ++ O0 ++ P0, x ∈ Cl) (hsup : SupClosed Cl)
    (hn : next ∈ g.rem st) (hmin : ∀ r ∈ g.rem st, toLin next ≤ toLin r) (hr : DRaw upper g st st3 int next (g.rem st)) :
    DInv B0 I0 O0 P0 upper Cl (g.visit st next) st3.conclude := by
  have hrem : ∀ r ∈ (g.visit st next).rem st3, toLin next < toLin r ∧ (r ∈ g.rem st ∨ next ≤ r) := dRem_visit hi hmin hr
  have hdown : ∀ r' ∈ (g.visit st next).rem st3, ∃ r ∈ g.rem st, r ≤ r' := by
    intro r' h
    rcases (hrem r' h).2 with h | h
    · exact ⟨r', h, le_refl _⟩
    · exact ⟨next, hn, h⟩
  have hmeet := dConclude_meet hr.bufs hr.meets
  obtain ⟨eB, eI, eO⟩ := dVisit_eqs (next := next) hi
  have hab := aboveMeet_mem hn
  have hsynthdrop : ∀ x ∈ st.synth.dropWhile (fun t => decide (t = next)), x ∈ st.synth := fun x hx => (List.dropWhile_sublist _).subset hx
  have hnp : ∀ y ∈ g.vis, toLin y < toLin next := fun y hy => hi.past y hy next hn
  -- what is new is at `next`
  have hBs : ∀ s ∈ (g.visit st next).Bs, s ∈ g.Bs ∨ s = next := by
    intro s hs
    rcases List.mem_append.1 hs with h | h
    · exact Or.inl h
    · exact Or.inr (takeWhile_eq id _ next s h)
  have hUs : ∀ s ∈ (g.visit st next).used, s ∈ g.used ∨ s = next := by
    intro s hs
    simp only [DGhost.visit, List.mem_append] at hs
    rcases hs with (h | h) | h
    · exact Or.inl h
    · exact Or.inr (takeWhile_eq id _ next s h)
    · exact Or.inr (takeWhile_eq id _ next s h)
  have hperm : ∀ s ∈ (g.visit st next).Bs ++ (g.visit st next).used, s ∈ g.Bs ++ g.used ∨ s = next := by
    intro s hs
    rcases List.mem_append.1 hs with h | h
    · rcases hBs s h with h | h
      · exact Or.inl (by simp [h])
      · exact Or.inr h
    · rcases hUs s h with h | h
      · exact Or.inl (by simp [h])
      · exact Or.inr h
  have hperm' : ∀ s ∈ g.Bs ++ g.used, s ∈ (g.visit st next).Bs ++ (g.visit st next).used := by
    intro s hs
    rcases List.mem_append.1 hs with h | h <;> simp [DGhost.visit, h]
  have hint : ∀ y ∈ g.vis, (∃ s ∈ (g.visit st next).Bs ++ (g.visit st next).used, s ≤ y) ↔ ∃ s ∈ g.Bs ++ g.used, s ≤ y := by
    intro y hy
    constructor
    · rintro ⟨s, h1, h2⟩
      rcases hperm s h1 with h | rfl
      · exact ⟨s, h, h2⟩
      · exact absurd (TimeOrd.mono h2) (not_le.2 (hnp y hy))
    · rintro ⟨s, h1, h2⟩
      exact ⟨s, hperm' s h1, h2⟩
  have hfound : ∀ x ∈ st.pended ++ st.synth ++ g.used, x ∈ st3.pended ++ st3.synth ++ (g.visit st next).used := by
    intro x hx
    simp only [List.mem_append] at hx ⊢
    rcases hx with (hx | hx) | hx
    · exact Or.inl (Or.inl ((hr.pended x).2 (Or.inl hx)))
    · by_cases he : x = next
      · right
        have : x ∈ st.synth.takeWhile (fun t => decide (t = next)) :=
          mem_takeWhile_of_eq id (hi.ssort.imp fun h => h.le) (fun a ha => hmin a (by simp only [DGhost.rem, List.mem_append]; exact Or.inr ha)) hx he
        simp [DGhost.visit, this]
      · exact Or.inl (Or.inr ((hr.synth x).2 (Or.inl (mem_dropWhile_of_ne id hx he))))
    · right; simp [DGhost.visit, hx]
  have hnew : ∀ e, dJoinable st3 int e → ¬ Beyond upper next → ¬ e ≤ next → e ⊔ next ∈ st3.pended ++ st3.synth ++ (g.visit st next).used := by
    intro e he hu hne
    simp only [List.mem_append]
    by_cases hx : Beyond upper (e ⊔ next)
    · exact Or.inl (Or.inl ((hr.pended _).2 (Or.inr (Or.inl ⟨hu, hx, e, he, hne, rfl⟩))))
    · exact Or.inl (Or.inr ((hr.synth _).2 (Or.inr ⟨hu, hx, e, he, hne, rfl⟩)))
  have hIs : ∀ u ∈ (g.visit st next).Is, u ∈ g.Is ∨ u.2.1 = next := by
    intro u hu
    rcases List.mem_append.1 hu with h | h
    · exact Or.inl h
    · exact Or.inr (takeWhile_eq (fun u : V × T × R => u.2.1) _ next u h)
  have hOs : ∀ u ∈ (g.visit st next).Os, u ∈ g.Os ∨ u = next := by
    intro u hu
    rcases List.mem_append.1 hu with h | h
    · exact Or.inl h
    · exact Or.inr (takeWhile_eq id _ next u h)
  have hvisle : ∀ y ∈ (g.visit st next).vis, toLin y ≤ toLin next := by
    intro y hy
    rcases List.mem_append.1 hy with h | h
    · exact (hnp y h).le
    · rw [List.mem_singleton.1 h]
  have hnextvis : next ∈ (g.visit st next).vis := by simp [DGhost.visit]
  have hvisSub : ∀ x ∈ (g.visit st next).Bs ++ updTimes (g.visit st next).Is ++ (g.visit st next).Os ++ (g.visit st next).used, x ∈ (g.visit st next).vis := by
    intro x hx
    have hold : x ∈ g.vis → x ∈ (g.visit st next).vis := fun h => by simp [DGhost.visit, h]
    simp only [List.mem_append, mem_updTimes] at hx
    rcases hx with ((hx | ⟨u, hu, rfl⟩) | hx) | hx
    · rcases hBs x hx with h | rfl
      · exact hold (hi.visSub x (by simp [h]))
      · exact hnextvis
    · rcases hIs u hu with h | h
      · exact hold (hi.visSub _ (by simp only [List.mem_append, mem_updTimes]; exact Or.inl (Or.inl (Or.inr ⟨u, h, rfl⟩))))
      · rw [h]; exact hnextvis
    · rcases hOs x hx with h | rfl
      · exact hold (hi.visSub x (by simp [h]))
      · exact hnextvis
    · rcases hUs x hx with h | rfl
      · exact hold (hi.visSub x (by simp [h]))
      · exact hnextvis
  refine ⟨⟨hr.bufs.okB, hr.bufs.okI, hr.bufs.okO, hr.bufs.bufB.mono hdown, hr.bufs.bufI.mono hdown, hr.bufs.bufO.mono hdown, ?_, hmeet⟩,
    eB, eI, eO, ?_, hr.ssort, hr.meets, ?_, ?_, ?_, hvisSub, ?_, ?_, ?_, ?_, ?_, ?_, ?_, ?_, ?_⟩
  · refine (hr.bufs.bufC.mono hdown).joined st3.conclude.meet hmeet fun x => ?_
    show x ∈ sortDedup (st3.current.map (joinOpt st3.conclude.meet)) ↔ _
    rw [mem_sortDedup, List.mem_map]
    exact ⟨fun ⟨b, h1, h2⟩ => ⟨b, h1, h2.symm⟩, fun ⟨b, h1, h2⟩ => ⟨b, h1, h2.symm⟩⟩
  · show st3.times.Pairwise _
    rw [hr.times]; exact hi.tsort.sublist (List.dropWhile_sublist _)
  · intro p hp
    have hp : p ∈ st3.times := hp
    rw [hr.times] at hp
    exact hi.tsub p ((List.dropWhile_sublist _).subset hp)
  · intro p hp
    show p ∈ (g.visit st next).used ∨ p ∈ st3.times
    rw [hr.times]
    rcases hi.psub p hp with h | h
    · left; simp [DGhost.visit, h]
    · rw [← List.takeWhile_append_dropWhile (p := fun t => decide (t = next)) (l := st.times)] at h
      rcases List.mem_append.1 h with h | h
      · left; simp [DGhost.visit, h]
      · right; exact h
  · intro y hy r h
    exact (hvisle y hy).trans_lt (hrem r h).1
  · intro x hx
    rcases List.mem_append.1 hx with h | h
    · have := hi.visSrc x h
      simp only [List.mem_append, mem_updTimes] at this ⊢
      simp only [DGhost.visit, List.mem_append]
      rcases this with ((h | ⟨u, hu, e⟩) | h) | h
      · exact Or.inl (Or.inl (Or.inl (Or.inl h)))
      · exact Or.inl (Or.inl (Or.inr ⟨u, Or.inl hu, e⟩))
      · exact Or.inl (Or.inr (Or.inl h))
      · exact Or.inr (Or.inl (Or.inl h))
    · obtain rfl := List.mem_singleton.1 h
      have := hn
      have hmin' := hmin
      simp only [DGhost.rem, List.mem_append, mem_updTimes] at this
      simp only [DGhost.visit, List.mem_append, mem_updTimes]
      rcases this with (((h | h) | ⟨u, hu, e⟩) | h) | h
      · exact Or.inl (Or.inl (Or.inl (Or.inr (mem_takeWhile_of_eq id hi.bufs.okB.sorted (fun a ha => hmin a (by simp [DGhost.rem, ha])) h rfl))))
      · exact Or.inr (Or.inr (mem_takeWhile_of_eq id hi.tsort (fun a ha => hmin a (by simp [DGhost.rem, ha])) h rfl))
      · exact Or.inl (Or.inl (Or.inr ⟨u, Or.inr (mem_takeWhile_of_eq (fun u : V × T × R => u.2.1) hi.bufs.okI.sorted (fun a ha => hmin _ (by
          simp only [DGhost.rem, List.mem_append, mem_updTimes]; exact Or.inl (Or.inl (Or.inr ⟨a, ha, rfl⟩)))) hu e), e⟩))
      · exact Or.inl (Or.inr (Or.inr (mem_takeWhile_of_eq id hi.bufs.okO.sorted (fun a ha => hmin a (by simp [DGhost.rem, ha])) h rfl)))
      · exact Or.inr (Or.inl (Or.inr (mem_takeWhile_of_eq id (hi.ssort.imp fun h => h.le) (fun a ha => hmin a (by simp [DGhost.rem, ha])) h rfl)))
  · intro x hx
    have hx : x ∈ (g.visit st next).used ++ st3.synth ++ st3.pended := hx
    simp only [List.mem_append] at hx
    rw [hr.synth, hr.pended] at hx
    rcases hx with (hx | hx | ⟨-, -, e, he, -, rfl⟩) | hx | ⟨-, -, e, he, -, rfl⟩ | ⟨-, hx2, rfl⟩
    · exact (dVisit_used hi hcl x hx).2
    · exact hi.seed x (by simp [hsynthdrop x hx])
    · exact (dJoinable_src hi hcl hn hr he).2
    · exact hi.seed x (by simp [hx])
    · exact (dJoinable_src hi hcl hn hr he).2
    · obtain ⟨s, h1, h2⟩ := hr.intIff.1 hx2
      rcases List.mem_append.1 h1 with h1 | h1
      · exact ⟨s, by rw [← eB]; simp [h1], h2⟩
      · obtain ⟨p, h3, h4⟩ := (dVisit_used hi hcl s h1).2
        exact ⟨p, h3, h4.trans h2⟩
  · intro x hx
    have hx : x ∈ st3.pended := hx
    rw [hr.pended] at hx
    rcases hx with hx | ⟨-, hx, -⟩ | ⟨hx, -, rfl⟩
    · exact hi.pend x hx
    · exact hx
    · exact hx
  · intro x hx
    have hx : x ∈ (g.visit st next).used ++ st3.synth := hx
    simp only [List.mem_append] at hx
    rw [hr.synth] at hx
    rcases hx with hx | hx | ⟨-, -, e, he, -, rfl⟩
    · exact (dVisit_used hi hcl x hx).1
    · exact hi.cl x (by simp [hsynthdrop x hx])
    · obtain ⟨u, h1, h2⟩ := (dJoinable_src hi hcl hn hr he).1
      rw [h2]
      exact hsup h1 (dRem_mem_cl hi hcl next hn)
  · intro y
    show y ∈ st3.moments ↔ _
    have hold : y ∈ g.vis → ((¬ Beyond upper y ∧ ∃ s ∈ (g.visit st next).Bs ++ (g.visit st next).used, s ≤ y) ↔ (¬ Beyond upper y ∧ ∃ s ∈ g.Bs ++ g.used, s ≤ y)) :=
      fun h => by rw [hint y h]
    have hvis : y ∈ (g.visit st next).vis ↔ y ∈ g.vis ∨ y = next := by simp [DGhost.visit]
    have hnn : next ∉ g.vis := fun h => lt_irrefl _ (hnp next h)
    by_cases hm : int = true ∧ ¬ Beyond upper next
    · rw [hr.moments1 hm.1 hm.2, List.mem_append, List.mem_singleton, hi.momIff, hvis]
      constructor
      · rintro (⟨h1, h2⟩ | rfl)
        · exact ⟨Or.inl h1, (hold h1).2 h2⟩
        · exact ⟨Or.inr rfl, hm.2, hr.intIff.1 hm.1⟩
      · rintro ⟨h1 | h1, h2⟩
        · exact Or.inl ⟨h1, (hold h1).1 h2⟩
        · exact Or.inr h1
    · rw [hr.moments0 (by
        by_cases h : Beyond upper next
        · exact Or.inr h
        · cases int with
          | true => exact absurd ⟨rfl, h⟩ hm
          | false => exact Or.inl rfl), hi.momIff, hvis]
      constructor
      · rintro ⟨h1, h2⟩
        exact ⟨Or.inl h1, (hold h1).2 h2⟩
      · rintro ⟨h1 | rfl, h2⟩
        · exact ⟨h1, (hold h1).1 h2⟩
        · exact absurd ⟨hr.intIff.2 h2.2, h2.1⟩ hm
  · show st3.moments.Pairwise _
    by_cases hm : int = true ∧ ¬ Beyond upper next
    · rw [hr.moments1 hm.1 hm.2, List.pairwise_append]
      refine ⟨hi.momSort, List.pairwise_singleton _ _, fun a ha b hb => ?_⟩
      rw [List.mem_singleton.1 hb]
      exact hnp a ((hi.momIff a).1 ha).1
    · rw [hr.moments0 (by
        by_cases h : Beyond upper next
        · exact Or.inr h
        · cases int with
          | true => exact absurd ⟨rfl, h⟩ hm
          | false => exact Or.inl rfl)]
      exact hi.momSort
  · intro y hy hu hs
    show y ∈ st3.pended
    rcases List.mem_append.1 hy with h | h
    · exact (hr.pended y).2 (Or.inl (hi.intPend y h hu ((hint y h).1 hs)))
    · obtain rfl := List.mem_singleton.1 h
      exact (hr.pended y).2 (Or.inr (Or.inr ⟨hu, hr.intIff.2 hs, rfl⟩))
  · intro y hy hu s hs hle hns
    show s ⊔ y ∈ st3.pended ++ st3.synth ++ (g.visit st next).used
    rcases List.mem_append.1 hy with h | h
    · rcases hperm s hs with h1 | rfl
      · exact hfound _ (hi.joinsP y h hu s h1 hle hns)
      · exact absurd hle (not_le.2 (hnp y h))
    · obtain rfl := List.mem_singleton.1 h
      have key : ∃ e, dJoinable st3 int e ∧ e ⊔ y = s ⊔ y := by
        rcases List.mem_append.1 hs with h | h
        · obtain ⟨b, h1, h2⟩ := (hr.bufs.bufB y hab _).2 ⟨s, h, rfl⟩
          exact ⟨b, Or.inl h1, h2⟩
        · obtain ⟨b, h1, h2⟩ := (hr.bufs.bufC y hab _).2 ⟨s, h, rfl⟩
          exact ⟨b, Or.inr (Or.inl h1), h2⟩
      obtain ⟨e, h1, h2⟩ := key
      rw [← h2]
      refine hnew e h1 hu fun hle' => hns ?_
      have : s ≤ e ⊔ y := by rw [h2]; exact le_sup_left
      rwa [sup_eq_right.2 hle'] at this
  · intro y hy hu hs μ hμy hμ e ha hne
    show e ⊔ y ∈ st3.pended ++ st3.synth ++ (g.visit st next).used
    have hμ : AboveMeet ((g.visit st next).vis.filter (fun z => decide (toLin y ≤ toLin z)) ++ (g.visit st next).rem st3) μ := hμ
    rcases List.mem_append.1 hy with h | h
    · refine hfound _ (hi.joinsI y h hu ((hint y h).1 hs) μ hμy ?_ e ?_ hne)
      · refine hμ.mono fun r' hr' => ?_
        rcases List.mem_append.1 hr' with h1 | h1
        · rw [List.mem_filter] at h1
          rcases List.mem_append.1 h1.1 with h2 | h2
          · exact ⟨r', List.mem_append_left _ (List.mem_filter.2 ⟨h2, h1.2⟩), le_refl _⟩
          · obtain rfl := List.mem_singleton.1 h2
            exact ⟨r', List.mem_append_right _ hn, le_refl _⟩
        · obtain ⟨r, h2, h3⟩ := hdown r' h1
          exact ⟨r, List.mem_append_right _ h2, h3⟩
      · rcases ha with ⟨v, hv⟩ | ⟨o, h1, h2, h3⟩
        · left
          refine ⟨v, fun hz => hv ?_⟩
          show sumAt (g.Is ++ _) v _ = 0
          rw [sumAt_append, hz, zero_add]
          refine sumAt_zero fun u hu => ?_
          rintro ⟨h1, -⟩
          rw [takeWhile_eq (fun u : V × T × R => u.2.1) _ next u hu] at h1
          exact absurd h1 (not_le.2 (hnp y h))
        · right
          rcases hOs o h1 with h4 | rfl
          · exact ⟨o, h4, h2, h3⟩
          · exact absurd h2 (not_le.2 (hnp y h))
    · obtain rfl := List.mem_singleton.1 h
      have habμ : AboveMeet (g.rem st) μ := by
        refine hμ.mono fun r' hr' => ?_
        rcases List.mem_append.1 hr' with h1 | h1
        · rw [List.mem_filter, decide_eq_true_eq] at h1
          have : r' = y := toLin_inj.1 (le_antisymm (hvisle r' h1.1) h1.2)
          exact ⟨y, hn, this.ge⟩
        · exact hdown r' h1
      have hit : int = true := hr.intIff.2 hs
      have key : ∃ b, dJoinable st3 int b ∧ b ⊔ μ = e := by
        rcases ha with ⟨v, hv⟩ | ⟨o, h1, h2, h3⟩
        · have : sumAt st3.input.buffer v (fun t => t ⊔ μ = e) ≠ 0 := by
            rw [(hr.bufs.bufI μ habμ).1 v e]
            intro hz
            apply hv
            rw [← hz]
            refine sumAt_congr fun u hu => ⟨fun h => h.2, fun h => ⟨?_, h⟩⟩
            exact hvisle u.2.1 (hvisSub _ (by simp only [List.mem_append, mem_updTimes]; exact Or.inl (Or.inl (Or.inr ⟨u, hu, rfl⟩))))
          by_contra hc
          refine this (sumAt_zero fun u hu he => hc ⟨u.2.1, Or.inr (Or.inr ⟨hit, Or.inl (mem_updTimes.2 ⟨u, hu, rfl⟩)⟩), he⟩)
        · obtain ⟨b, h4, h5⟩ := (hr.bufs.bufO μ habμ e).2 ⟨o, h1, h3⟩
          exact ⟨b, Or.inr (Or.inr ⟨hit, Or.inr h4⟩), h5⟩
      obtain ⟨b, h1, rfl⟩ := key
      have hb : ¬ b ≤ y := fun h => hne (sup_le h hμy)
      rw [sup_assoc, sup_eq_right.2 hμy]
      exact hnew b h1 hu hb

noncomputable def dMeasure (hfin : Cl.Finite) (g : DGhost V T R) (st : DiscoverState V T R) : Nat :=
  open Classical in (hfin.toFinset.filter fun x => ∃ r ∈ g.rem st, toLin r ≤ toLin x).card

theorem dLoop_spec (hfin : Cl.Finite) (hsup : SupClosed Cl) (hcl : ∀ x ∈ B0 ++ updTimes I0 ++ O0 ++ P0, x ∈ Cl) (n : Nat) :
    ∀ (g : DGhost V T R) (st : DiscoverState V T R), DInv B0 I0 O0 P0 upper Cl g st → dMeasure hfin g st ≤ n →
    ∃ g' st', (∀ fuel, n ≤ fuel → st.loop upper fuel = some st') ∧ DInv B0 I0 O0 P0 upper Cl g' st' ∧ g'.rem st' = [] := by
  classical
  induction n with
  | zero =>
    intro g st hi hm
    have hnone : st.nextTime = none := by
      cases h : st.nextTime with
      | none => rfl
      | some next =>
        exfalso
        obtain ⟨h1, -⟩ := dNext_some hi h
        unfold dMeasure at hm
        rw [Nat.le_zero, Finset.card_eq_zero] at hm
        have : next ∈ hfin.toFinset.filter fun x => ∃ r ∈ g.rem st, toLin r ≤ toLin x := by
          rw [Finset.mem_filter]
          exact ⟨(Set.Finite.mem_toFinset _).2 (dRem_mem_cl hi hcl next h1), next, h1, le_refl _⟩
        convert Finset.notMem_empty next
        simp only [false_iff, Finset.notMem_empty, not_false_eq_true, iff_true] at *
        rw [hm] at this
        simp at this
    refine ⟨g, st, fun fuel _ => ?_, hi, dNext_none hi.bufs hnone⟩
    cases fuel <;> simp [DiscoverState.loop, hnone]
  | succ n ih =>
    intro g st hi hm
    cases h : st.nextTime with
    | none =>
      refine ⟨g, st, fun fuel _ => ?_, hi, dNext_none hi.bufs h⟩
      cases fuel <;> simp [DiscoverState.loop, h]
    | some next =>
      obtain ⟨h1, h2⟩ := dNext_some hi h
      obtain ⟨st3, int, a1, a2⟩ := dStep_raw hi.bufs hi.ssort hi.meets upper h1
      have hi' := dInv_step hi hcl hsup h1 h2 a2
      have hrem := dRem_visit hi h2 a2
      have hm' : dMeasure hfin (g.visit st next) st3.conclude ≤ n := by
        have : dMeasure hfin (g.visit st next) st3.conclude < dMeasure hfin g st := by
          unfold dMeasure
          apply Finset.card_lt_card
          rw [Finset.ssubset_iff_of_subset]
          · refine ⟨next, ?_, ?_⟩
            · rw [Finset.mem_filter]
              exact ⟨(Set.Finite.mem_toFinset _).2 (dRem_mem_cl hi hcl next h1), next, h1, le_refl _⟩
            · rw [Finset.mem_filter]
              rintro ⟨-, r, hr1, hr2⟩
              exact absurd hr2 (not_le.2 (hrem r hr1).1)
          · intro x hx
            rw [Finset.mem_filter] at hx ⊢
            obtain ⟨hx1, r, hr1, hr2⟩ := hx
            exact ⟨hx1, next, h1, (hrem r hr1).1.le.trans hr2⟩
        omega
      obtain ⟨g', st', b1, b2, b3⟩ := ih _ _ hi' hm'
      refine ⟨g', st', fun fuel hf => ?_, b2, b3⟩
      cases fuel with
      | zero => omega
      | succ fuel =>
        simp only [DiscoverState.loop, h, a1]
        exact b1 fuel (by omega)

end

end DD
