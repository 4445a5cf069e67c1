import Verif.Proofs.ReduceStep
import Verif.Proofs.TimeOrd

/-!
# The invariant of the loop of `reduce`
-/

namespace DD

section
variable {V T R : Type*} [DecidableEq V] [LE T] [DecidableLE T] [AddCommMonoid R]

theorem accum_zero_of_not_le {us : Upds V T R} {q : T} (h : ∀ u ∈ us, ¬ u.2.1 ≤ q) (v : V) : accum us v q = 0 := by
  unfold accum
  apply List.sum_eq_zero
  intro x hx
  obtain ⟨u, hu, rfl⟩ := List.mem_map.1 hx
  simp [h u hu]

theorem accum_congr_le {us : Upds V T R} {t q : T} (h : ∀ u ∈ us, u.2.1 ≤ t ↔ u.2.1 ≤ q) (v : V) : accum us v t = accum us v q := by
  unfold accum
  congr 1
  apply List.map_congr_left
  intro u hu
  simp only [h u hu]

end

section
variable {V1 V2 T R1 R2 : Type*} [Lattice T] [DecidableLE T] [DecidableEq T] [TimeOrd T] [LinearOrder V1] [LinearOrder V2]
  [AddCommMonoid R1] [DecidableEq R1] [AddCommMonoid R2] [DecidableEq R2]

/-- The invariant. -/
structure RInv (B0 S0 : Upds V1 T R1) (O0 : Upds V2 T R2) (P0 upper held : List T) (Cl : Set T) (g : RGhost V1 V2 T R1 R2)
    (st : ReduceState V1 V2 T R1 R2) : Prop where
  bufs : RBufs g st (g.rem st)
  eqB : g.Bs ++ g.Br = B0
  eqS : g.Ss ++ g.Sr = S0
  eqO : g.Os ++ g.Or = O0
  outs : st.outputs.map (·.1) = held
  tsort : st.times.Pairwise fun a b => toLin a ≤ toLin b
  ssort : st.synth.Pairwise fun a b => toLin a < toLin b
  meets : st.meets = timesMeets st.times
  cur1 : ∀ c ∈ g.used, ∀ q, c ≤ q → (∃ r ∈ g.rem st, r ≤ q) → ∃ e ∈ st.current, e ≤ q
  cur2 : ∀ e ∈ st.current, ∃ c ∈ g.used, c ≤ e ∧ ∀ r ∈ g.rem st, e ≤ c ⊔ r
  tsub : ∀ p ∈ st.times, p ∈ P0
  psub : ∀ p ∈ P0, p ∈ g.used ∨ p ∈ st.times
  seed : ∀ x ∈ g.used ++ st.synth ++ updTimes st.log ++ st.pended, ∃ s ∈ updTimes B0 ++ P0, s ≤ x
  inside : ∀ x ∈ st.synth ++ updTimes st.log, ¬ Beyond upper x
  pend : ∀ x ∈ st.pended, Beyond upper x
  filed : ∀ (i : Nat) (o : T × Upds V2 T R2), st.outputs[i]? = some o → ∀ u ∈ o.2, outputIndex held u.2.1 = some i
  cl : ∀ x ∈ g.used ++ st.synth ++ updTimes st.log, x ∈ Cl

omit [DecidableLE T] [DecidableEq T] [LinearOrder V1] [LinearOrder V2] [AddCommMonoid R1] [DecidableEq R1] [AddCommMonoid R2] [DecidableEq R2] in
theorem mem_updTimes {V R : Type*} {us : Upds V T R} {t : T} : t ∈ updTimes us ↔ ∃ u ∈ us, u.2.1 = t := by simp [updTimes]

theorem rNext_none {g : RGhost V1 V2 T R1 R2} {st : ReduceState V1 V2 T R1 R2} {rem : List T} (hb : RBufs g st rem) (h : st.nextTime = none) : g.rem st = [] := by
  have h := minTime_none h
  rw [ValueHistory.ok_time hb.okB, ValueHistory.ok_time hb.okS, ValueHistory.ok_time hb.okO] at h
  simp only [List.mem_cons, List.not_mem_nil, or_false, forall_eq_or_imp, forall_eq, Option.map_eq_none_iff, List.head?_eq_none_iff] at h
  obtain ⟨h1, h2, h3, h4, h5⟩ := h
  simp [RGhost.rem, updTimes, h1, h2, h3, h4, h5]

theorem rNext_some {B0 S0 : Upds V1 T R1} {O0 : Upds V2 T R2} {P0 upper held : List T} {Cl : Set T} {g : RGhost V1 V2 T R1 R2}
    {st : ReduceState V1 V2 T R1 R2} (hi : RInv B0 S0 O0 P0 upper held Cl g st) {next : T} (h : st.nextTime = some next) :
    next ∈ g.rem st ∧ ∀ r ∈ g.rem st, toLin next ≤ toLin r := by
  obtain ⟨h1, h2⟩ := minTime_some h
  rw [ValueHistory.ok_time hi.bufs.okB, ValueHistory.ok_time hi.bufs.okS, ValueHistory.ok_time hi.bufs.okO] at h1 h2
  constructor
  · simp only [List.mem_cons, List.not_mem_nil, or_false] at h1
    have hhead : ∀ {V R : Type _} (l : Upds V T R), some next = l.head?.map (·.2.1) → next ∈ updTimes l := by
      intro V R l hl
      cases l with
      | nil => simp at hl
      | cons u l => simp only [List.head?_cons, Option.map_some, Option.some.injEq] at hl; simp [updTimes, hl]
    have hhead2 : ∀ (l : Upds V2 T R2), some next = l.head?.map (·.2.1) → next ∈ updTimes l := by
      intro l hl
      cases l with
      | nil => simp at hl
      | cons u l => simp only [List.head?_cons, Option.map_some, Option.some.injEq] at hl; simp [updTimes, hl]
    unfold RGhost.rem
    simp only [List.mem_append]
    rcases h1 with h1 | h1 | h1 | h1 | h1
    · exact Or.inl (Or.inl (Or.inl (Or.inl (hhead _ h1))))
    · exact Or.inl (Or.inl (Or.inl (Or.inr (List.mem_of_mem_head? (by rw [Option.mem_def, h1])))))
    · exact Or.inl (Or.inl (Or.inr (hhead _ h1)))
    · exact Or.inl (Or.inr (hhead2 _ h1))
    · exact Or.inr (List.mem_of_mem_head? (by rw [Option.mem_def, h1]))
  · intro r hr
    unfold RGhost.rem at hr
    simp only [List.mem_append, mem_updTimes] at hr
    rcases hr with (((⟨u, hu, rfl⟩ | hr) | ⟨u, hu, rfl⟩) | ⟨u, hu, rfl⟩) | hr
    · exact sorted_head_le (fun u : V1 × T × R1 => u.2.1) hi.bufs.okB.sorted (fun b hb => h2 b (by simp [hb])) u hu
    · exact sorted_head_le id hi.tsort (fun b hb => h2 b (by simp at hb; simp [hb])) r hr
    · exact sorted_head_le (fun u : V1 × T × R1 => u.2.1) hi.bufs.okS.sorted (fun b hb => h2 b (by simp [hb])) u hu
    · exact sorted_head_le (fun u : V2 × T × R2 => u.2.1) hi.bufs.okO.sorted (fun b hb => h2 b (by simp [hb])) u hu
    · exact sorted_head_le id (hi.ssort.imp fun h => h.le) (fun b hb => h2 b (by simp at hb; simp [hb])) r hr

/-- What an iteration does, before the meet is recomputed. -/
structure RRaw (f : List (V1 × R1) → List (V2 × R2)) (upper held : List T) (g : RGhost V1 V2 T R1 R2) (st stx st3 : ReduceState V1 V2 T R1 R2) (int : Bool)
    (next : T) (rem : List T) : Prop where
  bufs : RBufs (g.visit st next) st3 rem
  bufsx : RBufs (g.visit st next) stx rem
  batchx : stx.batch = st3.batch
  currentx : stx.current = st3.current
  logx : stx.log = st.log
  times : st3.times = st.times.dropWhile (fun t => decide (t = next))
  meets : st3.meets = timesMeets st3.times
  ssort : st3.synth.Pairwise fun a b => toLin a < toLin b
  current : st3.current = st.current ++ st.synth.takeWhile (fun t => decide (t = next)) ++ st.times.takeWhile (fun t => decide (t = next))
  outs : st3.outputs.map (·.1) = st.outputs.map (·.1)
  filed : ∀ (i : Nat) (o3 : T × Upds V2 T R2), st3.outputs[i]? = some o3 → ∃ o, st.outputs[i]? = some o ∧
        ∀ u ∈ o3.2, u ∈ o.2 ∨ (u.2.1 = next ∧ outputIndex held next = some i)
  synth : ∀ x, x ∈ st3.synth ↔ x ∈ st.synth.dropWhile (fun t => decide (t = next)) ∨
    (¬ Beyond upper next ∧ ¬ Beyond upper x ∧ ∃ e, joinable stx int e ∧ ¬ e ≤ next ∧ x = e ⊔ next)
  pended : ∀ x, x ∈ st3.pended ↔ x ∈ st.pended ∨ (¬ Beyond upper next ∧ Beyond upper x ∧ ∃ e, joinable stx int e ∧ ¬ e ≤ next ∧ x = e ⊔ next) ∨
    (Beyond upper next ∧ int = true ∧ x = next)
  batch : ∀ e ∈ st3.batch.buffer, next ≤ e.2.1 ∨ ∃ e0 ∈ st.batch.buffer, e0.2.1 ≤ e.2.1
  intIff : int = true ↔ (∃ u ∈ g.Br.takeWhile (fun u => decide (u.2.1 = next)), u.2.1 = next) ∨ (∃ u ∈ st3.batch.buffer, u.2.1 ≤ next) ∨
        ∃ t ∈ st3.current, t ≤ next
  log0 : int = false ∨ Beyond upper next → st3.log = st.log
  log1 : int = true → ¬ Beyond upper next → ∃ upd, (st3.log).Perm (st.log ++ upd.map fun u => (u.1, next, u.2)) ∧
    ∃ l, ConsolidatedPairs l ∧ (∀ v, weight l v = accum stx.input.buffer v next + accum stx.batch.buffer v next) ∧
        ∀ v, weight upd v + (accum stx.output.buffer v next + accum stx.produced v next) = weight (f l) v

theorem rStep_raw {f : List (V1 × R1) → List (V2 × R2)} {logic : List (V1 × R1) → List (V2 × R2) → List (V2 × R2)} (hl : ReducesBy f logic)
    {B0 S0 : Upds V1 T R1} {O0 : Upds V2 T R2} {P0 upper held : List T} {Cl : Set T} {g : RGhost V1 V2 T R1 R2}
    {st : ReduceState V1 V2 T R1 R2} (hi : RInv B0 S0 O0 P0 upper held Cl g st) (hheld : ∀ s ∈ updTimes B0 ++ P0, Beyond held s) (next : T) :
    ∃ stx st3 int, st.step upper logic next = some st3.conclude ∧ RRaw f upper held g st stx st3 int next (g.rem st) ∧
      (int = true → ∃ s ∈ updTimes B0 ++ P0, s ≤ next) := by
  obtain ⟨int, st1, a1, a2, a3, a4, a5, a6, a7, a8, a9, a10, a11, a12⟩ := rAdvance_spec hi.bufs next
  have hseed : int = true → ∃ s ∈ updTimes B0 ++ P0, s ≤ next := by
    intro h
    have hB : ∀ u ∈ g.Bs ++ g.Br.takeWhile (fun u => decide (u.2.1 = next)), u.2.1 ∈ updTimes B0 := by
      intro u hu
      rw [← hi.eqB, mem_updTimes]
      refine ⟨u, ?_, rfl⟩
      rcases List.mem_append.1 hu with hu | hu
      · simp [hu]
      · simp [(List.takeWhile_sublist _).subset hu]
    rcases a11.1 h with ⟨u, hu, he⟩ | ⟨u, hu, he⟩ | ⟨c, hc, he⟩
    · exact ⟨u.2.1, List.mem_append_left _ (hB u (List.mem_append_right _ hu)), he.le⟩
    · obtain ⟨w, hw, h1, -⟩ := a2.bufB.orig u hu
      exact ⟨w.2.1, List.mem_append_left _ (hB w hw), h1.trans he⟩
    · rw [a6] at hc
      simp only [List.mem_append] at hc
      rcases hc with (hc | hc) | hc
      · obtain ⟨w, hw, h1, -⟩ := hi.cur2 c hc
        obtain ⟨s, hs, h2⟩ := hi.seed w (by simp [hw])
        exact ⟨s, hs, (h2.trans h1).trans he⟩
      · obtain ⟨s, hs, h2⟩ := hi.seed c (by simp [(List.takeWhile_sublist _).subset hc])
        exact ⟨s, hs, h2.trans he⟩
      · exact ⟨c, List.mem_append_right _ (hi.tsub c ((List.takeWhile_sublist _).subset hc)), he⟩
  have hs1 : st1.synth.Pairwise fun a b => toLin a < toLin b := by
    rw [a3]; exact hi.ssort.sublist (List.dropWhile_sublist _)
  unfold ReduceState.step
  rw [a1]
  simp only
  by_cases hu : lessEqual upper next = true
  · rw [if_pos hu]
    have hu' := (lessEqual_iff _ _).1 hu
    refine ⟨st1, if int = true then { st1 with pended := st1.pended ++ [next] } else st1, int, rfl, ?_, hseed⟩
    cases int with
    | true =>
      simp only [if_true]
      refine ⟨⟨a2.okB, a2.okS, a2.okO, a2.bufB, a2.bufS, a2.bufO, a2.bufP, a2.meetLe⟩, a2, rfl, rfl, ?_, a4, a5 hi.meets, hs1, a6, ?_, ?_, ?_, ?_, a12, a11, ?_, ?_⟩
      · unfold ReduceState.log; rw [a9]
      · simp [a9]
      · intro i o3 h3
        simp only [a9] at h3
        exact ⟨o3, h3, fun u hu => Or.inl hu⟩
      · intro x
        simp only [a3, hu', not_true, false_and, or_false]
      · intro x
        simp [a10, hu']
      · intro _; unfold ReduceState.log; simp only [a9]
      · intro _ h; exact absurd hu' h
    | false =>
      simp only [Bool.false_eq_true, if_false]
      refine ⟨a2, a2, rfl, rfl, ?_, a4, a5 hi.meets, hs1, a6, by rw [a9], ?_, ?_, ?_, a12, a11, ?_, ?_⟩
      · unfold ReduceState.log; rw [a9]
      · intro i o3 h3
        rw [a9] at h3
        exact ⟨o3, h3, fun u hu => Or.inl hu⟩
      · intro x
        simp only [a3, hu', not_true, false_and, or_false]
      · intro x
        simp [a10, hu']
      · intro _; unfold ReduceState.log; rw [a9]
      · intro h; simp at h
  · rw [if_neg hu]
    have hu' : ¬ Beyond upper next := fun h => hu ((lessEqual_iff _ _).2 h)
    obtain ⟨st2, b1, b2, b3, b4, b5, b6, b7, b8, b9, b10, b11, b12⟩ := rDetermine_spec a2 upper int next hs1
    rw [b1]
    simp only
    cases int with
    | true =>
      have hh : Beyond (st2.outputs.map (·.1)) next := by
        rw [b9, a9, hi.outs]
        obtain ⟨s, hs, h1⟩ := hseed rfl
        exact beyond_mono (hheld s hs) h1
      obtain ⟨st3, upd, c1, c2, c3, c4, c5, c6, c7, c8, c9, c10, c11, c12, c13, c14, c15⟩ := rEvaluate_spec hl b2 next hh
      refine ⟨st2, st3, true, by simp [c1], ?_, hseed⟩
      refine ⟨c2, b2, c3.symm, c8.symm, ?_, by rw [c6, b4, a4], ?_, by rw [c10]; exact b10, by rw [c8, b6, a6], by rw [c12, b9, a9], ?_, ?_, ?_, ?_, ?_, ?_, ?_⟩
      · unfold ReduceState.log; rw [b9, a9]
      · rw [c7, b5, c6, b4]; exact a5 hi.meets
      · intro i o3 h3
        obtain ⟨o, d1, d2⟩ := c13 i o3 h3
        rw [b9, a9] at d1 d2
        rw [hi.outs] at d2
        exact ⟨o, d1, d2⟩
      · intro x
        rw [c10, b11, a3]
        simp only [hu', not_false_iff, true_and]
      · intro x
        rw [c11, b12, a10]
        simp only [hu', not_false_iff, true_and, false_and, or_false]
      · rw [c3, b3]; exact a12
      · rw [c3, b3, c8, b6]; exact a11
      · rintro (h | h)
        · simp at h
        · exact absurd h hu'
      · intro _ _
        refine ⟨upd, ?_, c15⟩
        have : st2.log = st.log := by unfold ReduceState.log; rw [b9, a9]
        rw [← this]; exact c14
    | false =>
      refine ⟨st2, st2, false, by simp, ?_, hseed⟩
      refine ⟨b2, b2, rfl, rfl, ?_, by rw [b4, a4], ?_, b10, by rw [b6, a6], by rw [b9, a9], ?_, ?_, ?_, ?_, ?_, ?_, ?_⟩
      · unfold ReduceState.log; rw [b9, a9]
      · rw [b5, b4]; exact a5 hi.meets
      · intro i o3 h3
        rw [b9, a9] at h3
        exact ⟨o3, h3, fun u hu => Or.inl hu⟩
      · intro x
        rw [b11, a3]
        simp only [hu', not_false_iff, true_and]
      · intro x
        rw [b12, a10]
        simp only [hu', not_false_iff, true_and, false_and, or_false]
      · rw [b3]; exact a12
      · rw [b3, b6]; exact a11
      · intro _; unfold ReduceState.log; rw [b9, a9]
      · intro h; simp at h

section step
variable {f : List (V1 × R1) → List (V2 × R2)} {B0 S0 : Upds V1 T R1} {O0 : Upds V2 T R2} {P0 upper held : List T} {Cl : Set T}
  {g : RGhost V1 V2 T R1 R2} {st stx st3 : ReduceState V1 V2 T R1 R2} {int : Bool} {next : T}

theorem rem_mem_cl (hi : RInv B0 S0 O0 P0 upper held Cl g st) (hcl : ∀ x ∈ updTimes B0 ++ updTimes S0 ++ updTimes O0 ++ P0, x ∈ Cl) :
    ∀ r ∈ g.rem st, r ∈ Cl := by
  intro r hr
  simp only [RGhost.rem, List.mem_append, mem_updTimes] at hr
  rcases hr with (((⟨u, hu, rfl⟩ | hr) | ⟨u, hu, rfl⟩) | ⟨u, hu, rfl⟩) | hr
  · exact hcl _ (by simp only [List.mem_append, mem_updTimes]; rw [← hi.eqB]; exact Or.inl (Or.inl (Or.inl ⟨u, by simp [hu], rfl⟩)))
  · exact hcl _ (by simp only [List.mem_append]; exact Or.inr (hi.tsub r hr))
  · exact hcl _ (by simp only [List.mem_append, mem_updTimes]; rw [← hi.eqS]; exact Or.inl (Or.inl (Or.inr ⟨u, by simp [hu], rfl⟩)))
  · exact hcl _ (by simp only [List.mem_append, mem_updTimes]; rw [← hi.eqO]; exact Or.inl (Or.inr ⟨u, by simp [hu], rfl⟩))
  · exact hi.cl r (by simp [hr])

/-- After the visit, all is as before, but later than `next`; or a join with `next`. -/
theorem rem_visit (hi : RInv B0 S0 O0 P0 upper held Cl g st) (hmin : ∀ r ∈ g.rem st, toLin next ≤ toLin r)
    (hr : RRaw f upper held g st stx st3 int next (g.rem st)) :
    ∀ r ∈ (g.visit st next).rem st3, toLin next < toLin r ∧ (r ∈ g.rem st ∨ next ≤ r) := by
  have hmemB : ∀ u ∈ g.Br, u.2.1 ∈ g.rem st := fun u hu => by
    simp only [RGhost.rem, List.mem_append, mem_updTimes]; exact Or.inl (Or.inl (Or.inl (Or.inl ⟨u, hu, rfl⟩)))
  have hmemS : ∀ u ∈ g.Sr, u.2.1 ∈ g.rem st := fun u hu => by
    simp only [RGhost.rem, List.mem_append, mem_updTimes]; exact Or.inl (Or.inl (Or.inr ⟨u, hu, rfl⟩))
  have hmemO : ∀ u ∈ g.Or, u.2.1 ∈ g.rem st := fun u hu => by
    simp only [RGhost.rem, List.mem_append, mem_updTimes]; exact Or.inl (Or.inr ⟨u, hu, rfl⟩)
  have hmemT : ∀ u ∈ st.times, u ∈ g.rem st := fun u hu => by
    simp only [RGhost.rem, List.mem_append]; exact Or.inl (Or.inl (Or.inl (Or.inr hu)))
  have hmemY : ∀ u ∈ st.synth, u ∈ g.rem st := fun u hu => by
    simp only [RGhost.rem, List.mem_append]; exact Or.inr hu
  intro r h
  simp only [RGhost.rem, List.mem_append, mem_updTimes] at h
  rcases h with (((⟨u, hu, rfl⟩ | h) | ⟨u, hu, rfl⟩) | ⟨u, hu, rfl⟩) | h
  · exact ⟨dropWhile_gt (fun u : V1 × T × R1 => u.2.1) hi.bufs.okB.sorted (fun a ha => hmin _ (hmemB a ha)) u hu,
      Or.inl (hmemB u ((List.dropWhile_sublist _).subset hu))⟩
  · rw [hr.times] at h
    exact ⟨dropWhile_gt id hi.tsort (fun a ha => hmin _ (hmemT a ha)) r h, Or.inl (hmemT r ((List.dropWhile_sublist _).subset h))⟩
  · exact ⟨dropWhile_gt (fun u : V1 × T × R1 => u.2.1) hi.bufs.okS.sorted (fun a ha => hmin _ (hmemS a ha)) u hu,
      Or.inl (hmemS u ((List.dropWhile_sublist _).subset hu))⟩
  · exact ⟨dropWhile_gt (fun u : V2 × T × R2 => u.2.1) hi.bufs.okO.sorted (fun a ha => hmin _ (hmemO a ha)) u hu,
      Or.inl (hmemO u ((List.dropWhile_sublist _).subset hu))⟩
  · rcases (hr.synth r).1 h with h | ⟨-, -, e, -, h1, rfl⟩
    · exact ⟨dropWhile_gt id (hi.ssort.imp fun h => h.le) (fun a ha => hmin _ (hmemY a ha)) r h, Or.inl (hmemY r ((List.dropWhile_sublist _).subset h))⟩
    · refine ⟨TimeOrd.lt_mono (lt_of_le_of_ne le_sup_right ?_), Or.inr le_sup_right⟩
      intro he
      exact h1 (by rw [he]; exact le_sup_left)

theorem visit_used (hi : RInv B0 S0 O0 P0 upper held Cl g st) (hcl : ∀ x ∈ updTimes B0 ++ updTimes S0 ++ updTimes O0 ++ P0, x ∈ Cl) :
    ∀ c ∈ (g.visit st next).used, c ∈ Cl ∧ ∃ s ∈ updTimes B0 ++ P0, s ≤ c := by
  intro c hc
  simp only [RGhost.visit, List.mem_append] at hc
  rcases hc with (hc | hc) | hc
  · exact ⟨hi.cl c (by simp [hc]), hi.seed c (by simp [hc])⟩
  · have hc := (List.takeWhile_sublist _).subset hc
    exact ⟨hi.cl c (by simp [hc]), hi.seed c (by simp [hc])⟩
  · have hc := hi.tsub c ((List.takeWhile_sublist _).subset hc)
    exact ⟨hcl c (by simp [hc]), c, by simp [hc], le_refl _⟩

theorem visit_eqs (hi : RInv B0 S0 O0 P0 upper held Cl g st) :
    (g.visit st next).Bs ++ (g.visit st next).Br = B0 ∧ (g.visit st next).Ss ++ (g.visit st next).Sr = S0 ∧
      (g.visit st next).Os ++ (g.visit st next).Or = O0 := by
  simp only [RGhost.visit, List.append_assoc, List.takeWhile_append_dropWhile, hi.eqB, hi.eqS, hi.eqO, and_self]

/-- The elements of `times_current`. -/
theorem visit_current (hi : RInv B0 S0 O0 P0 upper held Cl g st) (hr : RRaw f upper held g st stx st3 int next (g.rem st)) :
    ∀ e ∈ st3.current, ∃ c ∈ (g.visit st next).used, c ≤ e ∧ ∀ r ∈ g.rem st, e ≤ c ⊔ r := by
  intro e he
  rw [hr.current] at he
  simp only [List.mem_append] at he
  rcases he with (he | he) | he
  · obtain ⟨c, h1, h2, h3⟩ := hi.cur2 e he
    exact ⟨c, by simp [RGhost.visit, h1], h2, h3⟩
  · exact ⟨e, by simp [RGhost.visit, he], le_refl _, fun r _ => le_sup_left⟩
  · exact ⟨e, by simp [RGhost.visit, he], le_refl _, fun r _ => le_sup_left⟩

/-- Joining with `next` gives the join with an original time, and is at or after a seed. -/
theorem joinable_src (hi : RInv B0 S0 O0 P0 upper held Cl g st) (hcl : ∀ x ∈ updTimes B0 ++ updTimes S0 ++ updTimes O0 ++ P0, x ∈ Cl)
    (hn : next ∈ g.rem st) (hr : RRaw f upper held g st stx st3 int next (g.rem st)) (hs : int = true → ∃ s ∈ updTimes B0 ++ P0, s ≤ next)
    {e : T} (he : joinable stx int e) : (∃ u ∈ Cl, e ⊔ next = u ⊔ next) ∧ ∃ s ∈ updTimes B0 ++ P0, s ≤ e ⊔ next := by
  have key : ∀ {u : T}, u ≤ e → (∀ r ∈ g.rem st, e ≤ u ⊔ r) → e ⊔ next = u ⊔ next := by
    intro u h1 h2
    exact le_antisymm (sup_le (h2 next hn) le_sup_right) (sup_le_sup_right h1 _)
  obtain ⟨eB, eS, eO⟩ := visit_eqs (next := next) hi
  rcases he with he | he | ⟨hint, he⟩
  · obtain ⟨x, hx, rfl⟩ := mem_updTimes.1 he
    obtain ⟨u, h1, h2, h3⟩ := hr.bufsx.bufB.orig x hx
    have hu : u.2.1 ∈ updTimes B0 := by rw [← eB, mem_updTimes]; exact ⟨u, by simp [h1], rfl⟩
    exact ⟨⟨u.2.1, hcl _ (by simp [hu]), key h2 h3⟩, u.2.1, by simp [hu], h2.trans le_sup_left⟩
  · rw [hr.currentx] at he
    obtain ⟨c, h1, h2, h3⟩ := visit_current hi hr e he
    obtain ⟨h4, s, h5, h6⟩ := visit_used hi hcl c h1
    exact ⟨⟨c, h4, key h2 h3⟩, s, h5, (h6.trans h2).trans le_sup_left⟩
  · obtain ⟨s, hs1, hs2⟩ := hs hint
    refine ⟨?_, s, hs1, hs2.trans le_sup_right⟩
    rcases he with he | he | he
    · obtain ⟨x, hx, rfl⟩ := mem_updTimes.1 he
      obtain ⟨u, h1, h2, h3⟩ := hr.bufsx.bufS.orig x hx
      have hu : u.2.1 ∈ updTimes S0 := by rw [← eS, mem_updTimes]; exact ⟨u, by simp [h1], rfl⟩
      exact ⟨u.2.1, hcl _ (by simp [hu]), key h2 h3⟩
    · obtain ⟨x, hx, rfl⟩ := mem_updTimes.1 he
      obtain ⟨u, h1, h2, h3⟩ := hr.bufsx.bufO.orig x hx
      have hu : u.2.1 ∈ updTimes O0 := by rw [← eO, mem_updTimes]; exact ⟨u, by simp [h1], rfl⟩
      exact ⟨u.2.1, hcl _ (by simp [hu]), key h2 h3⟩
    · obtain ⟨x, hx, rfl⟩ := mem_updTimes.1 he
      obtain ⟨u, h1, h2, h3⟩ := hr.bufsx.bufP.orig x hx
      rw [hr.logx] at h1
      exact ⟨u.2.1, hi.cl _ (by simp only [List.mem_append, mem_updTimes]; exact Or.inr ⟨u, h1, rfl⟩), key h2 h3⟩

/-- The updates after the visit: those before, and some at `next`. -/
theorem log_visit (hr : RRaw f upper held g st stx st3 int next (g.rem st)) :
    ∃ upd : List (V2 × R2), (st3.log).Perm (st.log ++ upd.map fun u => (u.1, next, u.2)) ∧ (upd = [] ∨ (int = true ∧ ¬ Beyond upper next)) := by
  by_cases h : int = false ∨ Beyond upper next
  · exact ⟨[], by rw [hr.log0 h]; simp, Or.inl rfl⟩
  · push Not at h
    have hint : int = true := by simpa using h.1
    obtain ⟨upd, h1, -⟩ := hr.log1 hint h.2
    exact ⟨upd, h1, Or.inr ⟨hint, h.2⟩⟩

theorem conclude_meet {g' : RGhost V1 V2 T R1 R2} {rem : List T} (hb : RBufs g' st3 rem) (hm : st3.meets = timesMeets st3.times) :
    ∀ m ∈ st3.conclude.meet, ∀ r ∈ g'.rem st3, m ≤ r := by
  have h1 : LowerMeet (none : Option T) ([] : List T) := ⟨by simp, fun _ => rfl, by simp⟩
  have h2 := lowerMeet_update (lowerMeet_update (lowerMeet_update h1 (lowerMeet_hist hb.okB)) (lowerMeet_hist hb.okS)) (lowerMeet_hist hb.okO)
  have h3 := lowerMeet_foldl st3.synth h2
  have h4 : LowerMeet st3.meets.head? st3.times := by rw [hm]; exact timesMeets_spec st3.times
  have h5 := lowerMeet_update h3 h4
  intro m hmm r hr
  refine h5.1 m hmm r ?_
  simp only [RGhost.rem, List.mem_append] at hr ⊢
  tauto

theorem rInv_step (hi : RInv B0 S0 O0 P0 upper held Cl g st) (hcl : ∀ x ∈ updTimes B0 ++ updTimes S0 ++ updTimes O0 ++ P0, x ∈ Cl) (hsup : SupClosed Cl)
    (hn : next ∈ g.rem st) (hmin : ∀ r ∈ g.rem st, toLin next ≤ toLin r)
    (hr : RRaw f upper held g st stx st3 int next (g.rem st)) (hs : int = true → ∃ s ∈ updTimes B0 ++ P0, s ≤ next) :
    RInv B0 S0 O0 P0 upper held Cl (g.visit st next) st3.conclude := by
  have hrem : ∀ r ∈ (g.visit st next).rem st3, toLin next < toLin r ∧ (r ∈ g.rem st ∨ next ≤ r) := rem_visit hi hmin hr
  have hdown : ∀ r' ∈ (g.visit st next).rem st3, ∃ r ∈ g.rem st, r ≤ r' := by
    intro r' h
    rcases (hrem r' h).2 with h | h
    · exact ⟨r', h, le_refl _⟩
    · exact ⟨next, hn, h⟩
  have hmeet := conclude_meet hr.bufs hr.meets
  obtain ⟨eB, eS, eO⟩ := visit_eqs (next := next) hi
  obtain ⟨upd, hlog, hupd⟩ := log_visit hr
  have hlogmem : ∀ x ∈ updTimes st3.log, x ∈ updTimes st.log ∨ (x = next ∧ int = true ∧ ¬ Beyond upper next) := by
    intro x hx
    obtain ⟨u, hu, rfl⟩ := mem_updTimes.1 hx
    rcases List.mem_append.1 (hlog.mem_iff.1 hu) with hu | hu
    · exact Or.inl (mem_updTimes.2 ⟨u, hu, rfl⟩)
    · obtain ⟨w, hw, rfl⟩ := List.mem_map.1 hu
      rcases hupd with rfl | h
      · simp at hw
      · exact Or.inr ⟨rfl, h⟩
  have hsynthdrop : ∀ x ∈ st.synth.dropWhile (fun t => decide (t = next)), x ∈ st.synth := fun x hx => (List.dropWhile_sublist _).subset hx
  refine ⟨⟨hr.bufs.okB, hr.bufs.okS, hr.bufs.okO, hr.bufs.bufB.mono hdown, hr.bufs.bufS.mono hdown, hr.bufs.bufO.mono hdown, hr.bufs.bufP.mono hdown, hmeet⟩,
    eB, eS, eO, by rw [← hi.outs]; exact hr.outs, ?_, hr.ssort, hr.meets, ?_, ?_, ?_, ?_, ?_, ?_, ?_, ?_, ?_⟩
  · show st3.times.Pairwise _
    rw [hr.times]; exact hi.tsort.sublist (List.dropWhile_sublist _)
  · intro c hc q hcq hq
    obtain ⟨r, hr1, hr2⟩ := hq
    have h3 : ∃ e ∈ st3.current, e ≤ q := by
      rw [hr.current]
      simp only [RGhost.visit, List.mem_append] at hc
      rcases hc with (hc | hc) | hc
      · obtain ⟨r0, h1, h2⟩ := hdown r hr1
        obtain ⟨e, h3, h4⟩ := hi.cur1 c hc q hcq ⟨r0, h1, h2.trans hr2⟩
        exact ⟨e, by simp [h3], h4⟩
      · exact ⟨c, by simp [hc], hcq⟩
      · exact ⟨c, by simp [hc], hcq⟩
    obtain ⟨e, h4, h5⟩ := h3
    refine ⟨joinOpt st3.conclude.meet e, (mem_sortDedup _ _).2 (List.mem_map.2 ⟨e, h4, rfl⟩), ?_⟩
    exact (joinOpt_le_iff (fun m hm => (hmeet m hm r hr1).trans hr2) e).2 h5
  · intro e he
    obtain ⟨e0, h1, rfl⟩ := List.mem_map.1 ((mem_sortDedup _ _).1 he)
    obtain ⟨c, h2, h3, h4⟩ := visit_current hi hr e0 h1
    refine ⟨c, h2, h3.trans (le_joinOpt _ _), fun r' hr' => ?_⟩
    obtain ⟨r, h5, h6⟩ := hdown r' hr'
    refine (joinOpt_le_iff (fun m hm => (hmeet m hm r' hr').trans le_sup_right) e0).2 ((h4 r h5).trans (sup_le_sup_left h6 _))
  · intro p hp
    have hp : p ∈ st3.times := hp
    rw [hr.times] at hp
    exact hi.tsub p ((List.dropWhile_sublist _).subset hp)
  · intro p hp
    show p ∈ (g.visit st next).used ∨ p ∈ st3.times
    rw [hr.times]
    rcases hi.psub p hp with h | h
    · left; simp [RGhost.visit, h]
    · rw [← List.takeWhile_append_dropWhile (p := fun t => decide (t = next)) (l := st.times)] at h
      rcases List.mem_append.1 h with h | h
      · left; simp [RGhost.visit, h]
      · right; exact h
  · intro x hx
    have hx : x ∈ (g.visit st next).used ++ st3.synth ++ updTimes st3.log ++ st3.pended := hx
    simp only [List.mem_append] at hx
    rw [hr.synth, hr.pended] at hx
    have hj : ∀ e, joinable stx int e → ∃ s ∈ updTimes B0 ++ P0, s ≤ e ⊔ next := fun e he => (joinable_src hi hcl hn hr hs he).2
    rcases hx with ((hx | hx | ⟨-, -, e, he, -, rfl⟩) | hx) | hx | ⟨-, -, e, he, -, rfl⟩ | ⟨-, hx2, rfl⟩
    · exact (visit_used hi hcl x hx).2
    · exact hi.seed x (by simp [hsynthdrop x hx])
    · exact hj e he
    · rcases hlogmem x hx with hx | ⟨rfl, hx, -⟩
      · exact hi.seed x (by simp [hx])
      · exact hs hx
    · exact hi.seed x (by simp [hx])
    · exact hj e he
    · exact hs hx2
  · intro x hx
    have hx : x ∈ st3.synth ++ updTimes st3.log := hx
    simp only [List.mem_append] at hx
    rw [hr.synth] at hx
    rcases hx with (hx | ⟨-, hx, -⟩) | hx
    · exact hi.inside x (by simp [hsynthdrop x hx])
    · exact hx
    · rcases hlogmem x hx with hx | ⟨rfl, -, hx⟩
      · exact hi.inside x (by simp [hx])
      · exact hx
  · intro x hx
    have hx : x ∈ st3.pended := hx
    rw [hr.pended] at hx
    rcases hx with hx | ⟨-, hx, -⟩ | ⟨hx, -, rfl⟩
    · exact hi.pend x hx
    · exact hx
    · exact hx
  · intro i o3 h3 u hu
    obtain ⟨o, h1, h2⟩ := hr.filed i o3 h3
    rcases h2 u hu with h2 | ⟨h2, h4⟩
    · exact hi.filed i o h1 u h2
    · rw [h2]; exact h4
  · intro x hx
    have hx : x ∈ (g.visit st next).used ++ st3.synth ++ updTimes st3.log := hx
    simp only [List.mem_append] at hx
    rw [hr.synth] at hx
    have hnc : next ∈ Cl := rem_mem_cl hi hcl next hn
    rcases hx with (hx | hx | ⟨-, -, e, he, -, rfl⟩) | hx
    · exact (visit_used hi hcl x hx).1
    · exact hi.cl x (by simp [hsynthdrop x hx])
    · obtain ⟨u, h1, h2⟩ := (joinable_src hi hcl hn hr hs he).1
      rw [h2]
      exact hsup h1 hnc
    · rcases hlogmem x hx with hx | ⟨rfl, -, -⟩
      · exact hi.cl x (by simp [hx])
      · exact hnc

end step

end

end DD
