import Verif.Proofs.Source

/-! # Where reading captured messages back leads -/

namespace DD
variable {D T R : Type*} {W : Nat} [Lattice T] [OrderBot T] [DecidableLE T] [DecidableEq D] [DecidableEq T] [DecidableEq R]
  {toU : D × T × R → Fin W} {toT : T → Fin W} {U : Upds D T R} {s : SourceState W D T R}
set_option linter.unusedSectionVars false

/-- The capabilities used. -/
structure Timed (s : SourceState W D T R) : Prop where
  flight : ∀ w, ∀ m ∈ s.toUpdates w, m.2 ∉ s.sentUpdates → m.1 ≤ m.2.2.1
  emitted : ∀ m ∈ s.emitted, m.1 ≤ m.2.2.1

theorem SourceReach.timed (hU : (U.map fun u => (u.1, u.2.1)).Nodup) (htot : ∀ a b : T, a ≤ b ∨ b ≤ a) (h : SourceReach toU toT U s) : Timed s := by
  induction h with
  | init => exact ⟨by simp [SourceState.init], by simp [SourceState.init]⟩
  | @step s s' e hr hl hs ih =>
    have i := hr.inv hU
    have i' := (hr.step hl hs).inv hU
    cases e with
    | messages w ms =>
      rw [SourceState.step] at hs
      have hmf := isAntichain_acExtend [] (((s.shared w).map (·.1)).filter fun t => 0 < countAt (s.shared w) t) isAntichain_nil
      change IsAntichainList (messagesFrontier (s.shared w)) at hmf
      unfold downgradeCaps at hs
      split_ifs at hs
      · cases hf : messagesFrontier (s.shared w) with
        | nil => rw [hf] at hs; cases hs; exact ⟨ih.flight, ih.emitted⟩
        | cons c cs =>
          rw [hf] at hs hmf
          simp only [Option.some.injEq] at hs
          subst hs
          refine ⟨?_, ih.emitted⟩
          intro v m hm hn
          rcases List.mem_append.1 hm with hm | hm
          · exact ih.flight v m hm hn
          · have hB := i'.held (i'.flight v m (List.mem_append_right _ hm)).1 hn w
            obtain ⟨u, hu, rfl⟩ := List.mem_map.1 hm
            change Beyond (setAt s.caps w (c :: cs) w) u.2.1 at hB
            rw [setAt_same] at hB
            obtain ⟨f, hf, hfu⟩ := hB
            rcases List.mem_cons.1 hf with rfl | hf
            · exact hfu
            · have := List.rel_of_pairwise_cons hmf hf
              rcases htot c f with hx | hx
              · exact absurd hx this.1
              · exact absurd hx this.2
    | updates w F got rest =>
      obtain ⟨s1, h1, h2, sent, h3, h4⟩ := i.updates hU w F got rest hl
      rw [hs] at h1
      cases h1
      refine ⟨?_, ?_⟩
      · intro v m hm hn
        have hn' : m.2 ∉ s.sentUpdates := by
          intro hx; apply hn
          simp only [SourceState.sentUpdates, h3, List.map_append]
          exact List.mem_append_left _ hx
        refine ih.flight v m ?_ hn'
        rw [SourceState.step] at hs
        cases ha : updatesActivate F (s.pending w) got with
        | none => rw [ha] at hs; cases hs
        | some r =>
          rw [ha] at hs
          simp only [Option.some.injEq] at hs
          subst hs
          change m ∈ setAt s.toUpdates w rest v at hm
          by_cases hv : v = w
          · subst hv; rw [setAt_same] at hm; exact hl.1.mem_iff.1 (List.mem_append_right _ hm)
          · rw [setAt_ne _ _ hv] at hm; exact hm
      · intro m hm
        rw [h3] at hm
        rcases List.mem_append.1 hm with hm | hm
        · exact ih.emitted m hm
        · exact ih.flight w m (h4 m hm).1 (h4 m hm).2
    | progress w counts rest sts restS =>
      obtain ⟨s1, h1, h2, h3⟩ := i.progressEvent w counts rest sts restS hl
      rw [hs] at h1
      cases h1
      have hsent : s'.sentUpdates = s.sentUpdates := by simp [SourceState.sentUpdates, h3]
      refine ⟨?_, by rw [h3]; exact ih.emitted⟩
      rw [hsent]
      have : s'.toUpdates = s.toUpdates := by
        rw [SourceState.step] at hs
        cases ha : (s.progress w).activate counts sts with
        | none => rw [ha] at hs; cases hs
        | some r => rw [ha] at hs; simp only [Option.some.injEq] at hs; subst hs; rfl
      rw [this]; exact ih.flight
    | feedback w v =>
      obtain ⟨s1, h1, h2, h3⟩ := i.feedback w v
      rw [hs] at h1
      cases h1
      have hsent : s'.sentUpdates = s.sentUpdates := by simp [SourceState.sentUpdates, h3]
      refine ⟨?_, by rw [h3]; exact ih.emitted⟩
      rw [hsent]
      have : s'.toUpdates = s.toUpdates := by
        rw [SourceState.step] at hs
        cases ha : s.toFeedback v w with
        | nil => rw [ha] at hs; simp only [Option.some.injEq] at hs; subst hs; rfl
        | cons c cs => rw [ha] at hs; simp only [Option.some.injEq] at hs; subst hs; rfl
      rw [this]; exact ih.flight

/-! ### Settling -/

theorem settleUpdates (hU : (U.map fun u => (u.1, u.2.1)).Nodup) : ∀ (ws : List (Fin W)) (s : SourceState W D T R), SourceReach toU toT U s →
    ∃ s', SourceReach toU toT U s' ∧ s'.read = s.read ∧ ∀ w, w ∈ ws ∨ s.toUpdates w = [] → s'.toUpdates w = [] := by
  intro ws
  induction ws with
  | nil => intro s h; exact ⟨s, h, rfl, by simp⟩
  | cons w ws ih =>
    intro s h
    have i := h.inv hU
    have hl : (SourceEvent.updates w (s.frontier w) (s.toUpdates w) []).Legal U s := ⟨by simp, fun _ x => x, fun v c hc => i.behind w v c ⟨c, hc, le_refl _⟩⟩
    obtain ⟨s1, h1, _⟩ := i.updates hU w _ _ _ hl
    have hr := h.step hl h1
    obtain ⟨s2, g1, g2, g3⟩ := ih s1 hr
    rw [SourceState.step] at h1
    cases ha : updatesActivate (s.frontier w) (s.pending w) (s.toUpdates w) with
    | none => rw [ha] at h1; cases h1
    | some r =>
      rw [ha] at h1
      simp only [Option.some.injEq] at h1
      subst h1
      refine ⟨s2, g1, g2, ?_⟩
      intro v hv
      by_cases hvw : v = w
      · subst hvw; exact g3 v (Or.inr (setAt_same _ _ _))
      · refine g3 v ?_
        rcases hv with hv | hv
        · exact Or.inl ((List.mem_cons.1 hv).resolve_left hvw)
        · exact Or.inr ((setAt_ne _ _ hvw).trans hv)

theorem settleProgress (hU : (U.map fun u => (u.1, u.2.1)).Nodup) : ∀ (ws : List (Fin W)) (s : SourceState W D T R), SourceReach toU toT U s →
    ∃ s', SourceReach toU toT U s' ∧ s'.read = s.read ∧ s'.toUpdates = s.toUpdates ∧ (∀ w, w ∈ ws ∨ s.toProgress w = [] → s'.toProgress w = []) ∧
      ∀ w, w ∈ ws ∨ s.toCounts w = [] → s'.toCounts w = [] := by
  intro ws
  induction ws with
  | nil => intro s h; exact ⟨s, h, rfl, rfl, by simp, by simp⟩
  | cons w ws ih =>
    intro s h
    have i := h.inv hU
    have hl : (SourceEvent.progress w (s.toCounts w) [] (s.toProgress w) []).Legal U s := ⟨by simp, by simp⟩
    obtain ⟨s1, h1, _⟩ := i.progressEvent w _ _ _ _ hl
    have hr := h.step hl h1
    obtain ⟨s2, g1, g2, g3, g4, g5⟩ := ih s1 hr
    rw [SourceState.step] at h1
    cases ha : (s.progress w).activate (s.toCounts w) (s.toProgress w) with
    | none => rw [ha] at h1; cases h1
    | some r =>
      rw [ha] at h1
      simp only [Option.some.injEq] at h1
      subst h1
      refine ⟨s2, g1, g2, g3, ?_, ?_⟩
      · intro v hv
        by_cases hvw : v = w
        · subst hvw; exact g4 v (Or.inr (setAt_same _ _ _))
        · refine g4 v ?_
          rcases hv with hv | hv
          · exact Or.inl ((List.mem_cons.1 hv).resolve_left hvw)
          · exact Or.inr ((setAt_ne _ _ hvw).trans hv)
      · intro v hv
        by_cases hvw : v = w
        · subst hvw; exact g5 v (Or.inr (setAt_same _ _ _))
        · refine g5 v ?_
          rcases hv with hv | hv
          · exact Or.inl ((List.mem_cons.1 hv).resolve_left hvw)
          · exact Or.inr ((setAt_ne _ _ hvw).trans hv)

theorem settleFeedbackOne (hU : (U.map fun u => (u.1, u.2.1)).Nodup) (w v : Fin W) : ∀ (n : Nat) (s : SourceState W D T R), SourceReach toU toT U s → (s.toFeedback v w).length = n →
    ∃ s', SourceReach toU toT U s' ∧ s'.read = s.read ∧ s'.toUpdates = s.toUpdates ∧ s'.toProgress = s.toProgress ∧ s'.toCounts = s.toCounts ∧ s'.toFeedback v w = [] ∧
      ∀ v' w', s.toFeedback v' w' = [] → s'.toFeedback v' w' = [] := by
  intro n
  induction n with
  | zero => intro s h hn; exact ⟨s, h, rfl, rfl, rfl, rfl, List.length_eq_zero_iff.1 hn, fun _ _ x => x⟩
  | succ n ih =>
    intro s h hn
    obtain ⟨s1, h1, _⟩ := (h.inv hU).feedback w v
    have hr := h.step (e := .feedback w v) trivial h1
    rw [SourceState.step] at h1
    cases hf : s.toFeedback v w with
    | nil => rw [hf] at hn; simp at hn
    | cons c cs =>
      rw [hf] at h1 hn
      simp only [Option.some.injEq] at h1
      subst h1
      obtain ⟨s2, g1, g2, g3, g4, g5, g6, g7⟩ := ih _ hr (by
        change (setAt s.toFeedback v (setAt (s.toFeedback v) w cs) v w).length = n
        rw [setAt_same, setAt_same]; simpa using hn)
      refine ⟨s2, g1, g2, g3, g4, g5, g6, ?_⟩
      intro v' w' hx
      refine g7 v' w' ?_
      change setAt s.toFeedback v (setAt (s.toFeedback v) w cs) v' w' = []
      by_cases hv : v' = v
      · subst hv
        rw [setAt_same]
        by_cases hw : w' = w
        · subst hw; rw [hf] at hx; cases hx
        · rw [setAt_ne _ _ hw]; exact hx
      · rw [setAt_ne _ _ hv]; exact hx

theorem settleFeedback (hU : (U.map fun u => (u.1, u.2.1)).Nodup) : ∀ (ws : List (Fin W × Fin W)) (s : SourceState W D T R), SourceReach toU toT U s →
    ∃ s', SourceReach toU toT U s' ∧ s'.read = s.read ∧ s'.toUpdates = s.toUpdates ∧ s'.toProgress = s.toProgress ∧ s'.toCounts = s.toCounts ∧
      ∀ v w, (v, w) ∈ ws ∨ s.toFeedback v w = [] → s'.toFeedback v w = [] := by
  intro ws
  induction ws with
  | nil => intro s h; exact ⟨s, h, rfl, rfl, rfl, rfl, by simp⟩
  | cons p ws ih =>
    intro s h
    obtain ⟨s1, h1, h2, h3, h4, h5, h6, h7⟩ := settleFeedbackOne hU p.2 p.1 _ s h rfl
    obtain ⟨s2, g1, g2, g3, g4, g5, g6⟩ := ih s1 h1
    refine ⟨s2, g1, g2.trans h2, g3.trans h3, g4.trans h4, g5.trans h5, ?_⟩
    intro v w hv
    refine g6 v w ?_
    rcases hv with hv | hv
    · rcases List.mem_cons.1 hv with rfl | hv
      · exact Or.inr h6
      · exact Or.inl hv
    · exact Or.inr (h7 v w hv)

theorem settleCaps (hU : (U.map fun u => (u.1, u.2.1)).Nodup) : ∀ (ws : List (Fin W)) (s : SourceState W D T R), SourceReach toU toT U s →
    ∃ s', SourceReach toU toT U s' ∧ s'.read = s.read ∧ s'.toUpdates = s.toUpdates ∧ s'.toProgress = s.toProgress ∧ s'.toCounts = s.toCounts ∧ s'.toFeedback = s.toFeedback ∧ s'.shared = s.shared ∧
      ∀ w, w ∈ ws ∨ s.caps w = messagesFrontier (s.shared w) → s'.caps w = messagesFrontier (s.shared w) := by
  intro ws
  induction ws with
  | nil => intro s h; exact ⟨s, h, rfl, rfl, rfl, rfl, rfl, rfl, by simp⟩
  | cons w ws ih =>
    intro s h
    have hl : (SourceEvent.messages w []).Legal U s := by simp [SourceEvent.Legal]
    obtain ⟨s1, h1, _⟩ := (h.inv hU).messages w [] hl
    have hr := h.step hl h1
    obtain ⟨s2, g1, g2, g3, g4, g5, g6, g7, g8⟩ := ih s1 hr
    have hs1 : s1.read = s.read ∧ s1.toUpdates = s.toUpdates ∧ s1.toProgress = s.toProgress ∧ s1.toCounts = s.toCounts ∧ s1.toFeedback = s.toFeedback ∧ s1.shared = s.shared ∧
        s1.caps = setAt s.caps w (messagesFrontier (s.shared w)) := by
      rw [SourceState.step] at h1
      unfold downgradeCaps at h1
      split_ifs at h1
      cases hf : messagesFrontier (s.shared w) with
      | nil => rw [hf] at h1; cases h1; exact ⟨rfl, rfl, rfl, rfl, rfl, rfl, rfl⟩
      | cons c cs =>
        rw [hf] at h1
        simp only [Option.some.injEq] at h1
        subst h1
        refine ⟨by simp, ?_, ?_, rfl, rfl, rfl, rfl⟩
        · funext v; simp
        · funext v; simp
    obtain ⟨k1, k2, k3, k4, k5, k6, k7⟩ := hs1
    refine ⟨s2, g1, g2.trans k1, g3.trans k2, g4.trans k3, g5.trans k4, g6.trans k5, g7.trans k6, ?_⟩
    intro v hv
    rw [k6] at g8
    refine g8 v ?_
    rw [k7]
    by_cases hvw : v = w
    · subst hvw; exact Or.inr (setAt_same _ _ _)
    · rcases hv with hv | hv
      · exact Or.inl ((List.mem_cons.1 hv).resolve_left hvw)
      · exact Or.inr ((setAt_ne _ _ hvw).trans hv)

/-- Operators can go on until nothing is under way. -/
theorem SourceReach.settles (hU : (U.map fun u => (u.1, u.2.1)).Nodup) (h : SourceReach toU toT U s) : ∃ s', SourceReach toU toT U s' ∧ s'.read = s.read ∧ s'.Quiet := by
  obtain ⟨s1, a1, a2, a3⟩ := settleUpdates hU (List.finRange W) s h
  obtain ⟨s2, b1, b2, b3, b4, b5⟩ := settleProgress hU (List.finRange W) s1 a1
  obtain ⟨s3, c1, c2, c3, c4, c5, c6⟩ := settleFeedback hU ((List.finRange W).flatMap fun v => (List.finRange W).map fun w => (v, w)) s2 b1
  obtain ⟨s4, d1, d2, d3, d4, d5, d6, d7, d8⟩ := settleCaps hU (List.finRange W) s3 c1
  refine ⟨s4, d1, d2.trans (c2.trans (b2.trans a2)), ⟨?_, ?_, ?_, ?_, ?_⟩⟩
  · intro w; rw [d3, c3, b3]; exact a3 w (Or.inl (List.mem_finRange w))
  · intro w; rw [d4, c4]; exact b4 w (Or.inl (List.mem_finRange w))
  · intro w; rw [d5, c5]; exact b5 w (Or.inl (List.mem_finRange w))
  · intro v w; rw [d6]; exact c6 v w (Or.inl (by simp))
  · intro w; rw [d7]; exact d8 w (Or.inl (List.mem_finRange w))

/-- Where frontiers are once nothing is under way. -/
theorem SourceInv.reaches (hU : (U.map fun u => (u.1, u.2.1)).Nodup) (h : SourceInv toU toT U s) (hq : s.Quiet) {hi : List T} (hr : s.HasRead U hi) (w : Fin W) : FrontierLe hi (s.caps w) := by
  have hprog : ∀ v, FrontierLe hi (s.progress v).progress := by
    intro v
    obtain ⟨ps, hch, hps⟩ := hr.statements
    have : ∀ (ps : List (Progress T)) (lo : List T), FrontierLe lo (s.progress v).progress → ProgressChain lo ps hi → (∀ p ∈ ps, .progress p ∈ s.read) → FrontierLe hi (s.progress v).progress := by
      intro ps
      induction ps with
      | nil => rintro lo hlo rfl _; exact hlo
      | cons p ps ih =>
        rintro lo hlo ⟨rfl, hch⟩ hps
        refine ih p.upper ?_ hch fun q hq => hps q (List.mem_cons_of_mem _ hq)
        rcases h.gotStatements _ (hps p (by simp)) p (by simp [CaptureMsg.stated]) v with hx | hx | hx
        · rw [hq.statements] at hx; simp at hx
        · exact absurd hlo (takeActionable_none (h.idle v) (p.partFor toT v) hx)
        · exact hx
    refine this ps [⊥] ?_ hch hps
    intro t _; exact ⟨⊥, by simp, bot_le⟩
  have hrep : ∀ v, FrontierLe hi (s.progress v).reported := by
    intro v t ht
    rw [← h.beyond_reported, beyond_lowerBound] at ht
    rcases ht with ht | ⟨f, hft, hf⟩
    · exact hprog v t ht
    · have hv : toT f = v := by
        by_contra hx
        rw [(h.prog v).other f hx] at hf
        exact lt_irrefl _ hf
      by_contra hn
      have hnf : ¬ Beyond hi f := fun hx => hn (beyond_mono hx hft)
      have hc := (h.prog v).count f hv
      rw [if_neg fun hx => hnf (hprog v f hx), hq.counts, countAt_nil] at hc
      have hlt : updatesAt s.sentUpdates f < updatesAt U f := by omega
      -- some update at `f` was not sent
      have : ∃ u ∈ U, u.2.1 = f ∧ u ∉ s.sentUpdates := by
        by_contra hx
        push Not at hx
        have : updatesAt U f ≤ updatesAt s.sentUpdates f := by
          refine List.Subperm.length_le (List.subperm_of_subset ?_ ?_)
          · exact List.Nodup.filter _ (List.Nodup.of_map _ hU)
          · intro u hu
            rw [List.mem_filter, decide_eq_true_eq] at hu ⊢
            exact ⟨hx u hu.1 hu.2, hu.2⟩
        omega
      obtain ⟨u, hu, huf, hns⟩ := this
      obtain ⟨us, hus, huu⟩ := hr.updates u hu (huf ▸ hnf)
      rcases h.gotUpdates _ hus u huu with hx | ⟨c, hc⟩
      · exact hns hx
      · rw [hq.updates] at hc; simp at hc
  intro t ht
  rw [hq.caps] at ht
  obtain ⟨applied, a1, a2⟩ := h.deltas
  obtain ⟨v, hv⟩ := (beyond_messagesFrontier_sum (a1 w) t).1 ht
  have := a2 w v
  rw [hq.feedback] at this
  exact hrep v t (this ▸ hv)

end DD
