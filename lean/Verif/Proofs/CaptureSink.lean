import Verif.Proofs.Capture

/-! # Proofs about the sink of a capture -/

namespace DD
variable {D T R : Type*}

theorem offer_append : ∀ (queue : List (CaptureMsg D T R)) (polls : List Bool), (offer polls queue).1 ++ (offer polls queue).2 = queue := by
  intro queue
  induction queue with
  | nil => intro polls; simp [offer]
  | cons m queue ih =>
    intro polls
    cases polls with
    | nil => simp [offer]
    | cons b polls => cases b <;> simp [offer, ih polls]

theorem offer_all : ∀ (queue : List (CaptureMsg D T R)) (polls : List Bool), (∀ b ∈ polls, b = true) → queue.length ≤ polls.length → (offer polls queue).2 = [] := by
  intro queue
  induction queue with
  | nil => intro polls _ _; simp [offer]
  | cons m queue ih =>
    intro polls hp hl
    cases polls with
    | nil => simp at hl
    | cons b polls =>
      obtain rfl : b = true := hp b (by simp)
      simp only [offer]
      exact ih polls (fun b hb => hp b (by simp [hb])) (by simpa using hl)

/-- Every batch received is written or queued, in order. -/
theorem UpdatesWriter.run_spec : ∀ (as : List (List (Upds D T R) × List Bool)) (w : UpdatesWriter D T R),
    (w.run as).written ++ (w.run as).queue = w.written ++ w.queue ++ (as.flatMap (·.1)).map .updates ∧
      (w.run as).sent = w.sent ++ ((as.flatMap (·.1)).flatten.map fun u => (u.2.1, 1)) := by
  intro as
  induction as with
  | nil => intro w; simp [UpdatesWriter.run]
  | cons a as ih =>
    intro w
    rw [UpdatesWriter.run]
    obtain ⟨h1, h2⟩ := ih (w.activate a.1 (some a.2))
    refine ⟨?_, ?_⟩
    · rw [h1]
      change w.written ++ (offer a.2 _).1 ++ (offer a.2 _).2 ++ _ = _
      rw [List.append_assoc w.written, offer_append]
      simp
    · rw [h2]
      change w.sent ++ _ ++ _ = _
      simp only [List.flatMap_cons, List.flatten_append, List.map_append, List.append_assoc, List.append_cancel_left_eq]
      congr 1
      induction a.1 with
      | nil => rfl
      | cons x xs ih => simp [ih]

section drain
variable [DecidableEq T]

theorem countAt_filter (P : T → Bool) (cs : List (T × Int)) (t : T) : countAt (cs.filter fun c => P c.1) t = if P t then countAt cs t else 0 := by
  induction cs with
  | nil => simp [countAt]
  | cons c cs ih =>
    rw [List.filter_cons]
    by_cases hc : c.1 = t
    · by_cases h : P t
      · rw [if_pos (by rw [hc]; exact h), countAt_cons, countAt_cons, ih, if_pos h, if_pos h]
      · rw [if_neg (by rw [hc]; exact h), ih, if_neg h, if_neg h]
    · by_cases h : P c.1
      · rw [if_pos h, countAt_cons, countAt_cons, ih, if_neg hc]
        simp
      · rw [if_neg h, ih, countAt_cons, if_neg hc]
        simp

theorem countAt_graph (g : T → Int) : ∀ (l : List T), l.Nodup → ∀ t, countAt ((l.map fun s => (s, g s)).filter fun c => c.2 ≠ 0) t = if t ∈ l then g t else 0 := by
  intro l
  induction l with
  | nil => intro _ t; simp [countAt]
  | cons s l ih =>
    intro hn t
    rw [List.map_cons, List.filter_cons]
    have hn' := List.nodup_cons.1 hn
    by_cases hz : g s = 0
    · rw [if_neg (by simp [hz]), ih hn'.2]
      by_cases hst : t = s
      · subst hst; simp [hn'.1, hz]
      · simp [hst]
    · rw [if_pos (by simp [hz]), countAt_cons, ih hn'.2]
      by_cases hst : t = s
      · subst hst; simp [hn'.1]
      · rw [if_neg (fun h => hst h.symm)]; simp [hst]

theorem countAt_drainCounts (cs : List (T × Int)) (t : T) : countAt (drainCounts cs) t = countAt cs t := by
  rw [drainCounts, countAt_graph _ _ (List.nodup_dedup _)]
  by_cases h : t ∈ cs.map (·.1)
  · rw [if_pos (List.mem_dedup.2 h)]
  · rw [if_neg (fun hx => h (List.mem_dedup.1 hx)), countAt_of_not_mem cs t h]

theorem mem_drainCounts {cs : List (T × Int)} {c : T × Int} (h : c ∈ drainCounts cs) : c.2 = countAt cs c.1 ∧ c.2 ≠ 0 := by
  rw [drainCounts, List.mem_filter, List.mem_map] at h
  obtain ⟨⟨t, _, rfl⟩, h⟩ := h
  exact ⟨rfl, by simpa using h⟩

theorem sum_toNat (cs : List (T × Int)) (h : ∀ c ∈ cs, 0 ≤ c.2) (t : T) :
    (((((cs.map fun c => (c.1, c.2.toNat)).filter fun c => c.1 = t).map (·.2)).sum : Nat) : Int) = countAt cs t := by
  induction cs with
  | nil => rfl
  | cons c cs ih =>
    have ih' := ih fun c hc => h c (by simp [hc])
    have hc := h c (by simp)
    rw [List.map_cons, List.filter_cons, countAt_cons, ← ih']
    by_cases ht : c.1 = t
    · simp [ht, hc]
    · simp [ht]

end drain

section progress
variable [PartialOrder T] [OrderBot T] [DecidableLE T] [DecidableEq T]

/-- The state of the operator that writes progress statements after receiving the counts `got`. -/
structure ProgressOk (got : T → Int) (f : List T) (w : ProgressWriter D T R) : Prop where
  anti : IsAntichainList w.frontier
  same : ∀ t, Beyond w.frontier t ↔ Beyond f t
  counts : ∀ t, countAt w.timestamps t = if Beyond w.frontier t then got t else 0

theorem acEq_of_same {F G : List T} (hF : IsAntichainList F) (hG : IsAntichainList G) (h : ∀ t, Beyond F t ↔ Beyond G t) : acEq F G = true :=
  acEq_of_perm (perm_of_beyond_eq hF hG h)

/-- Facts about one activation. -/
theorem ProgressOk.activate {got : T → Int} {f : List T} {w : ProgressWriter D T R} (h : ProgressOk got f w) (a : ProgressAct T)
    (hc : ∀ c ∈ a.counts, Beyond f c.1) (hle : FrontierLe f a.frontier) (hanti : IsAntichainList a.frontier) :
    ProgressOk (fun t => got t + countAt a.counts t) a.frontier (w.activate a.counts a.frontier (some a.polls)) ∧
      (((w.activate a.counts a.frontier (some a.polls)).frontier = w.frontier ∧ (w.activate a.counts a.frontier (some a.polls)).queue = w.queue ∧
          (w.activate a.counts a.frontier (some a.polls)).written = w.written) ∨
        ∃ p : Progress T, p.lower = w.frontier ∧ p.upper = a.frontier ∧ (w.activate a.counts a.frontier (some a.polls)).frontier = a.frontier ∧
          (w.activate a.counts a.frontier (some a.polls)).written ++ (w.activate a.counts a.frontier (some a.polls)).queue
            = w.written ++ w.queue ++ [.progress p] ∧
          (∀ t, ¬ Beyond a.frontier t → (∀ s, ¬ Beyond a.frontier s → 0 ≤ got s + countAt a.counts s) →
            ((((p.counts.filter fun c => c.1 = t).map (·.2)).sum : Nat) : Int) = if Beyond w.frontier t then got t + countAt a.counts t else 0) ∧
          ∀ c ∈ p.counts, Beyond p.lower c.1 ∧ ¬ Beyond p.upper c.1) := by
  have hts : ∀ t, countAt (w.timestamps ++ a.counts) t = if Beyond w.frontier t then got t + countAt a.counts t else 0 := by
    intro t
    rw [countAt_append, h.counts t]
    by_cases hb : Beyond w.frontier t
    · rw [if_pos hb, if_pos hb]
    · rw [if_neg hb, if_neg hb, countAt_of_not_mem]
      · rfl
      · intro hm
        obtain ⟨c, hcm, rfl⟩ := List.mem_map.1 hm
        exact hb ((h.same _).2 (hc c hcm))
  have hwle : acLe w.frontier a.frontier = true := (acLe_iff _ _).2 fun t ht => (h.same t).2 (hle t ht)
  by_cases he : acEq w.frontier a.frontier = true
  · have hact : w.activate a.counts a.frontier (some a.polls) = ⟨w.frontier, w.timestamps ++ a.counts, w.queue, w.written⟩ := by
      simp only [ProgressWriter.activate]
      rw [if_neg (by simp [he])]
    have hp := perm_of_acEq he (nodup_of_isAntichain h.anti)
    rw [hact]
    exact ⟨⟨h.anti, fun t => beyond_perm hp t, hts⟩, Or.inl ⟨rfl, rfl, rfl⟩⟩
  · set drained := drainCounts (w.timestamps ++ a.counts) with hdr
    set p : Progress T := ⟨w.frontier, a.frontier, (drained.filter fun c => !lessEqual a.frontier c.1).map fun c => (c.1, c.2.toNat)⟩ with hp
    have hact : w.activate a.counts a.frontier (some a.polls) = ⟨a.frontier, drained.filter fun c => lessEqual a.frontier c.1,
        (offer a.polls (w.queue ++ [.progress p])).2, w.written ++ (offer a.polls (w.queue ++ [.progress p])).1⟩ := by
      simp only [ProgressWriter.activate]
      rw [if_pos (by simp [he, hwle])]
    rw [hact]
    refine ⟨⟨hanti, fun t => Iff.rfl, ?_⟩, Or.inr ⟨p, rfl, rfl, rfl, ?_, ?_, ?_⟩⟩
    · intro t
      change countAt (drained.filter fun c => lessEqual a.frontier c.1) t = if Beyond a.frontier t then _ else 0
      rw [countAt_filter, hdr, countAt_drainCounts, hts]
      by_cases hb : Beyond a.frontier t
      · rw [if_pos ((lessEqual_iff _ _).2 hb), if_pos hb, if_pos ((acLe_iff _ _).1 hwle t hb)]
      · rw [if_neg (fun hx => hb ((lessEqual_iff _ _).1 hx)), if_neg hb]
    · change w.written ++ (offer a.polls _).1 ++ (offer a.polls _).2 = _
      rw [List.append_assoc, offer_append, List.append_assoc]
    · intro t ht hpos
      rw [hp]
      dsimp only
      rw [sum_toNat, countAt_filter (fun t => !lessEqual a.frontier t), if_pos (by rw [Bool.not_eq_true', Bool.eq_false_iff]; exact fun hx => ht ((lessEqual_iff _ _).1 hx)), hdr, countAt_drainCounts, hts]
      intro c hcm
      rw [List.mem_filter, hdr] at hcm
      have h1 := (mem_drainCounts hcm.1).1
      have h2 : ¬ Beyond a.frontier c.1 := fun hx => by
        have := (lessEqual_iff _ _).2 hx
        rw [this] at hcm
        simp at hcm
      rw [h1, hts]
      by_cases hb : Beyond w.frontier c.1
      · rw [if_pos hb]; exact hpos _ h2
      · rw [if_neg hb]
    · intro c hcm
      rw [hp] at hcm ⊢
      dsimp only at hcm ⊢
      obtain ⟨c', hcm', rfl⟩ := List.mem_map.1 hcm
      clear hcm
      rename' hcm' => hcm
      rw [List.mem_filter, hdr] at hcm
      refine ⟨?_, fun hx => ?_⟩
      · by_contra hb
        have h1 := mem_drainCounts hcm.1
        rw [hts, if_neg hb] at h1
        exact h1.2 h1.1
      · have := (lessEqual_iff _ _).2 hx
        rw [this] at hcm
        simp at hcm

theorem ProgressOk.run_mono : ∀ (as : List (ProgressAct T)) {got : T → Int} {f : List T} {w : ProgressWriter D T R}, ProgressOk got f w → LegalActs f as →
    FrontierLe w.frontier (w.run as).frontier ∧ ∀ t, Beyond (w.run as).frontier t ↔ Beyond ((as.getLast?.map (·.frontier)).getD f) t := by
  intro as
  induction as with
  | nil => intro got f w h _; exact ⟨fun _ hx => hx, h.same⟩
  | cons a as ih =>
    intro got f w h hl
    obtain ⟨h1, h2, h3, h4⟩ := hl
    obtain ⟨g1, g2⟩ := h.activate a h1 h2 h3
    obtain ⟨k1, k2⟩ := ih g1 h4
    rw [ProgressWriter.run]
    refine ⟨fun t ht => ?_, fun t => ?_⟩
    · have h5 := k1 t ht
      rcases g2 with ⟨e, _⟩ | ⟨p, _, _, e, _⟩
      · rw [e] at h5; exact h5
      · rw [e] at h5; exact (h.same t).2 (h2 t h5)
    · rw [k2 t]
      cases as with
      | nil => rfl
      | cons b bs => rw [List.getLast?_cons_cons]; simp [List.getLast?_cons]

/-- All progress statements written or queued are true, and follow one another. -/
theorem ProgressOk.run (U : Upds D T R) : ∀ (as : List (ProgressAct T)) {got : T → Int} {f : List T} {w : ProgressWriter D T R}, ProgressOk got f w → LegalActs f as →
    (∀ t, ¬ Beyond (w.run as).frontier t → got t + countAt (as.flatMap (·.counts)) t = updatesAt U t) →
    ∃ ps, (w.run as).written ++ (w.run as).queue = w.written ++ w.queue ++ ps.map .progress ∧ ProgressChain w.frontier ps (w.run as).frontier ∧
      ∀ p ∈ ps, (CaptureMsg.progress p : CaptureMsg D T R).TrueOf U := by
  intro as
  induction as with
  | nil => intro got f w h _ _; exact ⟨[], by simp [ProgressWriter.run], rfl, by simp⟩
  | cons a as ih =>
    intro got f w h hl hN
    obtain ⟨h1, h2, h3, h4⟩ := hl
    obtain ⟨g1, g2⟩ := h.activate a h1 h2 h3
    obtain ⟨m1, -⟩ := g1.run_mono as h4
    have hN' : ∀ t, ¬ Beyond ((w.activate a.counts a.frontier (some a.polls)).run as).frontier t →
        got t + countAt a.counts t + countAt (as.flatMap (·.counts)) t = updatesAt U t := by
      intro t ht
      rw [← hN t ht, List.flatMap_cons, countAt_append]
      ring
    obtain ⟨ps, k1, k2, k3⟩ := ih g1 h4 hN'
    rw [ProgressWriter.run]
    rcases g2 with ⟨e1, e2, e3⟩ | ⟨p, e1, e2, e3, e4, e5, e6⟩
    · rw [e2, e3] at k1
      rw [e1] at k2
      exact ⟨ps, k1, k2, k3⟩
    · rw [e4] at k1
      rw [e3] at k2
      refine ⟨p :: ps, by rw [k1]; simp, ⟨e1, by rw [e2]; exact k2⟩, ?_⟩
      intro q hq
      rcases List.mem_cons.1 hq with rfl | hq
      · have hrest : ∀ t, ¬ Beyond a.frontier t → countAt (as.flatMap (·.counts)) t = 0 := by
          intro t ht
          refine countAt_of_not_mem _ _ fun hm => ht ?_
          obtain ⟨c, hc, rfl⟩ := List.mem_map.1 hm
          -- later counts are beyond the frontier
          clear k1 k2 k3 ih hN hN' m1 g1 hm
          have : ∀ (as : List (ProgressAct T)) (f : List T), LegalActs f as → ∀ c ∈ as.flatMap (·.counts), Beyond f c.1 := by
            intro as
            induction as with
            | nil => intro f _ c hc; simp at hc
            | cons b bs ih =>
              intro f hl c hc
              rw [List.flatMap_cons, List.mem_append] at hc
              rcases hc with hc | hc
              · exact hl.1 c hc
              · exact hl.2.1 _ (ih _ hl.2.2.2 c hc)
          exact this as _ h4 c hc
        have hcount : ∀ t, ¬ Beyond a.frontier t → got t + countAt a.counts t = updatesAt U t := by
          intro t ht
          have h5 : ¬ Beyond ((w.activate a.counts a.frontier (some a.polls)).run as).frontier t := fun hx => ht (e3 ▸ m1 t hx)
          have := hN' t h5
          rw [hrest t ht] at this
          omega
        refine ⟨fun t hlo hup => ?_, e6⟩
        rw [e1] at hlo
        rw [e2] at hup
        have := e5 t hup fun s hs => by rw [hcount s hs]; omega
        rw [if_pos hlo, hcount t hup] at this
        exact_mod_cast this
      · exact k3 q hq

theorem progressNew_ok : ProgressOk (fun _ => 0) [(⊥ : T)] (ProgressWriter.new (D := D) (R := R) (⊥ : T)) := by
  refine ⟨isAntichain_bot, fun t => Iff.rfl, fun t => ?_⟩
  change (0 : Int) = _
  split_ifs <;> rfl

end progress

end DD
