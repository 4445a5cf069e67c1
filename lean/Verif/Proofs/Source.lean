import Verif.Spec.Source
import Verif.Proofs.Capture
import Verif.Proofs.Arrange
import Mathlib.Algebra.BigOperators.Group.Finset.Basic
import Mathlib.Algebra.Order.BigOperators.Group.Finset
import Mathlib.Data.Fintype.Basic
import Mathlib.Algebra.BigOperators.Group.Finset.Piecewise

/-! # Proofs about reading captured messages back -/

namespace DD
set_option linter.unusedSectionVars false
variable {D T R : Type*} {W : Nat}

theorem setAt_same {A : Type*} (f : Fin W → A) (w : Fin W) (a : A) : setAt f w a w = a := by simp [setAt]
theorem setAt_ne {A : Type*} (f : Fin W → A) {w v : Fin W} (a : A) (h : v ≠ w) : setAt f w a v = f v := by simp [setAt, h]

section admit
variable [PartialOrder T] [DecidableLE T] [DecidableEq D] [DecidableEq T] [DecidableEq R]

/-- What is kept, and what is sent: each update that is beyond the frontier and was not kept before, once. -/
theorem admit_spec {F : List T} (U : Upds D T R) (hU : (U.map fun u => (u.1, u.2.1)).Nodup) : ∀ (got : List (T × D × T × R)) (pending : Upds D T R), (∀ m ∈ got, m.2 ∈ U) → (∀ u ∈ pending, u ∈ U) →
    ∃ r, admit F pending got = some r ∧ r.1 = pending ++ r.2.map (·.2) ∧ (∀ m ∈ r.2, m ∈ got ∧ Beyond F m.2.2.1 ∧ m.2 ∉ pending) ∧ (r.2.map (·.2)).Nodup ∧
      ∀ m ∈ got, Beyond F m.2.2.1 → m.2 ∈ pending ∨ m.2 ∈ r.2.map (·.2) := by
  intro got
  induction got with
  | nil => intro pending _ _; exact ⟨(pending, []), rfl, by simp, by simp, by simp, by simp⟩
  | cons m ms ih =>
    intro pending hg hp
    have hg' : ∀ m ∈ ms, m.2 ∈ U := fun x hx => hg x (List.mem_cons_of_mem _ hx)
    rw [admit]
    by_cases hF : lessEqual F m.2.2.1 = true
    · have hB := (lessEqual_iff _ _).1 hF
      rw [if_pos hF]
      cases hf : pending.find? fun p => p.1 = m.2.1 ∧ p.2.1 = m.2.2.1 with
      | some prior =>
        have hpm := List.mem_of_find?_eq_some hf
        have hpe := List.find?_some hf
        rw [decide_eq_true_eq] at hpe
        have he : prior = m.2 := List.inj_on_of_nodup_map hU (hp _ hpm) (hg m (by simp)) (by simp [hpe.1, hpe.2])
        obtain ⟨r, h1, h2, h3, h4, h5⟩ := ih pending hg' hp
        refine ⟨r, by simp [he, h1], h2, fun x hx => ⟨List.mem_cons_of_mem _ (h3 x hx).1, (h3 x hx).2⟩, h4, ?_⟩
        intro x hx hxF
        rcases List.mem_cons.1 hx with rfl | hx
        · exact Or.inl (he ▸ hpm)
        · exact h5 x hx hxF
      | none =>
        have hn : m.2 ∉ pending := by
          intro hm
          have := List.find?_eq_none.1 hf _ hm
          simp at this
        obtain ⟨r, h1, h2, h3, h4, h5⟩ := ih (pending ++ [m.2]) hg' (by
          intro u hu
          rcases List.mem_append.1 hu with hu | hu
          · exact hp u hu
          · rw [List.mem_singleton] at hu; exact hu ▸ hg m (by simp))
        refine ⟨(r.1, m :: r.2), by simp [h1], by simp [h2], ?_, ?_, ?_⟩
        · intro x hx
          rcases List.mem_cons.1 hx with rfl | hx
          · exact ⟨by simp, hB, hn⟩
          · obtain ⟨a, b, c⟩ := h3 x hx
            exact ⟨List.mem_cons_of_mem _ a, b, fun h => c (by simp [h])⟩
        · simp only [List.map_cons, List.nodup_cons]
          refine ⟨?_, h4⟩
          intro hm
          obtain ⟨x, hx, hxe⟩ := List.mem_map.1 hm
          exact (h3 x hx).2.2 (by simp [hxe])
        · intro x hx hxF
          rcases List.mem_cons.1 hx with rfl | hx
          · exact Or.inr (by simp)
          · rcases h5 x hx hxF with h | h
            · rcases List.mem_append.1 h with h | h
              · exact Or.inl h
              · rw [List.mem_singleton] at h; exact Or.inr (by simp [h])
            · exact Or.inr (by rw [List.map_cons]; exact List.mem_cons_of_mem _ h)
    · rw [if_neg hF]
      obtain ⟨r, h1, h2, h3, h4, h5⟩ := ih pending hg' hp
      refine ⟨r, h1, h2, fun x hx => ⟨List.mem_cons_of_mem _ (h3 x hx).1, (h3 x hx).2⟩, h4, ?_⟩
      intro x hx hxF
      rcases List.mem_cons.1 hx with rfl | hx
      · exact absurd ((lessEqual_iff _ _).2 hxF) hF
      · exact h5 x hx hxF

end admit

/-- Changes that lead from one frontier to another, each advancing it. -/
def Deltas [LE T] (A : List T) : List (List (T × Int)) → List T → Prop
  | [], B => A = B
  | c :: cs, B => ∃ M, c = M.map (fun t => (t, 1)) ++ A.map (fun t => (t, -1)) ∧ FrontierLe A M ∧ Deltas M cs B

theorem Deltas.le [LE T] : ∀ {cs : List (List (T × Int))} {A B : List T}, Deltas A cs B → FrontierLe A B := by
  intro cs
  induction cs with
  | nil => rintro A B rfl t ht; exact ht
  | cons c cs ih => rintro A B ⟨M, _, hM, h⟩ t ht; exact hM t (ih h t ht)

theorem Deltas.snoc [LE T] {B C : List T} (hBC : FrontierLe B C) : ∀ {cs : List (List (T × Int))} {A : List T}, Deltas A cs B →
    Deltas A (cs ++ [C.map (fun t => (t, 1)) ++ B.map fun t => (t, -1)]) C := by
  intro cs
  induction cs with
  | nil => rintro A rfl; exact ⟨C, rfl, hBC, rfl⟩
  | cons c cs ih => rintro A ⟨M, h1, h2, h3⟩; exact ⟨M, h1, h2, ih h3⟩

theorem countAt_ones [DecidableEq T] (A : List T) (t : T) : countAt (A.map fun t => (t, 1)) t = (A.count t : Int) := by
  induction A with
  | nil => rfl
  | cons a A ih =>
    rw [List.map_cons, countAt_cons, ih, List.count_cons]
    by_cases h : a = t
    · simp [h]; ring
    · simp [h]

theorem countAt_minusOnes [DecidableEq T] (A : List T) (t : T) : countAt (A.map fun t => (t, -1)) t = -(A.count t : Int) := by
  induction A with
  | nil => rfl
  | cons a A ih =>
    rw [List.map_cons, countAt_cons, ih, List.count_cons]
    by_cases h : a = t
    · simp [h]
    · simp [h]

theorem countAt_perm [DecidableEq T] {a b : List (T × Int)} (h : a.Perm b) (t : T) : countAt a t = countAt b t := (h.map _).sum_eq

theorem countAt_nonpos [DecidableEq T] (cs : List (T × Int)) (h : ∀ c ∈ cs, c.2 ≤ 0) (t : T) : countAt cs t ≤ 0 := by
  induction cs with
  | nil => simp [countAt]
  | cons c cs ih =>
    rw [countAt_cons]
    have h1 := h c (by simp)
    have h2 := ih fun x hx => h x (List.mem_cons_of_mem _ hx)
    split <;> omega

section progress
variable [Lattice T] [DecidableLE T] [DecidableEq T]

/-- The part of a worker of a correct statement. -/
def PartOf (D R : Type*) (toT : T → Fin W) (U : Upds D T R) (v : Fin W) (p : Progress T) : Prop := ∃ p0 : Progress T, (CaptureMsg.progress p0 : CaptureMsg D T R).Correct U ∧ p = Progress.partFor toT v p0

/-- What holds of PROGRESS while it acts on statements. `G t` is the number of updates at `t` that were counted. -/
structure ProgressInv (toT : T → Fin W) (U : Upds D T R) (v : Fin W) (G : T → Int) (o : SourceProgress T) : Prop where
  count : ∀ t, toT t = v → countAt o.counts t = (if Beyond o.progress t then 0 else (updatesAt U t : Int)) - G t
  other : ∀ t, toT t ≠ v → countAt o.counts t = 0
  queue : ∀ p ∈ o.queue, PartOf D R toT U v p
  anti : IsAntichainList o.progress

theorem ProgressInv.actOn {toT : T → Fin W} {U : Upds D T R} {v : Fin W} {G : T → Int} {o : SourceProgress T} (h : ProgressInv toT U v G o) {p : Progress T} {q : List (Progress T)}
    (hl : FrontierLe p.lower o.progress) (hq : o.queue.Perm (p :: q)) : ProgressInv toT U v G (o.actOn p q) := by
  obtain ⟨p0, hp, rfl⟩ := h.queue p (hq.mem_iff.2 (by simp))
  have hb : ∀ t, Beyond (o.actOn (p0.partFor toT v) q).progress t ↔ Beyond p0.upper t ∧ Beyond o.progress t := fun t => beyond_acJoin _ _ t
  have hcs : (o.actOn (p0.partFor toT v) q).counts = o.counts ++ ((p0.counts.filter fun c => toT c.1 = v).filter fun c => lessEqual o.progress c.1).map fun c => (c.1, (c.2 : Int)) := rfl
  have hz : ∀ t, (¬ Beyond p0.lower t ∨ Beyond p0.upper t) → (p0.counts.filter fun c => c.1 = t) = [] := by
    intro t ht
    rw [List.filter_eq_nil_iff]
    intro c hc he
    rw [decide_eq_true_eq] at he
    subst he
    rcases ht with ht | ht
    · exact ht (hp.2 c hc).1
    · exact (hp.2 c hc).2 ht
  refine ⟨?_, ?_, fun x hx => h.queue x (hq.mem_iff.2 (List.mem_cons_of_mem _ hx)), isAntichain_acJoin _ _⟩
  · intro t ht
    rw [hcs, countAt_append, List.filter_filter]
    have hf := countAt_progress (fun t => lessEqual o.progress t && decide (toT t = v)) p0.counts t
    beta_reduce at hf
    rw [hf, h.count t ht]
    by_cases hpr : Beyond o.progress t
    · rw [if_pos hpr, if_pos (c := (lessEqual o.progress t && decide (toT t = v)) = true) (by simp [ht, (lessEqual_iff _ _).2 hpr])]
      by_cases hup : Beyond p0.upper t
      · rw [if_pos ((hb t).2 ⟨hup, hpr⟩), hz t (Or.inr hup)]; simp
      · rw [if_neg fun hx => hup ((hb t).1 hx).1, hp.1 t (hl t hpr) hup]; ring
    · have : lessEqual o.progress t = false := by
        by_contra hx; exact hpr ((lessEqual_iff _ _).1 (by simpa using hx))
      rw [if_neg hpr, if_neg (c := (lessEqual o.progress t && decide (toT t = v)) = true) (by simp [this]), if_neg fun hx => hpr ((hb t).1 hx).2]; ring
  · intro t ht
    rw [hcs, countAt_append, List.filter_filter]
    have hf := countAt_progress (fun t => lessEqual o.progress t && decide (toT t = v)) p0.counts t
    beta_reduce at hf
    rw [hf, h.other t ht, if_neg (by simp [ht])]; simp

/-- Acting on all statements that are actionable. -/
theorem drain_spec {toT : T → Fin W} {U : Upds D T R} {v : Fin W} {G : T → Int} : ∀ (n : Nat) (o : SourceProgress T), ProgressInv toT U v G o → o.queue.length ≤ n →
    ProgressInv toT U v G (o.drain n) ∧ FrontierLe o.progress (o.drain n).progress ∧ takeActionable (o.drain n).progress (o.drain n).queue = none ∧ (o.drain n).reported = o.reported ∧
      ∀ p ∈ o.queue, p ∈ (o.drain n).queue ∨ FrontierLe p.upper (o.drain n).progress := by
  intro n
  induction n with
  | zero =>
    intro o h hn
    have hq : o.queue = [] := List.length_eq_zero_iff.1 (by omega)
    exact ⟨h, fun _ x => x, by simp [SourceProgress.drain, hq, takeActionable], rfl, by simp [hq]⟩
  | succ n ih =>
    intro o h hn
    rw [SourceProgress.drain]
    cases ht : takeActionable o.progress o.queue with
    | none => exact ⟨h, fun _ x => x, ht, rfl, fun p hp => Or.inl hp⟩
    | some r =>
      obtain ⟨p, q⟩ := r
      obtain ⟨hl, hperm⟩ := takeActionable_some ht
      have hb : ∀ t, Beyond (o.actOn p q).progress t ↔ Beyond p.upper t ∧ Beyond o.progress t := fun t => beyond_acJoin _ _ t
      obtain ⟨h1, h2, h3, h4, h5⟩ := ih (o.actOn p q) (h.actOn hl hperm) (by
        have := hperm.length_eq
        rw [List.length_cons] at this
        change q.length ≤ n
        omega)
      refine ⟨h1, fun t ht => ((hb t).1 (h2 t ht)).2, h3, h4, ?_⟩
      intro x hx
      rcases List.mem_cons.1 (hperm.mem_iff.1 hx) with rfl | hx
      · exact Or.inr fun t ht => ((hb t).1 (h2 t ht)).1
      · exact h5 x hx

theorem drain_idle (o : SourceProgress T) (h : takeActionable o.progress o.queue = none) (n : Nat) : o.drain n = o := by
  cases n with
  | zero => rfl
  | succ n => rw [SourceProgress.drain, h]

theorem beyond_lowerBound (o : SourceProgress T) (t : T) : Beyond o.lowerBound t ↔ Beyond o.progress t ∨ ∃ s, s ≤ t ∧ 0 < countAt o.counts s := by
  rw [SourceProgress.lowerBound, beyond_acExtend, ← beyond_messagesFrontier]


end progress

section inv
variable [Lattice T] [OrderBot T] [DecidableLE T] [DecidableEq D] [DecidableEq T] [DecidableEq R]

/-- The updates sent to the output. -/
def SourceState.sentUpdates (s : SourceState W D T R) : Upds D T R := s.emitted.map (·.2)

/-- What holds of reachable states. -/
structure SourceInv (toU : D × T × R → Fin W) (toT : T → Fin W) (U : Upds D T R) (s : SourceState W D T R) : Prop where
  nodup : s.sentUpdates.Nodup
  sub : ∀ u ∈ s.sentUpdates, u ∈ U
  pendingSent : ∀ w, ∀ u ∈ s.pending w, u ∈ s.sentUpdates
  sentPending : ∀ u ∈ s.sentUpdates, Beyond (s.frontier (toU u)) u.2.1 → u ∈ s.pending (toU u)
  flight : ∀ w, ∀ m ∈ s.toUpdates w, m.2 ∈ U ∧ toU m.2 = w
  nonpos : ∀ w, ∀ c ∈ s.toCounts w, c.2 ≤ 0 ∧ toT c.1 = w
  prog : ∀ v, ProgressInv toT U v (fun t => updatesAt s.sentUpdates t + countAt (s.toCounts v) t) (s.progress v)
  coming : ∀ v, ∀ p ∈ s.toProgress v, PartOf D R toT U v p
  same : ∀ v, acEq (s.progress v).lowerBound (s.progress v).reported = true
  idle : ∀ v, takeActionable (s.progress v).progress (s.progress v).queue = none
  deltas : ∃ applied : Fin W → Fin W → List T, (∀ w t, countAt (s.shared w) t = ∑ v, ((applied w v).count t : Int)) ∧ ∀ w v, Deltas (applied w v) (s.toFeedback v w) (s.progress v).reported
  caps : ∀ w t, Beyond (messagesFrontier (s.shared w)) t → Beyond (s.caps w) t
  behind : ∀ w v t, Beyond (s.caps v) t → Beyond (s.frontier w) t
  gotUpdates : ∀ m ∈ s.read, ∀ u ∈ m.listed, u ∈ s.sentUpdates ∨ ∃ c, (c, u) ∈ s.toUpdates (toU u)
  gotStatements : ∀ m ∈ s.read, ∀ p ∈ m.stated, ∀ v, p.partFor toT v ∈ s.toProgress v ∨ p.partFor toT v ∈ (s.progress v).queue ∨ FrontierLe p.upper (s.progress v).progress

variable {toU : D × T × R → Fin W} {toT : T → Fin W} {U : Upds D T R} {s : SourceState W D T R}

theorem SourceInv.beyond_reported (h : SourceInv toU toT U s) (v : Fin W) (t : T) : Beyond (s.progress v).lowerBound t ↔ Beyond (s.progress v).reported t :=
  beyond_perm (perm_of_acEq (h.same v) (nodup_of_isAntichain (isAntichain_acExtend _ _ (h.prog v).anti))) t

/-- The frontier of counts that are those of several frontiers together. -/
theorem beyond_messagesFrontier_sum {cs : List (T × Int)} {applied : Fin W → List T} (h : ∀ t, countAt cs t = ∑ v, ((applied v).count t : Int)) (t : T) :
    Beyond (messagesFrontier cs) t ↔ ∃ v, Beyond (applied v) t := by
  rw [beyond_messagesFrontier]
  constructor
  · rintro ⟨f, hft, hf⟩
    rw [h] at hf
    obtain ⟨v, _, hv⟩ := Finset.exists_lt_of_sum_lt (s := Finset.univ) (f := fun _ : Fin W => (0 : Int)) (g := fun v => ((applied v).count f : Int)) (by simpa using hf)
    exact ⟨v, f, List.count_pos_iff.1 (by exact_mod_cast hv), hft⟩
  · rintro ⟨v, f, hf, hft⟩
    refine ⟨f, hft, ?_⟩
    rw [h]
    refine Finset.sum_pos' (fun v _ => by positivity) ⟨v, Finset.mem_univ _, ?_⟩
    have := List.count_pos_iff.2 hf
    exact_mod_cast this

/-- Frontiers shared are those that PROGRESS operators reported some time ago. -/
theorem SourceInv.beyond_shared (h : SourceInv toU toT U s) (w v : Fin W) (t : T) (ht : Beyond (s.progress v).reported t) : Beyond (messagesFrontier (s.shared w)) t := by
  obtain ⟨applied, h1, h2⟩ := h.deltas
  exact (beyond_messagesFrontier_sum (h1 w) t).2 ⟨v, (h2 w v).le t ht⟩

/-- An update that is not sent yet holds back capabilities. -/
theorem SourceInv.held (h : SourceInv toU toT U s) {u : D × T × R} (hu : u ∈ U) (hn : u ∉ s.sentUpdates) (w : Fin W) : Beyond (s.caps w) u.2.1 := by
  refine h.caps w _ (h.beyond_shared w (toT u.2.1) _ ?_)
  rw [← h.beyond_reported, beyond_lowerBound]
  have hlt : updatesAt s.sentUpdates u.2.1 < updatesAt U u.2.1 := by
    by_contra hx
    exact hn (mem_of_updatesAt_eq h.nodup h.sub u.2.1 (by omega) hu rfl)
  by_cases hb : Beyond (s.progress (toT u.2.1)).progress u.2.1
  · exact Or.inl hb
  · refine Or.inr ⟨u.2.1, le_refl _, ?_⟩
    have hc := (h.prog (toT u.2.1)).count u.2.1 rfl
    rw [if_neg hb] at hc
    have := countAt_nonpos (s.toCounts (toT u.2.1)) (fun c hc => (h.nonpos _ c hc).1) u.2.1
    omega

theorem countAt_sent (sent : List (T × D × T × R)) (v : Fin W) (t : T) (ht : toT t = v) :
    countAt ((sent.filter fun m => toT m.2.2.1 = v).map fun m => (m.2.2.1, -1)) t = -(updatesAt (sent.map (·.2)) t : Int) := by
  induction sent with
  | nil => rfl
  | cons m ms ih =>
    rw [List.map_cons, show m.2 :: ms.map (·.2) = [m.2] ++ ms.map (·.2) from rfl, updatesAt_append, List.filter_cons]
    by_cases hm : m.2.2.1 = t
    · rw [if_pos (by simp [hm, ht]), List.map_cons, countAt_cons, ih]
      simp [hm, updatesAt]
      ring
    · have h0 : updatesAt [m.2] t = 0 := by simp [updatesAt, hm]
      split
      · rw [List.map_cons, countAt_cons, ih, if_neg hm, h0]; simp
      · rw [ih, h0]; simp

theorem SourceInv.init : SourceInv toU toT U (SourceState.init W D T R) := by
  refine ⟨List.nodup_nil, by simp [SourceState.sentUpdates, SourceState.init], by simp [SourceState.init], by simp [SourceState.sentUpdates, SourceState.init], by simp [SourceState.init],
    by simp [SourceState.init], ?_, by simp [SourceState.init], ?_, fun _ => rfl, ?_, ?_, ?_, by simp [SourceState.init], by simp [SourceState.init]⟩
  · intro v
    refine ⟨?_, fun _ _ => rfl, by simp [SourceState.init], List.pairwise_singleton _ _⟩
    intro t _
    change (0 : Int) = (if Beyond [⊥] t then 0 else _) - (((0 : Nat) : Int) + 0)
    rw [if_pos ⟨⊥, by simp, bot_le⟩]; rfl
  · intro v
    refine acEq_of_perm ?_
    exact List.Perm.refl _
  · refine ⟨fun _ _ => [⊥], ?_, fun _ _ => rfl⟩
    intro w t
    change countAt [(⊥, (W : Int))] t = _
    rw [countAt_cons, countAt_nil]
    by_cases h : (⊥ : T) = t
    · simp [h]
    · simp [h]
  · intro w t _
    exact ⟨⊥, by simp [SourceState.init], bot_le⟩
  · intro w v t _
    exact ⟨⊥, by simp [SourceState.init], bot_le⟩

theorem SourceInv.messages (h : SourceInv toU toT U s) (w : Fin W) (ms : List (CaptureMsg D T R)) (hl : (SourceEvent.messages w ms).Legal U s) :
    ∃ s', s.step toU toT (.messages w ms) = some s' ∧ SourceInv toU toT U s' := by
  have hd : downgradeCaps (s.caps w) (messagesFrontier (s.shared w)) = some (messagesFrontier (s.shared w)) := by
    unfold downgradeCaps
    rw [if_pos]
    rw [List.all_eq_true]
    intro f hf
    exact (lessEqual_iff _ _).2 (h.caps w f ⟨f, hf, le_refl _⟩)
  have hcaps : ∀ (c : List T), messagesFrontier (s.shared w) = c → (∀ w' t, Beyond (messagesFrontier (s.shared w')) t → Beyond (setAt s.caps w c w') t) ∧
      ∀ w' v t, Beyond (setAt s.caps w c v) t → Beyond (s.frontier w') t := by
    intro c hc
    refine ⟨?_, ?_⟩
    · intro w' t ht
      by_cases hw : w' = w
      · subst hw; rw [setAt_same]; exact hc ▸ ht
      · rw [setAt_ne _ _ hw]; exact h.caps w' t ht
    · intro w' v t ht
      by_cases hv : v = w
      · subst hv; rw [setAt_same] at ht; exact h.behind w' v t (h.caps v t (hc ▸ ht))
      · rw [setAt_ne _ _ hv] at ht; exact h.behind w' v t ht
  rw [SourceState.step, hd]
  cases hf : messagesFrontier (s.shared w) with
  | nil =>
    obtain ⟨a, b⟩ := hcaps _ hf
    exact ⟨_, rfl, { h with caps := a, behind := b }⟩
  | cons c cs =>
    obtain ⟨a, b⟩ := hcaps _ hf
    refine ⟨_, rfl, ⟨h.nodup, h.sub, h.pendingSent, h.sentPending, ?_, h.nonpos, h.prog, ?_, h.same, h.idle, h.deltas, a, b, ?_, ?_⟩⟩
    · intro v m hm
      rcases List.mem_append.1 hm with hm | hm
      · exact h.flight v m hm
      · obtain ⟨u, hu, rfl⟩ := List.mem_map.1 hm
        obtain ⟨hu, hv⟩ := List.mem_filter.1 hu
        rw [decide_eq_true_eq] at hv
        obtain ⟨x, hx, hux⟩ := List.mem_flatMap.1 hu
        have := hl x hx
        cases x with
        | updates us => exact ⟨this u hux, hv⟩
        | progress p => simp [CaptureMsg.listed] at hux
    · intro v p hp
      rcases List.mem_append.1 hp with hp | hp
      · exact h.coming v p hp
      · obtain ⟨p0, hp0, rfl⟩ := List.mem_map.1 hp
        obtain ⟨x, hx, hpx⟩ := List.mem_flatMap.1 hp0
        have := hl x hx
        cases x with
        | updates us => simp [CaptureMsg.stated] at hpx
        | progress q =>
          simp only [CaptureMsg.stated, List.mem_singleton] at hpx
          subst hpx
          exact ⟨p0, this, rfl⟩
    · intro m hm u hu
      rcases List.mem_append.1 hm with hm | hm
      · rcases h.gotUpdates m hm u hu with h1 | ⟨c, hc⟩
        · exact Or.inl h1
        · exact Or.inr ⟨c, List.mem_append_left _ hc⟩
      · refine Or.inr ⟨c, List.mem_append_right _ (List.mem_map.2 ⟨u, List.mem_filter.2 ⟨List.mem_flatMap.2 ⟨m, hm, hu⟩, by simp⟩, rfl⟩)⟩
    · intro m hm p hp v
      rcases List.mem_append.1 hm with hm | hm
      · rcases h.gotStatements m hm p hp v with h1 | h1
        · exact Or.inl (List.mem_append_left _ h1)
        · exact Or.inr h1
      · exact Or.inl (List.mem_append_right _ (List.mem_map.2 ⟨p, List.mem_flatMap.2 ⟨m, hm, hp⟩, rfl⟩))

theorem SourceInv.updates (hU : (U.map fun u => (u.1, u.2.1)).Nodup) (h : SourceInv toU toT U s) (w : Fin W) (F : List T) (got rest : List (T × D × T × R))
    (hl : (SourceEvent.updates w F got rest).Legal U s) : ∃ s', s.step toU toT (.updates w F got rest) = some s' ∧ SourceInv toU toT U s' ∧
      ∃ sent, s'.emitted = s.emitted ++ sent ∧ ∀ m ∈ sent, m ∈ s.toUpdates w ∧ m.2 ∉ s.sentUpdates := by
  obtain ⟨hperm, hF, hcaps⟩ := hl
  have hgot : ∀ m ∈ got, m ∈ s.toUpdates w := fun m hm => hperm.mem_iff.1 (List.mem_append_left _ hm)
  have hrest : ∀ m ∈ rest, m ∈ s.toUpdates w := fun m hm => hperm.mem_iff.1 (List.mem_append_right _ hm)
  have hcapsB : ∀ v t, Beyond (s.caps v) t → Beyond F t := by
    rintro v t ⟨c, hc, hct⟩
    obtain ⟨f, hf, hfc⟩ := hcaps v c hc
    exact ⟨f, hf, hfc.trans hct⟩
  have hmemf : ∀ u, u ∈ (s.pending w).filter (fun u => lessEqual F u.2.1) ↔ u ∈ s.pending w ∧ Beyond F u.2.1 := by
    intro u
    rw [List.mem_filter, lessEqual_iff]
  obtain ⟨r, h1, h2, h3, h4, h5⟩ := admit_spec (F := F) U hU got ((s.pending w).filter fun u => lessEqual F u.2.1) (fun m hm => (h.flight w m (hgot m hm)).1)
    (fun u hu => h.sub u (h.pendingSent w u ((hmemf u).1 hu).1))
  have hnew : ∀ m ∈ r.2, m.2 ∉ s.sentUpdates := by
    intro m hm hs
    obtain ⟨a, b, c⟩ := h3 m hm
    have hw := (h.flight w m (hgot m a)).2
    have := h.sentPending m.2 hs (by rw [hw]; exact hF _ b)
    rw [hw] at this
    exact c ((hmemf _).2 ⟨this, b⟩)
  have hemit : ∀ (s' : SourceState W D T R), s'.emitted = s.emitted ++ r.2 → s'.sentUpdates = s.sentUpdates ++ r.2.map (·.2) := by
    intro s' hs; simp [SourceState.sentUpdates, hs]
  rw [SourceState.step, updatesActivate, h1]
  refine ⟨_, rfl, ?_, r.2, rfl, fun m hm => ⟨hgot m (h3 m hm).1, hnew m hm⟩⟩
  have he := hemit { s with
      toUpdates := setAt s.toUpdates w rest
      pending := setAt s.pending w r.1
      frontier := setAt s.frontier w F
      toCounts := fun v => s.toCounts v ++ (r.2.filter fun m => toT m.2.2.1 = v).map fun m => (m.2.2.1, -1)
      emitted := s.emitted ++ r.2 } rfl
  refine ⟨?_, ?_, ?_, ?_, ?_, ?_, ?_, h.coming, h.same, h.idle, h.deltas, h.caps, ?_, ?_, h.gotStatements⟩
  · rw [he, List.nodup_append]
    refine ⟨h.nodup, h4, ?_⟩
    rintro a ha b hb rfl
    obtain ⟨m, hm, rfl⟩ := List.mem_map.1 hb
    exact hnew m hm ha
  · intro u hu
    rw [he] at hu
    rcases List.mem_append.1 hu with hu | hu
    · exact h.sub u hu
    · obtain ⟨m, hm, rfl⟩ := List.mem_map.1 hu
      exact (h.flight w m (hgot m (h3 m hm).1)).1
  · intro v u hu
    rw [he]
    change u ∈ setAt s.pending w r.1 v at hu
    by_cases hv : v = w
    · subst hv
      rw [setAt_same, h2] at hu
      rcases List.mem_append.1 hu with hu | hu
      · exact List.mem_append_left _ (h.pendingSent _ u ((hmemf u).1 hu).1)
      · exact List.mem_append_right _ hu
    · rw [setAt_ne _ _ hv] at hu
      exact List.mem_append_left _ (h.pendingSent v u hu)
  · intro u hu hb
    rw [he] at hu
    change Beyond (setAt s.frontier w F (toU u)) u.2.1 at hb
    change u ∈ setAt s.pending w r.1 (toU u)
    by_cases hv : toU u = w
    · rw [hv, setAt_same] at hb ⊢
      rw [h2]
      rcases List.mem_append.1 hu with hu | hu
      · refine List.mem_append_left _ ((hmemf u).2 ⟨?_, hb⟩)
        have := h.sentPending u hu (by rw [hv]; exact hF _ hb)
        rwa [hv] at this
      · exact List.mem_append_right _ hu
    · rw [setAt_ne _ _ hv] at hb ⊢
      rcases List.mem_append.1 hu with hu | hu
      · exact h.sentPending u hu hb
      · obtain ⟨m, hm, rfl⟩ := List.mem_map.1 hu
        exact absurd (h.flight w m (hgot m (h3 m hm).1)).2 hv
  · intro v m hm
    change m ∈ setAt s.toUpdates w rest v at hm
    by_cases hv : v = w
    · subst hv; rw [setAt_same] at hm; exact h.flight v m (hrest m hm)
    · rw [setAt_ne _ _ hv] at hm; exact h.flight v m hm
  · intro v c hc
    rcases List.mem_append.1 hc with hc | hc
    · exact h.nonpos v c hc
    · obtain ⟨m, hm, rfl⟩ := List.mem_map.1 hc
      have := (List.mem_filter.1 hm).2
      rw [decide_eq_true_eq] at this
      exact ⟨by simp, this⟩
  · intro v
    refine { h.prog v with count := ?_ }
    intro t ht
    have hc := (h.prog v).count t ht
    rw [he, updatesAt_append]
    change countAt (s.progress v).counts t = _ - (_ + countAt (s.toCounts v ++ _) t)
    rw [countAt_append, countAt_sent r.2 v t ht, hc]
    push_cast
    ring
  · intro w' v t ht
    change Beyond (setAt s.frontier w F w') t
    by_cases hv : w' = w
    · subst hv; rw [setAt_same]; exact hcapsB v t ht
    · rw [setAt_ne _ _ hv]; exact h.behind w' v t ht
  · intro m hm u hu
    rw [he]
    change _ ∨ ∃ c, (c, u) ∈ setAt s.toUpdates w rest (toU u)
    rcases h.gotUpdates m hm u hu with hx | ⟨c, hc⟩
    · exact Or.inl (List.mem_append_left _ hx)
    · by_cases hv : toU u = w
      · rw [hv] at hc ⊢
        rw [setAt_same]
        rcases List.mem_append.1 (hperm.mem_iff.2 hc) with hg | hg
        · refine Or.inl ?_
          by_cases hB : Beyond F u.2.1
          · rcases h5 (c, u) hg hB with h6 | h6
            · exact List.mem_append_left _ (h.pendingSent w u ((hmemf u).1 h6).1)
            · exact List.mem_append_right _ h6
          · refine List.mem_append_left _ ?_
            by_contra hn
            exact hB (hcapsB w _ (h.held (h.flight w _ hc).1 hn w))
        · exact Or.inr ⟨c, hg⟩
      · rw [setAt_ne _ _ hv]
        exact Or.inr ⟨c, hc⟩

theorem SourceInv.progressEvent (h : SourceInv toU toT U s) (w : Fin W) (counts rest : List (T × Int)) (sts restS : List (Progress T))
    (hl : (SourceEvent.progress w counts rest sts restS).Legal U s) : ∃ s', s.step toU toT (.progress w counts rest sts restS) = some s' ∧ SourceInv toU toT U s' ∧ s'.emitted = s.emitted := by
  obtain ⟨hpc, hps⟩ := hl
  set o := s.progress w with ho
  have hcount : ∀ t, countAt (s.toCounts w) t = countAt counts t + countAt rest t := by
    intro t; rw [← countAt_perm hpc t, countAt_append]
  have hcneg : ∀ c ∈ counts, c.2 ≤ 0 ∧ toT c.1 = w := fun c hc => h.nonpos w c (hpc.mem_iff.1 (List.mem_append_left _ hc))
  have i1 : ProgressInv toT U w (fun t => updatesAt s.sentUpdates t + countAt rest t) { o with counts := o.counts ++ counts, queue := o.queue ++ sts } := by
    refine ⟨?_, ?_, ?_, (h.prog w).anti⟩
    · intro t ht
      change countAt (o.counts ++ counts) t = _
      rw [countAt_append, (h.prog w).count t ht, hcount t]
      ring
    · intro t ht
      change countAt (o.counts ++ counts) t = _
      rw [countAt_append, (h.prog w).other t ht, countAt_of_not_mem]
      · rfl
      · intro hm
        obtain ⟨c, hc, rfl⟩ := List.mem_map.1 hm
        exact ht (hcneg c hc).2
    · intro p hp
      rcases List.mem_append.1 hp with hp | hp
      · exact (h.prog w).queue p hp
      · exact h.coming w p (hps.mem_iff.1 (List.mem_append_left _ hp))
  obtain ⟨j1, j2, j3, j4, j5⟩ := drain_spec (o.queue ++ sts).length _ i1 (le_refl _)
  set o2 := SourceProgress.drain (o.queue ++ sts).length { o with counts := o.counts ++ counts, queue := o.queue ++ sts } with ho2
  -- the lower bound only advances
  have hmono : FrontierLe o.reported o2.lowerBound := by
    intro t ht
    rw [ho, ← h.beyond_reported, beyond_lowerBound]
    rcases (beyond_lowerBound o2 t).1 ht with hb | ⟨f, hft, hf⟩
    · exact Or.inl (j2 t hb)
    · have hw : toT f = w := by
        by_contra hx
        rw [j1.other f hx] at hf
        exact lt_irrefl _ hf
      by_cases hpb : Beyond o.progress f
      · exact Or.inl (beyond_mono hpb hft)
      · refine Or.inr ⟨f, hft, ?_⟩
        have hc2 := j1.count f hw
        rw [if_neg fun hx => hpb (j2 f hx)] at hc2
        have hc1 := (h.prog w).count f hw
        rw [if_neg hpb, hcount f] at hc1
        have := countAt_nonpos counts (fun c hc => (hcneg c hc).1) f
        omega
  -- what PROGRESS ends up with, whether it reports or not
  have key : ∀ (o3 : SourceProgress T) (fb : Fin W → Fin W → List (List (T × Int))), o3.queue = o2.queue → o3.progress = o2.progress → o3.counts = o2.counts →
      acEq o3.lowerBound o3.reported = true →
      (∃ applied : Fin W → Fin W → List T, (∀ w t, countAt (s.shared w) t = ∑ v, ((applied w v).count t : Int)) ∧ ∀ w' v, Deltas (applied w' v) (fb v w') (setAt s.progress w o3 v).reported) →
      SourceInv toU toT U { s with
        toCounts := setAt s.toCounts w rest
        toProgress := setAt s.toProgress w restS
        progress := setAt s.progress w o3
        toFeedback := fb } := by
    intro o3 fb e1 e2 e3 heq hd
    refine ⟨h.nodup, h.sub, h.pendingSent, h.sentPending, h.flight, ?_, ?_, ?_, ?_, ?_, hd, h.caps, h.behind, h.gotUpdates, ?_⟩
    · intro v c hc
      change c ∈ setAt s.toCounts w rest v at hc
      by_cases hv : v = w
      · subst hv; rw [setAt_same] at hc; exact h.nonpos v c (hpc.mem_iff.1 (List.mem_append_right _ hc))
      · rw [setAt_ne _ _ hv] at hc; exact h.nonpos v c hc
    · intro v
      change ProgressInv toT U v (fun t => (updatesAt s.sentUpdates t : Int) + countAt (setAt s.toCounts w rest v) t) (setAt s.progress w o3 v)
      by_cases hv : v = w
      · subst hv
        rw [setAt_same, setAt_same]
        refine ⟨?_, ?_, ?_, ?_⟩
        · rw [e2, e3]; exact j1.count
        · rw [e3]; exact j1.other
        · rw [e1]; exact j1.queue
        · rw [e2]; exact j1.anti
      · rw [setAt_ne _ _ hv, setAt_ne _ _ hv]; exact h.prog v
    · intro v p hp
      change p ∈ setAt s.toProgress w restS v at hp
      by_cases hv : v = w
      · subst hv; rw [setAt_same] at hp; exact h.coming v p (hps.mem_iff.1 (List.mem_append_right _ hp))
      · rw [setAt_ne _ _ hv] at hp; exact h.coming v p hp
    · intro v
      change acEq (setAt s.progress w o3 v).lowerBound (setAt s.progress w o3 v).reported = true
      by_cases hv : v = w
      · subst hv; rw [setAt_same]; exact heq
      · rw [setAt_ne _ _ hv]; exact h.same v
    · intro v
      change takeActionable (setAt s.progress w o3 v).progress (setAt s.progress w o3 v).queue = none
      by_cases hv : v = w
      · subst hv; rw [setAt_same, e1, e2]; exact j3
      · rw [setAt_ne _ _ hv]; exact h.idle v
    · intro m hm p hp v
      change p.partFor toT v ∈ setAt s.toProgress w restS v ∨ p.partFor toT v ∈ (setAt s.progress w o3 v).queue ∨ FrontierLe p.upper (setAt s.progress w o3 v).progress
      have hg := h.gotStatements m hm p hp v
      by_cases hv : v = w
      · subst hv
        rw [setAt_same, setAt_same, e1, e2]
        rcases hg with hg | hg | hg
        · rcases List.mem_append.1 (hps.mem_iff.2 hg) with hg | hg
          · exact Or.inr (j5 _ (List.mem_append_right _ hg))
          · exact Or.inl hg
        · exact Or.inr (j5 _ (List.mem_append_left _ hg))
        · exact Or.inr (Or.inr fun t ht => hg t (j2 t ht))
      · rw [setAt_ne _ _ hv, setAt_ne _ _ hv]; exact hg
  obtain ⟨applied, a1, a2⟩ := h.deltas
  rw [SourceState.step, SourceProgress.activate]
  simp only [← ho]
  rw [← ho2]
  by_cases heq : acEq o2.lowerBound o2.reported = true
  · rw [if_pos heq]
    refine ⟨_, rfl, key o2 s.toFeedback rfl rfl rfl heq ⟨applied, a1, ?_⟩, rfl⟩
    intro w' v
    by_cases hv : v = w
    · subst hv; rw [setAt_same, j4]; exact a2 w' v
    · rw [setAt_ne _ _ hv]; exact a2 w' v
  · rw [if_neg heq]
    have hne : ¬ (counts = [] ∧ sts.isEmpty = true) := by
      rintro ⟨rfl, hs⟩
      have hs : sts = [] := List.isEmpty_iff.1 hs
      subst hs
      apply heq
      have : o2 = o := by
        rw [ho2]
        simp only [List.append_nil]
        exact drain_idle o (h.idle w) _
      rw [this]
      exact h.same w
    rw [if_neg hne]
    refine ⟨_, rfl, key _ _ rfl rfl rfl (acEq_of_perm (List.Perm.refl _)) ⟨applied, a1, ?_⟩, rfl⟩
    intro w' v
    dsimp only
    by_cases hv : v = w
    · subst hv
      rw [setAt_same, setAt_same, j4]
      exact (a2 w' v).snoc hmono
    · rw [setAt_ne _ _ hv, setAt_ne _ _ hv]; exact a2 w' v

theorem sum_setAt (f : Fin W → Int) (v : Fin W) (a : Int) : ∑ x, setAt f v a x = ∑ x, f x + (a - f v) := by
  have : ∀ x, setAt f v a x = f x + if x = v then a - f v else 0 := by
    intro x
    by_cases h : x = v
    · subst h; rw [setAt_same, if_pos rfl]; ring
    · rw [setAt_ne _ _ h, if_neg h]; ring
  rw [Finset.sum_congr rfl fun x _ => this x, Finset.sum_add_distrib]
  simp

theorem SourceInv.feedback (h : SourceInv toU toT U s) (w v : Fin W) : ∃ s', s.step toU toT (.feedback w v) = some s' ∧ SourceInv toU toT U s' ∧ s'.emitted = s.emitted := by
  rw [SourceState.step]
  cases hf : s.toFeedback v w with
  | nil => exact ⟨s, rfl, h, rfl⟩
  | cons c cs =>
    obtain ⟨applied, a1, a2⟩ := h.deltas
    have hd := a2 w v
    rw [hf] at hd
    obtain ⟨M, hc, hle, hd⟩ := hd
    have hsum : ∀ w' t, countAt (setAt s.shared w (s.shared w ++ c) w') t = ∑ x, ((setAt applied w (setAt (applied w) v M) w' x).count t : Int) := by
      intro w' t
      by_cases hw : w' = w
      · subst hw
        rw [setAt_same, setAt_same, countAt_append, a1, hc, countAt_append, countAt_ones, countAt_minusOnes]
        have e : ∀ x, ((setAt (applied w') v M x).count t : Int) = setAt (fun x => ((applied w' x).count t : Int)) v (M.count t : Int) x := by
          intro x
          by_cases hx : x = v
          · subst hx; rw [setAt_same, setAt_same]
          · rw [setAt_ne _ _ hx, setAt_ne _ _ hx]
        rw [Finset.sum_congr rfl fun x _ => e x, sum_setAt]
        ring
      · rw [setAt_ne _ _ hw, setAt_ne _ _ hw]; exact a1 w' t
    have hdel : ∀ w' v', Deltas (setAt applied w (setAt (applied w) v M) w' v') (setAt s.toFeedback v (setAt (s.toFeedback v) w cs) v' w') (s.progress v').reported := by
      intro w' v'
      by_cases hv : v' = v
      · subst hv
        rw [setAt_same]
        by_cases hw : w' = w
        · subst hw; rw [setAt_same, setAt_same, setAt_same]; exact hd
        · rw [setAt_ne _ _ hw, setAt_ne _ _ hw]; exact a2 w' v'
      · rw [setAt_ne s.toFeedback _ hv]
        by_cases hw : w' = w
        · subst hw; rw [setAt_same, setAt_ne _ _ hv]; exact a2 w' v'
        · rw [setAt_ne _ _ hw]; exact a2 w' v'
    refine ⟨_, rfl, { h with deltas := ⟨_, hsum, hdel⟩, caps := ?_ }, rfl⟩
    intro w' t ht
    change Beyond (messagesFrontier (setAt s.shared w (s.shared w ++ c) w')) t at ht
    by_cases hw : w' = w
    · refine h.caps w' t ?_
      rw [beyond_messagesFrontier_sum (hsum w')] at ht
      rw [beyond_messagesFrontier_sum (a1 w')]
      obtain ⟨x, hx⟩ := ht
      refine ⟨x, ?_⟩
      rw [hw, setAt_same] at hx
      rw [hw]
      by_cases hxv : x = v
      · subst hxv; rw [setAt_same] at hx; exact hle t hx
      · rw [setAt_ne _ _ hxv] at hx; exact hx
    · rw [setAt_ne _ _ hw] at ht; exact h.caps w' t ht

theorem SourceInv.step (hU : (U.map fun u => (u.1, u.2.1)).Nodup) (h : SourceInv toU toT U s) {e : SourceEvent W D T R} (hl : e.Legal U s) :
    ∃ s', s.step toU toT e = some s' ∧ SourceInv toU toT U s' := by
  cases e with
  | messages w ms => exact h.messages w ms hl
  | updates w F got rest => obtain ⟨s', h1, h2, _⟩ := h.updates hU w F got rest hl; exact ⟨s', h1, h2⟩
  | progress w counts rest sts restS => obtain ⟨s', h1, h2, _⟩ := h.progressEvent w counts rest sts restS hl; exact ⟨s', h1, h2⟩
  | feedback w v => obtain ⟨s', h1, h2, _⟩ := h.feedback w v; exact ⟨s', h1, h2⟩

theorem SourceReach.inv (hU : (U.map fun u => (u.1, u.2.1)).Nodup) (h : SourceReach toU toT U s) : SourceInv toU toT U s := by
  induction h with
  | init => exact SourceInv.init
  | step _ hl hs ih =>
    obtain ⟨s', h1, h2⟩ := ih.step hU hl
    rw [hs] at h1
    cases h1
    exact h2

end inv

end DD
