import Verif.Spec.Capture
import Verif.Proofs.Lattice
import Verif.Proofs.SpineRun
import Mathlib.Data.List.Dedup
import Mathlib.Data.List.Nodup

/-! # Proofs about capture and replay -/

namespace DD
variable {D T R : Type*}

section counts
variable [DecidableEq T]

theorem countAt_nil (t : T) : countAt ([] : List (T × Int)) t = 0 := rfl
theorem countAt_append (a b : List (T × Int)) (t : T) : countAt (a ++ b) t = countAt a t + countAt b t := by simp [countAt]
theorem countAt_cons (c : T × Int) (b : List (T × Int)) (t : T) : countAt (c :: b) t = (if c.1 = t then c.2 else 0) + countAt b t := by simp [countAt]

theorem countAt_of_not_mem (cs : List (T × Int)) (t : T) (h : t ∉ cs.map (·.1)) : countAt cs t = 0 := by
  induction cs with
  | nil => rfl
  | cons c cs ih =>
    rw [List.map_cons, List.mem_cons, not_or] at h
    rw [countAt_cons, ih h.2, if_neg (Ne.symm h.1)]
    rfl

theorem countAt_neg (us : Upds D T R) (t : T) : countAt (us.map fun u => (u.2.1, -1)) t = -(updatesAt us t : Int) := by
  induction us with
  | nil => rfl
  | cons u us ih =>
    rw [List.map_cons, countAt_cons, ih]
    unfold updatesAt
    rw [List.filter_cons]
    by_cases h : u.2.1 = t
    · simp [h]
    · simp [h]

theorem countAt_pos (us : Upds D T R) (t : T) : countAt (us.map fun u => (u.2.1, 1)) t = (updatesAt us t : Int) := by
  induction us with
  | nil => rfl
  | cons u us ih =>
    rw [List.map_cons, countAt_cons, ih]
    unfold updatesAt
    rw [List.filter_cons]
    by_cases h : u.2.1 = t
    · simp [h]; ring
    · simp [h]

theorem updatesAt_append (a b : Upds D T R) (t : T) : updatesAt (a ++ b) t = updatesAt a t + updatesAt b t := by simp [updatesAt]

theorem updatesAt_perm {a b : Upds D T R} (h : a.Perm b) (t : T) : updatesAt a t = updatesAt b t := (h.filter _).length_eq

/-- Times of the filtered counts. -/
theorem countAt_progress (P : T → Bool) (counts : List (T × Nat)) (t : T) :
    countAt ((counts.filter fun c => P c.1).map fun c => (c.1, (c.2 : Int))) t
      = if P t then ((((counts.filter fun c => c.1 = t).map (·.2)).sum : Nat) : Int) else 0 := by
  induction counts with
  | nil => by_cases h : P t <;> simp [countAt, h]
  | cons c counts ih =>
    rw [List.filter_cons, List.filter_cons]
    by_cases hc : c.1 = t
    · by_cases h : P t
      · rw [if_pos (by rw [hc]; exact h), List.map_cons, countAt_cons, ih]
        simp [hc, h]
      · rw [if_neg (by rw [hc]; exact h), ih]
        simp [h]
    · by_cases h : P c.1
      · rw [if_pos h, List.map_cons, countAt_cons, ih]
        simp [hc]
      · rw [if_neg h, ih]
        simp [hc]

end counts

theorem setExtend_eq {A : Type*} [DecidableEq A] (xs : List A) : ∀ s : List A, xs.Nodup → (∀ x ∈ xs, x ∉ s) → setExtend s xs = s ++ xs := by
  induction xs with
  | nil => intro s _ _; simp [setExtend]
  | cons x xs ih =>
    intro s hn hs
    rw [setExtend, if_neg (hs x (by simp)), ih _ (List.nodup_cons.1 hn).2]
    · simp
    · intro y hy hm
      rcases List.mem_append.1 hm with h | h
      · exact hs y (by simp [hy]) h
      · rw [List.mem_singleton] at h
        exact (List.nodup_cons.1 hn).1 (h ▸ hy)

/-- Sub-lists without duplicates have at most as many updates at a time, and as many only if they have all of them. -/
theorem updatesAt_le [DecidableEq T] [DecidableEq D] [DecidableEq R] {a U : Upds D T R} (ha : a.Nodup) (h : ∀ u ∈ a, u ∈ U) (t : T) : updatesAt a t ≤ updatesAt U t := by
  refine List.Subperm.length_le (List.subperm_of_subset (ha.filter _) ?_)
  intro u hu
  rw [List.mem_filter] at hu ⊢
  exact ⟨h u hu.1, hu.2⟩

theorem mem_of_updatesAt_eq [DecidableEq T] [DecidableEq D] [DecidableEq R] {a U : Upds D T R} (ha : a.Nodup) (h : ∀ u ∈ a, u ∈ U) (t : T)
    (he : updatesAt U t ≤ updatesAt a t) {u : D × T × R} (hu : u ∈ U) (ht : u.2.1 = t) : u ∈ a := by
  have hs : (a.filter fun u => u.2.1 = t).Subperm (U.filter fun u => u.2.1 = t) := by
    refine List.subperm_of_subset (ha.filter _) ?_
    intro u hu
    rw [List.mem_filter] at hu ⊢
    exact ⟨h u hu.1, hu.2⟩
  have hp := hs.perm_of_length_le he
  exact (List.mem_filter.1 (hp.mem_iff.2 (List.mem_filter.2 ⟨hu, by simp [ht]⟩))).1

section iter
variable [Lattice T] [OrderBot T] [DecidableLE T] [DecidableEq T]

omit [OrderBot T] in
theorem beyond_messagesFrontier (cs : List (T × Int)) (t : T) : Beyond (messagesFrontier cs) t ↔ ∃ s, s ≤ t ∧ 0 < countAt cs s := by
  rw [messagesFrontier, beyond_acExtend]
  constructor
  · rintro (⟨f, hf, _⟩ | ⟨f, hf, hft⟩)
    · simp at hf
    · simp only [List.mem_filter, decide_eq_true_eq] at hf
      exact ⟨f, hft, hf.2⟩
  · rintro ⟨s, hst, hs⟩
    refine Or.inr ⟨s, List.mem_filter.2 ⟨?_, by simpa using hs⟩, hst⟩
    by_contra hn
    rw [countAt_of_not_mem cs s hn] at hs
    exact lt_irrefl _ hs

omit [OrderBot T] [DecidableEq T] in
theorem takeActionable_none {F : List T} : ∀ {q : List (Progress T)}, takeActionable F q = none → ∀ p ∈ q, ¬ FrontierLe p.lower F := by
  intro q
  induction q with
  | nil => intro _ p hp; simp at hp
  | cons x q ih =>
    intro h p hp
    rw [takeActionable] at h
    by_cases hx : acLe x.lower F = true
    · rw [if_pos hx] at h; simp at h
    · rw [if_neg hx] at h
      cases hq : takeActionable F q with
      | some r => rw [hq] at h; simp at h
      | none =>
        rcases List.mem_cons.1 hp with rfl | hp
        · exact fun hle => hx ((acLe_iff _ _).2 hle)
        · exact ih hq p hp

omit [OrderBot T] [DecidableEq T] in
theorem takeActionable_some {F : List T} : ∀ {q q' : List (Progress T)} {p : Progress T}, takeActionable F q = some (p, q') → FrontierLe p.lower F ∧ q.Perm (p :: q') := by
  intro q
  induction q with
  | nil => intro q' p h; simp [takeActionable] at h
  | cons x q ih =>
    intro q' p h
    rw [takeActionable] at h
    by_cases hx : acLe x.lower F = true
    · rw [if_pos hx] at h
      simp only [Option.some.injEq, Prod.mk.injEq] at h
      obtain ⟨rfl, rfl⟩ := h
      exact ⟨(acLe_iff _ _).1 hx, List.Perm.refl _⟩
    · rw [if_neg hx] at h
      cases hq : takeActionable F q with
      | none => rw [hq] at h; simp at h
      | some r =>
        rw [hq] at h
        simp only [Option.some.injEq, Prod.mk.injEq] at h
        obtain ⟨h1, h2⟩ := ih (p := r.1) (q' := r.2) (by rw [hq])
        obtain ⟨rfl, rfl⟩ := h
        exact ⟨h1, (h2.cons x).trans (List.Perm.swap _ _ _)⟩

/-- What holds of the iterator while it handles a message. `got` are the updates, `said` the progress statements received so far. -/
structure CaptureInv (U got : Upds D T R) (said : List (Progress T)) (it : CaptureIter D T R) : Prop where
  nodup : it.updates.Nodup
  mem : ∀ u, u ∈ it.updates ↔ u ∈ got ∧ Beyond it.reported u.2.1
  gotU : ∀ u ∈ got, u ∈ U
  anti : IsAntichainList it.progress
  le : FrontierLe it.reported it.progress
  count : ∀ t, countAt it.messages t =
    if Beyond it.reported t then (if Beyond it.progress t then 0 else (updatesAt U t : Int)) - updatesAt it.updates t else 0
  queueTrue : ∀ p ∈ it.queue, (CaptureMsg.progress p : CaptureMsg D T R).TrueOf U
  kept : ∀ p ∈ said, p ∈ it.queue ∨ FrontierLe p.upper it.progress

/-- What holds in addition between messages. -/
structure CaptureSettled (it : CaptureIter D T R) : Prop where
  reported : ∀ t, Beyond it.reported t ↔ Beyond it.progress t ∨ ∃ s, s ≤ t ∧ 0 < countAt it.messages s
  queue : ∀ p ∈ it.queue, ¬ FrontierLe p.lower it.progress

variable {U got : Upds D T R} {said : List (Progress T)}

theorem CaptureInv.actOn {it : CaptureIter D T R} (h : CaptureInv U got said it) {p : Progress T} {q : List (Progress T)}
    (hl : FrontierLe p.lower it.progress) (hq : it.queue.Perm (p :: q)) : CaptureInv U got said (it.actOn p q) := by
  have hp := h.queueTrue p (hq.mem_iff.2 (by simp))
  have hb : ∀ t, Beyond (it.actOn p q).progress t ↔ Beyond p.upper t ∧ Beyond it.progress t := fun t => beyond_acJoin _ _ t
  refine ⟨h.nodup, h.mem, h.gotU, isAntichain_acJoin _ _, fun t ht => h.le t ((hb t).1 ht).2, ?_, ?_, ?_⟩
  · intro t
    have hc : (it.actOn p q).messages = it.messages ++ (p.counts.filter fun c => lessEqual it.progress c.1).map fun c => (c.1, (c.2 : Int)) := rfl
    rw [hc, countAt_append, countAt_progress, h.count t]
    change _ = if Beyond it.reported t then (if Beyond (it.actOn p q).progress t then 0 else (updatesAt U t : Int)) - updatesAt it.updates t else 0
    by_cases hpr : Beyond it.progress t
    · rw [if_pos (h.le t hpr), if_pos (h.le t hpr), if_pos ((lessEqual_iff _ _).2 hpr), if_pos hpr]
      by_cases hup : Beyond p.upper t
      · rw [if_pos ((hb t).2 ⟨hup, hpr⟩)]
        have : (p.counts.filter fun c => c.1 = t) = [] := by
          rw [List.filter_eq_nil_iff]
          intro c hc he
          rw [decide_eq_true_eq] at he
          exact (hp.2 c hc).2 (he ▸ hup)
        rw [this]; simp
      · rw [if_neg (fun hx => hup ((hb t).1 hx).1), hp.1 t (hl t hpr) hup]
        ring
    · rw [if_neg (fun hx => hpr ((lessEqual_iff _ _).1 hx)), if_neg hpr, if_neg (fun hx => hpr ((hb t).1 hx).2)]
      simp
  · intro x hx
    exact h.queueTrue x (hq.mem_iff.2 (List.mem_cons_of_mem _ (List.mem_filter.1 hx).1))
  · intro x hx
    rcases h.kept x hx with hx | hx
    · rcases List.mem_cons.1 (hq.mem_iff.1 hx) with rfl | hx
      · exact Or.inr fun t ht => ((hb t).1 ht).1
      · by_cases hd : FrontierLe x.upper (it.actOn p q).progress
        · exact Or.inr hd
        · refine Or.inl (List.mem_filter.2 ⟨hx, ?_⟩)
          rw [Bool.not_eq_true', Bool.eq_false_iff]
          exact fun hle => hd ((acLe_iff _ _).1 hle)
    · exact Or.inr fun t ht => hx t ((hb t).1 ht).2

theorem CaptureInv.drain : ∀ (n : Nat) {it : CaptureIter D T R}, CaptureInv U got said it → it.queue.length ≤ n →
    CaptureInv U got said (CaptureIter.drain n it) ∧ (∀ p ∈ (CaptureIter.drain n it).queue, ¬ FrontierLe p.lower (CaptureIter.drain n it).progress)
      ∧ (CaptureIter.drain n it).reported = it.reported := by
  intro n
  induction n with
  | zero =>
    intro it h hn
    refine ⟨h, ?_, rfl⟩
    have : it.queue = [] := List.eq_nil_of_length_eq_zero (by omega)
    intro p hp
    rw [CaptureIter.drain, this] at hp
    simp at hp
  | succ n ih =>
    intro it h hn
    rw [CaptureIter.drain]
    cases ht : takeActionable it.progress it.queue with
    | none => exact ⟨h, takeActionable_none ht, rfl⟩
    | some r =>
      obtain ⟨p, q⟩ := r
      obtain ⟨h1, h2⟩ := takeActionable_some ht
      have hlen : (it.actOn p q).queue.length ≤ n := by
        have h3 := h2.length_eq
        have h4 : (it.actOn p q).queue.length ≤ q.length := List.length_filter_le _ _
        rw [List.length_cons] at h3
        omega
      exact ih (h.actOn h1 h2) hlen

variable [DecidableEq D] [DecidableEq R]

/-- The updates and progress statements of a message. -/
def CaptureMsg.upds : CaptureMsg D T R → Upds D T R
  | .updates us => us
  | .progress _ => []
def CaptureMsg.progs : CaptureMsg D T R → List (Progress T)
  | .updates _ => []
  | .progress p => [p]

theorem CaptureInv.receive {it : CaptureIter D T R} (h : CaptureInv U got said it) {m : CaptureMsg D T R} (hm : m.TrueOf U) :
    CaptureInv U (got ++ m.upds) (said ++ m.progs) (it.receive m) := by
  cases m with
  | progress p =>
    refine ⟨h.nodup, ?_, ?_, h.anti, h.le, h.count, ?_, ?_⟩
    · intro u
      rw [show got ++ (CaptureMsg.progress p : CaptureMsg D T R).upds = got from List.append_nil _]
      exact h.mem u
    · simpa [CaptureMsg.upds] using h.gotU
    · intro x hx
      rcases List.mem_append.1 hx with hx | hx
      · exact h.queueTrue x hx
      · rw [List.mem_singleton] at hx; exact hx ▸ hm
    · intro x hx
      rcases List.mem_append.1 hx with hx | hx
      · rcases h.kept x hx with hx | hx
        · exact Or.inl (List.mem_append_left _ hx)
        · exact Or.inr hx
      · exact Or.inl (List.mem_append_right _ hx)
  | updates us =>
    set vs := us.filter fun u => lessEqual it.reported u.2.1 && !decide (u ∈ it.updates) with hvs
    have hvn : vs.Nodup := hm.1.filter _
    have hmem : ∀ u, u ∈ vs ↔ u ∈ us ∧ Beyond it.reported u.2.1 ∧ u ∉ it.updates := by
      intro u
      rw [hvs, List.mem_filter, Bool.and_eq_true, lessEqual_iff]
      simp
    have hext : setExtend it.updates vs = it.updates ++ vs := setExtend_eq _ _ hvn fun u hu => ((hmem u).1 hu).2.2
    have hup : (it.receive (.updates us)).updates = it.updates ++ vs := hext
    have hms : (it.receive (.updates us)).messages = it.messages ++ vs.map fun u => (u.2.1, -1) := rfl
    refine ⟨?_, ?_, ?_, h.anti, h.le, ?_, h.queueTrue, ?_⟩
    · rw [hup]
      exact List.nodup_append.2 ⟨h.nodup, hvn, fun a ha b hb hab => ((hmem b).1 hb).2.2 (hab ▸ ha)⟩
    · intro u
      rw [hup]
      simp only [List.mem_append, h.mem u, hmem u, CaptureMsg.upds]
      change _ ↔ _ ∧ Beyond it.reported u.2.1
      tauto
    · intro u hu
      rcases List.mem_append.1 hu with hu | hu
      · exact h.gotU u hu
      · exact hm.2 u hu
    · intro t
      rw [hms, hup, countAt_append, countAt_neg, updatesAt_append, h.count t]
      change _ = if Beyond it.reported t then (if Beyond it.progress t then 0 else (updatesAt U t : Int)) - _ else 0
      by_cases hr : Beyond it.reported t
      · rw [if_pos hr, if_pos hr]
        push_cast
        ring
      · rw [if_neg hr, if_neg hr]
        have : updatesAt vs t = 0 := by
          unfold updatesAt
          rw [List.length_eq_zero_iff, List.filter_eq_nil_iff]
          intro u hu he
          rw [decide_eq_true_eq] at he
          exact hr (he ▸ ((hmem u).1 hu).2.1)
        rw [this]; rfl
    · intro x hx
      simp only [CaptureMsg.progs, List.append_nil] at hx
      exact h.kept x hx

/-- What one round of the iterator yields. -/
structure ReportOk (U : Upds D T R) (F G : List T) (out : Upds D T R) : Prop where
  le : FrontierLe F G
  perm : out.Perm (U.filter fun u => lessEqual F u.2.1 && !lessEqual G u.2.1)

theorem CaptureInv.report (hU : U.Nodup) {it : CaptureIter D T R} (h : CaptureInv U got said it) (hq : ∀ p ∈ it.queue, ¬ FrontierLe p.lower it.progress) :
    CaptureInv U got said it.report.1 ∧ CaptureSettled it.report.1 ∧
      (it.report.2 = none → it.report.1 = it) ∧
      ∀ out, it.report.2 = some out → it.report.1.reported = out.2 ∧ ReportOk U it.reported out.2 out.1 := by
  set lb := acExtend it.progress (messagesFrontier it.messages) with hlb
  have hb : ∀ t, Beyond lb t ↔ Beyond it.progress t ∨ ∃ s, s ≤ t ∧ 0 < countAt it.messages s := by
    intro t; rw [hlb, beyond_acExtend, beyond_messagesFrontier]
  by_cases he : acEq lb it.reported = true
  · have hr : it.report = (it, none) := by
      simp only [CaptureIter.report]
      rw [← hlb, if_neg (by simp [he])]
    rw [hr]
    have hperm := perm_of_acEq he (nodup_of_isAntichain (isAntichain_acExtend _ _ h.anti))
    refine ⟨h, ⟨fun t => ?_, hq⟩, fun _ => rfl, ?_⟩
    · rw [← beyond_perm hperm]; exact hb t
    · intro out ho; simp at ho
  · have hr : it.report = ({ it with updates := it.updates.filter fun u => lessEqual lb u.2.1, reported := lb },
        some (it.updates.filter fun u => !lessEqual lb u.2.1, lb)) := by
      simp only [CaptureIter.report]
      rw [← hlb, if_pos (by simp [he])]
    have hsubU : ∀ u ∈ it.updates, u ∈ U := fun u hu => h.gotU u ((h.mem u).1 hu).1
    -- the frontier advances
    have hle : FrontierLe it.reported lb := by
      intro t ht
      rcases (hb t).1 ht with ht | ⟨s, hst, hs⟩
      · exact h.le t ht
      · by_contra hn
        have : ¬ Beyond it.reported s := fun hx => hn (beyond_mono hx hst)
        rw [h.count s, if_neg this] at hs
        exact lt_irrefl _ hs
    -- all updates at times passed are present
    have hfull : ∀ t, Beyond it.reported t → ¬ Beyond lb t → updatesAt U t ≤ updatesAt it.updates t := by
      intro t h1 h2
      have h3 : ¬ Beyond it.progress t := fun hx => h2 ((hb t).2 (Or.inl hx))
      have h4 : ¬ 0 < countAt it.messages t := fun hx => h2 ((hb t).2 (Or.inr ⟨t, le_refl _, hx⟩))
      rw [h.count t, if_pos h1, if_neg h3] at h4
      omega
    rw [hr]
    refine ⟨⟨h.nodup.filter _, ?_, h.gotU, h.anti, fun t ht => (hb t).2 (Or.inl ht), ?_, h.queueTrue, h.kept⟩, ⟨hb, hq⟩, ?_, ?_⟩
    · intro u
      change u ∈ it.updates.filter _ ↔ _ ∧ Beyond lb u.2.1
      rw [List.mem_filter, lessEqual_iff, h.mem u]
      exact ⟨fun hx => ⟨hx.1.1, hx.2⟩, fun hx => ⟨⟨hx.1, hle _ hx.2⟩, hx.2⟩⟩
    · intro t
      change countAt it.messages t = if Beyond lb t then (if Beyond it.progress t then 0 else (updatesAt U t : Int)) - updatesAt (it.updates.filter _) t else 0
      by_cases ht : Beyond lb t
      · rw [if_pos ht, h.count t, if_pos (hle t ht)]
        congr 2
        unfold updatesAt
        rw [List.filter_filter]
        congr 1
        refine List.filter_congr fun u _ => ?_
        by_cases hu : u.2.1 = t
        · simp [hu, (lessEqual_iff _ _).2 ht]
        · simp [hu]
      · rw [if_neg ht, h.count t]
        by_cases hr : Beyond it.reported t
        · rw [if_pos hr, if_neg (fun hx => ht ((hb t).2 (Or.inl hx)))]
          have h1 := hfull t hr ht
          have h2 := updatesAt_le h.nodup hsubU t
          omega
        · rw [if_neg hr]
    · intro hn; simp at hn
    · intro out ho
      simp only [Option.some.injEq] at ho
      subst ho
      refine ⟨rfl, hle, ?_⟩
      rw [List.perm_ext_iff_of_nodup (h.nodup.filter _) (hU.filter _)]
      intro u
      rw [List.mem_filter, List.mem_filter, Bool.and_eq_true, lessEqual_iff, Bool.not_eq_true', Bool.eq_false_iff, Ne, lessEqual_iff]
      constructor
      · rintro ⟨h1, h2⟩
        exact ⟨hsubU u h1, ((h.mem u).1 h1).2, h2⟩
      · rintro ⟨h1, h2, h3⟩
        exact ⟨mem_of_updatesAt_eq h.nodup hsubU u.2.1 (hfull _ h2 h3) h1 rfl, h3⟩

/-- What holds of the iterator after the outputs `outs`. -/
structure CaptureRunOk (U got : Upds D T R) (said : List (Progress T)) (it : CaptureIter D T R) : Prop where
  inv : CaptureInv U got said it
  settled : CaptureSettled it

theorem CaptureRunOk.step (hU : U.Nodup) {it : CaptureIter D T R} (h : CaptureRunOk U got said it) {m : CaptureMsg D T R} (hm : m.TrueOf U) :
    CaptureRunOk U (got ++ m.upds) (said ++ m.progs) (it.step m).1 ∧
      ((it.step m).2 = none → (it.step m).1.reported = it.reported) ∧
      ∀ out, (it.step m).2 = some out → (it.step m).1.reported = out.2 ∧ ReportOk U it.reported out.2 out.1 := by
  obtain ⟨h1, h2, h3⟩ := (h.inv.receive hm).drain (it.receive m).queue.length (le_refl _)
  have h4 : (it.receive m).reported = it.reported := by cases m <;> rfl
  obtain ⟨h5, h6, h7, h8⟩ := h1.report hU h2
  refine ⟨⟨h5, h6⟩, fun hn => ?_, fun out ho => ?_⟩
  · change (CaptureIter.report _).1.reported = _
    rw [h7 hn, h3, h4]
  · have := h8 out ho
    rw [h3, h4] at this
    exact this

theorem CaptureRunOk.next (hU : U.Nodup) : ∀ (ms : List (CaptureMsg D T R)) {got : Upds D T R} {said : List (Progress T)} {it : CaptureIter D T R},
    CaptureRunOk U got said it → (∀ m ∈ ms, m.TrueOf U) →
    ∃ done, ms = done ++ (it.next ms).2.1 ∧ CaptureRunOk U (got ++ done.flatMap (·.upds)) (said ++ done.flatMap (·.progs)) (it.next ms).1 ∧
      ((it.next ms).2.2 = none → (it.next ms).2.1 = [] ∧ (it.next ms).1.reported = it.reported) ∧
      ∀ out, (it.next ms).2.2 = some out → (it.next ms).2.1.length < ms.length ∧ (it.next ms).1.reported = out.2 ∧ ReportOk U it.reported out.2 out.1 := by
  intro ms
  induction ms with
  | nil =>
    intro got said it h _
    refine ⟨[], rfl, by simpa [CaptureIter.next] using h, fun _ => ⟨rfl, rfl⟩, fun out ho => by simp [CaptureIter.next] at ho⟩
  | cons m ms ih =>
    intro got said it h hm
    obtain ⟨h1, h2, h3⟩ := h.step hU (hm m (by simp))
    rw [CaptureIter.next]
    cases hs : it.step m with
    | mk it1 r =>
      rw [hs] at h1 h2 h3
      cases r with
      | some out =>
        refine ⟨[m], rfl, by simpa using h1, fun hn => by simp at hn, fun o ho => ?_⟩
        simp only [Option.some.injEq] at ho
        subst ho
        exact ⟨by simp, h3 _ rfl⟩
      | none =>
        obtain ⟨done, g1, g2, g3, g4⟩ := ih h1 fun m hx => hm m (by simp [hx])
        refine ⟨m :: done, by rw [List.cons_append, ← g1], by simpa using g2, fun hn => ?_, fun out ho => ?_⟩
        · exact ⟨(g3 hn).1, (g3 hn).2.trans (h2 rfl)⟩
        · obtain ⟨k1, k2, k3⟩ := g4 out ho
          have h2' : it1.reported = it.reported := h2 rfl
          rw [h2'] at k3
          exact ⟨by rw [List.length_cons]; exact Nat.lt_succ_of_lt k1, k2, k3⟩

theorem lastAnnounced_cons (lo : List T) (out : Upds D T R × List T) (outs : List (Upds D T R × List T)) :
    lastAnnounced lo (out :: outs) = lastAnnounced out.2 outs := by
  cases outs with
  | nil => rfl
  | cons o os => rw [lastAnnounced, lastAnnounced, List.getLast?_cons_cons]; simp [List.getLast?_cons]

theorem CaptureRunOk.collect (hU : U.Nodup) : ∀ (n : Nat) (ms : List (CaptureMsg D T R)) {got : Upds D T R} {said : List (Progress T)} {it : CaptureIter D T R},
    CaptureRunOk U got said it → (∀ m ∈ ms, m.TrueOf U) → ms.length < n →
    CaptureRunOk U (got ++ ms.flatMap (·.upds)) (said ++ ms.flatMap (·.progs)) (CaptureIter.collect n it ms).1 ∧
      (CaptureIter.collect n it ms).1.reported = lastAnnounced it.reported (CaptureIter.collect n it ms).2 ∧
      FrontierLe it.reported (CaptureIter.collect n it ms).1.reported ∧
      OutputsTile it.reported (CaptureIter.collect n it ms).2 ∧
      ((CaptureIter.collect n it ms).2.flatMap (·.1)).Perm
        (U.filter fun u => lessEqual it.reported u.2.1 && !lessEqual (CaptureIter.collect n it ms).1.reported u.2.1) := by
  intro n
  induction n with
  | zero => intro ms got said it _ _ hn; omega
  | succ n ih =>
    intro ms got said it h hm hn
    obtain ⟨done, g1, g2, g3, g4⟩ := CaptureRunOk.next hU ms h hm
    rw [CaptureIter.collect]
    cases hs : it.next ms with
    | mk it1 r =>
      obtain ⟨ms1, r⟩ := r
      rw [hs] at g1 g2 g3 g4
      cases r with
      | none =>
        obtain ⟨e1, e2⟩ := g3 rfl
        change ms1 = [] at e1
        change it1.reported = it.reported at e2
        subst e1
        rw [List.append_nil] at g1
        subst g1
        refine ⟨g2, e2, by change FrontierLe _ it1.reported; rw [e2]; exact fun _ hx => hx, trivial, ?_⟩
        change List.Perm [] (U.filter fun u => lessEqual it.reported u.2.1 && !lessEqual it1.reported u.2.1)
        rw [e2, List.filter_eq_nil_iff.2 (fun u _ => by simp)]
      | some out =>
        obtain ⟨k1, k2, k3⟩ := g4 out rfl
        change ms1.length < ms.length at k1
        change it1.reported = out.2 at k2
        have hm1 : ∀ m ∈ ms1, m.TrueOf U := fun m hx => hm m (by rw [g1]; exact List.mem_append_right _ hx)
        obtain ⟨c1, c2, c3, c4, c5⟩ := ih ms1 g2 hm1 (by omega)
        rw [k2] at c2 c3 c4 c5
        refine ⟨?_, ?_, k3.le.trans c3, ⟨k3.le, ?_, c4⟩, ?_⟩
        · have : got ++ ms.flatMap (·.upds) = got ++ done.flatMap (·.upds) ++ ms1.flatMap (·.upds) := by
            conv_lhs => rw [g1]
            simp
          rw [this]
          have : said ++ ms.flatMap (·.progs) = said ++ done.flatMap (·.progs) ++ ms1.flatMap (·.progs) := by
            conv_lhs => rw [g1]
            simp
          rw [this]
          exact c1
        · rw [lastAnnounced_cons]; exact c2
        · intro u hu
          have := (List.mem_filter.1 (k3.perm.mem_iff.1 hu)).2
          rw [Bool.and_eq_true, lessEqual_iff, Bool.not_eq_true', Bool.eq_false_iff, Ne, lessEqual_iff] at this
          exact this
        · change ((out :: (CaptureIter.collect n it1 ms1).2).flatMap (·.1)).Perm _
          rw [List.flatMap_cons]
          refine (k3.perm.append c5).trans ?_
          change List.Perm _ (U.filter fun u => lessEqual it.reported u.2.1 && !lessEqual (CaptureIter.collect n it1 ms1).1.reported u.2.1)
          rw [List.perm_ext_iff_of_nodup _ (hU.filter _)]
          · intro u
            simp only [List.mem_append, List.mem_filter, Bool.and_eq_true, lessEqual_iff, Bool.not_eq_true', Bool.eq_false_iff, Ne]
            have l1 := k3.le u.2.1
            have l2 := c3 u.2.1
            tauto
          · refine List.nodup_append.2 ⟨hU.filter _, hU.filter _, ?_⟩
            intro a ha b hb hab
            subst hab
            have h1 := (List.mem_filter.1 ha).2
            have h2 := (List.mem_filter.1 hb).2
            simp only [Bool.and_eq_true, Bool.not_eq_true'] at h1 h2
            rw [h1.2] at h2
            exact absurd h2.1 (by simp)

theorem captureNew_ok : CaptureRunOk U [] [] (CaptureIter.new (D := D) (R := R) (⊥ : T)) := by
  refine ⟨⟨List.nodup_nil, ?_, ?_, ?_, fun _ h => h, ?_, ?_, ?_⟩, ⟨?_, ?_⟩⟩
  · simp [CaptureIter.new]
  · simp
  · exact isAntichain_bot
  · intro t
    have : Beyond [(⊥ : T)] t := ⟨⊥, by simp, bot_le⟩
    change countAt [] t = if Beyond [(⊥ : T)] t then (if Beyond [(⊥ : T)] t then 0 else _) - (updatesAt [] t : Int) else 0
    rw [if_pos this, if_pos this]
    rfl
  · simp [CaptureIter.new]
  · simp
  · intro t
    have : Beyond [(⊥ : T)] t := ⟨⊥, by simp, bot_le⟩
    exact ⟨fun _ => Or.inl this, fun _ => this⟩
  · simp [CaptureIter.new]

/-- If all updates arrived, and a chain of progress statements, then the frontier reported is beyond the end of the chain. -/
theorem CaptureRunOk.complete {it : CaptureIter D T R} (h : CaptureRunOk U got said it) (hgot : ∀ u ∈ U, u ∈ got) (hU : U.Nodup) :
    ∀ (ps : List (Progress T)) {lo hi : List T}, ProgressChain lo ps hi → (∀ p ∈ ps, p ∈ said) → FrontierLe lo it.progress → FrontierLe hi it.reported := by
  intro ps
  induction ps with
  | nil =>
    intro lo hi hc _ hle t ht
    obtain rfl : lo = hi := hc
    rcases (h.settled.reported t).1 ht with ht | ⟨s, hst, hs⟩
    · exact hle t ht
    · by_contra _
      rw [h.inv.count s] at hs
      by_cases hr : Beyond it.reported s
      · rw [if_pos hr] at hs
        by_cases hp : Beyond it.progress s
        · rw [if_pos hp] at hs; omega
        · rw [if_neg hp] at hs
          have : updatesAt U s ≤ updatesAt it.updates s := by
            refine List.Subperm.length_le (List.subperm_of_subset (hU.filter _) ?_)
            intro u hu
            rw [List.mem_filter, decide_eq_true_eq] at hu
            exact List.mem_filter.2 ⟨(h.inv.mem u).2 ⟨hgot u hu.1, hu.2 ▸ hr⟩, by simp [hu.2]⟩
          omega
      · rw [if_neg hr] at hs; exact lt_irrefl _ hs
  | cons p ps ih =>
    intro lo hi hc hs hle
    obtain ⟨rfl, hc⟩ := hc
    refine ih hc (fun p hp => hs p (by simp [hp])) ?_
    rcases h.inv.kept p (hs p (by simp)) with hq | hq
    · exact absurd hle (h.settled.queue p hq)
    · exact hq

end iter

end DD
