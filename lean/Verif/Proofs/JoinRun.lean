import Verif.Proofs.JoinQueue
import Verif.Proofs.SpineRun
import Verif.Proofs.ReduceInv

/-!
# The `join` operator over runs
-/

namespace DD
variable {K V V1 V2 T R R1 R2 S D M : Type*}

section
variable [Lattice T] [DecidableLE T] [DecidableEq D] [AddCommMonoid R]

theorem before_split (us : Upds D T R) {F G : List T} (h : FrontierLe F G) (d : D) (q : T) :
    accum (before us G) d q = accum (before us F) d q + accum (within us F G) d q := by
  induction us with
  | nil => simp [before, within]
  | cons u us ih =>
    simp only [before, within, List.filter_cons] at ih ⊢
    by_cases hG : Beyond G u.2.1
    · have hF := h _ hG
      simp only [hG, hF, not_true, and_false, decide_false, Bool.false_eq_true, if_false]
      exact ih
    · by_cases hF : Beyond F u.2.1
      · simp only [hG, hF, not_true, not_false_iff, and_true, decide_false, decide_true, Bool.false_eq_true, if_false, if_true, accum_cons, ih]
        abel
      · simp only [hG, hF, not_false_iff, and_true, decide_false, decide_true, Bool.false_eq_true, if_false, if_true, accum_cons, ih]
        abel

theorem within_split (us : Upds D T R) {F G H : List T} (h : FrontierLe F G) (h' : FrontierLe G H) (d : D) (q : T) :
    accum (within us F H) d q = accum (within us F G) d q + accum (within us G H) d q := by
  induction us with
  | nil => simp [within]
  | cons u us ih =>
    simp only [within, List.filter_cons] at ih ⊢
    by_cases hH : Beyond H u.2.1
    · have hG := h' _ hH
      simp only [hH, hG, not_true, and_false, decide_false, Bool.false_eq_true, if_false]
      exact ih
    · by_cases hG : Beyond G u.2.1
      · have hF := h _ hG
        simp only [hH, hG, hF, not_true, not_false_iff, and_true, and_false, decide_false, decide_true, Bool.false_eq_true, if_false, if_true, accum_cons, ih]
        abel
      · by_cases hF : Beyond F u.2.1
        · simp only [hH, hG, hF, not_true, not_false_iff, and_true, and_false, decide_false, decide_true, Bool.false_eq_true, if_false, if_true, accum_cons, ih]
          abel
        · simp only [hH, hG, hF, not_true, not_false_iff, and_true, and_false, decide_false, decide_true, Bool.false_eq_true, if_false, if_true, accum_cons, ih]

omit [DecidableEq D] [AddCommMonoid R] in
theorem within_of_le (us : Upds D T R) {F G : List T} (h : FrontierLe G F) : within us F G = [] := by
  unfold within
  rw [List.filter_eq_nil_iff]
  intro u _
  simp only [decide_eq_true_eq, not_and, not_not]
  exact h _

omit [DecidableEq D] [AddCommMonoid R] in
theorem within_skip {us : Upds D T R} {F G H : List T} (h : FrontierLe F G) (hs : ∀ u ∈ us, Beyond F u.2.1 → Beyond G u.2.1) : within us F H = within us G H := by
  unfold within
  apply List.filter_congr
  intro u hu
  have : Beyond F u.2.1 ↔ Beyond G u.2.1 := ⟨hs u hu, h _⟩
  simp [this]

end

section
variable [Lattice T] [OrderBot T] [DecidableLE T] [DecidableEq T] [LinearOrder K] [LinearOrder V] [AddCommMonoid R]

/-- What is known of an input: batches were received up to `got`, and acknowledged up to `ack`. -/
structure SideInv (s : JoinSide K V T R) (trace : Option (TraceHandle T)) (pre got ack : List T) : Prop where
  boundPre : s.bound pre
  boundGot : s.bound got
  boundAck : s.bound ack
  preAck : FrontierLe pre ack
  gotAck : FrontierLe got ack
  physical : ∀ h ∈ trace, ∀ P ∈ h.physical, FrontierLe P ack
  ordered : ∀ h ∈ trace, h.physical.Pairwise FrontierLe
  /-- What is acknowledged but not received accumulates to zero. -/
  zero : ∀ h ∈ trace, ∀ F, s.bound F → FrontierLe got F → FrontierLe F ack → ∀ kv q, Beyond s.since q → (∀ L ∈ h.logical, Beyond L q) → accum (within s.upds got F) kv q = 0

/-- A batch is received. -/
theorem SideInv.batch {s : JoinSide K V T R} {trace : Option (TraceHandle T)} {pre got ack lower upper frontier : List T} {time : T} {batch : Contents K V T R}
    (h : SideInv s trace pre got ack) (hl : LegalBatch s got frontier time lower upper batch) :
    SideInv s trace pre upper (if acLe ack lower then upper else ack) := by
  have gu : FrontierLe got upper := hl.inOrder.trans hl.interval
  by_cases hc : FrontierLe ack lower
  · rw [if_pos ((acLe_iff _ _).2 hc)]
    have au : FrontierLe ack upper := hc.trans hl.interval
    refine ⟨h.boundPre, hl.bounds.2, hl.bounds.2, h.preAck.trans au, fun q x => x, fun t ht P hP => (h.physical t ht P hP).trans au, h.ordered, ?_⟩
    intro t ht F _ h1 h2 kv q _ _
    rw [within_of_le _ h2, accum_nil]
  · rw [if_neg (by rw [acLe_iff]; exact hc)]
    have ua : FrontierLe upper ack := (hl.whole ack h.boundAck).resolve_left hc
    refine ⟨h.boundPre, hl.bounds.2, h.boundAck, h.preAck, ua, h.physical, h.ordered, ?_⟩
    intro t ht F hb h1 h2 kv q hq hL
    have e1 := h.zero t ht F hb (gu.trans h1) h2 kv q hq hL
    have e2 := h.zero t ht upper hl.bounds.2 gu ua kv q hq hL
    rw [within_split _ gu h1, e2, zero_add] at e1
    exact e1

/-- Empty batches of the trace are acknowledged. -/
theorem SideInv.advance {s : JoinSide K V T R} (hs : s.Chain) {handle : TraceHandle T} {pre got : List T} (shown : List (Description T × Bool)) :
    ∀ {ack : List T}, SideInv s (some handle) pre got ack → (∀ d ∈ shown, LegalShown s handle d) →
      SideInv s (some handle) pre got (advanceUpper shown ack) ∧ FrontierLe ack (advanceUpper shown ack) := by
  induction shown with
  | nil => exact fun h _ => ⟨h, fun q x => x⟩
  | cons d shown ih =>
    intro ack h hd
    have e : advanceUpper (d :: shown) ack = advanceUpper shown (if d.2 && acEq d.1.lower ack then d.1.upper else ack) := rfl
    rw [e]
    have hd' : ∀ x ∈ shown, LegalShown s handle x := fun x hx => hd x (List.mem_cons_of_mem _ hx)
    by_cases hc : (d.2 && acEq d.1.lower ack) = true
    swap
    · rw [if_neg hc]; exact ih h hd'
    rw [if_pos hc]
    rw [Bool.and_eq_true] at hc
    have ld := hd d (List.mem_cons_self ..)
    have hp := perm_of_acEq hc.2 (nodup_of_isAntichain (hs.antichain _ ld.bounds.1))
    have al : FrontierLe ack d.1.lower := frontierLe_of_perm hp.symm
    have la : FrontierLe d.1.lower ack := frontierLe_of_perm hp
    have au : FrontierLe ack d.1.upper := al.trans ld.interval
    suffices hx : SideInv s (some handle) pre got d.1.upper by
      obtain ⟨r1, r2⟩ := ih hx hd'
      exact ⟨r1, au.trans r2⟩
    refine ⟨h.boundPre, h.boundGot, ld.bounds.2, h.preAck.trans au, h.gotAck.trans au, fun t ht P hP => (h.physical t ht P hP).trans au, h.ordered, ?_⟩
    intro t ht F hb h1 h2 kv q hq hL
    rcases hs.total F ack hb h.boundAck with hF | hF
    · exact h.zero t ht F hb h1 hF kv q hq hL
    · simp only [Option.mem_def, Option.some.injEq] at ht
      subst ht
      rw [within_split _ h.gotAck hF, h.zero _ rfl ack h.boundAck h.gotAck (fun q x => x) kv q hq hL, zero_add]
      have := ld.empty hc.1 (fun P hP => (h.physical _ rfl P hP).trans al) F hb (la.trans hF) h2 kv q hq hL
      rwa [show within s.upds d.1.lower F = within s.upds ack F from within_skip la (fun u _ => al _)] at this

/-- Permissions are given. -/
theorem SideInv.maintain {s : JoinSide K V T R} {trace : Option (TraceHandle T)} {pre got ack : List T} (frontier : List T) (h : SideInv s trace pre got ack) :
    SideInv s (TraceHandle.maintain trace frontier ack) pre got ack := by
  cases trace with
  | none => exact h
  | some handle =>
    unfold TraceHandle.maintain
    simp only
    by_cases hf : frontier.isEmpty = true
    · rw [if_pos hf]
      exact ⟨h.boundPre, h.boundGot, h.boundAck, h.preAck, h.gotAck, by simp, by simp, by simp⟩
    · rw [if_neg hf]
      refine ⟨h.boundPre, h.boundGot, h.boundAck, h.preAck, h.gotAck, ?_, ?_, ?_⟩
      · intro t ht P hP
        simp only [Option.mem_def, Option.some.injEq] at ht
        subst ht
        rcases List.mem_append.1 hP with hP | hP
        · exact h.physical _ rfl P hP
        · rw [List.mem_singleton.1 hP]; exact fun q x => x
      · intro t ht
        simp only [Option.mem_def, Option.some.injEq] at ht
        subst ht
        refine List.pairwise_append.2 ⟨h.ordered _ rfl, List.pairwise_singleton _ _, ?_⟩
        intro P hP Q hQ
        rw [List.mem_singleton.1 hQ]
        exact h.physical _ rfl P hP
      · intro t ht F hb h1 h2 kv q hq hL
        simp only [Option.mem_def, Option.some.injEq] at ht
        subst ht
        exact h.zero _ rfl F hb h1 h2 kv q hq fun L hL' => hL L (List.mem_append_left _ hL')

end

section
variable [Lattice T] [OrderBot T] [DecidableLE T] [DecidableEq T] [LinearOrder (Lin T)] [LinearOrder K] [LinearOrder V1] [LinearOrder V2]
  [AddCommMonoid R1] [DecidableEq R1] [AddCommMonoid R2] [DecidableEq R2] [DecidableEq D] [AddCommMonoid M]

/-- The invariant of the operator. -/
structure JoinInv (B : OutBuilder S D T M) (ok : S → Prop) (held : S → Upds D T M) (result : K → V1 → V2 → List D) (mul : R1 →+ R2 →+ M)
    (s1 : JoinSide K V1 T R1) (s2 : JoinSide K V2 T R2) (f : JoinFeed T) (st : JoinOp K V1 V2 T R1 R2 S D M) : Prop where
  side1 : SideInv s1 st.trace1 st.pre1 f.got1 st.ack1
  side2 : SideInv s2 st.trace2 st.pre2 f.got2 st.ack2
  dropped1 : st.trace1 = none → f.frontier2 = []
  dropped2 : st.trace2 = none → f.frontier1 = []
  logical1 : ∀ h ∈ st.trace1, h.logical.Pairwise FrontierLe ∧ ∀ L ∈ h.logical, FrontierLe L f.frontier2
  logical2 : ∀ h ∈ st.trace2, h.logical.Pairwise FrontierLe ∧ ∀ L ∈ h.logical, FrontierLe L f.frontier1
  later1 : ∀ u ∈ s1.upds, Beyond f.got1 u.2.1 → Beyond f.frontier1 u.2.1
  later2 : ∀ u ∈ s2.upds, Beyond f.got2 u.2.1 → Beyond f.frontier2 u.2.1
  reads : ∀ r ∈ st.reads, r.Respects
  sent : ∀ s ∈ st.sent, ∀ u ∈ s.2, s.1 ≤ u.2.1
  value : ∃ W0 W1, JoinQueueOk B ok held result mul st.todo0 W0 ∧ JoinQueueOk B ok held result mul st.todo1 W1 ∧
    ∀ d q, Beyond s1.since q → Beyond s2.since q → accum (sentUpds st.sent) d q + W0 d q + W1 d q
      = accum (nestedJoin result (fun a b => mul a b) (before s1.upds f.got1) (before s2.upds f.got2)) d q

omit [OrderBot T] [DecidableEq T] [LinearOrder (Lin T)] [DecidableEq R1] [AddCommMonoid R2] [DecidableEq R2] [DecidableEq D] [AddCommMonoid M] [LinearOrder V2] in
theorem showsBatch_times {batch : Contents K V1 T R1} {us : Upds (K × V1) T R1} (h : ShowsBatch batch us) {time : T} (ht : ∀ u ∈ us, time ≤ u.2.1) :
    ∀ u ∈ contentsUpds batch, time ≤ u.2.1 := by
  intro u hu
  simp only [contentsUpds, List.mem_flatMap, tagKey, List.mem_map] at hu
  obtain ⟨kv, hkv, w, hw, rfl⟩ := hu
  have : w.2.1 ∈ (keyUpds batch kv.1).map (·.2.1) := by
    refine List.mem_map.2 ⟨w, ?_, rfl⟩
    unfold keyUpds
    exact List.mem_flatMap.2 ⟨kv, hkv, by rw [if_pos rfl]; exact hw⟩
  obtain ⟨x, hx, _, e⟩ := h.times _ _ this
  simp only
  rw [← e]
  exact ht x hx

/-- Work for a batch of the first input adds what is missing. -/
theorem batch1_value {s1 : JoinSide K V1 T R1} {s2 : JoinSide K V2 T R2} {handle : TraceHandle T} {pre2 got1 got2 ack2 frontier1 lower upper : List T} {time : T}
    {batch : Contents K V1 T R1} {seen : Contents K V2 T R2} (result : K → V1 → V2 → List D) (mul : R1 →+ R2 →+ M)
    (h2 : SideInv s2 (some handle) pre2 got2 ack2) (hl : LegalBatch s1 got1 frontier1 time lower upper batch) (hs : ShowsThrough s2 handle ack2 seen)
    (hb : ∀ L ∈ handle.logical, Beyond L time) (d : D) (q : T) (q2 : Beyond s2.since q) :
    accum (nestedJoin result (fun a b => mul a b) (before s1.upds got1) (before s2.upds got2)) d q
      + accum (nestedJoin result (fun a b => mul a b) (contentsUpds batch) (contentsUpds seen)) d q
      = accum (nestedJoin result (fun a b => mul a b) (before s1.upds upper) (before s2.upds got2)) d q := by
  have gu : FrontierLe got1 upper := hl.inOrder.trans hl.interval
  have e1 : ∀ kv, accum (before s1.upds upper) kv q = accum (before s1.upds got1 ++ within s1.upds lower upper) kv q := by
    intro kv
    rw [before_split _ gu, accum_append, within_skip hl.inOrder hl.skipped]
  rw [nestedJoin_congr e1 (fun _ => rfl), nestedJoin_append_left]
  congr 1
  have eb : ∀ kv, accum (contentsUpds batch) kv q = accum (within s1.upds lower upper) kv q := by
    rintro ⟨k, v⟩
    rw [accum_contentsUpds, hl.shows.agrees]
  by_cases hq : ∀ L ∈ handle.logical, Beyond L q
  · apply nestedJoin_congr eb
    rintro ⟨k, v⟩
    obtain ⟨_, hs⟩ := hs h2.boundAck (h2.physical _ rfl)
    rw [accum_contentsUpds, hs k v q q2 hq, before_split _ h2.gotAck, h2.zero _ rfl ack2 h2.boundAck h2.gotAck (fun q x => x) _ q q2 hq, add_zero]
  · have ht : ¬ time ≤ q := by
      intro ht
      apply hq
      intro L hL
      obtain ⟨f, hf, hle⟩ := hb L hL
      exact ⟨f, hf, hle.trans ht⟩
    rw [nestedJoin_zero_left fun kv => accum_zero_above (showsBatch_times hl.shows hl.times) ht kv, nestedJoin_zero_left fun kv => accum_zero_above hl.times ht kv]

/-- Work for a batch of the second input adds what is missing. -/
theorem batch2_value {s1 : JoinSide K V1 T R1} {s2 : JoinSide K V2 T R2} {handle : TraceHandle T} {pre1 got1 got2 ack1 frontier2 lower upper : List T} {time : T}
    {batch : Contents K V2 T R2} {seen : Contents K V1 T R1} (result : K → V1 → V2 → List D) (mul : R1 →+ R2 →+ M)
    (h1 : SideInv s1 (some handle) pre1 got1 ack1) (hl : LegalBatch s2 got2 frontier2 time lower upper batch) (hs : ShowsThrough s1 handle ack1 seen)
    (hb : ∀ L ∈ handle.logical, Beyond L time) (d : D) (q : T) (q1 : Beyond s1.since q) :
    accum (nestedJoin result (fun a b => mul a b) (before s1.upds got1) (before s2.upds got2)) d q
      + accum (nestedJoin result (fun a b => mul a b) (contentsUpds seen) (contentsUpds batch)) d q
      = accum (nestedJoin result (fun a b => mul a b) (before s1.upds got1) (before s2.upds upper)) d q := by
  have gu : FrontierLe got2 upper := hl.inOrder.trans hl.interval
  have e1 : ∀ kv, accum (before s2.upds upper) kv q = accum (before s2.upds got2 ++ within s2.upds lower upper) kv q := by
    intro kv
    rw [before_split _ gu, accum_append, within_skip hl.inOrder hl.skipped]
  rw [nestedJoin_congr (us2 := before s2.upds upper) (fun _ => rfl) e1, nestedJoin_append_right]
  congr 1
  have eb : ∀ kv, accum (contentsUpds batch) kv q = accum (within s2.upds lower upper) kv q := by
    rintro ⟨k, v⟩
    rw [accum_contentsUpds, hl.shows.agrees]
  by_cases hq : ∀ L ∈ handle.logical, Beyond L q
  · refine nestedJoin_congr ?_ eb d
    rintro ⟨k, v⟩
    obtain ⟨_, hs⟩ := hs h1.boundAck (h1.physical _ rfl)
    rw [accum_contentsUpds, hs k v q q1 hq, before_split _ h1.gotAck, h1.zero _ rfl ack1 h1.boundAck h1.gotAck (fun q x => x) _ q q1 hq, add_zero]
  · have ht : ¬ time ≤ q := by
      intro ht
      apply hq
      intro L hL
      obtain ⟨f, hf, hle⟩ := hb L hL
      exact ⟨f, hf, hle.trans ht⟩
    rw [nestedJoin_zero_right fun kv => accum_zero_above (showsBatch_times hl.shows hl.times) ht kv, nestedJoin_zero_right fun kv => accum_zero_above hl.times ht kv]

theorem onBatch1_inv {B : OutBuilder S D T M} {ok : S → Prop} {held : S → Upds D T M} (hB : B.Keeps ok held) {result : K → V1 → V2 → List D} {mul : R1 →+ R2 →+ M}
    {s1 : JoinSide K V1 T R1} {s2 : JoinSide K V2 T R2} {f : JoinFeed T} {st : JoinOp K V1 V2 T R1 R2 S D M} (h : JoinInv B ok held result mul s1 s2 f st)
    {time : T} {lower upper : List T} {batch : Contents K V1 T R1} {through2 : List T → Contents K V2 T R2} (hl : LegalEv s1 s2 f st (.batch1 time lower upper batch through2)) :
    ∃ st', st.onBatch1 B time lower upper batch through2 = some st' ∧ JoinInv B ok held result mul s1 s2 (f.next st (.batch1 time lower upper batch through2)) st' := by
  obtain ⟨ht, hl⟩ := hl
  unfold JoinOp.onBatch1
  cases htr : st.trace2 with
  | none =>
    rw [h.dropped2 htr] at ht
    obtain ⟨x, hx, _⟩ := ht
    exact absurd hx (by simp)
  | some handle =>
    simp only [JoinFeed.next]
    by_cases hp : acLe upper st.pre1 = true
    · have ha : acLe upper st.ack1 = true := (acLe_iff _ _).2 (FrontierLe.trans ((acLe_iff _ _).1 hp) h.side1.preAck)
      refine ⟨st, by simp [hp, ha], ?_⟩
      rw [if_pos hp]; exact h
    · have hn : ¬ FrontierLe upper st.pre1 := fun x => hp ((acLe_iff _ _).2 x)
      obtain ⟨lb, hs⟩ := hl hn
      have hs := hs handle htr
      have p2 : acLe st.pre1 lower = true := (acLe_iff _ _).2 ((lb.whole _ h.side1.boundPre).resolve_right hn)
      have p3 : (acLe st.ack1 lower || acLe upper st.ack1) = true := by
        rw [Bool.or_eq_true, acLe_iff, acLe_iff]; exact lb.whole _ h.side1.boundAck
      have hb : ∀ L ∈ handle.logical, Beyond L time := fun L hL => (h.logical2 _ htr).2 L hL _ ht
      have gu : FrontierLe f.got1 upper := lb.inOrder.trans lb.interval
      have later : ∀ u ∈ s1.upds, Beyond upper u.2.1 → Beyond f.frontier1 u.2.1 := fun u hu hx => h.later1 u hu (gu _ hx)
      have side2 := h.side2
      rw [htr] at side2
      have hv := fun (d : D) (q : T) (q2 : Beyond s2.since q) => batch1_value result mul side2 lb hs hb d q q2
      simp only [p2, p3, Bool.or_true, if_true, hp, Bool.not_false, Bool.false_eq_true, if_false]
      obtain ⟨W0, W1, v0, v1, v2⟩ := h.value
      by_cases he : batch.isEmpty = true
      · have he' : batch = [] := List.isEmpty_iff.1 he
        simp only [he, Bool.not_true, Bool.false_eq_true, if_false]
        refine ⟨{ st with ack1 := if acLe st.ack1 lower then upper else st.ack1 }, by split_ifs <;> rfl, ?_⟩
        refine ⟨h.side1.batch lb, h.side2, h.dropped1, h.dropped2, h.logical1, h.logical2, later, h.later2, h.reads, h.sent, W0, W1, v0, v1, ?_⟩
        intro d q q1 q2
        simp only
        rw [v2 d q q1 q2, ← hv d q q2, he']
        simp [contentsUpds, nestedJoin]
      · have he' : batch.isEmpty = false := by simpa using he
        simp only [he', Bool.not_false, if_true]
        refine ⟨{ st with
          ack1 := if acLe st.ack1 lower then upper else st.ack1
          todo0 := st.todo0 ++ [(time, DeferredIter.prep B batch (through2 st.ack2) .input0 time)]
          reads := st.reads ++ [⟨st.ack2, handle, time⟩] }, by split_ifs <;> simp [htr], ?_⟩
        have hit := prep_ok hB result mul (c1 := batch) (c2 := through2 st.ack2) (fresh := .input0) (meet := time) lb.shows.sorted.keys
          (hs side2.boundAck (side2.physical _ rfl)).1.keys (fun _ => showsBatch_times lb.shows lb.times) (by simp)
        refine ⟨h.side1.batch lb, h.side2, h.dropped1, h.dropped2, h.logical1, h.logical2, later, h.later2, ?_, h.sent, _, W1, v0.append (JoinQueueOk.single hit), v1, ?_⟩
        · intro r hr
          rcases List.mem_append.1 hr with hr | hr
          · exact h.reads r hr
          · rw [List.mem_singleton.1 hr]
            exact ⟨side2.physical _ rfl, hb⟩
        · intro d q q1 q2
          simp only
          rw [← hv d q q2, ← v2 d q q1 q2]
          abel

theorem onBatch2_inv {B : OutBuilder S D T M} {ok : S → Prop} {held : S → Upds D T M} (hB : B.Keeps ok held) {result : K → V1 → V2 → List D} {mul : R1 →+ R2 →+ M}
    {s1 : JoinSide K V1 T R1} {s2 : JoinSide K V2 T R2} {f : JoinFeed T} {st : JoinOp K V1 V2 T R1 R2 S D M} (h : JoinInv B ok held result mul s1 s2 f st)
    {time : T} {lower upper : List T} {batch : Contents K V2 T R2} {through1 : List T → Contents K V1 T R1} (hl : LegalEv s1 s2 f st (.batch2 time lower upper batch through1)) :
    ∃ st', st.onBatch2 B time lower upper batch through1 = some st' ∧ JoinInv B ok held result mul s1 s2 (f.next st (.batch2 time lower upper batch through1)) st' := by
  obtain ⟨ht, hl⟩ := hl
  unfold JoinOp.onBatch2
  cases htr : st.trace1 with
  | none =>
    rw [h.dropped1 htr] at ht
    obtain ⟨x, hx, _⟩ := ht
    exact absurd hx (by simp)
  | some handle =>
    simp only [JoinFeed.next]
    by_cases hp : acLe upper st.pre2 = true
    · have ha : acLe upper st.ack2 = true := (acLe_iff _ _).2 (FrontierLe.trans ((acLe_iff _ _).1 hp) h.side2.preAck)
      refine ⟨st, by simp [hp, ha], ?_⟩
      rw [if_pos hp]; exact h
    · have hn : ¬ FrontierLe upper st.pre2 := fun x => hp ((acLe_iff _ _).2 x)
      obtain ⟨lb, hs⟩ := hl hn
      have hs := hs handle htr
      have p2 : acLe st.pre2 lower = true := (acLe_iff _ _).2 ((lb.whole _ h.side2.boundPre).resolve_right hn)
      have p3 : (acLe st.ack2 lower || acLe upper st.ack2) = true := by
        rw [Bool.or_eq_true, acLe_iff, acLe_iff]; exact lb.whole _ h.side2.boundAck
      have hb : ∀ L ∈ handle.logical, Beyond L time := fun L hL => (h.logical1 _ htr).2 L hL _ ht
      have gu : FrontierLe f.got2 upper := lb.inOrder.trans lb.interval
      have later : ∀ u ∈ s2.upds, Beyond upper u.2.1 → Beyond f.frontier2 u.2.1 := fun u hu hx => h.later2 u hu (gu _ hx)
      have side1 := h.side1
      rw [htr] at side1
      have hv := fun (d : D) (q : T) (q1 : Beyond s1.since q) => batch2_value result mul side1 lb hs hb d q q1
      simp only [p2, p3, Bool.or_true, if_true, hp, Bool.not_false, Bool.false_eq_true, if_false]
      obtain ⟨W0, W1, v0, v1, v2⟩ := h.value
      by_cases he : batch.isEmpty = true
      · have he' : batch = [] := List.isEmpty_iff.1 he
        simp only [he, Bool.not_true, Bool.false_eq_true, if_false]
        refine ⟨{ st with ack2 := if acLe st.ack2 lower then upper else st.ack2 }, by split_ifs <;> rfl, ?_⟩
        refine ⟨h.side1, h.side2.batch lb, h.dropped1, h.dropped2, h.logical1, h.logical2, h.later1, later, h.reads, h.sent, W0, W1, v0, v1, ?_⟩
        intro d q q1 q2
        simp only
        rw [v2 d q q1 q2, ← hv d q q1, he', nestedJoin_zero_right (us2 := contentsUpds []) (by simp [contentsUpds]), add_zero]
      · have he' : batch.isEmpty = false := by simpa using he
        simp only [he', Bool.not_false, if_true]
        refine ⟨{ st with
          ack2 := if acLe st.ack2 lower then upper else st.ack2
          todo1 := st.todo1 ++ [(time, DeferredIter.prep B (through1 st.ack1) batch .input1 time)]
          reads := st.reads ++ [⟨st.ack1, handle, time⟩] }, by split_ifs <;> simp [htr], ?_⟩
        have hit := prep_ok hB result mul (c1 := through1 st.ack1) (c2 := batch) (fresh := .input1) (meet := time)
          (hs side1.boundAck (side1.physical _ rfl)).1.keys lb.shows.sorted.keys (by simp) (fun _ => showsBatch_times lb.shows lb.times)
        refine ⟨h.side1, h.side2.batch lb, h.dropped1, h.dropped2, h.logical1, h.logical2, h.later1, later, ?_, h.sent, W0, _, v0, v1.append (JoinQueueOk.single hit), ?_⟩
        · intro r hr
          rcases List.mem_append.1 hr with hr | hr
          · exact h.reads r hr
          · rw [List.mem_singleton.1 hr]
            exact ⟨side1.physical _ rfl, hb⟩
        · intro d q q1 q2
          simp only
          rw [← hv d q q1, ← v2 d q q1 q2]
          abel

theorem frontierLe_nil {F : List T} (h : FrontierLe [] F) : F = [] := by
  cases F with
  | nil => rfl
  | cons x F =>
    obtain ⟨y, hy, _⟩ := h x ⟨x, List.mem_cons_self .., le_rfl⟩
    exact absurd hy (by simp)

theorem maintain_none {trace : Option (TraceHandle T)} {frontier ack old : List T} (h : trace = none → old = []) (hle : FrontierLe old frontier)
    (hn : TraceHandle.maintain trace frontier ack = none) : frontier = [] := by
  cases trace with
  | none => rw [h rfl] at hle; exact frontierLe_nil hle
  | some handle =>
    unfold TraceHandle.maintain at hn
    simp only at hn
    by_cases hf : frontier.isEmpty = true
    · exact List.isEmpty_iff.1 hf
    · rw [if_neg hf] at hn; simp at hn

theorem maintain_logical {trace : Option (TraceHandle T)} {frontier ack old : List T}
    (h : ∀ t ∈ trace, t.logical.Pairwise FrontierLe ∧ ∀ L ∈ t.logical, FrontierLe L old) (hle : FrontierLe old frontier) :
    ∀ t ∈ TraceHandle.maintain trace frontier ack, t.logical.Pairwise FrontierLe ∧ ∀ L ∈ t.logical, FrontierLe L frontier := by
  intro t ht
  cases trace with
  | none => simp [TraceHandle.maintain] at ht
  | some handle =>
    unfold TraceHandle.maintain at ht
    simp only at ht
    by_cases hf : frontier.isEmpty = true
    · rw [if_pos hf] at ht; simp at ht
    · rw [if_neg hf] at ht
      simp only [Option.mem_def, Option.some.injEq] at ht
      subst ht
      have hall : ∀ L ∈ handle.logical, FrontierLe L frontier := fun L hL => ((h _ rfl).2 L hL).trans hle
      refine ⟨List.pairwise_append.2 ⟨(h _ rfl).1, List.pairwise_singleton _ _, ?_⟩, ?_⟩
      · intro L hL Q hQ
        rw [List.mem_singleton.1 hQ]; exact hall L hL
      · intro L hL
        rcases List.mem_append.1 hL with hL | hL
        · exact hall L hL
        · rw [List.mem_singleton.1 hL]; exact fun q x => x

/-- The upper frontier up to which a trace is acknowledged after skipping empty batches. -/
theorem SideInv.rest {V R : Type*} [LinearOrder V] [AddCommMonoid R] {s : JoinSide K V T R} (hs : s.Chain) {trace : Option (TraceHandle T)} {pre got ack : List T}
    (h : SideInv s trace pre got ack) (shown : List (Description T × Bool)) (hd : ∀ h ∈ trace, ∀ d ∈ shown, LegalShown s h d) (frontier : List T) :
    SideInv s (TraceHandle.maintain trace frontier (ackedUpper trace shown ack)) pre got (ackedUpper trace shown ack) := by
  cases trace with
  | none => exact h.maintain frontier
  | some handle => exact (SideInv.advance hs shown h (hd handle rfl)).1.maintain frontier

theorem onRest_inv {B : OutBuilder S D T M} {ok : S → Prop} {held : S → Upds D T M} (hB : B.Keeps ok held) {result : K → V1 → V2 → List D} {mul : R1 →+ R2 →+ M}
    {s1 : JoinSide K V1 T R1} {s2 : JoinSide K V2 T R2} (c1 : s1.Chain) (c2 : s2.Chain) {f : JoinFeed T} {st : JoinOp K V1 V2 T R1 R2 S D M}
    (h : JoinInv B ok held result mul s1 s2 f st) (budget : Int)
    {shown1 shown2 : List (Description T × Bool)} {frontier1 frontier2 : List T} (hl : LegalEv s1 s2 f st (.rest shown1 shown2 frontier1 frontier2)) :
    ∃ n st', (∀ n', n ≤ n' → st.onRest B (joinCoreLogic result fun a b => mul a b) n' budget shown1 shown2 frontier1 frontier2 = some st') ∧
      JoinInv B ok held result mul s1 s2 (f.next st (.rest shown1 shown2 frontier1 frontier2)) st' ∧
      (∃ sent0, ∀ n', n ≤ n' → drainQueue B (joinCoreLogic result fun a b => mul a b) n' budget st.todo0 = some (st'.todo0, sent0)) ∧
      ∃ sent1, ∀ n', n ≤ n' → drainQueue B (joinCoreLogic result fun a b => mul a b) n' budget st.todo1 = some (st'.todo1, sent1) := by
  obtain ⟨f1, f2, g1, g2, d1, d2⟩ := hl
  obtain ⟨W0, W1, v0, v1, v2⟩ := h.value
  obtain ⟨n0, todo0, sent0, a1, ⟨X0, a2, a3⟩, a4, a5, -, -⟩ := drainQueue_spec hB result mul _ st.todo0 W0 budget rfl v0
  obtain ⟨n1, todo1, sent1, b1, ⟨X1, b2, b3⟩, b4, b5, -, -⟩ := drainQueue_spec hB result mul _ st.todo1 W1 budget rfl v1
  refine ⟨max n0 n1, { st with
      ack1 := ackedUpper st.trace1 shown1 st.ack1
      ack2 := ackedUpper st.trace2 shown2 st.ack2
      todo0 := todo0, todo1 := todo1
      trace1 := TraceHandle.maintain st.trace1 frontier2 (ackedUpper st.trace1 shown1 st.ack1)
      trace2 := TraceHandle.maintain st.trace2 frontier1 (ackedUpper st.trace2 shown2 st.ack2)
      sent := st.sent ++ sent0 ++ sent1 }, ?_, ?_, ⟨sent0, fun n' hn' => a1 n' (by omega)⟩, ⟨sent1, fun n' hn' => b1 n' (by omega)⟩⟩
  · intro n' hn'
    simp only [JoinOp.onRest]
    rw [a1 n' (by omega), b1 n' (by omega)]
  · refine ⟨h.side1.rest c1 shown1 d1 frontier2, h.side2.rest c2 shown2 d2 frontier1, maintain_none h.dropped1 f2, maintain_none h.dropped2 f1,
      maintain_logical h.logical1 f2, maintain_logical h.logical2 f1, g1, g2, h.reads, ?_, X0, X1, a2, b2, ?_⟩
    · intro s hs
      simp only [List.mem_append] at hs
      rcases hs with (hs | hs) | hs
      · exact h.sent s hs
      · exact (a4 s hs).2
      · exact (b4 s hs).2
    · intro d q q1 q2
      have e := v2 d q q1 q2
      have e0 := a3 d q
      have e1 := b3 d q
      simp only [JoinFeed.next]
      rw [← e, ← e0, ← e1]
      simp only [sentUpds, List.flatMap_append, accum_append]
      abel

theorem joinStep_inv {B : OutBuilder S D T M} {ok : S → Prop} {held : S → Upds D T M} (hB : B.Keeps ok held) {result : K → V1 → V2 → List D} {mul : R1 →+ R2 →+ M}
    {s1 : JoinSide K V1 T R1} {s2 : JoinSide K V2 T R2} (c1 : s1.Chain) (c2 : s2.Chain) {f : JoinFeed T} {st : JoinOp K V1 V2 T R1 R2 S D M}
    (h : JoinInv B ok held result mul s1 s2 f st) (budget : Int) {e : JoinEv K V1 V2 T R1 R2} (hl : LegalEv s1 s2 f st e) :
    ∃ n st', (∀ n', n ≤ n' → st.step B (joinCoreLogic result fun a b => mul a b) n' budget e = some st') ∧ JoinInv B ok held result mul s1 s2 (f.next st e) st' := by
  cases e with
  | batch1 time lower upper batch through2 =>
    obtain ⟨st', a, b⟩ := onBatch1_inv hB h hl
    exact ⟨0, st', fun _ _ => a, b⟩
  | batch2 time lower upper batch through1 =>
    obtain ⟨st', a, b⟩ := onBatch2_inv hB h hl
    exact ⟨0, st', fun _ _ => a, b⟩
  | rest shown1 shown2 frontier1 frontier2 =>
    obtain ⟨n, st', a, b, -⟩ := onRest_inv hB c1 c2 h budget hl
    exact ⟨n, st', a, b⟩

theorem joinRun_inv {B : OutBuilder S D T M} {ok : S → Prop} {held : S → Upds D T M} (hB : B.Keeps ok held) {result : K → V1 → V2 → List D} {mul : R1 →+ R2 →+ M}
    {s1 : JoinSide K V1 T R1} {s2 : JoinSide K V2 T R2} (c1 : s1.Chain) (c2 : s2.Chain) (budget : Int) (es : List (JoinEv K V1 V2 T R1 R2)) :
    ∀ {f : JoinFeed T} {st : JoinOp K V1 V2 T R1 R2 S D M}, JoinInv B ok held result mul s1 s2 f st →
      LegalJoin B (joinCoreLogic result fun a b => mul a b) budget s1 s2 f st es →
      ∃ n st' f', (∀ n', n ≤ n' → st.run B (joinCoreLogic result fun a b => mul a b) n' budget es = some st') ∧ JoinInv B ok held result mul s1 s2 f' st' ∧
        (f'.frontier1, f'.frontier2) = lastFrontiers (f.frontier1, f.frontier2) es := by
  induction es with
  | nil => exact fun h _ => ⟨0, _, _, fun _ _ => rfl, h, rfl⟩
  | cons e es ih =>
    intro f st h hl
    obtain ⟨l1, l2⟩ := hl
    obtain ⟨n, st1, a1, a2⟩ := joinStep_inv hB c1 c2 h budget l1
    obtain ⟨m, st', f', b1, b2, b3⟩ := ih a2 (l2 n st1 (a1 n le_rfl))
    refine ⟨max n m, st', f', ?_, b2, ?_⟩
    · intro n' hn'
      simp only [JoinOp.run]
      rw [a1 n' (by omega)]
      exact b1 n' (by omega)
    · rw [b3]
      cases e with
      | rest _ _ _ _ => rfl
      | batch1 _ _ _ _ _ => simp only [JoinFeed.next, lastFrontiers]; split_ifs <;> rfl
      | batch2 _ _ _ _ _ => simp only [JoinFeed.next, lastFrontiers]; split_ifs <;> rfl

theorem before_complete {X R : Type*} [DecidableEq X] [AddCommMonoid R] {us : Upds X T R} {got frontier : List T} {q : T}
    (hu : ∀ u ∈ us, Beyond got u.2.1 → Beyond frontier u.2.1) (hn : ¬ Beyond frontier q) (x : X) : accum (before us got) x q = accum us x q := by
  induction us with
  | nil => rfl
  | cons u us ih =>
    have ih := ih fun w hw => hu w (List.mem_cons_of_mem _ hw)
    simp only [before, List.filter_cons] at ih ⊢
    by_cases hb : Beyond got u.2.1
    · have hz : ¬ u.2.1 ≤ q := fun hle => hn (by obtain ⟨y, hy, hy2⟩ := hu u (List.mem_cons_self ..) hb; exact ⟨y, hy, hy2.trans hle⟩)
      simp only [hb, not_true, decide_false, Bool.false_eq_true, if_false, ih, accum_cons, hz, and_false, zero_add]
    · simp only [hb, not_false_iff, decide_true, if_true, accum_cons, ih]

/-- At times that are complete, what was sent accumulates to the join. -/
theorem JoinInv.complete {B : OutBuilder S D T M} {ok : S → Prop} {held : S → Upds D T M} {result : K → V1 → V2 → List D} {mul : R1 →+ R2 →+ M}
    {s1 : JoinSide K V1 T R1} {s2 : JoinSide K V2 T R2} {f : JoinFeed T} {st : JoinOp K V1 V2 T R1 R2 S D M}
    (h : JoinInv B ok held result mul s1 s2 f st) {q : T} (q1 : Beyond s1.since q) (q2 : Beyond s2.since q) (n1 : ¬ Beyond f.frontier1 q) (n2 : ¬ Beyond f.frontier2 q)
    (hq : ∀ w ∈ st.todo0 ++ st.todo1, ¬ w.1 ≤ q) (d : D) :
    accum (sentUpds st.sent) d q = accum (nestedJoin result (fun a b => mul a b) s1.upds s2.upds) d q := by
  obtain ⟨W0, W1, v0, v1, v2⟩ := h.value
  have e := v2 d q q1 q2
  rw [v0.zero q (fun w hw => hq w (List.mem_append_left _ hw)), v1.zero q (fun w hw => hq w (List.mem_append_right _ hw)), add_zero, add_zero] at e
  rw [e]
  exact nestedJoin_congr (before_complete h.later1 n1) (before_complete h.later2 n2) d

/-- The operator at its start. -/
theorem joinStart_inv {B : OutBuilder S D T M} {ok : S → Prop} {held : S → Upds D T M} (hB : B.Keeps ok held) {result : K → V1 → V2 → List D} {mul : R1 →+ R2 →+ M}
    {s1 : JoinSide K V1 T R1} {s2 : JoinSide K V2 T R2} {physical1 physical2 : List T} {uppers1 : List (List T)}
    {batches2 : List (List T × Contents K V2 T R2)} {through1 : List T → Contents K V1 T R1} (hl : LegalStart s1 s2 physical1 physical2 uppers1 batches2 through1) :
    ∃ st : JoinOp K V1 V2 T R1 R2 S D M, JoinOp.start B physical1 physical2 uppers1 batches2 through1 = some st ∧
      JoinInv B ok held result mul s1 s2 (JoinFeed.start st) st := by
  unfold JoinOp.start
  simp only
  rw [if_pos ((acLe_iff _ _).2 hl.atPhysical1), if_pos ((acLe_iff _ _).2 hl.atPhysical2)]
  refine ⟨_, rfl, ?_⟩
  generalize hack1 : uppers1.foldl (fun _ u => u) [⊥] = ack1 at *
  generalize hack2 : batches2.foldl (fun _ b => b.1) [⊥] = ack2 at *
  have b1 := hl.bound1
  have b2 := hl.bound2
  have p1 := hl.atPhysical1
  have p2 := hl.atPhysical2
  have sh1 := hl.shows1
  have sh2 := hl.shows2
  rw [hack1] at b1 p1 sh1
  rw [hack2] at b2 p2 sh2
  obtain ⟨w1, w2⟩ := sh1 b1 (by simpa using p1)
  have hqueue : ∀ bs : List (List T × Contents K V2 T R2), (∀ b ∈ bs, ContentsSorted b.2) →
      JoinQueueOk B ok held result mul (bs.map fun b => ((⊥ : T), DeferredIter.prep B (through1 ack1) b.2 .input1 ⊥))
        fun d q => accum (nestedJoin result (fun a b => mul a b) (contentsUpds (through1 ack1)) (bs.flatMap fun b => contentsUpds b.2)) d q := by
    intro bs
    induction bs with
    | nil =>
      intro _ d q
      exact nestedJoin_zero_right (by simp) d
    | cons b bs ih =>
      intro hbs
      have hit := prep_ok hB result mul (c1 := through1 ack1) (c2 := b.2) (fresh := .input1) (meet := (⊥ : T)) w1.keys (hbs b (List.mem_cons_self ..)).keys (by simp)
        (fun _ u _ => bot_le)
      refine ⟨rfl, _, _, hit, ih fun x hx => hbs x (List.mem_cons_of_mem _ hx), ?_⟩
      intro d q
      simp only [List.flatMap_cons]
      rw [nestedJoin_append_right]
  refine ⟨⟨b1, b1, b1, fun q x => x, fun q x => x, ?_, by simp, ?_⟩, ⟨b2, b2, b2, fun q x => x, fun q x => x, ?_, by simp, ?_⟩, by simp, by simp, ?_, ?_, ?_, ?_, by simp, by simp,
    fun _ _ => 0, _, fun _ _ => rfl, hqueue batches2 hl.sorted2, ?_⟩
  · intro t ht P hP
    simp only [Option.mem_def, Option.some.injEq] at ht
    subst ht
    rw [List.mem_singleton.1 hP]; exact p1
  · intro t _ F _ h1 h2 kv q _ _
    simp only [JoinFeed.start]
    rw [within_of_le _ h2, accum_nil]
  · intro t ht P hP
    simp only [Option.mem_def, Option.some.injEq] at ht
    subst ht
    rw [List.mem_singleton.1 hP]; exact p2
  · intro t _ F _ h1 h2 kv q _ _
    simp only [JoinFeed.start]
    rw [within_of_le _ h2, accum_nil]
  · intro t ht
    simp only [Option.mem_def, Option.some.injEq] at ht
    subst ht
    simp
  · intro t ht
    simp only [Option.mem_def, Option.some.injEq] at ht
    subst ht
    simp
  · exact fun u _ _ => ⟨⊥, by simp [JoinFeed.start], bot_le⟩
  · exact fun u _ _ => ⟨⊥, by simp [JoinFeed.start], bot_le⟩
  · intro d q q1 q2
    simp only [sentUpds, List.flatMap_nil, accum_nil, add_zero, zero_add, JoinFeed.start]
    apply nestedJoin_congr
    · rintro ⟨k, v⟩
      rw [accum_contentsUpds]
      exact w2 k v q q1 (by simp)
    · rintro ⟨k, v⟩
      rw [← sh2 k v q q2]
      clear sh2 hack2 hl hqueue
      induction batches2 with
      | nil => simp
      | cons b bs ih => rw [List.flatMap_cons, accum_append, List.map_cons, List.sum_cons, ih, accum_contentsUpds]

theorem drainQueue_mono (B : OutBuilder S D T M) (logic : K → V1 → V2 → T → R1 → R2 → List (D × T × M)) : ∀ (n : Nat) (fuel : Int)
    (queue : List (T × DeferredIter K V1 V2 T R1 R2 S D M)) (r : List (T × DeferredIter K V1 V2 T R1 R2 S D M) × List (T × Upds D T M)),
    drainQueue B logic n fuel queue = some r → drainQueue B logic (n + 1) fuel queue = some r := by
  intro n
  induction n with
  | zero => intro fuel queue r h; simp [drainQueue] at h
  | succ n ih =>
    intro fuel queue r h
    rw [drainQueue.eq_def] at h ⊢
    simp only at h ⊢
    by_cases hf : 0 ≤ fuel
    swap
    · rw [if_neg hf] at h ⊢; exact h
    rw [if_pos hf] at h ⊢
    cases queue with
    | nil => exact h
    | cons x rest =>
      obtain ⟨time, work⟩ := x
      simp only at h ⊢
      cases hw : work.next B logic with
      | none => rw [hw] at h; simp at h
      | some y =>
        obtain ⟨work', o⟩ := y
        rw [hw] at h
        cases o with
        | none => simp only at h ⊢; exact ih _ _ _ h
        | some c =>
          simp only at h ⊢
          cases hd : drainQueue B logic n (fuel - c.length) ((time, work') :: rest) with
          | none => rw [hd] at h; simp at h
          | some z => rw [hd] at h; rw [ih _ _ _ hd]; exact h

theorem drainQueue_mono_le (B : OutBuilder S D T M) (logic : K → V1 → V2 → T → R1 → R2 → List (D × T × M)) {n m : Nat} (hnm : n ≤ m) {fuel : Int}
    {queue : List (T × DeferredIter K V1 V2 T R1 R2 S D M)} {r : List (T × DeferredIter K V1 V2 T R1 R2 S D M) × List (T × Upds D T M)}
    (h : drainQueue B logic n fuel queue = some r) : drainQueue B logic m fuel queue = some r := by
  induction hnm with
  | refl => exact h
  | step _ ih => exact drainQueue_mono _ _ _ _ _ _ ih

/-- A queue is empty after it was drained `n` times. -/
def EmptiesIn (B : OutBuilder S D T M) (logic : K → V1 → V2 → T → R1 → R2 → List (D × T × M)) (budget : Int) : Nat → List (T × DeferredIter K V1 V2 T R1 R2 S D M) → Prop
  | 0, queue => queue = []
  | n + 1, queue => ∀ rounds queue' sent, drainQueue B logic rounds budget queue = some (queue', sent) → EmptiesIn B logic budget n queue'

theorem emptiesIn_nil (B : OutBuilder S D T M) (logic : K → V1 → V2 → T → R1 → R2 → List (D × T × M)) (budget : Int) : ∀ n,
    EmptiesIn B logic budget n ([] : List (T × DeferredIter K V1 V2 T R1 R2 S D M)) := by
  intro n
  induction n with
  | zero => rfl
  | succ n ih =>
    intro rounds queue' sent h
    have : queue' = [] := by
      cases rounds with
      | zero => simp [drainQueue] at h
      | succ r =>
        simp only [drainQueue] at h
        split_ifs at h <;> simp only [Option.some.injEq, Prod.mk.injEq] at h <;> exact h.1.symm
    rw [this]; exact ih

theorem EmptiesIn.mono {B : OutBuilder S D T M} {logic : K → V1 → V2 → T → R1 → R2 → List (D × T × M)} {budget : Int} : ∀ {n : Nat} {queue : List (T × DeferredIter K V1 V2 T R1 R2 S D M)},
    EmptiesIn B logic budget n queue → ∀ m, n ≤ m → EmptiesIn B logic budget m queue
  | 0, queue, h, m, _ => by rw [show queue = [] from h]; exact emptiesIn_nil _ _ _ m
  | n + 1, queue, h, m, hm => by
    obtain ⟨k, rfl⟩ := Nat.exists_eq_add_of_le' (show 1 ≤ m by omega)
    exact fun rounds queue' sent hd => (h rounds queue' sent hd).mono k (by omega)

/-- Work gets done. -/
theorem exists_emptiesIn {B : OutBuilder S D T M} {ok : S → Prop} {held : S → Upds D T M} (hB : B.Keeps ok held) (result : K → V1 → V2 → List D)
    (mul : R1 →+ R2 →+ M) {budget : Int} (hb : 0 ≤ budget) : ∀ (m : ℕ ×ₗ (ℕ ×ₗ ℕ)) (queue : List (T × DeferredIter K V1 V2 T R1 R2 S D M)) (W : D → T → M),
    queueLeft queue = m → JoinQueueOk B ok held result mul queue W → ∃ N, EmptiesIn B (joinCoreLogic result fun a b => mul a b) budget N queue := by
  intro m
  induction m using WellFoundedLT.induction with
  | ind m ih =>
    intro queue W hm hq
    by_cases he : queue = []
    · exact ⟨0, he⟩
    obtain ⟨n, queue', sent, a1, ⟨W', a2, -⟩, -, -, -, a3⟩ := drainQueue_spec hB result mul _ queue W budget rfl hq
    obtain ⟨N, hN⟩ := ih _ (hm ▸ a3 hb he) queue' W' rfl a2
    refine ⟨N + 1, fun rounds q' s' hd => ?_⟩
    have e1 := a1 (max n rounds) (le_max_left _ _)
    have e2 := drainQueue_mono_le _ _ (le_max_right n rounds) hd
    rw [e1, Option.some.injEq, Prod.mk.injEq] at e2
    rw [← e2.1]; exact hN

/-- An activation without new batches. -/
def JoinEv.isRest : JoinEv K V1 V2 T R1 R2 → Bool
  | .rest _ _ _ _ => true
  | _ => false

/-- Over idle activations, the queues become empty. -/
theorem joinIdle_inv {B : OutBuilder S D T M} {ok : S → Prop} {held : S → Upds D T M} (hB : B.Keeps ok held) {result : K → V1 → V2 → List D} {mul : R1 →+ R2 →+ M}
    {s1 : JoinSide K V1 T R1} {s2 : JoinSide K V2 T R2} (c1 : s1.Chain) (c2 : s2.Chain) (budget : Int) (es : List (JoinEv K V1 V2 T R1 R2)) :
    ∀ {f : JoinFeed T} {st : JoinOp K V1 V2 T R1 R2 S D M}, JoinInv B ok held result mul s1 s2 f st →
      LegalJoin B (joinCoreLogic result fun a b => mul a b) budget s1 s2 f st es → (∀ e ∈ es, e.isRest = true) →
      EmptiesIn B (joinCoreLogic result fun a b => mul a b) budget es.length st.todo0 → EmptiesIn B (joinCoreLogic result fun a b => mul a b) budget es.length st.todo1 →
      ∃ n st', (∀ n', n ≤ n' → st.run B (joinCoreLogic result fun a b => mul a b) n' budget es = some st') ∧ st'.todo0 = [] ∧ st'.todo1 = [] := by
  induction es with
  | nil => exact fun h _ _ e0 e1 => ⟨0, _, fun _ _ => rfl, e0, e1⟩
  | cons e es ih =>
    intro f st h hl hr e0 e1
    obtain ⟨l1, l2⟩ := hl
    cases e with
    | batch1 _ _ _ _ _ => exact absurd (hr _ (List.mem_cons_self ..)) (by simp [JoinEv.isRest])
    | batch2 _ _ _ _ _ => exact absurd (hr _ (List.mem_cons_self ..)) (by simp [JoinEv.isRest])
    | rest shown1 shown2 frontier1 frontier2 =>
      obtain ⟨n, st1, a1, a2, ⟨s0, a3⟩, s1', a4⟩ := onRest_inv hB c1 c2 h budget l1
      obtain ⟨m, st', b1, b2, b3⟩ := ih a2 (l2 n st1 (a1 n le_rfl)) (fun x hx => hr x (List.mem_cons_of_mem _ hx)) (e0 n _ _ (a3 n le_rfl)) (e1 n _ _ (a4 n le_rfl))
      refine ⟨max n m, st', ?_, b2, b3⟩
      intro n' hn'
      simp only [JoinOp.run, JoinOp.step]
      rw [a1 n' (by omega)]
      exact b1 n' (by omega)

theorem legalJoin_append (B : OutBuilder S D T M) (logic : K → V1 → V2 → T → R1 → R2 → List (D × T × M)) (budget : Int) (s1 : JoinSide K V1 T R1) (s2 : JoinSide K V2 T R2)
    (es idle : List (JoinEv K V1 V2 T R1 R2)) : ∀ (f : JoinFeed T) (st : JoinOp K V1 V2 T R1 R2 S D M), LegalJoin B logic budget s1 s2 f st (es ++ idle) →
    LegalJoin B logic budget s1 s2 f st es := by
  induction es with
  | nil => exact fun _ _ _ => trivial
  | cons e es ih => exact fun f st h => ⟨h.1, fun rounds st' hs => ih _ _ (h.2 rounds st' hs)⟩

/-- After a run, the queues become empty over idle activations. -/
theorem joinRun_idle {B : OutBuilder S D T M} {ok : S → Prop} {held : S → Upds D T M} (hB : B.Keeps ok held) {result : K → V1 → V2 → List D} {mul : R1 →+ R2 →+ M}
    {s1 : JoinSide K V1 T R1} {s2 : JoinSide K V2 T R2} (c1 : s1.Chain) (c2 : s2.Chain) {budget : Int} (hb : 0 ≤ budget) (es : List (JoinEv K V1 V2 T R1 R2)) :
    ∀ {f : JoinFeed T} {st : JoinOp K V1 V2 T R1 R2 S D M}, JoinInv B ok held result mul s1 s2 f st →
      LegalJoin B (joinCoreLogic result fun a b => mul a b) budget s1 s2 f st es →
      ∃ N, ∀ idle : List (JoinEv K V1 V2 T R1 R2), N ≤ idle.length → (∀ e ∈ idle, ∃ shown1 shown2 frontier1 frontier2, e = .rest shown1 shown2 frontier1 frontier2) →
        LegalJoin B (joinCoreLogic result fun a b => mul a b) budget s1 s2 f st (es ++ idle) →
        ∃ st' n, (∀ n', n ≤ n' → st.run B (joinCoreLogic result fun a b => mul a b) n' budget (es ++ idle) = some st') ∧ st'.todo0 = [] ∧ st'.todo1 = [] := by
  induction es with
  | nil =>
    intro f st h _
    obtain ⟨W0, W1, v0, v1, -⟩ := h.value
    obtain ⟨N0, h0⟩ := exists_emptiesIn hB result mul hb _ st.todo0 W0 rfl v0
    obtain ⟨N1, h1⟩ := exists_emptiesIn hB result mul hb _ st.todo1 W1 rfl v1
    refine ⟨max N0 N1, fun idle hlen hr hl => ?_⟩
    obtain ⟨n, st', a, b, c⟩ := joinIdle_inv hB c1 c2 budget idle h hl (by
      intro e he
      obtain ⟨_, _, _, _, rfl⟩ := hr e he
      rfl) (h0.mono _ (by omega)) (h1.mono _ (by omega))
    exact ⟨st', n, a, b, c⟩
  | cons e es ih =>
    intro f st h hl
    obtain ⟨l1, l2⟩ := hl
    obtain ⟨n, st1, a1, a2⟩ := joinStep_inv hB c1 c2 h budget l1
    obtain ⟨N, hN⟩ := ih a2 (l2 n st1 (a1 n le_rfl))
    refine ⟨N, fun idle hlen hr hl' => ?_⟩
    obtain ⟨st', m, b1, b2⟩ := hN idle hlen hr (hl'.2 n st1 (a1 n le_rfl))
    refine ⟨st', max n m, ?_, b2⟩
    intro n' hn'
    simp only [List.cons_append, JoinOp.run]
    rw [a1 n' (by omega)]
    exact b1 n' (by omega)

/-- The state after an event does not depend on the bound on rounds. -/
theorem joinStep_unique {B : OutBuilder S D T M} {logic : K → V1 → V2 → T → R1 → R2 → List (D × T × M)} {n m : Nat} {budget : Int} {st st1 st2 : JoinOp K V1 V2 T R1 R2 S D M}
    {e : JoinEv K V1 V2 T R1 R2} (h1 : st.step B logic n budget e = some st1) (h2 : st.step B logic m budget e = some st2) : st1 = st2 := by
  cases e with
  | batch1 _ _ _ _ _ => rw [JoinOp.step] at h1 h2; rw [h1, Option.some.injEq] at h2; exact h2
  | batch2 _ _ _ _ _ => rw [JoinOp.step] at h1 h2; rw [h1, Option.some.injEq] at h2; exact h2
  | rest shown1 shown2 frontier1 frontier2 =>
    simp only [JoinOp.step, JoinOp.onRest] at h1 h2
    cases a : drainQueue B logic n budget st.todo0 with
    | none => rw [a] at h1; simp at h1
    | some x =>
      cases b : drainQueue B logic n budget st.todo1 with
      | none => rw [a, b] at h1; simp at h1
      | some y =>
        cases c : drainQueue B logic m budget st.todo0 with
        | none => rw [c] at h2; simp at h2
        | some z =>
          cases d : drainQueue B logic m budget st.todo1 with
          | none => rw [c, d] at h2; simp at h2
          | some w =>
            have e1 := drainQueue_mono_le _ _ (le_max_left n m) a
            rw [drainQueue_mono_le _ _ (le_max_right n m) c, Option.some.injEq] at e1
            have e2 := drainQueue_mono_le _ _ (le_max_left n m) b
            rw [drainQueue_mono_le _ _ (le_max_right n m) d, Option.some.injEq] at e2
            subst e1 e2
            rw [a, b] at h1
            rw [c, d] at h2
            rw [h1, Option.some.injEq] at h2
            exact h2

/-- Legality of a run from the state computed with some bound on rounds. -/
theorem legalJoin_cons {B : OutBuilder S D T M} {logic : K → V1 → V2 → T → R1 → R2 → List (D × T × M)} {n : Nat} {budget : Int} {s1 : JoinSide K V1 T R1} {s2 : JoinSide K V2 T R2}
    {f : JoinFeed T} {st st1 : JoinOp K V1 V2 T R1 R2 S D M} {e : JoinEv K V1 V2 T R1 R2} {es : List (JoinEv K V1 V2 T R1 R2)} (hl : LegalEv s1 s2 f st e)
    (hs : st.step B logic n budget e = some st1) (h : LegalJoin B logic budget s1 s2 (f.next st e) st1 es) : LegalJoin B logic budget s1 s2 f st (e :: es) :=
  ⟨hl, fun _ _ hs' => joinStep_unique hs hs' ▸ h⟩

end
end DD
