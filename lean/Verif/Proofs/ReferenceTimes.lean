import Verif.Proofs.DiscoverRight
import Verif.Model.ReduceReference

/-!
# The first phase of the reference reduction

It visits the same times as `discover_times` does when it has no records, and the times of both input and output for those of the output.
-/

set_option linter.unusedSectionVars false

namespace DD

section
variable {T : Type*} [Lattice T] [DecidableLE T] [DecidableEq T] [TimeOrd T]

theorem eq_of_sorted_mem {a b : List T} (ha : a.Pairwise fun x y => toLin x < toLin y) (hb : b.Pairwise fun x y => toLin x < toLin y) (h : ∀ x, x ∈ a ↔ x ∈ b) : a = b := by
  have na : a.Nodup := ha.imp fun h e => absurd h (by rw [e]; exact lt_irrefl _)
  have nb : b.Nodup := hb.imp fun h e => absurd h (by rw [e]; exact lt_irrefl _)
  exact ((List.perm_ext_iff_of_nodup na nb).2 h).eq_of_pairwise (le := fun x y => toLin x < toLin y) (fun x y _ _ h1 h2 => absurd h2 (lt_asymm h1)) ha hb

theorem sortDedup_congr {a b : List T} (h : ∀ x, x ∈ a ↔ x ∈ b) : sortDedup a = sortDedup b :=
  eq_of_sorted_mem (sortDedup_sorted a) (sortDedup_sorted b) fun x => by rw [mem_sortDedup, mem_sortDedup, h]

theorem sortDedup_eq {a : List T} (h : a.Pairwise fun x y => toLin x < toLin y) : sortDedup a = a :=
  eq_of_sorted_mem (sortDedup_sorted a) h fun x => mem_sortDedup a x

theorem perm_eq_of_sorted {a b : List T} (ha : a.Pairwise fun x y => toLin x ≤ toLin y) (hb : b.Pairwise fun x y => toLin x ≤ toLin y) (h : a.Perm b) : a = b :=
  h.eq_of_pairwise (le := fun x y => toLin x ≤ toLin y) (fun _ _ _ _ h1 h2 => le_antisymm (α := Lin T) h1 h2) ha hb

theorem timesOk_lowerMeet {h : TimeHistory T} {rest : List T} (hk : TimesOk h rest) : LowerMeet h.meet rest := by
  cases rest with
  | nil => rw [TimeHistory.ok_meet_nil hk]; exact ⟨by simp, fun _ => rfl, by simp⟩
  | cons t rest =>
    obtain ⟨m, h1, h2⟩ := TimeHistory.ok_meet hk
    rw [h1]
    refine ⟨?_, by simp, ?_⟩
    · intro x hx t' ht'
      obtain rfl := Option.some.inj hx
      exact h2.1 ht'
    · intro x hx w hw
      obtain rfl := Option.some.inj hx
      exact h2.2 fun y hy => hw y hy

theorem lowerMeet_unique {m m' : Option T} {ts ts' : List T} (h : LowerMeet m ts) (h' : LowerMeet m' ts') (he : ∀ x, x ∈ ts ↔ x ∈ ts') (hn : ts = [] → m = none)
    (hn' : ts' = [] → m' = none) : m = m' := by
  have hnil : ts = [] ↔ ts' = [] := by
    constructor
    · rintro rfl; exact List.eq_nil_iff_forall_not_mem.2 fun x hx => by simpa using (he x).2 hx
    · rintro rfl; exact List.eq_nil_iff_forall_not_mem.2 fun x hx => by simpa using (he x).1 hx
  cases hm : m with
  | none => rw [hn' (hnil.1 (h.2.1 hm))]
  | some a =>
    cases hm' : m' with
    | none => rw [← hm, hn (hnil.2 (h'.2.1 hm'))]
    | some b =>
      congr 1
      exact le_antisymm (h'.2.2 b hm' a fun t ht => h.1 a hm t ((he t).2 ht)) (h.2.2 a hm b fun t ht => h'.1 b hm' t ((he t).1 ht))

theorem updateMeet_assoc (a b c : Option T) : updateMeet (updateMeet a b) c = updateMeet a (updateMeet b c) := by
  cases a <;> cases b <;> cases c <;> simp [updateMeet, inf_assoc]

theorem timesOk_meet_perm {h h1 h2 : TimeHistory T} {r r1 r2 : List T} (hk : TimesOk h r) (hk1 : TimesOk h1 r1) (hk2 : TimesOk h2 r2) (hp : r.Perm (r1 ++ r2)) :
    h.meet = updateMeet h1.meet h2.meet := by
  refine lowerMeet_unique (timesOk_lowerMeet hk) (lowerMeet_update (timesOk_lowerMeet hk1) (timesOk_lowerMeet hk2)) (fun x => hp.mem_iff) ?_ ?_
  · rintro rfl; exact TimeHistory.ok_meet_nil hk
  · intro e
    obtain ⟨rfl, rfl⟩ := List.append_eq_nil_iff.1 e
    rw [TimeHistory.ok_meet_nil hk1, TimeHistory.ok_meet_nil hk2]; rfl

/-- A replay of times is determined by the times left and the buffer. -/
theorem timesOk_unique {h h' : TimeHistory T} {r r' : List T} (hk : TimesOk h r) (hk' : TimesOk h' r') (hp : r.Perm r') (hb : h.buffer = h'.buffer) : h = h' := by
  have hr := perm_eq_of_sorted hk.sorted hk'.sorted hp
  subst hr
  obtain ⟨es, b⟩ := h
  obtain ⟨es', b'⟩ := h'
  simp only at hb
  subst hb
  congr 1
  have h1 := hk.dec
  have h2 := hk'.dec
  have m1 := hk.meets
  have m2 := hk'.meets
  simp only at h1 h2 m1 m2
  clear hk hk' hp
  subst h2
  induction es generalizing es' with
  | nil =>
    cases es' with
    | nil => rfl
    | cons e' es' => simp at h1
  | cons e es ih =>
    cases es' with
    | nil => simp at h1
    | cons e' es' =>
      simp only [List.map_cons, List.cons.injEq] at h1
      have := ih es' m1.2 m2.2 h1.2
      subst this
      congr 1
      refine Prod.ext h1.1 (m1.1.unique ?_)
      have := m2.1
      convert this using 1
      ext x
      simp only [List.mem_cons, exists_eq_or_imp, h1.1]

/-- The state of the reference is one of `discover_times` that has no records. -/
structure RefSim (rs : ReferenceState T) (st : DiscoverState Nat T Nat) : Prop where
  batch : st.batch = rs.batch
  synth : st.synth = rs.synth
  times : st.times = rs.times
  meets : st.meets = rs.meets
  current : st.current = rs.current
  meet : st.meet = rs.meet
  moments : st.moments = rs.active
  pended : st.pended = rs.pended
  noHist : st.input.history = []
  noBuf : st.input.buffer = []
  buf : ∀ x, x ∈ st.output.buffer ↔ x ∈ rs.input.buffer ∨ x ∈ rs.output.buffer
  ok : ∃ r ri ro, TimesOk st.output r ∧ TimesOk rs.input ri ∧ TimesOk rs.output ro ∧ r.Perm (ri ++ ro)

theorem minTime_congr {a b : List (Option T)} (h1 : ∀ x, some x ∈ a → ∃ y, some y ∈ b ∧ toLin y ≤ toLin x) (h2 : ∀ y, some y ∈ b → ∃ x, some x ∈ a ∧ toLin x ≤ toLin y) :
    minTime a = minTime b := by
  cases ha : minTime a with
  | none =>
    cases hb : minTime b with
    | none => rfl
    | some y =>
      obtain ⟨x, hx, -⟩ := h2 y (minTime_some hb).1
      exact absurd (minTime_none ha _ hx) (by simp)
  | some x =>
    obtain ⟨a1, a2⟩ := minTime_some ha
    obtain ⟨y, hy, hyx⟩ := h1 x a1
    cases hb : minTime b with
    | none => exact absurd (minTime_none hb _ hy) (by simp)
    | some z =>
      obtain ⟨b1, b2⟩ := minTime_some hb
      obtain ⟨w, hw, hwz⟩ := h2 z b1
      congr 1
      exact le_antisymm (α := Lin T) ((a2 w hw).trans hwz) ((b2 y hy).trans hyx)

variable {rs : ReferenceState T} {st : DiscoverState Nat T Nat}

theorem RefSim.nextTime (h : RefSim rs st) : st.nextTime = rs.nextTime := by
  obtain ⟨r, ri, ro, k1, k2, k3, hp⟩ := h.ok
  unfold DiscoverState.nextTime ReferenceState.nextTime
  rw [h.batch, h.synth, h.times, TimeHistory.ok_time k1, TimeHistory.ok_time k2, TimeHistory.ok_time k3]
  have hin : st.input.time = none := by simp [ValueHistory.time, h.noHist]
  rw [hin]
  have hle : ∀ {l : List T}, l.Pairwise (fun a b => toLin a ≤ toLin b) → ∀ x ∈ l, ∃ y, l.head? = some y ∧ toLin y ≤ toLin x := by
    intro l hl x hx
    cases l with
    | nil => simp at hx
    | cons y l =>
      refine ⟨y, rfl, ?_⟩
      rcases List.mem_cons.1 hx with rfl | hx
      · exact le_refl _
      · exact (List.pairwise_cons.1 hl).1 x hx
  apply minTime_congr
  · intro x hx
    simp only [List.mem_cons, List.not_mem_nil, or_false] at hx
    rcases hx with hx | hx | hx | hx | hx
    · exact ⟨x, by simp [hx], le_refl _⟩
    · exact ⟨x, by simp [hx], le_refl _⟩
    · simp at hx
    · have : x ∈ r := List.mem_of_mem_head? hx.symm
      rcases List.mem_append.1 (hp.mem_iff.1 this) with hx | hx
      · obtain ⟨y, h1, h2⟩ := hle k2.sorted x hx
        exact ⟨y, by simp [h1], h2⟩
      · obtain ⟨y, h1, h2⟩ := hle k3.sorted x hx
        exact ⟨y, by simp [h1], h2⟩
    · exact ⟨x, by simp [hx], le_refl _⟩
  · intro x hx
    simp only [List.mem_cons, List.not_mem_nil, or_false] at hx
    rcases hx with hx | hx | hx | hx | hx
    · exact ⟨x, by simp [hx], le_refl _⟩
    · exact ⟨x, by simp [hx], le_refl _⟩
    · obtain ⟨y, h1, h2⟩ := hle k1.sorted x (hp.mem_iff.2 (List.mem_append_left _ (List.mem_of_mem_head? hx.symm)))
      exact ⟨y, by simp [h1], h2⟩
    · obtain ⟨y, h1, h2⟩ := hle k1.sorted x (hp.mem_iff.2 (List.mem_append_right _ (List.mem_of_mem_head? hx.symm)))
      exact ⟨y, by simp [h1], h2⟩
    · exact ⟨x, by simp [hx], le_refl _⟩

theorem RefSim.least (h : RefSim rs st) {next : T} (hn : rs.nextTime = some next) : ∃ r ri ro, TimesOk st.output r ∧ TimesOk rs.input ri ∧ TimesOk rs.output ro ∧
    r.Perm (ri ++ ro) ∧ ∀ x ∈ r, toLin next ≤ toLin x := by
  obtain ⟨r, ri, ro, k1, k2, k3, hp⟩ := h.ok
  refine ⟨r, ri, ro, k1, k2, k3, hp, ?_⟩
  rw [← h.nextTime] at hn
  refine fun x hx => sorted_head_le id k1.sorted (fun b hb => (minTime_some hn).2 b ?_) x hx
  rw [TimeHistory.ok_time k1]
  rw [Option.map_id] at hb
  simp [← hb]

theorem dropWhile_eq_filter {l : List T} (hs : l.Pairwise fun a b => toLin a ≤ toLin b) {next : T} (hn : ∀ x ∈ l, toLin next ≤ toLin x) :
    l.dropWhile (fun t => decide (t = next)) = l.filter (fun t => !decide (t = next)) := by
  induction l with
  | nil => rfl
  | cons x l ih =>
    obtain ⟨h1, h2⟩ := List.pairwise_cons.1 hs
    have hn' : ∀ x ∈ l, toLin next ≤ toLin x := fun y hy => hn y (List.mem_cons_of_mem _ hy)
    by_cases he : x = next
    · simp only [List.dropWhile_cons, List.filter_cons, he, decide_true, if_true, Bool.not_true, Bool.false_eq_true, if_false]
      exact ih h2 hn'
    · have : ∀ y ∈ l, ¬ y = next := by
        rintro y hy rfl
        exact he (le_antisymm (α := Lin T) (h1 y hy) (hn x (List.mem_cons_self ..)))
      simp only [List.dropWhile_cons, List.filter_cons, he, decide_false, Bool.false_eq_true, if_false, Bool.not_false, if_true]
      congr 1
      exact (List.filter_eq_self.2 fun y hy => by simp [this y hy]).symm

theorem mem_takeWhile_iff {l : List T} (hs : l.Pairwise fun a b => toLin a ≤ toLin b) {next : T} (hn : ∀ x ∈ l, toLin next ≤ toLin x) (x : T) :
    x ∈ l.takeWhile (fun t => decide (t = next)) ↔ x ∈ l ∧ x = next := by
  constructor
  · intro h
    exact ⟨(List.takeWhile_sublist _).subset h, takeWhile_eq id l next x h⟩
  · rintro ⟨h, rfl⟩
    exact mem_takeWhile_of_eq id hs hn h rfl

theorem RefSim.advance (h : RefSim rs st) {next : T} (hn : rs.nextTime = some next) :
    ∃ st', st.advance next = some ((rs.advance next).1, st') ∧ RefSim (rs.advance next).2 st' := by
  obtain ⟨r, ri, ro, k1, k2, k3, hp, hle⟩ := h.least hn
  have hlei : ∀ x ∈ ri, toLin next ≤ toLin x := fun x hx => hle x (hp.mem_iff.2 (List.mem_append_left _ hx))
  have hleo : ∀ x ∈ ro, toLin next ≤ toLin x := fun x hx => hle x (hp.mem_iff.2 (List.mem_append_right _ hx))
  have hin : st.input.stepWhileTimeIs next = some (false, st.input) := by
    unfold ValueHistory.stepWhileTimeIs
    rw [h.noHist]; rfl
  obtain ⟨-, a2, a3⟩ := TimeHistory.stepWhile_ok k1 next
  obtain ⟨-, b2, b3⟩ := TimeHistory.stepWhile_ok k2 next
  obtain ⟨-, c2, c3⟩ := TimeHistory.stepWhile_ok k3 next
  unfold DiscoverState.advance
  rw [hin]
  simp only [h.batch, h.synth, h.times, h.meets, h.current, h.meet]
  refine ⟨_, rfl, ⟨rfl, rfl, rfl, rfl, rfl, rfl, h.moments, h.pended, h.noHist, h.noBuf, ?_, _, _, _, a2, b2, c2, ?_⟩⟩
  · intro x
    show x ∈ (st.output.stepWhileTimeIs next).2.buffer ↔ x ∈ (rs.input.stepWhileTimeIs next).2.buffer ∨ x ∈ (rs.output.stepWhileTimeIs next).2.buffer
    rw [a3, b3, c3]
    simp only [List.mem_append, h.buf x, mem_takeWhile_iff k1.sorted hle, mem_takeWhile_iff k2.sorted hlei, mem_takeWhile_iff k3.sorted hleo, hp.mem_iff]
    tauto
  · rw [dropWhile_eq_filter k1.sorted hle, dropWhile_eq_filter k2.sorted hlei, dropWhile_eq_filter k3.sorted hleo, ← List.filter_append]
    exact hp.filter _

theorem RefSim.determine (h : RefSim rs st) (upper : List T) (int : Bool) (next : T) :
    ∃ st', st.determine upper int next = some st' ∧ RefSim (rs.determine upper int next) st' := by
  obtain ⟨r, ri, ro, k1, k2, k3, hp⟩ := h.ok
  have hadv : st.input.advanceOpt st.meet = some st.input := by
    cases hm : st.meet with
    | none => rfl
    | some m =>
      obtain ⟨inp, hinp⟩ : ∃ inp, inp = st.input := ⟨_, rfl⟩
      rw [← hinp]
      have hb : inp.buffer = [] := by rw [hinp]; exact h.noBuf
      obtain ⟨e, hi, b⟩ := inp
      simp only at hb
      subst hb
      rfl
  have hsome : (if int = true then st.input.advanceOpt st.meet else some st.input) = some st.input := by
    cases int
    · rfl
    · exact hadv
  obtain ⟨rs1, hrs1⟩ : ∃ rs1 : ReferenceState T, rs1 =
    if int then { rs with active := rs.active ++ [next], input := rs.input.advanceOpt rs.meet, output := rs.output.advanceOpt rs.meet } else rs := ⟨_, rfl⟩
  obtain ⟨st1, hst1⟩ : ∃ st1 : DiscoverState Nat T Nat, st1 = { st with input := st.input, output := if int then st.output.advanceOpt st.meet else st.output } := ⟨_, rfl⟩
  have hsim : RefSim rs1 { st1 with moments := if int then st1.moments ++ [next] else st1.moments } := by
    cases int with
    | false =>
      simp only [Bool.false_eq_true, if_false] at hrs1 hst1 ⊢
      subst hrs1 hst1
      exact h
    | true =>
      simp only [if_true] at hrs1 hst1 ⊢
      subst hrs1 hst1
      refine ⟨h.batch, h.synth, h.times, h.meets, h.current, h.meet, by simp only [h.moments], h.pended, h.noHist, h.noBuf, ?_, ?_⟩
      · intro x
        simp only [h.meet]
        cases rs.meet with
        | none => exact h.buf x
        | some m =>
          simp only [TimeHistory.advanceOpt, TimeHistory.advanceBufferBy, mem_sortDedup, List.mem_map, h.buf]
          constructor
          · rintro ⟨b, hb | hb, rfl⟩
            · exact Or.inl ⟨b, hb, rfl⟩
            · exact Or.inr ⟨b, hb, rfl⟩
          · rintro (⟨b, hb, rfl⟩ | ⟨b, hb, rfl⟩)
            · exact ⟨b, Or.inl hb, rfl⟩
            · exact ⟨b, Or.inr hb, rfl⟩
      · have hk : ∀ {h : TimeHistory T} {l : List T} (m : Option T), TimesOk h l → TimesOk (h.advanceOpt m) l := by
          intro h l m hk
          cases m with
          | none => exact hk
          | some m => exact ⟨hk.dec, hk.meets, hk.sorted⟩
        exact ⟨r, ri, ro, hk _ k1, hk _ k2, hk _ k3, hp⟩
  have hj : sortDedup (st1.joins int next) = sortDedup (rs1.joins int next) := by
    apply sortDedup_congr
    intro x
    unfold DiscoverState.joins ReferenceState.joins
    have e1 : st1.batch = rs1.batch := hsim.batch
    have e2 : st1.current = rs1.current := hsim.current
    have e3 : st1.input.buffer = [] := hsim.noBuf
    rw [e1, e2, e3]
    have : ∀ y, y ∈ joinsPast st1.output.buffer next ↔ y ∈ joinsPast rs1.input.buffer next ∨ y ∈ joinsPast rs1.output.buffer next := by
      intro y
      have hb : ∀ x, x ∈ st1.output.buffer ↔ x ∈ rs1.input.buffer ∨ x ∈ rs1.output.buffer := hsim.buf
      simp only [mem_joinsPast, hb]
      constructor
      · rintro ⟨e, h1 | h1, h2⟩
        · exact Or.inl ⟨e, h1, h2⟩
        · exact Or.inr ⟨e, h1, h2⟩
      · rintro (⟨e, h1, h2⟩ | ⟨e, h1, h2⟩)
        · exact ⟨e, Or.inl h1, h2⟩
        · exact ⟨e, Or.inr h1, h2⟩
    cases int
    · simp
    · simp only [if_true, List.mem_append, this, updTimes, List.map_nil]
      have : ¬ x ∈ joinsPast ([] : List T) next := by simp [joinsPast]
      tauto
  have e1 : st.synth = rs1.synth := by have := hsim.synth; rwa [hst1] at this
  have e2 : st.pended = rs1.pended := by have := hsim.pended; rwa [hst1] at this
  unfold DiscoverState.determine
  rw [hsome]
  simp only
  rw [← hst1, hj, e1, e2]
  refine ⟨_, rfl, ?_⟩
  unfold ReferenceState.determine
  rw [← hrs1]
  rw [hst1] at hsim
  exact ⟨hsim.batch, rfl, hsim.times, hsim.meets, hsim.current, hsim.meet, hsim.moments, rfl, hsim.noHist, hsim.noBuf, hsim.buf, hsim.ok⟩

theorem RefSim.conclude (h : RefSim rs st) : RefSim rs.conclude st.conclude := by
  obtain ⟨r, ri, ro, k1, k2, k3, hp⟩ := h.ok
  have hin : st.input.meet = none := by simp [ValueHistory.meet, h.noHist]
  have hm : updateMeet (updateMeet (updateMeet none st.batch.meet) st.input.meet) st.output.meet = updateMeet (updateMeet (updateMeet none rs.batch.meet) rs.input.meet) rs.output.meet := by
    rw [hin, h.batch, timesOk_meet_perm k1 k2 k3 hp, updateMeet_assoc (updateMeet none rs.batch.meet) rs.input.meet]
    rfl
  unfold DiscoverState.conclude ReferenceState.conclude
  rw [hm, h.synth, h.meets, h.current]
  exact ⟨h.batch, rfl, h.times, rfl, rfl, rfl, h.moments, h.pended, h.noHist, h.noBuf, h.buf, h.ok⟩

theorem RefSim.step (h : RefSim rs st) (upper : List T) {next : T} (hn : rs.nextTime = some next) :
    ∃ st', st.step upper next = some st' ∧ RefSim (rs.step upper next) st' := by
  obtain ⟨st1, a1, a2⟩ := h.advance hn
  unfold DiscoverState.step ReferenceState.step
  rw [a1]
  simp only
  by_cases hu : lessEqual upper next = true
  · simp only [hu, if_true]
    refine ⟨_, rfl, RefSim.conclude ?_⟩
    cases (rs.advance next).1 with
    | false => exact a2
    | true => exact ⟨a2.batch, a2.synth, a2.times, a2.meets, a2.current, a2.meet, a2.moments, by simp only [if_true, a2.pended], a2.noHist, a2.noBuf, a2.buf, a2.ok⟩
  · simp only [hu, Bool.false_eq_true, if_false]
    obtain ⟨st2, b1, b2⟩ := a2.determine upper (rs.advance next).1 next
    rw [b1]
    exact ⟨_, rfl, b2.conclude⟩

theorem RefSim.loop (upper : List T) : ∀ (fuel : Nat) {rs : ReferenceState T} {st st' : DiscoverState Nat T Nat}, RefSim rs st → st.loop upper fuel = some st' →
    ∃ rs', rs.loop upper fuel = some rs' ∧ RefSim rs' st' := by
  intro fuel
  induction fuel with
  | zero =>
    intro rs st st' h hl
    unfold DiscoverState.loop at hl
    unfold ReferenceState.loop
    rw [h.nextTime] at hl
    cases hn : rs.nextTime with
    | none =>
      rw [hn] at hl
      obtain rfl := Option.some.inj hl
      exact ⟨rs, rfl, h⟩
    | some next => rw [hn] at hl; simp at hl
  | succ fuel ih =>
    intro rs st st' h hl
    unfold DiscoverState.loop at hl
    unfold ReferenceState.loop
    rw [h.nextTime] at hl
    cases hn : rs.nextTime with
    | none =>
      rw [hn] at hl
      obtain rfl := Option.some.inj hl
      exact ⟨rs, rfl, h⟩
    | some next =>
      rw [hn] at hl
      simp only at hl ⊢
      obtain ⟨st1, a1, a2⟩ := h.step upper hn
      rw [a1] at hl
      exact ih a2 hl

/-- The first phase finds the times `discover_times` finds. -/
theorem reference_discover {V1 V2 R1 R2 : Type*} {hb hi : ValueHistory V1 T R1} {ho : ValueHistory V2 T R2} {B0 I0 : Upds V1 T R1} {O0 : Upds V2 T R2} (kb : HistOk hb B0)
    (ki : HistOk hi I0) (ko : HistOk ho O0) (times upper : List T) (fuel : Nat) {moments pended : List T}
    (h : discoverFrom (V := Nat) (R := Nat) fuel none [] times (updTimes B0) (updTimes I0 ++ updTimes O0) upper = some (moments, pended)) :
    ∃ rs, ReferenceState.loop upper fuel
      { batch := TimeHistory.ofHistory hb, input := TimeHistory.ofHistory hi, output := TimeHistory.ofHistory ho, synth := [], times := times, meets := timesMeets times,
        current := [], meet := none, active := [], pended := [] } = some rs ∧ rs.active = moments ∧ rs.pended = pended := by
  unfold discoverFrom at h
  have hl : ValueHistory.loadIter ([] : Upds Nat T Nat) none = some ⟨EditList.empty, [], []⟩ := rfl
  rw [hl] at h
  simp only [Option.map_eq_some_iff, Prod.mk.injEq] at h
  obtain ⟨st, h1, h2, h3⟩ := h
  obtain ⟨r1, a1, a2, a3⟩ := TimeHistory.load_ok (updTimes B0) (none : Option T)
  obtain ⟨r2, b1, b2, b3⟩ := TimeHistory.load_ok (updTimes I0 ++ updTimes O0) (none : Option T)
  have hid : ∀ l : List T, l.map (joinOpt none) = l := fun l => List.map_id' l
  have hsim : RefSim
      { batch := TimeHistory.ofHistory hb, input := TimeHistory.ofHistory hi, output := TimeHistory.ofHistory ho, synth := [], times := times, meets := timesMeets times,
        current := [], meet := none, active := [], pended := [] }
      ({ batch := TimeHistory.load (updTimes B0) none, input := ⟨EditList.empty, [], []⟩, output := TimeHistory.load (updTimes I0 ++ updTimes O0) none, synth := [],
         times := times, meets := timesMeets times, current := [], meet := none, moments := [], pended := [] } : DiscoverState Nat T Nat) := by
    refine ⟨timesOk_unique a1 (TimeHistory.ofHistory_ok kb) (by rw [hid] at a2; exact a2) a3, rfl, rfl, rfl, rfl, rfl, rfl, rfl, rfl, rfl, ?_, _, _, _, b1, TimeHistory.ofHistory_ok ki,
      TimeHistory.ofHistory_ok ko, by rw [hid] at b2; exact b2⟩
    intro x
    simp [b3, TimeHistory.ofHistory]
  obtain ⟨rs, c1, c2⟩ := RefSim.loop upper fuel hsim h1
  exact ⟨rs, c1, by rw [← c2.moments, h2], by rw [← c2.pended, h3]⟩

end
end DD
