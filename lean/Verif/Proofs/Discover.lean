import Verif.Model.Discover
import Verif.Proofs.ReduceInv
import Verif.Proofs.TwoPhase

/-!
# One iteration of the loop of `discover_times`
-/

namespace DD

/-! ### Buffers stand for what was stepped over, wherever all times to come can see -/

section
variable {T : Type*} [Lattice T]

/-- At or above every lower bound of the times to come. -/
def AboveMeet (rem : List T) (μ : T) : Prop := ∀ y, (∀ r ∈ rem, y ≤ r) → y ≤ μ

theorem aboveMeet_mem {rem : List T} {r : T} (h : r ∈ rem) : AboveMeet rem r := fun _ hy => hy r h

theorem AboveMeet.mono {rem rem' : List T} {μ : T} (h : AboveMeet rem' μ) (hr : ∀ r' ∈ rem', ∃ r ∈ rem, r ≤ r') : AboveMeet rem μ := by
  intro y hy
  refine h y fun r' h' => ?_
  obtain ⟨r, h1, h2⟩ := hr r' h'
  exact (hy r h1).trans h2

/-- Buffered times are those stepped over, when advanced to a time that is above the meet of the times to come. -/
def TimesRel (buf stepped rem : List T) : Prop := ∀ μ, AboveMeet rem μ → ∀ x, (∃ b ∈ buf, b ⊔ μ = x) ↔ ∃ s ∈ stepped, s ⊔ μ = x

theorem TimesRel.append {buf stepped rem : List T} (h : TimesRel buf stepped rem) (new : List T) : TimesRel (buf ++ new) (stepped ++ new) rem := by
  intro μ hμ x
  have := h μ hμ x
  simp only [List.mem_append, or_and_right, exists_or, this]

theorem TimesRel.mono {buf stepped rem rem' : List T} (h : TimesRel buf stepped rem) (hr : ∀ r' ∈ rem', ∃ r ∈ rem, r ≤ r') : TimesRel buf stepped rem' :=
  fun μ hμ => h μ (hμ.mono hr)

theorem TimesRel.joined {buf buf' stepped rem : List T} (h : TimesRel buf stepped rem) (m : Option T) (hm : ∀ x ∈ m, ∀ r ∈ rem, x ≤ r)
    (hb : ∀ x, x ∈ buf' ↔ ∃ b ∈ buf, x = joinOpt m b) : TimesRel buf' stepped rem := by
  intro μ hμ x
  rw [← h μ hμ x]
  have hj : ∀ b, joinOpt m b ⊔ μ = b ⊔ μ := by
    intro b
    cases m with
    | none => rfl
    | some y =>
      show b ⊔ y ⊔ μ = b ⊔ μ
      rw [sup_assoc, sup_eq_right.2 (hμ y (hm y rfl))]
  constructor
  · rintro ⟨b', h1, rfl⟩
    obtain ⟨b, h2, rfl⟩ := (hb b').1 h1
    exact ⟨b, h2, (hj b).symm⟩
  · rintro ⟨b, h1, rfl⟩
    exact ⟨_, (hb _).2 ⟨b, h1, rfl⟩, hj b⟩

theorem TimesRel.le_iff {buf stepped rem : List T} (h : TimesRel buf stepped rem) {next : T} (hn : next ∈ rem) : (∃ b ∈ buf, b ≤ next) ↔ ∃ s ∈ stepped, s ≤ next := by
  have := h next (aboveMeet_mem hn) next
  simpa only [sup_eq_right] using this

end

section
variable {V T R : Type*}

/-- The total difference of a datum at the times that satisfy `p`. -/
noncomputable def sumAt [DecidableEq V] [AddCommMonoid R] (us : Upds V T R) (v : V) (p : T → Prop) : R :=
  open Classical in (us.map fun u => if u.1 = v ∧ p u.2.1 then u.2.2 else 0).sum

variable [LinearOrder V] [AddCommMonoid R]

@[simp] theorem sumAt_nil (v : V) (p : T → Prop) : sumAt ([] : Upds V T R) v p = 0 := rfl

open Classical in
theorem sumAt_cons (u : V × T × R) (us : Upds V T R) (v : V) (p : T → Prop) :
    sumAt (u :: us) v p = (if u.1 = v ∧ p u.2.1 then u.2.2 else 0) + sumAt us v p := by
  simp [sumAt]

theorem sumAt_append (us ws : Upds V T R) (v : V) (p : T → Prop) : sumAt (us ++ ws) v p = sumAt us v p + sumAt ws v p := by
  simp [sumAt]

open Classical in
theorem sumAt_congr {us : Upds V T R} {v : V} {p p' : T → Prop} (h : ∀ u ∈ us, p u.2.1 ↔ p' u.2.1) : sumAt us v p = sumAt us v p' := by
  unfold sumAt
  congr 1
  apply List.map_congr_left
  intro u hu
  exact if_congr (and_congr_right fun _ => h u hu) rfl rfl

theorem sumAt_zero {us : Upds V T R} {v : V} {p : T → Prop} (h : ∀ u ∈ us, ¬ p u.2.1) : sumAt us v p = 0 := by
  unfold sumAt
  apply List.sum_eq_zero
  intro x hx
  obtain ⟨u, hu, rfl⟩ := List.mem_map.1 hx
  simp [h u hu]

theorem sumAt_map (us : Upds V T R) (f : T → T) (v : V) (p : T → Prop) : sumAt (us.map fun u => (u.1, f u.2.1, u.2.2)) v p = sumAt us v fun t => p (f t) := by
  simp [sumAt, List.map_map, Function.comp_def]

theorem sumAt_consolidatedU [LinearOrder (Lin T)] [DecidableEq R] (us : Upds V T R) (v : V) (p : T → Prop) : sumAt (consolidatedU us) v p = sumAt us v p := by
  classical
  have := measure_consolidatedU (fun d' t => if d' = v ∧ p t then AddMonoidHom.id R else 0) us
  unfold sumAt
  convert this using 3 <;> (funext u; split_ifs <;> simp)

theorem accum_eq_sumAt [LE T] [DecidableLE T] (us : Upds V T R) (v : V) (q : T) : accum us v q = sumAt us v (· ≤ q) := by
  unfold accum sumAt
  congr 1
  apply List.map_congr_left
  intro u _
  split_ifs <;> rfl

theorem total_eq_sumAt [DecidableEq T] (us : Upds V T R) (v : V) (t : T) : total us v t = sumAt us v (· = t) := by
  unfold total sumAt
  congr 1
  apply List.map_congr_left
  intro u _
  split_ifs <;> rfl

variable [Lattice T]

/-- Buffered updates add up as those stepped over, when advanced to a time that is above the meet of the times to come. -/
def UpdsRel (buf stepped : Upds V T R) (rem : List T) : Prop :=
  ∀ μ, AboveMeet rem μ → (∀ v e, sumAt buf v (fun t => t ⊔ μ = e) = sumAt stepped v fun t => t ⊔ μ = e) ∧ ∀ b ∈ buf, ∃ s ∈ stepped, s.2.1 ⊔ μ = b.2.1 ⊔ μ

theorem UpdsRel.append {buf stepped : Upds V T R} {rem : List T} (h : UpdsRel buf stepped rem) (new : Upds V T R) : UpdsRel (buf ++ new) (stepped ++ new) rem := by
  intro μ hμ
  obtain ⟨h1, h2⟩ := h μ hμ
  refine ⟨fun v e => by rw [sumAt_append, sumAt_append, h1], fun b hb => ?_⟩
  rcases List.mem_append.1 hb with hb | hb
  · obtain ⟨s, hs, e⟩ := h2 b hb
    exact ⟨s, by simp [hs], e⟩
  · exact ⟨b, by simp [hb], rfl⟩

theorem UpdsRel.mono {buf stepped : Upds V T R} {rem rem' : List T} (h : UpdsRel buf stepped rem) (hr : ∀ r' ∈ rem', ∃ r ∈ rem, r ≤ r') :
    UpdsRel buf stepped rem' := fun μ hμ => h μ (hμ.mono hr)

theorem UpdsRel.joined [LinearOrder (Lin T)] [DecidableEq R] {buf stepped : Upds V T R} {rem : List T} (h : UpdsRel buf stepped rem) (m : T) (hm : ∀ r ∈ rem, m ≤ r) :
    UpdsRel (consolidatedU (buf.map fun e => (e.1, e.2.1 ⊔ m, e.2.2))) stepped rem := by
  intro μ hμ
  obtain ⟨h1, h2⟩ := h μ hμ
  have hj : ∀ b, b ⊔ m ⊔ μ = b ⊔ μ := fun b => by rw [sup_assoc, sup_eq_right.2 (hμ m hm)]
  refine ⟨fun v e => ?_, fun b hb => ?_⟩
  · rw [sumAt_consolidatedU, sumAt_map buf (· ⊔ m), ← h1]
    simp only [hj]
  · obtain ⟨u, hu, -, e⟩ := consolidatedU_mem hb
    obtain ⟨w, hw, rfl⟩ := List.mem_map.1 hu
    obtain ⟨s, hs, e'⟩ := h2 w hw
    exact ⟨s, hs, by rw [e', ← e, hj]⟩

end

/-! ### One iteration -/

section
variable {V T R : Type*} [Lattice T] [DecidableLE T] [DecidableEq T] [TimeOrd T] [LinearOrder V] [AddCommMonoid R] [DecidableEq R]

/-- What has been stepped over and what has not, the times that were put in `times_current`, and all times visited. -/
structure DGhost (V T R : Type*) where
  Bs : List T
  Br : List T
  Is : Upds V T R
  Ir : Upds V T R
  Os : List T
  Or : List T
  used : List T
  vis : List T

/-- The times still to be visited. -/
def DGhost.rem (g : DGhost V T R) (st : DiscoverState V T R) : List T := g.Br ++ st.times ++ updTimes g.Ir ++ g.Or ++ st.synth

/-- The ghost after visiting `next`. -/
def DGhost.visit (g : DGhost V T R) (st : DiscoverState V T R) (next : T) : DGhost V T R :=
  { Bs := g.Bs ++ g.Br.takeWhile (fun t => decide (t = next))
    Br := g.Br.dropWhile (fun t => decide (t = next))
    Is := g.Is ++ g.Ir.takeWhile (fun u => decide (u.2.1 = next))
    Ir := g.Ir.dropWhile (fun u => decide (u.2.1 = next))
    Os := g.Os ++ g.Or.takeWhile (fun t => decide (t = next))
    Or := g.Or.dropWhile (fun t => decide (t = next))
    used := g.used ++ st.synth.takeWhile (fun t => decide (t = next)) ++ st.times.takeWhile (fun t => decide (t = next))
    vis := g.vis ++ [next] }

/-- The replays and buffers are as the ghost says. -/
structure DBufs (g : DGhost V T R) (st : DiscoverState V T R) (rem : List T) : Prop where
  okB : TimesOk st.batch g.Br
  okI : HistOk st.input g.Ir
  okO : TimesOk st.output g.Or
  bufB : TimesRel st.batch.buffer g.Bs rem
  bufI : UpdsRel st.input.buffer g.Is rem
  bufO : TimesRel st.output.buffer g.Os rem
  bufC : TimesRel st.current g.used rem
  meetLe : ∀ m ∈ st.meet, ∀ r ∈ rem, m ≤ r

omit [DecidableLE T] in
theorem timesAdvance_ok {h : TimeHistory T} {rest stepped rem : List T} (hk : TimesOk h rest) (hb : TimesRel h.buffer stepped rem) (m : Option T)
    (hm : ∀ x ∈ m, ∀ r ∈ rem, x ≤ r) : TimesOk (h.advanceOpt m) rest ∧ TimesRel (h.advanceOpt m).buffer stepped rem := by
  cases m with
  | none => exact ⟨hk, hb⟩
  | some x =>
    refine ⟨⟨hk.dec, hk.meets, hk.sorted⟩, hb.joined (some x) hm fun y => ?_⟩
    simp only [TimeHistory.advanceOpt, TimeHistory.advanceBufferBy, mem_sortDedup, List.mem_map, joinOpt]
    exact ⟨fun ⟨b, h1, h2⟩ => ⟨b, h1, h2.symm⟩, fun ⟨b, h1, h2⟩ => ⟨b, h1, h2.symm⟩⟩

omit [DecidableLE T] [DecidableEq T] in
theorem updsAdvance_ok {h : ValueHistory V T R} {rest stepped : Upds V T R} {rem : List T} (hk : HistOk h rest) (hb : UpdsRel h.buffer stepped rem) (m : Option T)
    (hm : ∀ x ∈ m, ∀ r ∈ rem, x ≤ r) : ∃ h', h.advanceOpt m = some h' ∧ HistOk h' rest ∧ UpdsRel h'.buffer stepped rem := by
  cases m with
  | none => exact ⟨h, rfl, hk, hb⟩
  | some x =>
    obtain ⟨h', a1, a2, a3, -⟩ := ValueHistory.ok_advance hk x
    refine ⟨h', a1, a2, ?_⟩
    rw [a3]
    exact hb.joined x (hm x rfl)

omit [DecidableEq R] in
theorem dAdvance_spec {g : DGhost V T R} {st : DiscoverState V T R} {rem : List T} (hb : DBufs g st rem) {next : T} (hn : next ∈ rem) :
    ∃ int st1, st.advance next = some (int, st1) ∧ DBufs (g.visit st next) st1 rem ∧
      st1.synth = st.synth.dropWhile (fun t => decide (t = next)) ∧ st1.times = st.times.dropWhile (fun t => decide (t = next)) ∧
      (st.meets = timesMeets st.times → st1.meets = timesMeets st1.times) ∧
      st1.meet = st.meet ∧ st1.moments = st.moments ∧ st1.pended = st.pended ∧
      (int = true ↔ ∃ s ∈ (g.visit st next).Bs ++ (g.visit st next).used, s ≤ next) := by
  obtain ⟨hI, i1, i2, i3⟩ := ValueHistory.ok_stepWhile (fun t => decide (t = next)) st.input.history.length hb.okI (by rw [hb.okI.dec.length_eq])
  have i4 : UpdsRel hI.buffer (g.Is ++ g.Ir.takeWhile fun u => decide (u.2.1 = next)) rem := by rw [i3]; exact hb.bufI.append _
  obtain ⟨-, o2, o3⟩ := TimeHistory.stepWhile_ok hb.okO next
  have o4 : TimesRel (st.output.stepWhileTimeIs next).2.buffer (g.Os ++ g.Or.takeWhile fun t => decide (t = next)) rem := by rw [o3]; exact hb.bufO.append _
  obtain ⟨b1, b2, b3⟩ := TimeHistory.stepWhile_ok hb.okB next
  have b4 : TimesRel (st.batch.stepWhileTimeIs next).2.buffer (g.Bs ++ g.Br.takeWhile fun t => decide (t = next)) rem := by rw [b3]; exact hb.bufB.append _
  have hc : TimesRel (st.current ++ st.synth.takeWhile (fun t => decide (t = next)) ++ st.times.takeWhile (fun t => decide (t = next)))
      (g.used ++ st.synth.takeWhile (fun t => decide (t = next)) ++ st.times.takeWhile (fun t => decide (t = next))) rem := (hb.bufC.append _).append _
  have hB : TimesOk (if (st.batch.stepWhileTimeIs next).1 = true then (st.batch.stepWhileTimeIs next).2.advanceOpt st.meet else (st.batch.stepWhileTimeIs next).2)
        (g.Br.dropWhile fun t => decide (t = next)) ∧
      TimesRel (if (st.batch.stepWhileTimeIs next).1 = true then (st.batch.stepWhileTimeIs next).2.advanceOpt st.meet else (st.batch.stepWhileTimeIs next).2).buffer
        (g.Bs ++ g.Br.takeWhile fun t => decide (t = next)) rem := by
    split_ifs
    · exact timesAdvance_ok b2 b4 st.meet hb.meetLe
    · exact ⟨b2, b4⟩
  unfold DiscoverState.advance ValueHistory.stepWhileTimeIs
  rw [i1]
  simp only
  refine ⟨_, _, rfl, ⟨hB.1, i2, o2, hB.2, i4, o4, hc, hb.meetLe⟩, drop_takeWhile_length _ _, drop_takeWhile_length _ _, ?_, rfl, rfl, rfl, ?_⟩
  · intro hm
    simp only [hm]
    rw [timesMeets_drop]
  · have e1 := hB.2.le_iff hn
    have e2 := hc.le_iff hn
    simp only [Bool.or_eq_true, List.any_eq_true, decide_eq_true_eq, e1, e2]
    simp only [b1, Bool.not_eq_true']
    show _ ↔ ∃ s ∈ (g.Bs ++ g.Br.takeWhile fun t => decide (t = next)) ++
      (g.used ++ st.synth.takeWhile (fun t => decide (t = next)) ++ st.times.takeWhile (fun t => decide (t = next))), s ≤ next
    have hne : ∀ {l : List T}, l.isEmpty = false → ∃ u, u ∈ l := fun h => List.exists_mem_of_ne_nil _ (by intro e; rw [e] at h; simp at h)
    constructor
    · rintro ((((h | h) | h) | ⟨s, h, hle⟩) | ⟨s, h, hle⟩)
      · obtain ⟨u, hu⟩ := hne h
        exact ⟨u, by simp [hu], (takeWhile_eq id _ next u hu).le⟩
      · obtain ⟨u, hu⟩ := hne h
        exact ⟨u, by simp [hu], (takeWhile_eq id _ next u hu).le⟩
      · obtain ⟨u, hu⟩ := hne h
        exact ⟨u, by simp [hu], (takeWhile_eq id _ next u hu).le⟩
      · exact ⟨s, List.mem_append_left _ h, hle⟩
      · exact ⟨s, List.mem_append_right _ h, hle⟩
    · rintro ⟨s, h, hle⟩
      rcases List.mem_append.1 h with h | h
      · exact Or.inl (Or.inr ⟨s, h, hle⟩)
      · exact Or.inr ⟨s, h, hle⟩

/-- The times that are joined with `next`. -/
def dJoinable (st : DiscoverState V T R) (int : Bool) (e : T) : Prop :=
  e ∈ st.batch.buffer ∨ e ∈ st.current ∨ (int = true ∧ (e ∈ updTimes st.input.buffer ∨ e ∈ st.output.buffer))

omit [DecidableEq T] [TimeOrd T] [LinearOrder V] [AddCommMonoid R] [DecidableEq R] in
theorem mem_dJoins {st : DiscoverState V T R} {int : Bool} {next x : T} :
    x ∈ st.joins int next ↔ ∃ e, dJoinable st int e ∧ ¬ e ≤ next ∧ x = e ⊔ next := by
  unfold DiscoverState.joins dJoinable
  cases int with
  | false =>
    simp only [Bool.false_eq_true, if_false, List.nil_append, List.mem_append, mem_joinsPast, false_and, or_false]
    constructor
    · rintro (⟨e, h1, h2⟩ | ⟨e, h1, h2⟩)
      · exact ⟨e, Or.inl h1, h2⟩
      · exact ⟨e, Or.inr h1, h2⟩
    · rintro ⟨e, h1 | h1, h2⟩
      · exact Or.inl ⟨e, h1, h2⟩
      · exact Or.inr ⟨e, h1, h2⟩
  | true =>
    simp only [if_true, List.mem_append, mem_joinsPast, true_and]
    constructor
    · rintro (((⟨e, h1, h2⟩ | ⟨e, h1, h2⟩) | ⟨e, h1, h2⟩) | ⟨e, h1, h2⟩)
      · exact ⟨e, Or.inr (Or.inr (Or.inl h1)), h2⟩
      · exact ⟨e, Or.inr (Or.inr (Or.inr h1)), h2⟩
      · exact ⟨e, Or.inl h1, h2⟩
      · exact ⟨e, Or.inr (Or.inl h1), h2⟩
    · rintro ⟨e, h1 | h1 | h1 | h1, h2⟩
      · exact Or.inl (Or.inr ⟨e, h1, h2⟩)
      · exact Or.inr ⟨e, h1, h2⟩
      · exact Or.inl (Or.inl (Or.inl ⟨e, h1, h2⟩))
      · exact Or.inl (Or.inl (Or.inr ⟨e, h1, h2⟩))

theorem dDetermine_spec {g : DGhost V T R} {st : DiscoverState V T R} {rem : List T} (hb : DBufs g st rem) (upper : List T) (int : Bool) (next : T)
    (hs : st.synth.Pairwise fun a b => toLin a < toLin b) :
    ∃ st2, st.determine upper int next = some st2 ∧ DBufs g st2 rem ∧
      st2.times = st.times ∧ st2.meets = st.meets ∧ st2.moments = (if int then st.moments ++ [next] else st.moments) ∧
      (st2.synth.Pairwise fun a b => toLin a < toLin b) ∧
      (∀ x, x ∈ st2.synth ↔ x ∈ st.synth ∨ (¬ Beyond upper x ∧ ∃ e, dJoinable st2 int e ∧ ¬ e ≤ next ∧ x = e ⊔ next)) ∧
      (∀ x, x ∈ st2.pended ↔ x ∈ st.pended ∨ (Beyond upper x ∧ ∃ e, dJoinable st2 int e ∧ ¬ e ≤ next ∧ x = e ⊔ next)) := by
  have hI : ∃ hI, (if int = true then st.input.advanceOpt st.meet else some st.input) = some hI ∧ HistOk hI g.Ir ∧ UpdsRel hI.buffer g.Is rem := by
    cases int with
    | false => exact ⟨_, rfl, hb.okI, hb.bufI⟩
    | true => exact updsAdvance_ok hb.okI hb.bufI st.meet hb.meetLe
  have hO : TimesOk (if int = true then st.output.advanceOpt st.meet else st.output) g.Or ∧
      TimesRel (if int = true then st.output.advanceOpt st.meet else st.output).buffer g.Os rem := by
    cases int with
    | false => exact ⟨hb.okO, hb.bufO⟩
    | true => exact timesAdvance_ok hb.okO hb.bufO st.meet hb.meetLe
  obtain ⟨hI, s1, s2, s3⟩ := hI
  unfold DiscoverState.determine
  rw [s1]
  simp only
  generalize (if int = true then st.output.advanceOpt st.meet else st.output) = hO' at *
  obtain ⟨mm, hmm⟩ : ∃ mm, mm = (if int = true then st.moments ++ [next] else st.moments) := ⟨_, rfl⟩
  rw [← hmm]
  refine ⟨_, rfl, ⟨hb.okB, s2, hO.1, hb.bufB, s3, hO.2, hb.bufC, hb.meetLe⟩, rfl, rfl, rfl, ?_, ?_, ?_⟩
  · simp only
    split_ifs
    · exact hs
    · exact sortDedup_sorted _
  · intro x
    have hmem : x ∈ List.filter (fun t => !lessEqual upper t) (sortDedup (DiscoverState.joins { st with input := hI, output := hO' } int next)) ↔
        ¬ Beyond upper x ∧ ∃ e, dJoinable ({ st with input := hI, output := hO' } : DiscoverState V T R) int e ∧ ¬ e ≤ next ∧ x = e ⊔ next := by
      rw [List.mem_filter, mem_sortDedup, mem_dJoins, Bool.not_eq_true', ← Bool.not_eq_true, lessEqual_iff]
      exact and_comm
    simp only
    split_ifs with he
    · rw [List.isEmpty_iff] at he
      rw [he] at hmem
      constructor
      · exact Or.inl
      · rintro (h | h)
        · exact h
        · have := hmem.2 h
          simp at this
    · rw [mem_sortDedup, List.mem_append, hmem, or_comm]
      exact Iff.rfl
  · intro x
    simp only [List.mem_append, List.mem_filter, mem_sortDedup, mem_dJoins, lessEqual_iff]
    rw [and_comm (b := Beyond upper x)]
    exact Iff.rfl

/-- What an iteration does, before the meet is recomputed. -/
structure DRaw (upper : List T) (g : DGhost V T R) (st st3 : DiscoverState V T R) (int : Bool) (next : T) (rem : List T) : Prop where
  bufs : DBufs (g.visit st next) st3 rem
  times : st3.times = st.times.dropWhile (fun t => decide (t = next))
  meets : st3.meets = timesMeets st3.times
  ssort : st3.synth.Pairwise fun a b => toLin a < toLin b
  synth : ∀ x, x ∈ st3.synth ↔ x ∈ st.synth.dropWhile (fun t => decide (t = next)) ∨
    (¬ Beyond upper next ∧ ¬ Beyond upper x ∧ ∃ e, dJoinable st3 int e ∧ ¬ e ≤ next ∧ x = e ⊔ next)
  pended : ∀ x, x ∈ st3.pended ↔ x ∈ st.pended ∨ (¬ Beyond upper next ∧ Beyond upper x ∧ ∃ e, dJoinable st3 int e ∧ ¬ e ≤ next ∧ x = e ⊔ next) ∨
    (Beyond upper next ∧ int = true ∧ x = next)
  moments0 : int = false ∨ Beyond upper next → st3.moments = st.moments
  moments1 : int = true → ¬ Beyond upper next → st3.moments = st.moments ++ [next]
  intIff : int = true ↔ ∃ s ∈ (g.visit st next).Bs ++ (g.visit st next).used, s ≤ next

theorem dStep_raw {g : DGhost V T R} {st : DiscoverState V T R} {rem : List T} (hb : DBufs g st rem) (hs : st.synth.Pairwise fun a b => toLin a < toLin b)
    (hm : st.meets = timesMeets st.times) (upper : List T) {next : T} (hn : next ∈ rem) :
    ∃ st3 int, st.step upper next = some st3.conclude ∧ DRaw upper g st st3 int next rem := by
  obtain ⟨int, st1, a1, a2, a3, a4, a5, a6, a7, a8, a9⟩ := dAdvance_spec hb hn
  have hs1 : st1.synth.Pairwise fun a b => toLin a < toLin b := by rw [a3]; exact hs.sublist (List.dropWhile_sublist _)
  unfold DiscoverState.step
  rw [a1]
  simp only
  by_cases hu : lessEqual upper next = true
  · rw [if_pos hu]
    have hu' := (lessEqual_iff _ _).1 hu
    refine ⟨if int = true then { st1 with pended := st1.pended ++ [next] } else st1, int, rfl, ?_⟩
    cases int with
    | true =>
      simp only [if_true]
      refine ⟨⟨a2.okB, a2.okI, a2.okO, a2.bufB, a2.bufI, a2.bufO, a2.bufC, a2.meetLe⟩, a4, a5 hm, hs1, ?_, ?_, fun _ => a7, fun _ h => absurd hu' h, a9⟩
      · intro x
        simp only [a3, hu', not_true, false_and, or_false]
      · intro x
        simp [a8, hu']
    | false =>
      simp only [Bool.false_eq_true, if_false]
      refine ⟨a2, a4, a5 hm, hs1, ?_, ?_, fun _ => a7, fun h => by simp at h, by simpa using a9⟩
      · intro x
        simp only [a3, hu', not_true, false_and, or_false]
      · intro x
        simp [a8, hu']
  · rw [if_neg hu]
    have hu' : ¬ Beyond upper next := fun h => hu ((lessEqual_iff _ _).2 h)
    obtain ⟨st2, b1, b2, b3, b4, b5, b6, b7, b8⟩ := dDetermine_spec a2 upper int next hs1
    refine ⟨st2, int, by rw [b1]; rfl, ⟨b2, by rw [b3, a4], by rw [b4, a5 hm, b3], b6, ?_, ?_, ?_, ?_, a9⟩⟩
    · intro x
      rw [b7, a3]
      simp [hu']
    · intro x
      rw [b8, a8]
      simp [hu']
    · rintro (h | h)
      · rw [b5, h, a7]; rfl
      · exact absurd h hu'
    · intro h _
      rw [b5, h, a7]; rfl

end

end DD
