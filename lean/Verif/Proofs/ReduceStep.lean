import Verif.Proofs.Reduce

/-!
# One iteration of the loop of `reduce`
-/

namespace DD

section
variable {V1 V2 T R1 R2 : Type*} [Lattice T] [DecidableLE T] [DecidableEq T] [LinearOrder (Lin T)] [LinearOrder V1] [LinearOrder V2]
  [AddCommMonoid R1] [DecidableEq R1] [AddCommMonoid R2] [DecidableEq R2]

/-- What has been stepped over and what has not, and the times that were put in `times_current`. -/
structure RGhost (V1 V2 T R1 R2 : Type*) where
  Bs : Upds V1 T R1
  Br : Upds V1 T R1
  Ss : Upds V1 T R1
  Sr : Upds V1 T R1
  Os : Upds V2 T R2
  Or : Upds V2 T R2
  used : List T

/-- The times still to be visited. -/
def RGhost.rem (g : RGhost V1 V2 T R1 R2) (st : ReduceState V1 V2 T R1 R2) : List T :=
  updTimes g.Br ++ st.times ++ updTimes g.Sr ++ updTimes g.Or ++ st.synth

/-- All updates produced. -/
def ReduceState.log (st : ReduceState V1 V2 T R1 R2) : Upds V2 T R2 := st.outputs.flatMap (·.2)

/-- The ghost after visiting `next`. -/
def RGhost.visit (g : RGhost V1 V2 T R1 R2) (st : ReduceState V1 V2 T R1 R2) (next : T) : RGhost V1 V2 T R1 R2 :=
  { Bs := g.Bs ++ g.Br.takeWhile (fun u => decide (u.2.1 = next))
    Br := g.Br.dropWhile (fun u => decide (u.2.1 = next))
    Ss := g.Ss ++ g.Sr.takeWhile (fun u => decide (u.2.1 = next))
    Sr := g.Sr.dropWhile (fun u => decide (u.2.1 = next))
    Os := g.Os ++ g.Or.takeWhile (fun u => decide (u.2.1 = next))
    Or := g.Or.dropWhile (fun u => decide (u.2.1 = next))
    used := g.used ++ st.synth.takeWhile (fun t => decide (t = next)) ++ st.times.takeWhile (fun t => decide (t = next)) }

/-- The replays and buffers are as the ghost says. -/
structure RBufs (g : RGhost V1 V2 T R1 R2) (st : ReduceState V1 V2 T R1 R2) (rem : List T) : Prop where
  okB : HistOk st.batch g.Br
  okS : HistOk st.input g.Sr
  okO : HistOk st.output g.Or
  bufB : BufRel st.batch.buffer g.Bs rem
  bufS : BufRel st.input.buffer g.Ss rem
  bufO : BufRel st.output.buffer g.Os rem
  bufP : BufRel st.produced st.log rem
  meetLe : ∀ m ∈ st.meet, ∀ r ∈ rem, m ≤ r

theorem stepWhileTimeIs_ok {V R : Type*} [LinearOrder V] [AddCommMonoid R] {h : ValueHistory V T R} {rest stepped : Upds V T R} {rem : List T}
    (hk : HistOk h rest) (hb : BufRel h.buffer stepped rem) (next : T) :
    ∃ h', h.stepWhileTimeIs next = some (!(rest.takeWhile fun u => decide (u.2.1 = next)).isEmpty, h') ∧
      HistOk h' (rest.dropWhile fun u => decide (u.2.1 = next)) ∧ BufRel h'.buffer (stepped ++ rest.takeWhile fun u => decide (u.2.1 = next)) rem ∧
      ∀ e ∈ h'.buffer, next ≤ e.2.1 ∨ ∃ e0 ∈ h.buffer, e0.2.1 ≤ e.2.1 := by
  obtain ⟨h', a1, a2, a3⟩ := ValueHistory.ok_stepWhile (fun t => decide (t = next)) h.history.length hk (by rw [hk.dec.length_eq])
  refine ⟨h', a1, a2, ?_, ?_⟩
  · rw [a3]
    exact hb.append _
  · rw [a3]
    intro e he
    rcases List.mem_append.1 he with he | he
    · exact Or.inr ⟨e, he, le_refl _⟩
    · exact Or.inl (takeWhile_eq (fun u : V × T × R => u.2.1) _ next e he).ge

theorem rAdvance_spec {g : RGhost V1 V2 T R1 R2} {st : ReduceState V1 V2 T R1 R2} {rem : List T} (hb : RBufs g st rem) (next : T) :
    ∃ int st1, st.advance next = some (int, st1) ∧ RBufs (g.visit st next) st1 rem ∧
      st1.synth = st.synth.dropWhile (fun t => decide (t = next)) ∧ st1.times = st.times.dropWhile (fun t => decide (t = next)) ∧
      (st.meets = timesMeets st.times → st1.meets = timesMeets st1.times) ∧
      st1.current = st.current ++ st.synth.takeWhile (fun t => decide (t = next)) ++ st.times.takeWhile (fun t => decide (t = next)) ∧
      st1.produced = st.produced ∧ st1.meet = st.meet ∧ st1.outputs = st.outputs ∧ st1.pended = st.pended ∧
      (int = true ↔ (∃ u ∈ g.Br.takeWhile (fun u => decide (u.2.1 = next)), u.2.1 = next) ∨ (∃ u ∈ st1.batch.buffer, u.2.1 ≤ next) ∨
        ∃ t ∈ st1.current, t ≤ next) ∧
      ∀ e ∈ st1.batch.buffer, next ≤ e.2.1 ∨ ∃ e0 ∈ st.batch.buffer, e0.2.1 ≤ e.2.1 := by
  obtain ⟨hS, s1, s2, s3, -⟩ := stepWhileTimeIs_ok hb.okS hb.bufS next
  obtain ⟨hO, o1, o2, o3, -⟩ := stepWhileTimeIs_ok hb.okO hb.bufO next
  obtain ⟨hB, b1, b2, b3, b4⟩ := stepWhileTimeIs_ok hb.okB hb.bufB next
  have hadv : ∃ hB', (if (!(g.Br.takeWhile fun u => decide (u.2.1 = next)).isEmpty) = true then hB.advanceOpt st.meet else some hB) = some hB' ∧
      HistOk hB' (g.Br.dropWhile fun u => decide (u.2.1 = next)) ∧
      BufRel hB'.buffer (g.Bs ++ g.Br.takeWhile fun u => decide (u.2.1 = next)) rem ∧
      ∀ e ∈ hB'.buffer, ∃ e0 ∈ hB.buffer, e0.2.1 ≤ e.2.1 := by
    by_cases hf : (!(g.Br.takeWhile fun u => decide (u.2.1 = next)).isEmpty) = true
    · rw [if_pos hf]; exact advanceOpt_ok b2 b3 st.meet hb.meetLe
    · rw [if_neg hf]; exact ⟨hB, rfl, b2, b3, fun e he => ⟨e, he, le_refl _⟩⟩
  obtain ⟨hB', c1, c2, c3, c4⟩ := hadv
  unfold ReduceState.advance
  rw [s1, o1, b1]
  simp only
  rw [c1]
  refine ⟨_, _, rfl, ⟨c2, s2, o2, c3, s3, o3, hb.bufP, hb.meetLe⟩, drop_takeWhile_length _ _, drop_takeWhile_length _ _, ?_, rfl, rfl, rfl, rfl, rfl, ?_, ?_⟩
  · intro hm
    simp only [hm]
    rw [timesMeets_drop]
  · simp only [Bool.or_eq_true, Bool.not_eq_true', List.any_eq_true, decide_eq_true_eq]
    constructor
    · rintro ((((h | h) | h) | h) | h)
      · left
        obtain ⟨u, hu⟩ : ∃ u, u ∈ g.Br.takeWhile fun u => decide (u.2.1 = next) := List.exists_mem_of_ne_nil _ (by
          intro e; rw [e] at h; simp at h)
        exact ⟨u, hu, takeWhile_eq (fun u : V1 × T × R1 => u.2.1) _ next u hu⟩
      · right; right
        obtain ⟨u, hu⟩ : ∃ u, u ∈ st.synth.takeWhile fun t => decide (t = next) := List.exists_mem_of_ne_nil _ (by
          intro e; rw [e] at h; simp at h)
        exact ⟨u, by simp [hu], (takeWhile_eq id _ next u hu).le⟩
      · right; right
        obtain ⟨u, hu⟩ : ∃ u, u ∈ st.times.takeWhile fun t => decide (t = next) := List.exists_mem_of_ne_nil _ (by
          intro e; rw [e] at h; simp at h)
        exact ⟨u, by simp [hu], (takeWhile_eq id _ next u hu).le⟩
      · exact Or.inr (Or.inl h)
      · exact Or.inr (Or.inr h)
    · rintro (⟨u, hu, -⟩ | h | h)
      · left; left; left; left
        rw [List.isEmpty_eq_false_iff]
        exact List.ne_nil_of_mem hu
      · exact Or.inl (Or.inr h)
      · exact Or.inr h
  · intro e he
    obtain ⟨e0, h1, h2⟩ := c4 e he
    rcases b4 e0 h1 with h | ⟨e1, h3, h4⟩
    · exact Or.inl (h.trans h2)
    · exact Or.inr ⟨e1, h3, h4.trans h2⟩

omit [DecidableEq T] [LinearOrder (Lin T)] in
theorem mem_joinsPast {ts : List T} {next x : T} : x ∈ joinsPast ts next ↔ ∃ e ∈ ts, ¬ e ≤ next ∧ x = e ⊔ next := by
  simp only [joinsPast, List.mem_map, List.mem_filter, Bool.not_eq_true', decide_eq_false_iff_not]
  constructor
  · rintro ⟨e, ⟨h1, h2⟩, rfl⟩; exact ⟨e, h1, h2, rfl⟩
  · rintro ⟨e, h1, h2, rfl⟩; exact ⟨e, ⟨h1, h2⟩, rfl⟩

/-- The times that are joined with `next`. -/
def joinable (st : ReduceState V1 V2 T R1 R2) (int : Bool) (e : T) : Prop :=
  e ∈ updTimes st.batch.buffer ∨ e ∈ st.current ∨
    (int = true ∧ (e ∈ updTimes st.input.buffer ∨ e ∈ updTimes st.output.buffer ∨ e ∈ updTimes st.produced))

omit [DecidableEq T] [LinearOrder (Lin T)] [LinearOrder V1] [LinearOrder V2] [AddCommMonoid R1] [DecidableEq R1] [AddCommMonoid R2] [DecidableEq R2] in
theorem mem_joins {st : ReduceState V1 V2 T R1 R2} {int : Bool} {next x : T} :
    x ∈ st.joins int next ↔ ∃ e, joinable st int e ∧ ¬ e ≤ next ∧ x = e ⊔ next := by
  unfold ReduceState.joins joinable
  cases int with
  | false =>
    simp only [Bool.false_eq_true, if_false, List.append_nil, List.mem_append, mem_joinsPast, false_and, or_false]
    constructor
    · rintro (⟨e, h1, h2⟩ | ⟨e, h1, h2⟩)
      · exact ⟨e, Or.inl h1, h2⟩
      · exact ⟨e, Or.inr h1, h2⟩
    · rintro ⟨e, h1 | h1, h2⟩
      · exact Or.inl ⟨e, h1, h2⟩
      · exact Or.inr ⟨e, h1, h2⟩
  | true =>
    simp only [if_true, List.mem_append, mem_joinsPast, true_and]
    constructor
    · rintro ((⟨e, h1, h2⟩ | ⟨e, h1, h2⟩) | ((⟨e, h1, h2⟩ | ⟨e, h1, h2⟩) | ⟨e, h1, h2⟩))
      · exact ⟨e, Or.inl h1, h2⟩
      · exact ⟨e, Or.inr (Or.inl h1), h2⟩
      · exact ⟨e, Or.inr (Or.inr (Or.inl h1)), h2⟩
      · exact ⟨e, Or.inr (Or.inr (Or.inr (Or.inl h1))), h2⟩
      · exact ⟨e, Or.inr (Or.inr (Or.inr (Or.inr h1))), h2⟩
    · rintro ⟨e, h1 | h1 | h1 | h1 | h1, h2⟩
      · exact Or.inl (Or.inl ⟨e, h1, h2⟩)
      · exact Or.inl (Or.inr ⟨e, h1, h2⟩)
      · exact Or.inr (Or.inl (Or.inl ⟨e, h1, h2⟩))
      · exact Or.inr (Or.inl (Or.inr ⟨e, h1, h2⟩))
      · exact Or.inr (Or.inr ⟨e, h1, h2⟩)

theorem rDetermine_spec {g : RGhost V1 V2 T R1 R2} {st : ReduceState V1 V2 T R1 R2} {rem : List T} (hb : RBufs g st rem) (upper : List T) (int : Bool)
    (next : T) (hs : st.synth.Pairwise fun a b => toLin a < toLin b) :
    ∃ st2, st.determine upper int next = some st2 ∧ RBufs g st2 rem ∧ st2.batch = st.batch ∧
      st2.times = st.times ∧ st2.meets = st.meets ∧ st2.current = st.current ∧ st2.produced = st.produced ∧ st2.meet = st.meet ∧ st2.outputs = st.outputs ∧
      (st2.synth.Pairwise fun a b => toLin a < toLin b) ∧
      (∀ x, x ∈ st2.synth ↔ x ∈ st.synth ∨ (¬ Beyond upper x ∧ ∃ e, joinable st2 int e ∧ ¬ e ≤ next ∧ x = e ⊔ next)) ∧
      (∀ x, x ∈ st2.pended ↔ x ∈ st.pended ∨ (Beyond upper x ∧ ∃ e, joinable st2 int e ∧ ¬ e ≤ next ∧ x = e ⊔ next)) := by
  have hS : ∃ hS, (if int = true then st.input.advanceOpt st.meet else some st.input) = some hS ∧ HistOk hS g.Sr ∧ BufRel hS.buffer g.Ss rem := by
    cases int with
    | false => exact ⟨_, rfl, hb.okS, hb.bufS⟩
    | true =>
      obtain ⟨h', a1, a2, a3, -⟩ := advanceOpt_ok hb.okS hb.bufS st.meet hb.meetLe
      exact ⟨h', a1, a2, a3⟩
  have hO : ∃ hO, (if int = true then st.output.advanceOpt st.meet else some st.output) = some hO ∧ HistOk hO g.Or ∧ BufRel hO.buffer g.Os rem := by
    cases int with
    | false => exact ⟨_, rfl, hb.okO, hb.bufO⟩
    | true =>
      obtain ⟨h', a1, a2, a3, -⟩ := advanceOpt_ok hb.okO hb.bufO st.meet hb.meetLe
      exact ⟨h', a1, a2, a3⟩
  obtain ⟨hS, s1, s2, s3⟩ := hS
  obtain ⟨hO, o1, o2, o3⟩ := hO
  unfold ReduceState.determine
  rw [s1, o1]
  simp only
  refine ⟨_, rfl, ⟨hb.okB, s2, o2, hb.bufB, s3, o3, hb.bufP, hb.meetLe⟩, rfl, rfl, rfl, rfl, rfl, rfl, rfl, ?_, ?_, ?_⟩
  · simp only
    split_ifs
    · exact hs
    · exact sortDedup_sorted _
  · intro x
    have hmem : x ∈ List.filter (fun t => !lessEqual upper t) (sortDedup (ReduceState.joins { st with input := hS, output := hO } int next)) ↔
        ¬ Beyond upper x ∧ ∃ e, joinable ({ st with input := hS, output := hO } : ReduceState V1 V2 T R1 R2) int e ∧ ¬ e ≤ next ∧ x = e ⊔ next := by
      rw [List.mem_filter, mem_sortDedup, mem_joins, Bool.not_eq_true', ← Bool.not_eq_true, lessEqual_iff]
      exact and_comm
    simp only
    split_ifs with he
    · rw [List.isEmpty_iff] at he
      rw [he] at hmem
      constructor
      · exact Or.inl
      · rintro (h | h)
        · exact h
        · have := hmem.2 h
          simp at this
    · rw [mem_sortDedup, List.mem_append, hmem, or_comm]
      exact Iff.rfl
  · intro x
    simp only [List.mem_append, List.mem_filter, mem_sortDedup, mem_joins, lessEqual_iff]
    rw [and_comm (b := Beyond upper x)]
    exact Iff.rfl

theorem modify_flatMap_perm {α : Type*} (outs : List (T × List α)) (idx : Nat) (new : List α) (h : idx < outs.length) :
    ((outs.modify idx fun o => (o.1, o.2 ++ new)).flatMap (·.2)).Perm (outs.flatMap (·.2) ++ new) := by
  induction outs generalizing idx with
  | nil => simp at h
  | cons o outs ih =>
    cases idx with
    | zero =>
      simp only [List.modify_zero_cons, List.flatMap_cons, List.append_assoc]
      exact List.Perm.append_left _ List.perm_append_comm
    | succ idx =>
      simp only [List.modify_succ_cons, List.flatMap_cons, List.append_assoc]
      exact List.Perm.append_left _ (ih idx (by simpa using h))

theorem outputIndex_lt {held : List T} {t : T} {k : Nat} (h : outputIndex held t = some k) : k < held.length := by
  induction held generalizing k with
  | nil => simp [outputIndex] at h
  | cons a held ih =>
    rw [outputIndex_cons] at h
    cases hr : outputIndex held t with
    | none =>
      rw [hr] at h
      simp only at h
      split_ifs at h
      cases h
      simp
    | some j =>
      rw [hr] at h
      cases h
      have := ih hr
      simpa using this

theorem outputIndex_le {held : List T} {t : T} {k : Nat} (h : outputIndex held t = some k) : ∃ x, held[k]? = some x ∧ x ≤ t := by
  induction held generalizing k with
  | nil => simp [outputIndex] at h
  | cons a held ih =>
    rw [outputIndex_cons] at h
    cases hr : outputIndex held t with
    | none =>
      rw [hr] at h
      simp only at h
      split_ifs at h with hle
      cases h
      exact ⟨a, rfl, hle⟩
    | some j =>
      rw [hr] at h
      cases h
      simpa using ih hr

omit [LinearOrder V1] [LinearOrder V2] [AddCommMonoid R1] [DecidableEq R1] [AddCommMonoid R2] [DecidableEq R2] [Lattice T] [DecidableLE T] [DecidableEq T]
  [LinearOrder (Lin T)] in
theorem accum_at_single [LE T] [DecidableLE T] [DecidableEq V2] [AddCommMonoid R2] (upd : List (V2 × R2)) (next q : T) (v : V2) :
    accum (upd.map fun u => (u.1, next, u.2)) v q = if next ≤ q then weight upd v else 0 := by
  unfold accum weight
  rw [List.map_map]
  by_cases h : next ≤ q
  · simp only [h, if_true, and_true, Function.comp_def]
  · simp [h, Function.comp_def]

/-- What an evaluation does: the updates at `next` bring the output in line with the function of the input. -/
theorem rEvaluate_spec {f : List (V1 × R1) → List (V2 × R2)} {logic : List (V1 × R1) → List (V2 × R2) → List (V2 × R2)} (hl : ReducesBy f logic)
    {g : RGhost V1 V2 T R1 R2} {st : ReduceState V1 V2 T R1 R2} {rem : List T} (hb : RBufs g st rem) (next : T)
    (hheld : Beyond (st.outputs.map (·.1)) next) :
    ∃ st3 upd, st.evaluate logic next = some st3 ∧ RBufs g st3 rem ∧ st3.batch = st.batch ∧ st3.input = st.input ∧ st3.output = st.output ∧
      st3.times = st.times ∧ st3.meets = st.meets ∧ st3.current = st.current ∧ st3.meet = st.meet ∧ st3.synth = st.synth ∧ st3.pended = st.pended ∧
      (st3.outputs.map (·.1) = st.outputs.map (·.1)) ∧
      (∀ i o3, st3.outputs[i]? = some o3 → ∃ o, st.outputs[i]? = some o ∧
        ∀ u ∈ o3.2, u ∈ o.2 ∨ (u.2.1 = next ∧ outputIndex (st.outputs.map (·.1)) next = some i)) ∧
      (st3.log).Perm (st.log ++ upd.map fun u => (u.1, next, u.2)) ∧
      ∃ l, ConsolidatedPairs l ∧ (∀ v, weight l v = accum st.input.buffer v next + accum st.batch.buffer v next) ∧
        ∀ v, weight upd v + (accum st.output.buffer v next + accum st.produced v next) = weight (f l) v := by
  unfold ReduceState.evaluate
  rw [consolidate_eq, consolidate_eq]
  simp only
  set inp := consolidated (readAt st.input.buffer next ++ readAt st.batch.buffer next) with hinp
  set out := consolidated (readAt st.output.buffer next ++ readAt st.produced next) with hout
  have winp : ∀ v, weight inp v = accum st.input.buffer v next + accum st.batch.buffer v next := by
    intro v; rw [hinp, weight_consolidated, weight_append, weight_readAt, weight_readAt]
  have wout : ∀ v, weight out v = accum st.output.buffer v next + accum st.produced v next := by
    intro v; rw [hout, weight_consolidated, weight_append, weight_readAt, weight_readAt]
  have cinp : ConsolidatedPairs inp := consolidatedPairs_consolidated _
  have cout : ConsolidatedPairs out := consolidatedPairs_consolidated _
  by_cases he : (inp.isEmpty && out.isEmpty) = true
  · rw [if_pos he]
    simp only [Bool.and_eq_true, List.isEmpty_iff] at he
    refine ⟨st, [], rfl, hb, rfl, rfl, rfl, rfl, rfl, rfl, rfl, rfl, rfl, rfl, fun i o h => ⟨o, h, fun u hu => Or.inl hu⟩, by simp, inp, cinp, winp, ?_⟩
    intro v
    rw [← wout, he.1, he.2, hl.1]
    simp [weight]
  · rw [if_neg he, consolidate_eq]
    simp only
    have hupd : ∀ v, weight (consolidated (logic inp out)) v + (accum st.output.buffer v next + accum st.produced v next) = weight (f inp) v := by
      intro v
      rw [weight_consolidated, ← wout, hl.2 inp out cinp cout]
    by_cases hu : (consolidated (logic inp out)).isEmpty = true
    · rw [if_pos hu]
      refine ⟨st, consolidated (logic inp out), rfl, hb, rfl, rfl, rfl, rfl, rfl, rfl, rfl, rfl, rfl, rfl, fun i o h => ⟨o, h, fun u hu => Or.inl hu⟩, ?_, inp, cinp, winp, hupd⟩
      rw [List.isEmpty_iff] at hu
      rw [hu]
      simp
    · rw [if_neg hu]
      set upd := consolidated (logic inp out) with hupdd
      cases ho : outputIndex (st.outputs.map (·.1)) next with
      | none => exact absurd hheld (outputIndex_eq_none.1 ho)
      | some idx =>
        simp only
        rw [consolidateUpdates_eq]
        simp only
        have hidx : idx < st.outputs.length := by
          have := outputIndex_lt ho
          simpa using this
        have hperm := modify_flatMap_perm st.outputs idx (upd.map fun u => (u.1, next, u.2)) hidx
        refine ⟨_, upd, rfl, ⟨hb.okB, hb.okS, hb.okO, hb.bufB, hb.bufS, hb.bufO, ?_, hb.meetLe⟩, rfl, rfl, rfl, rfl, rfl, rfl, rfl, rfl, rfl, ?_, ?_, hperm, inp, cinp, winp, hupd⟩
        · have h1 := (hb.bufP.append (upd.map fun u => (u.1, next, u.2))).joined st.meet hb.meetLe
          refine ⟨fun q hq v => ?_, fun e hee => ?_⟩
          · rw [h1.acc q hq v]
            exact (accum_perm hperm v q).symm
          · obtain ⟨u, a1, a2⟩ := h1.orig e hee
            exact ⟨u, hperm.mem_iff.2 a1, a2⟩
        · simp only
          apply List.ext_getElem?
          intro i
          simp only [List.getElem?_map, List.getElem?_modify]
          cases st.outputs[i]? with
          | none => rfl
          | some o => by_cases hi : idx = i <;> simp [hi]
        · intro i o3 h3
          simp only [List.getElem?_modify] at h3
          cases hoi : st.outputs[i]? with
          | none => rw [hoi] at h3; simp at h3
          | some o =>
            rw [hoi] at h3
            refine ⟨o, rfl, ?_⟩
            intro u huu
            by_cases hi : idx = i
            · subst hi
              simp only [if_true, Option.map_eq_map, Option.map_some, Option.some.injEq] at h3
              subst h3
              rcases List.mem_append.1 huu with huu | huu
              · exact Or.inl huu
              · obtain ⟨w, -, rfl⟩ := List.mem_map.1 huu
                exact Or.inr ⟨rfl, rfl⟩
            · simp only [hi, if_false, Option.map_eq_map, Option.map_some, id, Option.some.injEq] at h3
              subst h3
              exact Or.inl huu

end

end DD
