import Verif.Proofs.JoinAlgebra

namespace DD

/-! ### Times of join outputs -/

section
variable {V V1 V2 T R R1 R2 : Type*} [Lattice T] [LinearOrder V] [LinearOrder V1] [LinearOrder V2] [LinearOrder (Lin T)]
  [AddCommMonoid R] [DecidableEq R] [AddCommMonoid R1] [DecidableEq R1] [AddCommMonoid R2] [DecidableEq R2]

/-- All updates are at or beyond an optional time. -/
def AboveOpt {V T R : Type*} [LE T] (m : Option T) (us : Upds V T R) : Prop := ∀ u ∈ us, ∀ x ∈ m, x ≤ u.2.1

theorem aboveOpt_advanced {m : Option T} {us : Upds V T R} (h : AboveOpt m us) (t : T) :
    AboveOpt m (consolidatedU (us.map fun e => (e.1, e.2.1 ⊔ t, e.2.2))) := by
  intro u hu x hx
  obtain ⟨y, hy, e⟩ := consolidatedL_mem_key (updLayout V T R) (updLayout_lawful V T R) _ u hu
  obtain ⟨z, hz, rfl⟩ := List.mem_map.1 hy
  have e2 : u.2.1 = z.2.1 ⊔ t := by
    have := congrArg (fun k => (ofLex k).2) e
    exact this
  rw [e2]
  exact (h z hz x hx).trans le_sup_left

theorem waveLeft_times {m1 m2 : Option T} {h1 : ValueHistory V1 T R1} {h2 : ValueHistory V2 T R2} {u : V1 × T × R1} {r1 : Upds V1 T R1} {r2 : Upds V2 T R2}
    (k1 : HistOk h1 (u :: r1)) (k2 : HistOk h2 r2) (a1 : AboveOpt m1 (u :: r1)) (b1 : AboveOpt m1 h1.buffer) (b2 : AboveOpt m2 h2.buffer) :
    ∃ h1' h2' out, waveLeft h1 h2 = some (h1', h2', out) ∧ HistOk h1' r1 ∧ HistOk h2' r2 ∧ AboveOpt m1 h1'.buffer ∧ AboveOpt m2 h2'.buffer ∧
      ∀ o ∈ out, (∀ m ∈ m1, m ≤ o.2.2.1) ∧ ∀ m ∈ m2, m ≤ o.2.2.1 := by
  obtain ⟨m, hm, _⟩ := ValueHistory.ok_meet k1
  obtain ⟨h2', c1, c2, c3, _⟩ := ValueHistory.ok_advance k2 m
  obtain ⟨h1', d1, d2, d3, _⟩ := ValueHistory.ok_step k1
  have hb : AboveOpt m2 h2'.buffer := by rw [c3]; exact aboveOpt_advanced b2 m
  refine ⟨h1', h2', h2'.buffer.map fun e => (u.1, e.1, u.2.1 ⊔ e.2.1, u.2.2, e.2.2), ?_, d2, c2, ?_, hb, ?_⟩
  · unfold waveLeft
    rw [hm]
    simp only
    rw [c1, ValueHistory.ok_edit k1, d1]
    rfl
  · rw [d3]
    intro x hx
    rcases List.mem_append.1 hx with hx | hx
    · exact b1 x hx
    · rw [List.mem_singleton.1 hx]; exact a1 u (by simp)
  · intro o ho
    obtain ⟨e, he, rfl⟩ := List.mem_map.1 ho
    exact ⟨fun m hm => (a1 u (by simp) m hm).trans le_sup_left, fun m hm => (hb e he m hm).trans le_sup_right⟩

theorem waveRight_times {m1 m2 : Option T} {h1 : ValueHistory V1 T R1} {h2 : ValueHistory V2 T R2} {u : V2 × T × R2} {r1 : Upds V1 T R1} {r2 : Upds V2 T R2}
    (k1 : HistOk h1 r1) (k2 : HistOk h2 (u :: r2)) (a2 : AboveOpt m2 (u :: r2)) (b1 : AboveOpt m1 h1.buffer) (b2 : AboveOpt m2 h2.buffer) :
    ∃ h1' h2' out, waveRight h1 h2 = some (h1', h2', out) ∧ HistOk h1' r1 ∧ HistOk h2' r2 ∧ AboveOpt m1 h1'.buffer ∧ AboveOpt m2 h2'.buffer ∧
      ∀ o ∈ out, (∀ m ∈ m1, m ≤ o.2.2.1) ∧ ∀ m ∈ m2, m ≤ o.2.2.1 := by
  obtain ⟨m, hm, _⟩ := ValueHistory.ok_meet k2
  obtain ⟨h1', c1, c2, c3, _⟩ := ValueHistory.ok_advance k1 m
  obtain ⟨h2', d1, d2, d3, _⟩ := ValueHistory.ok_step k2
  have hb : AboveOpt m1 h1'.buffer := by rw [c3]; exact aboveOpt_advanced b1 m
  refine ⟨h1', h2', h1'.buffer.map fun e => (e.1, u.1, e.2.1 ⊔ u.2.1, e.2.2, u.2.2), ?_, c2, d2, hb, ?_, ?_⟩
  · unfold waveRight
    rw [hm]
    simp only
    rw [c1, ValueHistory.ok_edit k2, d1]
    rfl
  · rw [d3]
    intro x hx
    rcases List.mem_append.1 hx with hx | hx
    · exact b2 x hx
    · rw [List.mem_singleton.1 hx]; exact a2 u (by simp)
  · intro o ho
    obtain ⟨e, he, rfl⟩ := List.mem_map.1 ho
    exact ⟨fun m hm => (hb e he m hm).trans le_sup_left, fun m hm => (a2 u (by simp) m hm).trans le_sup_right⟩

theorem waveLoop_times {m1 m2 : Option T} : ∀ (n : Nat) {h1 : ValueHistory V1 T R1} {h2 : ValueHistory V2 T R2} {r1 : Upds V1 T R1} {r2 : Upds V2 T R2},
    HistOk h1 r1 → HistOk h2 r2 → AboveOpt m1 r1 → AboveOpt m2 r2 → AboveOpt m1 h1.buffer → AboveOpt m2 h2.buffer →
    ∀ out, waveLoop n h1 h2 = some out → ∀ o ∈ out, (∀ m ∈ m1, m ≤ o.2.2.1) ∧ ∀ m ∈ m2, m ≤ o.2.2.1 := by
  intro n
  induction n with
  | zero =>
    intro h1 h2 r1 r2 _ _ _ _ _ _ out ho
    simp only [waveLoop, Option.some.injEq] at ho
    subst ho; simp
  | succ n ih =>
    intro h1 h2 r1 r2 k1 k2 a1 a2 b1 b2 out ho
    have goL : ∀ u r1', r1 = u :: r1' → ∀ out, (match waveLeft h1 h2 with
        | none => none
        | some (h1', h2', out) => (waveLoop n h1' h2').map (out ++ ·)) = some out → ∀ o ∈ out, (∀ m ∈ m1, m ≤ o.2.2.1) ∧ ∀ m ∈ m2, m ≤ o.2.2.1 := by
      rintro u r1' rfl out ho o hmem
      obtain ⟨h1', h2', out0, c1, c2, c3, c4, c5, c6⟩ := waveLeft_times k1 k2 a1 b1 b2
      rw [c1] at ho
      simp only [Option.map_eq_some_iff] at ho
      obtain ⟨out1, e1, rfl⟩ := ho
      rcases List.mem_append.1 hmem with hmem | hmem
      · exact c6 o hmem
      · exact ih c2 c3 (fun x hx => a1 x (by simp [hx])) a2 c4 c5 out1 e1 o hmem
    have goR : ∀ u r2', r2 = u :: r2' → ∀ out, (match waveRight h1 h2 with
        | none => none
        | some (h1', h2', out) => (waveLoop n h1' h2').map (out ++ ·)) = some out → ∀ o ∈ out, (∀ m ∈ m1, m ≤ o.2.2.1) ∧ ∀ m ∈ m2, m ≤ o.2.2.1 := by
      rintro u r2' rfl out ho o hmem
      obtain ⟨h1', h2', out0, c1, c2, c3, c4, c5, c6⟩ := waveRight_times k1 k2 a2 b1 b2
      rw [c1] at ho
      simp only [Option.map_eq_some_iff] at ho
      obtain ⟨out1, e1, rfl⟩ := ho
      rcases List.mem_append.1 hmem with hmem | hmem
      · exact c6 o hmem
      · exact ih c2 c3 a1 (fun x hx => a2 x (by simp [hx])) c4 c5 out1 e1 o hmem
    unfold waveLoop at ho
    rw [ValueHistory.ok_time k1, ValueHistory.ok_time k2] at ho
    cases e1 : r1 with
    | nil =>
      cases e2 : r2 with
      | nil =>
        subst e1 e2
        simp only [List.head?_nil, Option.map_none, Option.some.injEq] at ho
        subst ho; simp
      | cons u r2' =>
        apply goR u r2' e2
        rw [e1, e2] at ho
        simp only [List.head?_nil, List.head?_cons, Option.map_none, Option.map_some] at ho
        cases hw : waveRight h1 h2 with
        | none => rw [hw] at ho; exact ho
        | some x => rw [hw] at ho; exact ho
    | cons u r1' =>
      cases e2 : r2 with
      | nil =>
        apply goL u r1' e1
        rw [e1, e2] at ho
        simp only [List.head?_nil, List.head?_cons, Option.map_none, Option.map_some] at ho
        cases hw : waveLeft h1 h2 with
        | none => rw [hw] at ho; exact ho
        | some x => rw [hw] at ho; exact ho
      | cons u' r2' =>
        rw [e1, e2] at ho
        simp only [List.head?_cons, Option.map_some] at ho
        by_cases hlt : toLin u.2.1 < toLin u'.2.1
        · apply goL u r1' e1
          rw [if_pos hlt] at ho
          cases hw : waveLeft h1 h2 with
          | none => rw [hw] at ho; exact ho
          | some x => rw [hw] at ho; exact ho
        · apply goR u' r2' e2
          rw [if_neg hlt] at ho
          cases hw : waveRight h1 h2 with
          | none => rw [hw] at ho; exact ho
          | some x => rw [hw] at ho; exact ho

theorem think_times {m1 m2 : Option T} (limit : Nat) (gs1 : List (V1 × List (T × R1))) (gs2 : List (V2 × List (T × R2)))
    (a1 : AboveOpt m1 (valUpds gs1)) (a2 : AboveOpt m2 (valUpds gs2)) (out : JoinOut V1 V2 T R1 R2)
    (ho : think limit (EditList.ofGroups gs1) (EditList.ofGroups gs2) = some out) : ∀ o ∈ out, (∀ m ∈ m1, m ≤ o.2.2.1) ∧ ∀ m ∈ m2, m ≤ o.2.2.1 := by
  unfold think at ho
  by_cases h : (EditList.ofGroups gs1).edits.length < limit ∨ (EditList.ofGroups gs2).edits.length < limit
  · rw [if_pos h] at ho
    unfold crossProduct at ho
    rw [EditList.map_ofGroups, EditList.map_ofGroups] at ho
    simp only [Option.some.injEq] at ho
    subst ho
    intro o hmem
    simp only [List.mem_flatMap, List.mem_map] at hmem
    obtain ⟨x, hx, y, hy, rfl⟩ := hmem
    exact ⟨fun m hm => (a1 x hx m hm).trans le_sup_left, fun m hm => (a2 y hy m hm).trans le_sup_right⟩
  · rw [if_neg h] at ho
    obtain ⟨h1, r1, c1, c2, c3, c4⟩ := build_ok gs1
    obtain ⟨h2, r2, d1, d2, d3, d4⟩ := build_ok gs2
    rw [c1, d1] at ho
    simp only [bilinearWave] at ho
    exact waveLoop_times _ c2 d2 (fun x hx => a1 x (c3.mem_iff.1 hx)) (fun x hx => a2 x (d3.mem_iff.1 hx)) (by rw [c4]; simp [AboveOpt]) (by rw [d4]; simp [AboveOpt]) out ho

variable [DecidableLE T]

/-- What `joinKey` produces: right accumulations at times at or beyond the times histories are advanced by, and no earlier outputs. -/
theorem joinKey_spec {K D M : Type*} [LinearOrder K] [DecidableEq D] [AddCommMonoid M] (result : K → V1 → V2 → List D) (mul : R1 →+ R2 →+ M) (k : K)
    (meet1 meet2 : Option T) (c1 : List (V1 × List (T × R1))) (c2 : List (V2 × List (T × R2))) :
    ∃ out, joinKey meet1 meet2 c1 c2 = some out ∧ (∀ o ∈ out, (∀ m ∈ meet1, m ≤ o.2.2.1) ∧ ∀ m ∈ meet2, m ≤ o.2.2.1) ∧
      ∀ d q, (∀ m ∈ meet1, m ≤ q) → (∀ m ∈ meet2, m ≤ q) →
        accum (out.flatMap fun o => joinCoreLogic result (fun a b => mul a b) k o.1 o.2.1 o.2.2.1 o.2.2.2.1 o.2.2.2.2) d q
          = accum (nestedJoin result (fun a b => mul a b) (tagKey k (valUpds c1)) (tagKey k (valUpds c2))) d q := by
  unfold joinKey
  rw [EditList.load_spec, EditList.load_spec]
  obtain ⟨out, a1, a2⟩ := think_spec (M := M) 10 (EditList.loadGroups meet1 c1) (EditList.loadGroups meet2 c2)
  refine ⟨out, a1, ?_, fun d q h1 h2 => accum_logic_key result mul k out _ _ q (fun v1 v2 => ?_) d⟩
  on_goal 2 => rw [a2, accum_loadGroups meet1 c1 v1 q h1, accum_loadGroups meet2 c2 v2 q h2]
  refine think_times 10 _ _ ?_ ?_ out a1
  · intro u hu m hm
    obtain ⟨vu, _, x, _, _, e⟩ := loadGroups_mem meet1 c1 u hu
    rw [e]; exact le_joinOpt_right meet1 _ m hm
  · intro u hu m hm
    obtain ⟨vu, _, x, _, _, e⟩ := loadGroups_mem meet2 c2 u hu
    rw [e]; exact le_joinOpt_right meet2 _ m hm

end

/-! ### Deferred work -/

section
variable {K V1 V2 T R1 R2 S D M : Type*} [Lattice T] [DecidableLE T] [DecidableEq T] [LinearOrder (Lin T)] [LinearOrder K] [LinearOrder V1] [LinearOrder V2]
  [AddCommMonoid R1] [DecidableEq R1] [AddCommMonoid R2] [DecidableEq R2] [DecidableEq D] [AddCommMonoid M]

theorem accum_zero_above {X T R : Type*} [DecidableEq X] [PartialOrder T] [DecidableLE T] [AddCommMonoid R] {us : Upds X T R} {m q : T} (h : ∀ u ∈ us, m ≤ u.2.1)
    (hq : ¬ m ≤ q) (d : X) : accum us d q = 0 := by
  unfold accum
  apply List.sum_eq_zero
  intro x hx
  obtain ⟨u, hu, rfl⟩ := List.mem_map.1 hx
  rw [if_neg]
  rintro ⟨_, h2⟩
  exact hq ((h u hu).trans h2)

/-- A deferred iterator in a good state, which still has to yield updates that accumulate to `W`. -/
structure IterOk (B : OutBuilder S D T M) (ok : S → Prop) (held : S → Upds D T M) (result : K → V1 → V2 → List D) (mul : R1 →+ R2 →+ M)
    (it : DeferredIter K V1 V2 T R1 R2 S D M) (W : D → T → M) : Prop where
  builder : it.done = false → ok it.builder
  ready : ∀ u ∈ it.ready.flatten, it.meet ≤ u.2.1
  inside : it.done = false → ∀ u ∈ held it.builder, it.meet ≤ u.2.1
  sides : (it.advance1 = true ∧ it.advance2 = false ∧ ∀ u ∈ contentsUpds it.cursor2, it.meet ≤ u.2.1) ∨
    (it.advance1 = false ∧ it.advance2 = true ∧ ∀ u ∈ contentsUpds it.cursor1, it.meet ≤ u.2.1)
  keys1 : it.cursor1.Pairwise fun x y => x.1 < y.1
  keys2 : it.cursor2.Pairwise fun x y => x.1 < y.1
  value : ∀ d q, accum it.ready.flatten d q + (if it.done then 0 else
    accum (held it.builder) d q + accum (nestedJoin result (fun a b => mul a b) (contentsUpds it.cursor1) (contentsUpds it.cursor2)) d q) = W d q

/-- How far an iterator is: keys it may still visit, and containers at hand. -/
def DeferredIter.left (it : DeferredIter K V1 V2 T R1 R2 S D M) : ℕ ×ₗ ℕ :=
  toLex ((if it.done then 0 else it.cursor1.length + it.cursor2.length + 1), it.ready.length)

omit [DecidableEq T] [LinearOrder (Lin T)] [DecidableEq R1] [DecidableEq R2] in
theorem sides_zero {it : DeferredIter K V1 V2 T R1 R2 S D M} {result : K → V1 → V2 → List D} {mul : R1 →+ R2 →+ M}
    (sides : (it.advance1 = true ∧ it.advance2 = false ∧ ∀ u ∈ contentsUpds it.cursor2, it.meet ≤ u.2.1) ∨
      (it.advance1 = false ∧ it.advance2 = true ∧ ∀ u ∈ contentsUpds it.cursor1, it.meet ≤ u.2.1)) {q : T} (hq : ¬ it.meet ≤ q) (d : D) :
    accum (nestedJoin result (fun a b => mul a b) (contentsUpds it.cursor1) (contentsUpds it.cursor2)) d q = 0 := by
  rcases sides with ⟨-, -, h⟩ | ⟨-, -, h⟩
  · exact nestedJoin_zero_right (fun kv => accum_zero_above h hq kv) d
  · exact nestedJoin_zero_left (fun kv => accum_zero_above h hq kv) d

omit [DecidableEq T] [LinearOrder (Lin T)] [DecidableEq R1] [DecidableEq R2] in
theorem IterOk.zero {B : OutBuilder S D T M} {ok : S → Prop} {held : S → Upds D T M} {result : K → V1 → V2 → List D} {mul : R1 →+ R2 →+ M}
    {it : DeferredIter K V1 V2 T R1 R2 S D M} {W : D → T → M} (h : IterOk B ok held result mul it W) {q : T} (hq : ¬ it.meet ≤ q) (d : D) : W d q = 0 := by
  rw [← h.value, accum_zero_above h.ready hq]
  by_cases hd : it.done = true
  · simp [hd]
  · have hd' : it.done = false := by simpa using hd
    simp only [hd', Bool.false_eq_true, if_false]
    rw [accum_zero_above (h.inside hd') hq, sides_zero h.sides hq]
    simp

theorem outPushAll_spec {B : OutBuilder S D T M} {ok : S → Prop} {held : S → Upds D T M} (hB : B.Keeps ok held) (us : List (D × T × M)) : ∀ (s : S), ok s →
    ∃ s', B.pushAll s us = some s' ∧ ok s' ∧ (∀ d q, accum (held s') d q = accum (held s) d q + accum us d q) ∧
      ∀ x ∈ held s', ∃ y ∈ held s ++ us, y.2.1 = x.2.1 := by
  induction us with
  | nil => intro s hs; exact ⟨s, rfl, hs, by simp, fun x hx => ⟨x, by simpa using hx, rfl⟩⟩
  | cons u us ih =>
    intro s hs
    obtain ⟨s1, a1, a2, a3, a4⟩ := hB.push s u hs
    obtain ⟨s2, b1, b2, b3, b4⟩ := ih s1 a2
    refine ⟨s2, ?_, b2, ?_, ?_⟩
    · simp only [OutBuilder.pushAll, a1, b1]
    · intro d q
      rw [b3, a3, accum_append, accum_cons, accum_cons, accum_nil]
      abel
    · intro x hx
      obtain ⟨y, hy, e⟩ := b4 x hx
      rcases List.mem_append.1 hy with hy | hy
      · obtain ⟨z, hz, e'⟩ := a4 y hy
        refine ⟨z, ?_, e'.trans e⟩
        simp only [List.mem_append, List.mem_cons, List.not_mem_nil, or_false] at hz ⊢
        tauto
      · exact ⟨y, by simp [hy], e⟩

omit [DecidableLE T] [DecidableEq T] [LinearOrder (Lin T)] [LinearOrder V1] [LinearOrder V2] [DecidableEq R1] [DecidableEq R2] [DecidableEq D] [AddCommMonoid M]
  [AddCommMonoid R1] [AddCommMonoid R2] in
theorem nestedJoin_disjoint (result : K → V1 → V2 → List D) (mul : R1 → R2 → M) (c1 : Contents K V1 T R1) (c2 : Contents K V2 T R2)
    (h : ∀ a ∈ c1, ∀ b ∈ c2, a.1 ≠ b.1) : nestedJoin result mul (contentsUpds c1) (contentsUpds c2) = [] := by
  unfold nestedJoin
  rw [List.flatMap_eq_nil_iff]
  intro a ha
  rw [List.flatMap_eq_nil_iff]
  intro b hb
  simp only [contentsUpds, List.mem_flatMap] at ha hb
  obtain ⟨x, hx, ha⟩ := ha
  obtain ⟨y, hy, hb⟩ := hb
  obtain ⟨u, _, rfl⟩ := List.mem_map.1 ha
  obtain ⟨w, _, rfl⟩ := List.mem_map.1 hb
  rw [if_neg]
  exact h x hx y hy

omit [DecidableEq T] [LinearOrder (Lin T)] [DecidableEq R1] [DecidableEq R2] in
/-- Keys before the first key of the other side do not matter. -/
theorem nestedJoin_seek_left (result : K → V1 → V2 → List D) (mul : R1 →+ R2 →+ M) (c1 : Contents K V1 T R1) (c2 : Contents K V2 T R2) (k : K)
    (h2 : ∀ kv ∈ c2, k ≤ kv.1) (d : D) (q : T) :
    accum (nestedJoin result (fun a b => mul a b) (contentsUpds (c1.dropWhile fun kv => kv.1 < k)) (contentsUpds c2)) d q
      = accum (nestedJoin result (fun a b => mul a b) (contentsUpds c1) (contentsUpds c2)) d q := by
  have e : contentsUpds c1 = contentsUpds (c1.takeWhile fun kv => kv.1 < k) ++ contentsUpds (c1.dropWhile fun kv => kv.1 < k) := by
    simp only [contentsUpds]
    rw [← List.flatMap_append, List.takeWhile_append_dropWhile]
  rw [e, nestedJoin_append_left, nestedJoin_disjoint (c1 := c1.takeWhile fun kv => kv.1 < k)]
  · simp
  · intro a ha b hb
    have := List.mem_takeWhile_imp ha
    simp only [decide_eq_true_eq] at this
    exact (this.trans_le (h2 b hb)).ne

omit [DecidableEq T] [LinearOrder (Lin T)] [DecidableEq R1] [DecidableEq R2] in
theorem nestedJoin_seek_right (result : K → V1 → V2 → List D) (mul : R1 →+ R2 →+ M) (c1 : Contents K V1 T R1) (c2 : Contents K V2 T R2) (k : K)
    (h1 : ∀ kv ∈ c1, k ≤ kv.1) (d : D) (q : T) :
    accum (nestedJoin result (fun a b => mul a b) (contentsUpds c1) (contentsUpds (c2.dropWhile fun kv => kv.1 < k))) d q
      = accum (nestedJoin result (fun a b => mul a b) (contentsUpds c1) (contentsUpds c2)) d q := by
  have e : contentsUpds c2 = contentsUpds (c2.takeWhile fun kv => kv.1 < k) ++ contentsUpds (c2.dropWhile fun kv => kv.1 < k) := by
    simp only [contentsUpds]
    rw [← List.flatMap_append, List.takeWhile_append_dropWhile]
  rw [e, nestedJoin_append_right, nestedJoin_disjoint (c2 := c2.takeWhile fun kv => kv.1 < k)]
  · simp
  · intro a ha b hb
    have := List.mem_takeWhile_imp hb
    simp only [decide_eq_true_eq] at this
    exact (this.trans_le (h1 a ha)).ne'

omit [DecidableEq T] [LinearOrder (Lin T)] [DecidableEq R1] [DecidableEq R2] in
/-- Contents that both start with a key. -/
theorem nestedJoin_cons_cons (result : K → V1 → V2 → List D) (mul : R1 →+ R2 →+ M) (k : K) (v1 : List (V1 × List (T × R1))) (v2 : List (V2 × List (T × R2)))
    (c1 : Contents K V1 T R1) (c2 : Contents K V2 T R2) (h1 : ∀ kv ∈ c1, k < kv.1) (h2 : ∀ kv ∈ c2, k < kv.1) (d : D) (q : T) :
    accum (nestedJoin result (fun a b => mul a b) (contentsUpds ((k, v1) :: c1)) (contentsUpds ((k, v2) :: c2))) d q
      = accum (nestedJoin result (fun a b => mul a b) (tagKey k (valUpds v1)) (tagKey k (valUpds v2))) d q
        + accum (nestedJoin result (fun a b => mul a b) (contentsUpds c1) (contentsUpds c2)) d q := by
  have e1 : contentsUpds ((k, v1) :: c1) = contentsUpds [(k, v1)] ++ contentsUpds c1 := by simp [contentsUpds]
  have e2 : contentsUpds ((k, v2) :: c2) = contentsUpds [(k, v2)] ++ contentsUpds c2 := by simp [contentsUpds]
  have f1 : contentsUpds [(k, v1)] = tagKey k (valUpds v1) := by simp [contentsUpds]
  have f2 : contentsUpds [(k, v2)] = tagKey k (valUpds v2) := by simp [contentsUpds]
  rw [e1, e2, nestedJoin_append_left, nestedJoin_append_right, nestedJoin_append_right, nestedJoin_disjoint (c1 := [(k, v1)]) (c2 := c2),
    nestedJoin_disjoint (c1 := c1) (c2 := [(k, v2)]), f1, f2]
  · simp
  · intro a ha b hb; rw [List.mem_singleton.1 hb]; exact (h1 a ha).ne'
  · intro a ha b hb; rw [List.mem_singleton.1 ha]; exact (h2 b hb).ne

omit [Lattice T] [DecidableLE T] [DecidableEq T] [LinearOrder (Lin T)] [LinearOrder K] [LinearOrder V1] [AddCommMonoid R1] [DecidableEq R1] in
theorem contentsUpds_sublist {c c' : Contents K V1 T R1} (h : c.Sublist c') : ∀ u ∈ contentsUpds c, u ∈ contentsUpds c' := by
  intro u hu
  simp only [contentsUpds, List.mem_flatMap] at hu ⊢
  obtain ⟨kv, hkv, hu⟩ := hu
  exact ⟨kv, h.subset hkv, hu⟩

/-- The loop of `next`. -/
theorem iterLoop_spec {B : OutBuilder S D T M} {ok : S → Prop} {held : S → Upds D T M} (hB : B.Keeps ok held) (result : K → V1 → V2 → List D)
    (mul : R1 →+ R2 →+ M) (W : D → T → M) : ∀ (n : Nat) (it : DeferredIter K V1 V2 T R1 R2 S D M), IterOk B ok held result mul it W → it.done = false →
    it.cursor1.length + it.cursor2.length + 1 ≤ n →
    ∃ it' ex, DeferredIter.loop B (joinCoreLogic result fun a b => mul a b) n it = some (it', ex) ∧ IterOk B ok held result mul it' W ∧ it'.done = false ∧
      it'.meet = it.meet ∧ it'.cursor1.length + it'.cursor2.length ≤ it.cursor1.length + it.cursor2.length ∧
      (ex = true → it'.ready = [] ∧ nestedJoin result (fun a b => mul a b) (contentsUpds it'.cursor1) (contentsUpds it'.cursor2) = []) ∧
      (ex = false → it'.ready ≠ [] ∧ (it.ready = [] → it'.cursor1.length + it'.cursor2.length < it.cursor1.length + it.cursor2.length)) := by
  intro n
  induction n with
  | zero => intro it _ _ h; omega
  | succ n ih =>
    intro it hi hd hn
    unfold DeferredIter.loop
    by_cases hr : it.ready = []
    swap
    · rw [if_neg (by simpa using hr)]
      exact ⟨it, false, rfl, hi, hd, rfl, le_rfl, by simp, fun _ => ⟨hr, fun h => absurd h hr⟩⟩
    rw [if_pos (by simp [hr])]
    obtain ⟨cursor1, cursor2, meet, advance1, advance2, builder, ready, done⟩ := it
    simp only at hr hd hn
    subst hr hd
    obtain ⟨ib, ir, iin, isd, ik1, ik2, iv⟩ := hi
    change false = false → ok builder at ib
    change false = false → ∀ u ∈ held builder, meet ≤ u.2.1 at iin
    simp only at ir isd ik1 ik2 iv
    cases cursor1 with
    | nil =>
      refine ⟨_, true, rfl, ⟨ib, ir, iin, isd, ik1, ik2, iv⟩, rfl, rfl, le_rfl, fun _ => ⟨rfl, ?_⟩, by simp⟩
      simp [contentsUpds, nestedJoin]
    | cons x rest1 =>
      obtain ⟨key1, vals1⟩ := x
      cases cursor2 with
      | nil =>
        refine ⟨_, true, rfl, ⟨ib, ir, iin, isd, ik1, ik2, iv⟩, rfl, rfl, le_rfl, fun _ => ⟨rfl, ?_⟩, by simp⟩
        exact nestedJoin_disjoint _ _ _ _ (by simp)
      | cons y rest2 =>
        obtain ⟨key2, vals2⟩ := y
        have g1 := (List.pairwise_cons.1 ik1).1
        have g2 := (List.pairwise_cons.1 ik2).1
        simp only
        by_cases hlt : key1 < key2
        · rw [if_pos hlt]
          have hle : (((key1, vals1) :: rest1).dropWhile fun kv => decide (kv.1 < key2)).length < ((key1, vals1) :: rest1).length := by
            rw [List.dropWhile_cons_of_pos (by simpa using hlt)]
            exact Nat.lt_succ_of_le (List.dropWhile_sublist _).length_le
          have hs := nestedJoin_seek_left result mul ((key1, vals1) :: rest1) ((key2, vals2) :: rest2) key2 (by
            intro kv hkv
            rcases List.mem_cons.1 hkv with rfl | hkv
            · exact le_rfl
            · exact (g2 kv hkv).le)
          suffices hx : IterOk B ok held result mul
              { cursor1 := ((key1, vals1) :: rest1).dropWhile fun kv => decide (kv.1 < key2), cursor2 := (key2, vals2) :: rest2, meet := meet, advance1 := advance1,
                advance2 := advance2, builder := builder, ready := [], done := false } W by
            obtain ⟨it', ex, a1, a2, a3, a4, a5, a6, a7⟩ := ih _ hx rfl (by simp only [List.length_cons] at hn hle ⊢; omega)
            refine ⟨it', ex, a1, a2, a3, a4, a5.trans (Nat.add_le_add_right hle.le _), a6, fun h => ⟨(a7 h).1, fun _ => ?_⟩⟩
            exact lt_of_le_of_lt a5 (Nat.add_lt_add_right hle _)
          refine ⟨ib, ir, iin, ?_, ik1.sublist (List.dropWhile_sublist _), ik2, ?_⟩
          · rcases isd with ⟨s1, s2, s3⟩ | ⟨s1, s2, s3⟩
            · exact Or.inl ⟨s1, s2, s3⟩
            · exact Or.inr ⟨s1, s2, fun u hu => s3 u (contentsUpds_sublist (List.dropWhile_sublist fun kv => decide (kv.1 < key2)) u hu)⟩
          · intro d q
            simp only
            rw [hs d q]; exact iv d q
        · rw [if_neg hlt]
          by_cases hgt : key2 < key1
          · rw [if_pos hgt]
            have hle : (((key2, vals2) :: rest2).dropWhile fun kv => decide (kv.1 < key1)).length < ((key2, vals2) :: rest2).length := by
              rw [List.dropWhile_cons_of_pos (by simpa using hgt)]
              exact Nat.lt_succ_of_le (List.dropWhile_sublist _).length_le
            have hs := nestedJoin_seek_right result mul ((key1, vals1) :: rest1) ((key2, vals2) :: rest2) key1 (by
              intro kv hkv
              rcases List.mem_cons.1 hkv with rfl | hkv
              · exact le_rfl
              · exact (g1 kv hkv).le)
            suffices hx : IterOk B ok held result mul
                { cursor1 := (key1, vals1) :: rest1, cursor2 := ((key2, vals2) :: rest2).dropWhile fun kv => decide (kv.1 < key1), meet := meet, advance1 := advance1,
                  advance2 := advance2, builder := builder, ready := [], done := false } W by
              obtain ⟨it', ex, a1, a2, a3, a4, a5, a6, a7⟩ := ih _ hx rfl (by simp only [List.length_cons] at hn hle ⊢; omega)
              refine ⟨it', ex, a1, a2, a3, a4, a5.trans (Nat.add_le_add_left hle.le _), a6, fun h => ⟨(a7 h).1, fun _ => ?_⟩⟩
              exact lt_of_le_of_lt a5 (Nat.add_lt_add_left hle _)
            refine ⟨ib, ir, iin, ?_, ik1, ik2.sublist (List.dropWhile_sublist _), ?_⟩
            · rcases isd with ⟨s1, s2, s3⟩ | ⟨s1, s2, s3⟩
              · exact Or.inl ⟨s1, s2, fun u hu => s3 u (contentsUpds_sublist (List.dropWhile_sublist fun kv => decide (kv.1 < key1)) u hu)⟩
              · exact Or.inr ⟨s1, s2, s3⟩
            · intro d q
              simp only
              rw [hs d q]; exact iv d q
          · rw [if_neg hgt]
            have hk : key1 = key2 := le_antisymm (not_lt.1 hgt) (not_lt.1 hlt)
            subst hk
            obtain ⟨outs, j1, j2, j3⟩ := joinKey_spec result mul key1 (if advance1 = true then some meet else none) (if advance2 = true then some meet else none) vals1 vals2
            have hpush : ∀ x ∈ outs.flatMap fun o => joinCoreLogic result (fun a b => mul a b) key1 o.1 o.2.1 o.2.2.1 o.2.2.2.1 o.2.2.2.2, meet ≤ x.2.1 := by
              intro x hx
              simp only [List.mem_flatMap, joinCoreLogic, List.mem_map] at hx
              obtain ⟨o, ho, d, _, rfl⟩ := hx
              rcases isd with ⟨s1, s2, s3⟩ | ⟨s1, s2, s3⟩
              · exact (j2 o ho).1 meet (by simp [s1])
              · exact (j2 o ho).2 meet (by simp [s2])
            have hval : ∀ d q, accum (outs.flatMap fun o => joinCoreLogic result (fun a b => mul a b) key1 o.1 o.2.1 o.2.2.1 o.2.2.2.1 o.2.2.2.2) d q
                + accum (nestedJoin result (fun a b => mul a b) (contentsUpds rest1) (contentsUpds rest2)) d q
                = accum (nestedJoin result (fun a b => mul a b) (contentsUpds ((key1, vals1) :: rest1)) (contentsUpds ((key1, vals2) :: rest2))) d q := by
              intro d q
              by_cases hq : meet ≤ q
              · rw [nestedJoin_cons_cons result mul key1 vals1 vals2 rest1 rest2 g1 g2, j3 d q]
                · intro m hm; split_ifs at hm <;> simp_all
                · intro m hm; split_ifs at hm <;> simp_all
              · rw [accum_zero_above hpush hq]
                rcases isd with ⟨s1, s2, s3⟩ | ⟨s1, s2, s3⟩
                · rw [nestedJoin_zero_right (fun kv => accum_zero_above (fun u hu => s3 u (contentsUpds_sublist (List.sublist_cons_self _ _) u hu)) hq kv),
                    nestedJoin_zero_right (fun kv => accum_zero_above s3 hq kv)]
                  simp
                · rw [nestedJoin_zero_left (fun kv => accum_zero_above (fun u hu => s3 u (contentsUpds_sublist (List.sublist_cons_self _ _) u hu)) hq kv),
                    nestedJoin_zero_left (fun kv => accum_zero_above s3 hq kv)]
                  simp
            obtain ⟨b1, p1, p2, p3, p4⟩ := outPushAll_spec hB (outs.flatMap fun o => joinCoreLogic result (fun a b => mul a b) key1 o.1 o.2.1 o.2.2.1 o.2.2.2.1 o.2.2.2.2)
              builder (ib rfl)
            obtain ⟨b2, cs, e1, e2, e3, e4⟩ := hB.extractAll b1 p2
            have htimes : ∀ x ∈ cs.flatten ++ held b2, meet ≤ x.2.1 := by
              intro x hx
              obtain ⟨y, hy, ey⟩ := e4 x hx
              obtain ⟨z, hz, ez⟩ := p4 y hy
              rw [← ey, ← ez]
              rcases List.mem_append.1 hz with hz | hz
              · exact iin rfl z hz
              · exact hpush z hz
            rw [j1]
            simp only
            rw [p1]
            simp only
            rw [e1]
            simp only [List.nil_append]
            suffices hx : IterOk B ok held result mul
                { cursor1 := rest1, cursor2 := rest2, meet := meet, advance1 := advance1,
                  advance2 := advance2, builder := b2, ready := cs, done := false } W by
              obtain ⟨it', ex, a1, a2, a3, a4, a5, a6, a7⟩ := ih _ hx rfl (by simp only [List.length_cons] at hn ⊢; omega)
              simp only at a5
              refine ⟨it', ex, a1, a2, a3, a4, a5.trans (by simp only [List.length_cons]; omega), a6, fun h => ⟨(a7 h).1, fun _ => ?_⟩⟩
              exact lt_of_le_of_lt a5 (by simp only [List.length_cons]; omega)
            refine ⟨fun _ => e2, fun u hu => htimes u (by simp [hu]), fun _ u hu => htimes u (by simp [hu]), ?_, ik1.of_cons, ik2.of_cons, ?_⟩
            · rcases isd with ⟨s1, s2, s3⟩ | ⟨s1, s2, s3⟩
              · exact Or.inl ⟨s1, s2, fun u hu => s3 u (contentsUpds_sublist (List.sublist_cons_self _ _) u hu)⟩
              · exact Or.inr ⟨s1, s2, fun u hu => s3 u (contentsUpds_sublist (List.sublist_cons_self _ _) u hu)⟩
            · intro d q
              have := iv d q
              simp only [List.flatten_nil, accum_nil, zero_add, Bool.false_eq_true, if_false] at this ⊢
              rw [← this, ← hval d q, ← add_assoc, ← add_assoc, ← accum_append, e3, p3]

/-- `next`: the containers yielded accumulate to what there is to yield. -/
theorem iterNext_spec {B : OutBuilder S D T M} {ok : S → Prop} {held : S → Upds D T M} (hB : B.Keeps ok held) {result : K → V1 → V2 → List D}
    {mul : R1 →+ R2 →+ M} {W : D → T → M} {it : DeferredIter K V1 V2 T R1 R2 S D M} (hi : IterOk B ok held result mul it W) :
    ∃ it' o, it.next B (joinCoreLogic result fun a b => mul a b) = some (it', o) ∧ it'.meet = it.meet ∧ (o = none → ∀ d q, W d q = 0) ∧
      ∀ c, o = some c → it'.left < it.left ∧ (∀ u ∈ c, it.meet ≤ u.2.1) ∧
        ∃ W', IterOk B ok held result mul it' W' ∧ ∀ d q, accum c d q + W' d q = W d q := by
  have pop : ∀ (it : DeferredIter K V1 V2 T R1 R2 S D M) (c : Upds D T M) (cs : List (Upds D T M)), it.ready = c :: cs → IterOk B ok held result mul it W →
      (∀ u ∈ c, it.meet ≤ u.2.1) ∧ ∃ W', IterOk B ok held result mul { it with ready := cs } W' ∧ ∀ d q, accum c d q + W' d q = W d q := by
    intro it c cs hr hi
    obtain ⟨cursor1, cursor2, meet, advance1, advance2, builder, ready, done⟩ := it
    simp only at hr
    subst hr
    obtain ⟨ib, ir, iin, isd, ik1, ik2, iv⟩ := hi
    simp only at ib ir iin isd ik1 ik2 iv
    refine ⟨fun u hu => ir u (by simp [hu]), _, ⟨ib, fun u hu => ir u (by rw [List.flatten_cons]; exact List.mem_append_right _ hu), iin, isd, ik1, ik2, fun d q => rfl⟩, ?_⟩
    intro d q
    rw [← iv d q, List.flatten_cons, accum_append, add_assoc]
  unfold DeferredIter.next
  cases hr : it.ready with
  | cons c cs =>
    obtain ⟨h1, h2⟩ := pop it c cs hr hi
    refine ⟨_, some c, rfl, rfl, by simp, ?_⟩
    rintro c' hc'
    simp only [Option.some.injEq] at hc'
    subst hc'
    refine ⟨?_, h1, h2⟩
    unfold DeferredIter.left
    rw [Prod.Lex.toLex_lt_toLex]
    right
    simp [hr]
  | nil =>
    simp only
    by_cases hd : it.done = true
    · rw [if_pos hd]
      refine ⟨it, none, rfl, rfl, fun _ d q => ?_, by simp⟩
      rw [← hi.value, hr]; simp [hd]
    · rw [if_neg hd]
      have hd' : it.done = false := by simpa using hd
      obtain ⟨it1, ex, a1, a2, a3, a4, a5, a6, a7⟩ := iterLoop_spec hB result mul W (it.cursor1.length + it.cursor2.length + 1) it hi hd' le_rfl
      rw [a1]
      simp only
      cases ex with
      | false =>
        simp only [Bool.false_eq_true, if_false]
        obtain ⟨h1, h2⟩ := a7 rfl
        cases hr1 : it1.ready with
        | nil => exact absurd hr1 h1
        | cons c cs =>
          obtain ⟨g1, g2⟩ := pop it1 c cs hr1 a2
          refine ⟨_, some c, rfl, a4, by simp, ?_⟩
          rintro c' hc'
          simp only [Option.some.injEq] at hc'
          subst hc'
          refine ⟨?_, by rw [← a4]; exact g1, g2⟩
          unfold DeferredIter.left
          rw [Prod.Lex.toLex_lt_toLex]
          left
          simp only [a3, hd', Bool.false_eq_true, if_false]
          have := h2 hr
          omega
      | true =>
        obtain ⟨h1, h2⟩ := a6 rfl
        obtain ⟨b, cs, f1, f2, f3⟩ := hB.finishAll it1.builder (a2.builder a3)
        simp only [if_true]
        rw [f1]
        simp only
        have hok : IterOk B ok held result mul { it1 with builder := b, ready := it1.ready ++ cs, done := true } W := by
          refine ⟨by simp, ?_, by simp, a2.sides, a2.keys1, a2.keys2, ?_⟩
          · intro u hu
            simp only [h1, List.nil_append] at hu
            obtain ⟨y, hy, e⟩ := f3 u hu
            rw [← e]
            exact a2.inside a3 y hy
          · intro d q
            have := a2.value d q
            simp only [h1, h2, a3, Bool.false_eq_true, if_false, if_true, List.flatten_nil, List.nil_append, accum_nil, zero_add, add_zero] at this ⊢
            rw [← this, f2]
        rw [h1] at hok ⊢
        simp only [List.nil_append] at hok ⊢
        cases cs with
        | nil =>
          refine ⟨_, none, rfl, a4, fun _ d q => ?_, by simp⟩
          rw [← hok.value]; simp
        | cons c cs =>
          obtain ⟨g1, g2⟩ := pop _ c cs rfl hok
          refine ⟨_, some c, rfl, a4, by simp, ?_⟩
          rintro c' hc'
          simp only [Option.some.injEq] at hc'
          subst hc'
          refine ⟨?_, by rw [← a4]; exact g1, g2⟩
          unfold DeferredIter.left
          rw [Prod.Lex.toLex_lt_toLex]
          left
          simp [hd']

end
end DD
