import Verif.Proofs.ReduceInv
import Verif.Proofs.Arrange
import Mathlib.Data.Finset.Card
import Mathlib.Tactic.Abel

/-!
# The loop of `reduce` brings the output in line with the input
-/

namespace DD

section
variable {V1 V2 T R1 R2 : Type*} [LE T] [DecidableLE T] [LinearOrder V1] [LinearOrder V2] [AddCommMonoid R1] [DecidableEq R1] [AddCommMonoid R2]
  {f : List (V1 × R1) → List (V2 × R2)}

omit [DecidableEq R1] in
theorem reducedAt_congr {I I' : Upds V1 T R1} {O O' : Upds V2 T R2} {m t : T} (h1 : ∀ v, accum I v m = accum I' v t)
    (h2 : ∀ v, accum O v m = accum O' v t) (h : ReducedAt f I O m) : ReducedAt f I' O' t := by
  obtain ⟨l, ⟨a1, a2⟩, a3⟩ := h
  exact ⟨l, ⟨a1, fun v => (a2 v).trans (h1 v)⟩, fun v => (h2 v).symm.trans (a3 v)⟩

theorem reducedAt_unique {I I' : Upds V1 T R1} {O O' : Upds V2 T R2} {m t : T} (h1 : ∀ v, accum I v m = accum I' v t)
    (h : ReducedAt f I O m) (h' : ReducedAt f I' O' t) (v : V2) : accum O v m = accum O' v t := by
  obtain ⟨l, ⟨a1, a2⟩, a3⟩ := h
  obtain ⟨l', ⟨b1, b2⟩, b3⟩ := h'
  have : l = l' := consolidatedPairs_unique a1 b1 fun v => by rw [a2, b2, h1]
  rw [a3, b3, this]

end

section
variable {V1 V2 T R1 R2 : Type*} [Lattice T] [DecidableLE T] [DecidableEq T] [TimeOrd T] [LinearOrder V1] [LinearOrder V2]
  [AddCommMonoid R1] [DecidableEq R1] [AddCancelCommMonoid R2] [DecidableEq R2]

/-- What is known about a time `t` in the course of the loop: a time at or before it will be visited and found interesting; or it looks like an earlier time at
which the output is right; or nothing has happened to it. -/
def TInv (f : List (V1 × R1) → List (V2 × R2)) (Good : T → Prop) (B0 S0 : Upds V1 T R1) (O0 : Upds V2 T R2) (P0 : List T) (t : T) (g : RGhost V1 V2 T R1 R2)
    (st : ReduceState V1 V2 T R1 R2) : Prop :=
  (∃ r ∈ updTimes g.Br ++ st.times ++ st.synth, r ≤ t) ∨
  (∃ m, m ≤ t ∧ Good m ∧ ReducedAt f (S0 ++ B0) (O0 ++ st.log) m ∧ (∀ v, accum st.log v t = accum st.log v m) ∧ (∀ v, accum g.Bs v t = accum B0 v m) ∧
    (∀ v, accum g.Ss v t = accum S0 v m) ∧ ∀ v, accum g.Os v t = accum O0 v m) ∨
  ((∀ e ∈ st.batch.buffer, ¬ e.2.1 ≤ t) ∧ (∀ e ∈ st.current, ¬ e ≤ t) ∧ (∀ v, accum g.Bs v t = 0) ∧ (∀ v, accum st.log v t = 0) ∧
    ∀ p ∈ P0, ¬ p ≤ t)

section step
variable {f : List (V1 × R1) → List (V2 × R2)} {Good : T → Prop} {B0 S0 : Upds V1 T R1} {O0 : Upds V2 T R2} {P0 upper held : List T} {Cl : Set T}
  {g : RGhost V1 V2 T R1 R2} {st stx st3 : ReduceState V1 V2 T R1 R2} {int : Bool} {next t : T}

theorem current_conclude (hr : RRaw f upper held g st stx st3 int next (g.rem st)) : ∀ e ∈ st3.conclude.current,
    (∃ e0 ∈ st3.current, e0 ≤ e) ∧ (next ≤ e ∨ ∃ e0 ∈ st.current, e0 ≤ e) := by
  intro e he
  obtain ⟨e0, h1, rfl⟩ := List.mem_map.1 ((mem_sortDedup _ _).1 he)
  refine ⟨⟨e0, h1, le_joinOpt _ _⟩, ?_⟩
  rw [hr.current] at h1
  simp only [List.mem_append] at h1
  rcases h1 with (h1 | h1) | h1
  · exact Or.inr ⟨e0, h1, le_joinOpt _ _⟩
  · exact Or.inl ((takeWhile_eq id _ next e0 h1).ge.trans (le_joinOpt _ _))
  · exact Or.inl ((takeWhile_eq id _ next e0 h1).ge.trans (le_joinOpt _ _))

/-- An element that can be joined with `next` and is at or before `t` leads to a later time at or before `t`, unless it is at or before `next`. -/
theorem joinable_later (hr : RRaw f upper held g st stx st3 int next (g.rem st)) (hnt : next ≤ t) (hnu : ¬ Beyond upper next)
    (hnp : ∀ x ∈ st3.pended, ¬ x ≤ t) (hA : ¬ ∃ r ∈ updTimes (g.visit st next).Br ++ st3.times ++ st3.synth, r ≤ t) {e : T} (he : joinable stx int e) (het : e ≤ t) :
    e ≤ next := by
  by_contra hc
  have hle : e ⊔ next ≤ t := sup_le het hnt
  by_cases hb : Beyond upper (e ⊔ next)
  · exact hnp _ ((hr.pended _).2 (Or.inr (Or.inl ⟨hnu, hb, e, he, hc, rfl⟩))) hle
  · exact hA ⟨e ⊔ next, List.mem_append_right _ ((hr.synth _).2 (Or.inr ⟨hnu, hb, e, he, hc, rfl⟩)), hle⟩

/-- Times not at `next` are still to be visited. -/
theorem later_visit (hr : RRaw f upper held g st stx st3 int next (g.rem st)) {r : T} (h : r ∈ updTimes g.Br ++ st.times ++ st.synth) (hne : r ≠ next) :
    r ∈ updTimes (g.visit st next).Br ++ st3.times ++ st3.synth := by
  simp only [List.mem_append, mem_updTimes] at h ⊢
  rcases h with (⟨u, hu, rfl⟩ | h) | h
  · exact Or.inl (Or.inl ⟨u, mem_dropWhile_of_ne (fun u : V1 × T × R1 => u.2.1) hu hne, rfl⟩)
  · rw [hr.times]; exact Or.inl (Or.inr (mem_dropWhile_of_ne id h hne))
  · exact Or.inr ((hr.synth r).2 (Or.inl (mem_dropWhile_of_ne id h hne)))

omit [LinearOrder V1] [LinearOrder V2] [AddCommMonoid R1] [DecidableEq R1] [AddCancelCommMonoid R2] [DecidableEq R2] in
theorem accum_take {V R : Type*} [DecidableEq V] [AddCommMonoid R] (a : Upds V T R) (l : Upds V T R) {q : T} (h : ¬ next ≤ q) (v : V) :
    accum (a ++ l.takeWhile fun u => decide (u.2.1 = next)) v q = accum a v q := by
  rw [accum_append, accum_zero_of_not_le (us := l.takeWhile fun u => decide (u.2.1 = next)), add_zero]
  intro u hu
  rwa [takeWhile_eq (fun u : V × T × R => u.2.1) _ next u hu]

theorem tInv_step_past (hr : RRaw f upper held g st stx st3 int next (g.rem st)) (hnt : ¬ next ≤ t) (h : TInv f Good B0 S0 O0 P0 t g st) :
    TInv f Good B0 S0 O0 P0 t (g.visit st next) st3.conclude := by
  obtain ⟨upd, hlog, -⟩ := log_visit hr
  have hl : ∀ q v, q ≤ t → accum st3.log v q = accum st.log v q := by
    intro q v hq
    rw [accum_perm hlog, accum_append, accum_at_single, if_neg fun h => hnt (h.trans hq), add_zero]
  rcases h with ⟨r, h1, h2⟩ | ⟨m, h1, h2, h3, h4, h5, h6, h7⟩ | ⟨h1, h2, h3, h4, h5⟩
  · exact Or.inl ⟨r, later_visit hr h1 (fun e => hnt (e ▸ h2)), h2⟩
  · refine Or.inr (Or.inl ⟨m, h1, h2, ?_, ?_, ?_, ?_, ?_⟩)
    · refine reducedAt_congr (fun _ => rfl) (fun v => ?_) h3
      rw [accum_append, accum_append]
      exact congrArg _ (hl m v h1).symm
    · intro v
      show accum st3.log v t = accum st3.log v m
      rw [hl t v (le_refl _), hl m v h1, h4]
    · intro v; rw [← h5]; exact accum_take g.Bs g.Br hnt v
    · intro v; rw [← h6]; exact accum_take g.Ss g.Sr hnt v
    · intro v; rw [← h7]; exact accum_take g.Os g.Or hnt v
  · refine Or.inr (Or.inr ⟨?_, ?_, ?_, ?_, h5⟩)
    · intro e he hle
      rcases hr.batch e he with h | ⟨e0, h6, h7⟩
      · exact hnt (h.trans hle)
      · exact h1 e0 h6 (h7.trans hle)
    · intro e he hle
      rcases (current_conclude hr e he).2 with h | ⟨e0, h6, h7⟩
      · exact hnt (h.trans hle)
      · exact h2 e0 h6 (h7.trans hle)
    · intro v; rw [← h3 v]; exact accum_take g.Bs g.Br hnt v
    · intro v
      show accum st3.log v t = 0
      rw [hl t v (le_refl _), h4]

/-- What has been stepped over by `next` is all there is at `next`. -/
theorem visit_exact (hi : RInv B0 S0 O0 P0 upper held Cl g st) (hmin : ∀ r ∈ g.rem st, toLin next ≤ toLin r)
    (hr : RRaw f upper held g st stx st3 int next (g.rem st)) :
    (∀ v, accum (g.visit st next).Bs v next = accum B0 v next) ∧ (∀ v, accum (g.visit st next).Ss v next = accum S0 v next) ∧
      ∀ v, accum (g.visit st next).Os v next = accum O0 v next := by
  have hrem := rem_visit hi hmin hr
  obtain ⟨eB, eS, eO⟩ := visit_eqs (next := next) hi
  have hno : ∀ r ∈ (g.visit st next).rem st3, ¬ r ≤ next := fun r h hle => absurd (TimeOrd.mono hle) (not_le.2 (hrem r h).1)
  refine ⟨fun v => ?_, fun v => ?_, fun v => ?_⟩
  · rw [← eB, accum_append, accum_zero_of_not_le (us := (g.visit st next).Br), add_zero]
    intro u hu
    exact hno _ (by simp only [RGhost.rem, List.mem_append, mem_updTimes]; exact Or.inl (Or.inl (Or.inl (Or.inl ⟨u, hu, rfl⟩))))
  · rw [← eS, accum_append, accum_zero_of_not_le (us := (g.visit st next).Sr), add_zero]
    intro u hu
    exact hno _ (by simp only [RGhost.rem, List.mem_append, mem_updTimes]; exact Or.inl (Or.inl (Or.inr ⟨u, hu, rfl⟩)))
  · rw [← eO, accum_append, accum_zero_of_not_le (us := (g.visit st next).Or), add_zero]
    intro u hu
    exact hno _ (by simp only [RGhost.rem, List.mem_append, mem_updTimes]; exact Or.inl (Or.inr ⟨u, hu, rfl⟩))

theorem tInv_step_int (hi : RInv B0 S0 O0 P0 upper held Cl g st) (hn : next ∈ g.rem st) (hmin : ∀ r ∈ g.rem st, toLin next ≤ toLin r)
    (hr : RRaw f upper held g st stx st3 true next (g.rem st)) (hgood : Good next) (hnt : next ≤ t) (hnu : ¬ Beyond upper next)
    (hnp : ∀ x ∈ st3.pended, ¬ x ≤ t) : TInv f Good B0 S0 O0 P0 t (g.visit st next) st3.conclude := by
  by_cases hA : ∃ r ∈ updTimes (g.visit st next).Br ++ st3.times ++ st3.synth, r ≤ t
  · exact Or.inl hA
  obtain ⟨xB, xS, xO⟩ := visit_exact hi hmin hr
  obtain ⟨upd, hlog, l, hl1, hl2, hl3⟩ := hr.log1 rfl hnu
  have hle : ∀ e, joinable stx true e → (e ≤ t ↔ e ≤ next) := fun e he =>
    ⟨joinable_later hr hnt hnu hnp hA he, fun h => h.trans hnt⟩
  have atn : ∃ r ∈ g.rem st, r ≤ next := ⟨next, hn, le_refl _⟩
  have att : ∃ r ∈ g.rem st, r ≤ t := ⟨next, hn, hnt⟩
  have hB : ∀ v, accum (g.visit st next).Bs v t = accum (g.visit st next).Bs v next := by
    intro v
    rw [← hr.bufsx.bufB.acc t att, ← hr.bufsx.bufB.acc next atn]
    exact accum_congr_le (fun u hu => hle _ (Or.inl (mem_updTimes.2 ⟨u, hu, rfl⟩))) v
  have hS : ∀ v, accum (g.visit st next).Ss v t = accum (g.visit st next).Ss v next := by
    intro v
    rw [← hr.bufsx.bufS.acc t att, ← hr.bufsx.bufS.acc next atn]
    exact accum_congr_le (fun u hu => hle _ (Or.inr (Or.inr ⟨rfl, Or.inl (mem_updTimes.2 ⟨u, hu, rfl⟩)⟩))) v
  have hO : ∀ v, accum (g.visit st next).Os v t = accum (g.visit st next).Os v next := by
    intro v
    rw [← hr.bufsx.bufO.acc t att, ← hr.bufsx.bufO.acc next atn]
    exact accum_congr_le (fun u hu => hle _ (Or.inr (Or.inr ⟨rfl, Or.inr (Or.inl (mem_updTimes.2 ⟨u, hu, rfl⟩))⟩))) v
  have hP : ∀ v, accum st.log v t = accum st.log v next := by
    intro v
    rw [← hr.logx, ← hr.bufsx.bufP.acc t att, ← hr.bufsx.bufP.acc next atn]
    exact accum_congr_le (fun u hu => hle _ (Or.inr (Or.inr ⟨rfl, Or.inr (Or.inr (mem_updTimes.2 ⟨u, hu, rfl⟩))⟩))) v
  refine Or.inr (Or.inl ⟨next, hnt, hgood, ?_, ?_, fun v => (hB v).trans (xB v), fun v => (hS v).trans (xS v), fun v => (hO v).trans (xO v)⟩)
  · refine ⟨l, ⟨hl1, fun v => ?_⟩, fun v => ?_⟩
    · rw [hl2, accum_append, hr.bufsx.bufS.acc next atn, hr.bufsx.bufB.acc next atn, xS, xB]
    · rw [← hl3, accum_append]
      show _ + accum st3.log v next = _
      rw [accum_perm hlog, accum_append, accum_at_single, if_pos (le_refl _), hr.bufsx.bufO.acc next atn, hr.bufsx.bufP.acc next atn, xO, hr.logx]
      abel
  · intro v
    show accum st3.log v t = accum st3.log v next
    rw [accum_perm hlog, accum_perm hlog, accum_append, accum_append, hP, accum_at_single, accum_at_single, if_pos hnt, if_pos (le_refl _)]

theorem tInv_step_not (hi : RInv B0 S0 O0 P0 upper held Cl g st) (hn : next ∈ g.rem st)
    (hr : RRaw f upper held g st stx st3 false next (g.rem st)) (hnt : next ≤ t) (hnu : ¬ Beyond upper next)
    (hnp : ∀ x ∈ st3.pended, ¬ x ≤ t) (hstart : ∀ q, Good q → (∀ p ∈ P0, ¬ p ≤ q) → ReducedAt f S0 O0 q) (h : TInv f Good B0 S0 O0 P0 t g st) :
    TInv f Good B0 S0 O0 P0 t (g.visit st next) st3.conclude := by
  by_cases hA : ∃ r ∈ updTimes (g.visit st next).Br ++ st3.times ++ st3.synth, r ≤ t
  · exact Or.inl hA
  have hni := hr.intIff.not.1 (by simp)
  push Not at hni
  obtain ⟨n1, n2, n3⟩ := hni
  have hlog : st3.log = st.log := hr.log0 (Or.inl rfl)
  have hbuf : ∀ e ∈ st3.batch.buffer, ¬ e.2.1 ≤ t := by
    intro e he hle
    exact n2 e he (joinable_later hr hnt hnu hnp hA (Or.inl (by rw [hr.batchx]; exact mem_updTimes.2 ⟨e, he, rfl⟩)) hle)
  have hcur : ∀ e ∈ st3.current, ¬ e ≤ t := by
    intro e he hle
    exact n3 e he (joinable_later hr hnt hnu hnp hA (Or.inr (Or.inl (by rw [hr.currentx]; exact he))) hle)
  have att : ∃ r ∈ g.rem st, r ≤ t := ⟨next, hn, hnt⟩
  have hB : ∀ v, accum (g.visit st next).Bs v t = 0 := by
    intro v
    rw [← hr.bufs.bufB.acc t att]
    exact accum_zero_of_not_le hbuf v
  have hused : ∀ c ∈ g.used, ¬ c ≤ t := by
    intro c hc hle
    obtain ⟨e, h1, h2⟩ := hi.cur1 c hc t hle att
    exact hcur e (by rw [hr.current]; simp [h1]) h2
  have htake : ∀ x ∈ st.times.takeWhile (fun t => decide (t = next)), False := fun x hx =>
    hcur x (by rw [hr.current]; simp [hx]) ((takeWhile_eq id _ next x hx).le.trans hnt)
  have hpend : ∀ p ∈ P0, ¬ p ≤ t := by
    intro p hp hle
    rcases hi.psub p hp with h | h
    · exact hused p h hle
    · rw [← List.takeWhile_append_dropWhile (p := fun t => decide (t = next)) (l := st.times)] at h
      rcases List.mem_append.1 h with h | h
      · exact htake p h
      · exact hA ⟨p, by rw [hr.times]; simp [h], hle⟩
  have hsynth : ∀ x ∈ st.synth.takeWhile (fun t => decide (t = next)), False := fun x hx =>
    hcur x (by rw [hr.current]; simp [hx]) ((takeWhile_eq id _ next x hx).le.trans hnt)
  have htB : g.Br.takeWhile (fun u => decide (u.2.1 = next)) = [] := by
    rw [List.eq_nil_iff_forall_not_mem]
    intro u hu
    exact n1 u hu (takeWhile_eq (fun u : V1 × T × R1 => u.2.1) _ next u hu)
  have hBs : (g.visit st next).Bs = g.Bs := by simp [RGhost.visit, htB]
  refine Or.inr (Or.inr ⟨hbuf, ?_, hB, ?_, hpend⟩)
  · intro e he hle
    obtain ⟨e0, h1, h2⟩ := (current_conclude hr e he).1
    exact hcur e0 h1 (h2.trans hle)
  · intro v
    show accum st3.log v t = 0
    rw [hlog]
    rcases h with ⟨r, h1, h2⟩ | ⟨m, h1, h2, h3, h4, h5, -, -⟩ | ⟨-, -, -, h4, -⟩
    · exfalso
      by_cases hne : r = next
      · subst hne
        simp only [List.mem_append, mem_updTimes] at h1
        rcases h1 with (⟨u, hu, he⟩ | h1) | h1
        · cases hbr : g.Br with
          | nil => rw [hbr] at hu; simp at hu
          | cons w ws => exact hA ⟨r, by
              have : u ∈ (g.visit st r).Br := by
                have h7 : (g.visit st r).Br = g.Br := by
                  have := List.takeWhile_append_dropWhile (p := fun u : V1 × T × R1 => decide (u.2.1 = r)) (l := g.Br)
                  rw [htB] at this
                  exact this
                rw [h7]; exact hu
              simp only [List.mem_append, mem_updTimes]
              exact Or.inl (Or.inl ⟨u, this, he⟩), h2⟩
        · have h8 := List.takeWhile_append_dropWhile (p := fun t => decide (t = r)) (l := st.times)
          rw [← h8] at h1
          rcases List.mem_append.1 h1 with h1 | h1
          · exact htake r h1
          · exact hA ⟨r, by rw [hr.times]; simp [h1], h2⟩
        · have h8 := List.takeWhile_append_dropWhile (p := fun t => decide (t = r)) (l := st.synth)
          rw [← h8] at h1
          rcases List.mem_append.1 h1 with h1 | h1
          · exact hsynth r h1
          · exact hA ⟨r, List.mem_append_right _ ((hr.synth r).2 (Or.inl h1)), h2⟩
      · exact hA ⟨r, later_visit hr h1 hne, h2⟩
    · have hm := hstart m h2 fun p hp hle => hpend p hp (hle.trans h1)
      have hz : ∀ v, accum B0 v m = 0 := fun v => by rw [← h5, ← hBs, hB]
      have := reducedAt_unique (fun v => by rw [accum_append, hz, add_zero]) h3 hm v
      rw [accum_append] at this
      rw [h4]
      exact left_eq_add.1 this.symm
    · exact h4 v

theorem tInv_step (hi : RInv B0 S0 O0 P0 upper held Cl g st) (hn : next ∈ g.rem st) (hmin : ∀ r ∈ g.rem st, toLin next ≤ toLin r)
    (hr : RRaw f upper held g st stx st3 int next (g.rem st)) (hgood : int = true → next ≤ t → Good next) (hnu : next ≤ t → ¬ Beyond upper next)
    (hnp : ∀ x ∈ st3.pended, ¬ x ≤ t) (hstart : ∀ q, Good q → (∀ p ∈ P0, ¬ p ≤ q) → ReducedAt f S0 O0 q) (h : TInv f Good B0 S0 O0 P0 t g st) :
    TInv f Good B0 S0 O0 P0 t (g.visit st next) st3.conclude := by
  by_cases hnt : next ≤ t
  · cases int with
    | true => exact tInv_step_int hi hn hmin hr (hgood rfl hnt) hnt (hnu hnt) hnp
    | false => exact tInv_step_not hi hn hr hnt (hnu hnt) hnp hstart h
  · exact tInv_step_past hr hnt h

/-- A time at or beyond a pending time, or at which the batch changes something, is noticed. -/
theorem noticed (hi : RInv B0 S0 O0 P0 upper held Cl g st) (hn : next ∈ g.rem st) (hmin : ∀ r ∈ g.rem st, toLin next ≤ toLin r)
    (hr : RRaw f upper held g st stx st3 int next (g.rem st)) (h : (∃ p ∈ P0, p ≤ next) ∨ ∃ v, accum B0 v next ≠ 0) : int = true := by
  rw [hr.intIff]
  rcases h with ⟨p, hp, hle⟩ | ⟨v, hv⟩
  · right; right
    rcases hi.psub p hp with h | h
    · obtain ⟨e, h1, h2⟩ := hi.cur1 p h next hle ⟨next, hn, le_refl _⟩
      exact ⟨e, by rw [hr.current]; simp [h1], h2⟩
    · have h1 : toLin next ≤ toLin p := hmin p (by simp [RGhost.rem, h])
      have h2 : p = next := toLin_inj.1 (le_antisymm (TimeOrd.mono hle) h1)
      subst h2
      rcases List.mem_append.1 ((List.takeWhile_append_dropWhile (p := fun t => decide (t = p)) (l := st.times)).symm ▸ h) with h | h
      · exact ⟨p, by rw [hr.current]; simp [h], hle⟩
      · exfalso
        have hrem := rem_visit hi hmin hr
        exact absurd (hrem p (by rw [← hr.times] at h; simp [RGhost.rem, h])).1 (lt_irrefl _)
  · right; left
    rw [← (visit_exact hi hmin hr).1, ← hr.bufs.bufB.acc next ⟨next, hn, le_refl _⟩] at hv
    by_contra hc
    push Not at hc
    exact hv (accum_zero_of_not_le (fun u hu => hc u hu) v)

theorem tInv_end (hi : RInv B0 S0 O0 P0 upper held Cl g st) (hrem : g.rem st = []) (hstart : ∀ q, Good q → (∀ p ∈ P0, ¬ p ≤ q) → ReducedAt f S0 O0 q)
    (hgood : Good t) (h : TInv f Good B0 S0 O0 P0 t g st) : ReducedAt f (S0 ++ B0) (O0 ++ st.log) t := by
  simp only [RGhost.rem, List.append_eq_nil_iff] at hrem
  obtain ⟨⟨⟨⟨r1, r2⟩, r3⟩, r4⟩, r5⟩ := hrem
  have e1 : g.Bs = B0 := by
    have := hi.eqB
    have h0 : g.Br = [] := by simpa [updTimes] using r1
    rwa [h0, List.append_nil] at this
  have e2 : g.Ss = S0 := by
    have := hi.eqS
    have h0 : g.Sr = [] := by simpa [updTimes] using r3
    rwa [h0, List.append_nil] at this
  have e3 : g.Os = O0 := by
    have := hi.eqO
    have h0 : g.Or = [] := by simpa [updTimes] using r4
    rwa [h0, List.append_nil] at this
  rcases h with ⟨r, h1, h2⟩ | ⟨m, h1, h2, h3, h4, h5, h6, h7⟩ | ⟨-, -, h3, h4, h5⟩
  · simp [r1, r2, r5] at h1
  · refine reducedAt_congr (fun v => ?_) (fun v => ?_) h3
    · rw [accum_append, accum_append, ← h5, ← h6, e1, e2]
    · rw [accum_append, accum_append, ← h4, ← h7, e3]
  · refine reducedAt_congr (fun v => ?_) (fun v => ?_) (hstart t hgood h5)
    · rw [accum_append, ← e1, h3, add_zero]
    · rw [accum_append, h4, add_zero]

end step

section loop
variable {f : List (V1 × R1) → List (V2 × R2)} {logic : List (V1 × R1) → List (V2 × R2) → List (V2 × R2)}
  {B0 S0 : Upds V1 T R1} {O0 : Upds V2 T R2} {P0 upper held : List T} {Cl : Set T}

open Classical in
/-- The number of times that may still be visited. -/
noncomputable def rMeasure (hfin : Cl.Finite) (g : RGhost V1 V2 T R1 R2) (st : ReduceState V1 V2 T R1 R2) : Nat :=
  (hfin.toFinset.filter fun x => ∃ r ∈ g.rem st, toLin r ≤ toLin x).card

theorem rLoop_spec (hl : ReducesBy f logic) (hfin : Cl.Finite) (hsup : SupClosed Cl) (hcl : ∀ x ∈ updTimes B0 ++ updTimes S0 ++ updTimes O0 ++ P0, x ∈ Cl)
    (hheld : ∀ s ∈ updTimes B0 ++ P0, Beyond held s) (hBu : ∀ s ∈ updTimes B0 ++ P0, ¬ Beyond upper s) (n : Nat) :
    ∀ (g : RGhost V1 V2 T R1 R2) (st : ReduceState V1 V2 T R1 R2), RInv B0 S0 O0 P0 upper held Cl g st → rMeasure hfin g st ≤ n →
    ∃ g' st', (∀ fuel, n ≤ fuel → st.loop upper logic fuel = some st') ∧ RInv B0 S0 O0 P0 upper held Cl g' st' ∧ g'.rem st' = [] ∧
      (∀ x ∈ st.pended, x ∈ st'.pended) ∧
      ∀ (Good : T → Prop) t, (∀ s ∈ updTimes B0 ++ P0, ∀ q, s ≤ q → q ≤ t → Good q) → (∀ x ∈ updTimes S0 ++ updTimes O0, x ≤ t → Beyond upper x → (∃ p ∈ P0, p ≤ x) ∨ ∃ v, accum B0 v x ≠ 0) →
        (∀ x ∈ st'.pended, ¬ x ≤ t) → (∀ q, Good q → (∀ p ∈ P0, ¬ p ≤ q) → ReducedAt f S0 O0 q) → TInv f Good B0 S0 O0 P0 t g st →
        TInv f Good B0 S0 O0 P0 t g' st' := by
  classical
  induction n with
  | zero =>
    intro g st hi hm
    have hnone : st.nextTime = none := by
      cases h : st.nextTime with
      | none => rfl
      | some next =>
        exfalso
        obtain ⟨h1, -⟩ := rNext_some hi h
        unfold rMeasure at hm
        rw [Nat.le_zero, Finset.card_eq_zero] at hm
        have : next ∈ hfin.toFinset.filter fun x => ∃ r ∈ g.rem st, toLin r ≤ toLin x := by
          rw [Finset.mem_filter]
          exact ⟨(Set.Finite.mem_toFinset _).2 (rem_mem_cl hi hcl next h1), next, h1, le_refl _⟩
        convert Finset.notMem_empty next
        simp only [false_iff, Finset.notMem_empty, not_false_eq_true, iff_true] at *
        rw [hm] at this
        simp at this
    refine ⟨g, st, fun fuel _ => ?_, hi, rNext_none hi.bufs hnone, fun x hx => hx, fun _ _ _ _ _ _ h => h⟩
    cases fuel <;> simp [ReduceState.loop, hnone]
  | succ n ih =>
    intro g st hi hm
    cases h : st.nextTime with
    | none =>
      refine ⟨g, st, fun fuel _ => ?_, hi, rNext_none hi.bufs h, fun x hx => hx, fun _ _ _ _ _ _ h => h⟩
      cases fuel <;> simp [ReduceState.loop, h]
    | some next =>
      obtain ⟨h1, h2⟩ := rNext_some hi h
      obtain ⟨stx, st3, int, a1, a2, a3⟩ := rStep_raw hl hi hheld next
      have hi' := rInv_step hi hcl hsup h1 h2 a2 a3
      have hrem := rem_visit hi h2 a2
      have hm' : rMeasure hfin (g.visit st next) st3.conclude ≤ n := by
        have : rMeasure hfin (g.visit st next) st3.conclude < rMeasure hfin g st := by
          unfold rMeasure
          apply Finset.card_lt_card
          rw [Finset.ssubset_iff_of_subset]
          · refine ⟨next, ?_, ?_⟩
            · rw [Finset.mem_filter]
              exact ⟨(Set.Finite.mem_toFinset _).2 (rem_mem_cl hi hcl next h1), next, h1, le_refl _⟩
            · rw [Finset.mem_filter]
              rintro ⟨-, r, hr1, hr2⟩
              exact absurd hr2 (not_le.2 (hrem r hr1).1)
          · intro x hx
            rw [Finset.mem_filter] at hx ⊢
            obtain ⟨hx1, r, hr1, hr2⟩ := hx
            exact ⟨hx1, next, h1, (hrem r hr1).1.le.trans hr2⟩
        omega
      obtain ⟨g', st', b1, b2, b3, b4, b5⟩ := ih _ _ hi' hm'
      refine ⟨g', st', fun fuel hf => ?_, b2, b3, ?_, ?_⟩
      · cases fuel with
        | zero => omega
        | succ fuel =>
          simp only [ReduceState.loop, h, a1]
          exact b1 fuel (by omega)
      · intro x hx
        exact b4 x ((a2.pended x).2 (Or.inl hx))
      · intro Good t hg hso hp hst ht
        refine b5 Good t hg hso hp hst ?_
        refine tInv_step hi h1 h2 a2 ?_ ?_ (fun x hx => hp x (b4 x hx)) hst ht
        · intro hint hle
          obtain ⟨s, hs1, hs2⟩ := a3 hint
          exact hg s hs1 next hs2 hle
        · intro hle hbu
          have hnoint : int ≠ true := fun hint => hp next (b4 next ((a2.pended next).2 (Or.inr (Or.inr ⟨hbu, hint, rfl⟩)))) hle
          have hso : ∀ x ∈ updTimes S0 ++ updTimes O0, x ≤ t → Beyond upper x → x = next → False := by
            rintro x hx hxt hb rfl
            exact hnoint (noticed hi h1 h2 a2 (hso x hx hxt hb))
          have := h1
          simp only [RGhost.rem, List.mem_append, mem_updTimes] at this
          revert hbu
          change ¬ _
          rcases this with (((⟨u, hu, he⟩ | h) | ⟨u, hu, he⟩) | ⟨u, hu, he⟩) | h
          · refine hBu next (List.mem_append_left _ (mem_updTimes.2 ⟨u, ?_, he⟩))
            rw [← hi.eqB]; exact List.mem_append_right _ hu
          · exact hBu next (List.mem_append_right _ (hi.tsub next h))
          · intro hbu; refine hso next (List.mem_append_left _ (mem_updTimes.2 ⟨u, ?_, he⟩)) hle hbu rfl
            rw [← hi.eqS]; exact List.mem_append_right _ hu
          · intro hbu; refine hso next (List.mem_append_right _ (mem_updTimes.2 ⟨u, ?_, he⟩)) hle hbu rfl
            rw [← hi.eqO]; exact List.mem_append_right _ hu
          · exact hi.inside next (List.mem_append_left _ h)

end loop

/-! ### A key -/

section
variable {V R : Type*} [DecidableEq V] [AddCommMonoid R] [DecidableEq R]

omit [DecidableLE T] [LinearOrder V1] [LinearOrder V2] [AddCommMonoid R1] [DecidableEq R1] [AddCancelCommMonoid R2] [DecidableEq R2] in
theorem total_loadVal (x : V) (us : List (T × R)) (v : V) (q : T) :
    total ((EditList.loadGroups none [(x, us)]).flatMap fun vu => vu.2.map fun u => (vu.1, u.1, u.2)) v q
      = total (us.map fun u => (x, u.1, u.2)) v q := by
  have key : total ((consolidatedL (timeLayout T R) (us.map fun u => (joinOpt none u.1, u.2))).map fun u => (x, u.1, u.2)) v q
      = total (us.map fun u => (x, u.1, u.2)) v q := by
    have := measure_consolidatedL (timeLayout T R) (timeLayout_lawful T R)
      (fun t => if x = v ∧ (show T from t) = q then AddMonoidHom.id R else 0) (us.map fun u => (joinOpt none u.1, u.2))
    unfold measure at this
    unfold total
    rw [List.map_map, List.map_map] at *
    have e1 : ((fun u : V × T × R => if u.1 = v ∧ u.2.1 = q then u.2.2 else 0) ∘ fun u : T × R => (x, u.1, u.2))
        = fun u => (if x = v ∧ u.1 = q then AddMonoidHom.id R else 0) u.2 := by
      funext u; simp only [Function.comp]; split_ifs <;> rfl
    rw [e1]
    refine Eq.trans this ?_
    congr 1
  simp only [EditList.loadGroups, List.filterMap_cons, List.filterMap_nil]
  split_ifs with h
  · rw [h] at key; simpa using key
  · simpa using key

omit [LinearOrder V1] [LinearOrder V2] [AddCommMonoid R1] [DecidableEq R1] [AddCancelCommMonoid R2] [DecidableEq R2] in
theorem total_loadGroups (vals : List (V × List (T × R))) (v : V) (q : T) :
    total (valUpds (EditList.loadGroups none vals)) v q = total (valUpds vals) v q := by
  induction vals with
  | nil => rfl
  | cons vu vals ih =>
    have : EditList.loadGroups (none : Option T) (vu :: vals) = EditList.loadGroups none [vu] ++ EditList.loadGroups none vals := by
      simp only [EditList.loadGroups, ← List.filterMap_append]; rfl
    rw [this, valUpds_cons, total_append, ← ih, ← total_loadVal vu.1 vu.2 v q]
    simp only [valUpds, List.flatMap_append, total_append]

end

omit [Lattice T] [DecidableLE T] [TimeOrd T] [LinearOrder V1] [LinearOrder V2] [AddCommMonoid R1] [DecidableEq R1] [AddCancelCommMonoid R2] [DecidableEq R2] in
theorem total_of_distinct {V R : Type*} [DecidableEq V] [AddCommMonoid R] {us : Upds V T R} (h : us.Pairwise fun x y => ¬ (x.1 = y.1 ∧ x.2.1 = y.2.1)) :
    ∀ u ∈ us, total us u.1 u.2.1 = u.2.2 := by
  induction us with
  | nil => simp
  | cons w us ih =>
    obtain ⟨h1, h2⟩ := List.pairwise_cons.1 h
    have hz : ∀ v t, (∀ u ∈ us, ¬ (u.1 = v ∧ u.2.1 = t)) → total us v t = 0 := by
      intro v t hn
      unfold total
      apply List.sum_eq_zero
      intro x hx
      obtain ⟨u, hu, rfl⟩ := List.mem_map.1 hx
      simp [hn u hu]
    intro u hu
    rw [total_cons]
    rcases List.mem_cons.1 hu with rfl | hu
    · rw [hz u.1 u.2.1 fun x hx h => h1 x hx ⟨h.1.symm, h.2.symm⟩]
      simp
    · rw [ih h2 u hu, if_neg (h1 u hu), zero_add]

omit [DecidableLE T] [LinearOrder V1] [LinearOrder V2] [AddCommMonoid R1] [DecidableEq R1] [AddCancelCommMonoid R2] [DecidableEq R2] in
theorem total_loadGroups_ne {V R : Type*} [LinearOrder V] [AddCommMonoid R] [DecidableEq R] (meet : Option T) (vals : List (V × List (T × R)))
    (h : vals.Pairwise fun x y => x.1 < y.1) :
    ∀ u ∈ valUpds (EditList.loadGroups meet vals), total (valUpds (EditList.loadGroups meet vals)) u.1 u.2.1 ≠ 0 := by
  have hc : ∀ g ∈ EditList.loadGroups meet vals, Canon (timeLayout T R) g.2 := by
    intro g hg
    simp only [EditList.loadGroups, List.mem_filterMap] at hg
    obtain ⟨vu, -, hg⟩ := hg
    split_ifs at hg
    simp only [Option.some.injEq] at hg
    subst hg
    exact consolidatedL_canon _ (timeLayout_lawful T R) _
  have hp : (EditList.loadGroups meet vals).Pairwise fun x y => x.1 < y.1 := by
    unfold EditList.loadGroups
    rw [List.pairwise_filterMap]
    refine h.imp ?_
    intro a b hab x hx y hy
    simp only [Option.ite_none_left_eq_some, Option.some.injEq] at hx hy
    obtain ⟨-, rfl⟩ := hx
    obtain ⟨-, rfl⟩ := hy
    exact hab
  generalize EditList.loadGroups meet vals = gs at hc hp
  have hd : (valUpds gs).Pairwise fun x y => ¬ (x.1 = y.1 ∧ x.2.1 = y.2.1) := by
    unfold valUpds
    rw [List.pairwise_flatMap]
    refine ⟨?_, hp.imp ?_⟩
    · intro g hg
      rw [List.pairwise_map]
      refine (hc g hg).1.imp ?_
      rintro a b hab ⟨-, e⟩
      exact absurd (congrArg toLin e) (ne_of_lt hab)
    · intro a b hab x hx y hy
      obtain ⟨_, -, rfl⟩ := List.mem_map.1 hx
      obtain ⟨_, -, rfl⟩ := List.mem_map.1 hy
      exact fun e => hab.ne e.1
  intro u hu
  rw [total_of_distinct hd u hu]
  unfold valUpds at hu
  obtain ⟨g, hg, hu⟩ := List.mem_flatMap.1 hu
  obtain ⟨x, hx, rfl⟩ := List.mem_map.1 hu
  exact (hc g hg).2 x hx

omit [LinearOrder V1] [LinearOrder V2] [AddCommMonoid R1] [DecidableEq R1] [AddCancelCommMonoid R2] [DecidableEq R2] in
theorem replayKey_ok {K V R : Type*} [LinearOrder K] [LinearOrder V] [AddCommMonoid R] [DecidableEq R] (t : Contents K V T R)
    (ht : t.Pairwise fun x y => x.1 < y.1) (key : K) (meet : Option T) :
    ∃ h all, ValueHistory.replayKey t key meet = some h ∧ HistOk h all ∧ h.buffer = [] ∧
      (∀ v q, (∀ m ∈ meet, m ≤ q) → accum all v q = accum (keyUpds t key) v q) ∧
      (∀ u ∈ all, ∃ w ∈ keyUpds t key, u.2.1 = joinOpt meet w.2.1) ∧
      (meet = none → ∀ v q, total all v q = total (keyUpds t key) v q) ∧
      ((∀ kv ∈ t, kv.2.Pairwise fun x y => x.1 < y.1) → ∀ u ∈ all, total all u.1 u.2.1 ≠ 0) := by
  have hempty : ∃ h0, ValueHistory.build (EditList.empty (V := V) (T := T) (R := R)) = some h0 ∧ HistOk h0 [] ∧ h0.buffer = [] := by
    obtain ⟨h, rest, a1, a2, a3, a4⟩ := build_ok ([] : List (V × List (T × R)))
    have : rest = [] := by simpa [valUpds] using a3
    subst this
    exact ⟨h, a1, a2, a4⟩
  unfold ValueHistory.replayKey EditList.populateKey
  induction t with
  | nil =>
    obtain ⟨h0, a1, a2, a3⟩ := hempty
    exact ⟨h0, [], a1, a2, a3, fun _ _ _ => rfl, by simp, fun _ _ _ => rfl, by simp⟩
  | cons kv t ih =>
    obtain ⟨hp, ht'⟩ := List.pairwise_cons.1 ht
    by_cases hlt : kv.1 < key
    · obtain ⟨h0, all, a1, a2, a3, a4, a5, a6, a7⟩ := ih ht'
      have hk : keyUpds (kv :: t) key = keyUpds t key := by simp [keyUpds, hlt.ne]
      rw [hk]
      refine ⟨h0, all, ?_, a2, a3, a4, a5, a6, fun h => a7 fun kv hkv => h kv (List.mem_cons_of_mem _ hkv)⟩
      rw [List.dropWhile_cons_of_pos (by simpa using hlt)]; exact a1
    · rw [List.dropWhile_cons_of_neg (by simpa using hlt)]
      have hrest : ∀ x ∈ t, x.1 ≠ key := fun x hx e => hlt (e ▸ hp x hx)
      have hrest' : (t.flatMap fun kv => if kv.1 = key then valUpds kv.2 else []) = [] := by
        rw [List.flatMap_eq_nil_iff]
        intro x hx
        rw [if_neg (hrest x hx)]
      by_cases he : kv.1 = key
      · have hk : keyUpds (kv :: t) key = valUpds kv.2 := by simp [keyUpds, he, hrest']
        obtain ⟨h, rest, a1, a2, a3, a4⟩ := build_ok (EditList.loadGroups meet kv.2)
        have hl := EditList.load_spec meet kv.2
        simp only [he, if_true, hl]
        refine ⟨h, rest, a1, a2, a4, ?_, ?_, ?_, ?_⟩
        · intro v q hq
          rw [accum_perm a3, accum_loadGroups meet kv.2 v q hq, hk]
        · intro u hu
          obtain ⟨vu, h1, x, h2, h3, e⟩ := loadGroups_mem meet kv.2 u (a3.mem_iff.1 hu)
          rw [hk]
          exact ⟨(vu.1, x.1, x.2), List.mem_flatMap.2 ⟨vu, h1, List.mem_map.2 ⟨x, h2, rfl⟩⟩, e⟩
        · rintro rfl v q
          rw [total_perm a3, total_loadGroups, hk]
        · intro hv u hu
          rw [total_perm a3]
          exact total_loadGroups_ne meet kv.2 (hv kv (List.mem_cons_self ..)) u (a3.mem_iff.1 hu)
      · obtain ⟨h0, a1, a2, a3⟩ := hempty
        have hk : keyUpds (kv :: t) key = [] := by simp [keyUpds, he, hrest']
        simp only [he, if_false]
        refine ⟨h0, [], a1, a2, a3, ?_, by simp, ?_, by simp⟩
        · intro v q hq
          rw [hk]
        · intro _ v q
          rw [hk]

omit [LinearOrder V1] [LinearOrder V2] [AddCommMonoid R1] [DecidableEq R1] [AddCancelCommMonoid R2] [DecidableEq R2] in
theorem SeedMeet.exists_le {V R : Type*} [LinearOrder V] [AddCommMonoid R] [DecidableEq R] {batch : Upds V T R} {times : List T} {m : T} (h : SeedMeet batch times m) :
    ∃ s ∈ batch.map (·.2.1) ++ times, m ≤ s := by
  rcases h.some with ⟨v, s, hvs⟩ | hne
  · obtain ⟨r, hr⟩ := total_ne_zero_mem hvs
    exact ⟨s, List.mem_append_left _ (List.mem_map.2 ⟨_, hr, rfl⟩), h.upds v s hvs⟩
  · obtain ⟨p, hp⟩ := List.exists_mem_of_ne_nil _ hne
    exact ⟨p, List.mem_append_right _ hp, h.pending p hp⟩

/-- The seeds: the times of new updates and pending times. -/
theorem reduceKey_spec {K : Type*} [LinearOrder K] {f : List (V1 × R1) → List (V2 × R2)} {logic : List (V1 × R1) → List (V2 × R2) → List (V2 × R2)}
    (hl : ReducesBy f logic) (key : K) (source : Contents K V1 T R1) (output : Contents K V2 T R2) (batch : Contents K V1 T R1) (times later lower upper held : List T)
    (hsrc : source.Pairwise fun x y => x.1 < y.1) (hout : output.Pairwise fun x y => x.1 < y.1) (hbat : ContentsSorted batch)
    (htimes : times.Pairwise fun a b => toLin a ≤ toLin b)
    (hB : ∀ s ∈ updTimes (keyUpds batch key) ++ times, Beyond lower s ∧ ¬ Beyond upper s ∧ Beyond held s)
    (hstart : ∀ q, Beyond lower q → (∀ p ∈ times ++ later, ¬ p ≤ q) → ReducedAt f (keyUpds source key) (keyUpds output key) q) :
    ∃ outs pend N, (∀ fuel, N ≤ fuel → reduceKey fuel key source output batch times logic upper held = some (outs, pend)) ∧
      outs.map (·.1) = held ∧
      (∀ (i : Nat) (o : T × Upds V2 T R2), outs[i]? = some o → ∀ u ∈ o.2, outputIndex held u.2.1 = some i ∧ ¬ Beyond upper u.2.1 ∧
        ∃ s ∈ updTimes (keyUpds batch key) ++ times, s ≤ u.2.1) ∧
      (pend.Pairwise fun a b => toLin a < toLin b) ∧
      (∀ p ∈ pend, Beyond upper p ∧ ∃ s ∈ updTimes (keyUpds batch key) ++ times, s ≤ p) ∧
      ∀ t, Beyond lower t → (∀ p ∈ pend ++ later, ¬ p ≤ t) →
        (∀ w ∈ updTimes (keyUpds source key) ++ updTimes (keyUpds output key), ∀ m, SeedMeet (keyUpds batch key) times m →
          w ⊔ m ≤ t → Beyond upper (w ⊔ m) → (∃ p ∈ times, p ≤ w ⊔ m) ∨ ∃ v, accum (keyUpds batch key) v (w ⊔ m) ≠ 0) →
        ReducedAt f (keyUpds source key ++ keyUpds batch key) (keyUpds output key ++ outs.flatMap (·.2)) t := by
  obtain ⟨hb, B0, b1, b2, b3, b4, b5, b6, b7⟩ := replayKey_ok batch hbat.keys key (none : Option T)
  have hmeet : LowerMeet (updateMeet (updateMeet none (timesMeets times).head?) hb.meet) (times ++ updTimes B0) :=
    lowerMeet_update (by simpa [updateMeet] using (lowerMeet_update (m := none) (ts := []) ⟨by simp, fun _ => rfl, by simp⟩ (timesMeets_spec times))) (lowerMeet_hist b2)
  set meet := updateMeet (updateMeet none (timesMeets times).head?) hb.meet with hmeetd
  obtain ⟨hs, S0, s1, s2, s3, s4, s5, -⟩ := replayKey_ok source hsrc key meet
  obtain ⟨ho, O0, o1, o2, o3, o4, o5, -⟩ := replayKey_ok output hout key meet
  have hB0 : ∀ x ∈ updTimes B0, x ∈ updTimes (keyUpds batch key) := by
    intro x hx
    obtain ⟨u, hu, rfl⟩ := mem_updTimes.1 hx
    obtain ⟨w, hw, e⟩ := b5 u hu
    rw [e]
    exact mem_updTimes.2 ⟨w, hw, rfl⟩
  have hseeds : ∀ s ∈ updTimes B0 ++ times, s ∈ updTimes (keyUpds batch key) ++ times := by
    intro s h
    rcases List.mem_append.1 h with h | h
    · exact List.mem_append_left _ (hB0 s h)
    · exact List.mem_append_right _ h
  set st0 : ReduceState V1 V2 T R1 R2 :=
    { batch := hb, input := hs, output := ho, synth := [], times := times, meets := timesMeets times, current := [], produced := [], meet := meet,
      outputs := held.map fun t => (t, []), pended := [] } with hst0
  set g0 : RGhost V1 V2 T R1 R2 := { Bs := [], Br := B0, Ss := [], Sr := S0, Os := [], Or := O0, used := [] } with hg0
  have hlog0 : st0.log = [] := by simp [ReduceState.log, hst0]
  have hmr : ∀ m ∈ meet, ∀ r ∈ g0.rem st0, m ≤ r := by
    intro m hm r hr
    simp only [RGhost.rem, hg0, hst0, List.append_nil, List.mem_append] at hr
    rcases hr with ((hr | hr) | hr) | hr
    · exact hmeet.1 m hm r (by simp [hr])
    · exact hmeet.1 m hm r (by simp [hr])
    · obtain ⟨u, hu, rfl⟩ := mem_updTimes.1 hr
      obtain ⟨w, -, e⟩ := s5 u hu
      rw [e]; exact le_joinOpt_right meet _ m hm
    · obtain ⟨u, hu, rfl⟩ := mem_updTimes.1 hr
      obtain ⟨w, -, e⟩ := o5 u hu
      rw [e]; exact le_joinOpt_right meet _ m hm
  let Cl : Set T := supClosure {x | x ∈ updTimes B0 ++ updTimes S0 ++ updTimes O0 ++ times}
  have hfin : Cl.Finite := (List.finite_toSet _).supClosure
  have hcl : ∀ x ∈ updTimes B0 ++ updTimes S0 ++ updTimes O0 ++ times, x ∈ Cl := fun x hx => subset_supClosure hx
  have hnil : ∀ {V R : Type _} [LinearOrder V] [AddCommMonoid R] {b : Upds V T R}, b = [] → BufRel b ([] : Upds V T R) (g0.rem st0) := by
    intro V R _ _ b e
    subst e
    exact ⟨fun _ _ _ => rfl, by simp⟩
  have hnil2 : ∀ {b : Upds V2 T R2}, b = [] → BufRel b ([] : Upds V2 T R2) (g0.rem st0) := by
    intro b e
    subst e
    exact ⟨fun _ _ _ => rfl, by simp⟩
  have hi0 : RInv B0 S0 O0 times upper held Cl g0 st0 := by
    refine ⟨⟨b2, s2, o2, hnil b3, hnil s3, hnil2 o3, hnil2 (b := []) rfl |> (by rw [hlog0]; exact ·), hmr⟩, rfl, rfl, rfl, by simp [hst0, Function.comp_def], htimes, List.Pairwise.nil, rfl, by simp [hg0], by simp [hst0],
      fun p hp => hp, fun p hp => Or.inr hp, ?_, ?_, by simp [hst0], ?_, ?_⟩
    · rw [hlog0]; simp [hst0, hg0, updTimes]
    · rw [hlog0]; simp [hst0, updTimes]
    · intro i o ho u hu
      simp only [hst0, List.getElem?_map, Option.map_eq_some_iff] at ho
      obtain ⟨a, -, rfl⟩ := ho
      simp at hu
    · rw [hlog0]; simp [hst0, hg0, updTimes]
  obtain ⟨g', st', c1, c2, c3, -, c5⟩ := rLoop_spec hl hfin supClosed_supClosure hcl (fun s h => (hB s (hseeds s h)).2.2) (fun s h => (hB s (hseeds s h)).2.1)
    (rMeasure hfin g0 st0) g0 st0 hi0 (le_refl _)
  refine ⟨st'.outputs, sortDedup st'.pended, rMeasure hfin g0 st0, fun fuel hf => ?_, c2.outs, ?_, sortDedup_sorted _, ?_, ?_⟩
  · unfold reduceKey
    rw [b1]
    simp only
    rw [← hmeetd, s1, o1]
    simp only
    rw [← hst0, c1 fuel hf]
    rfl
  · intro i o hio u hu
    have hmem : u.2.1 ∈ updTimes st'.log := mem_updTimes.2 ⟨u, List.mem_flatMap.2 ⟨o, List.mem_of_getElem? hio, hu⟩, rfl⟩
    obtain ⟨s, h1, h2⟩ := c2.seed u.2.1 (by simp [hmem])
    exact ⟨c2.filed i o hio u hu, c2.inside _ (by simp [hmem]), s, hseeds s h1, h2⟩
  · intro p hp
    have hp := (mem_sortDedup _ _).1 hp
    obtain ⟨s, h1, h2⟩ := c2.seed p (by simp [hp])
    exact ⟨c2.pend p hp, s, hseeds s h1, h2⟩
  · intro t ht hpt hH
    have hacc : ∀ v q, accum B0 v q = accum (keyUpds batch key) v q := fun v q => b4 v q (by simp)
    by_cases hst : ∃ s ∈ updTimes B0 ++ times, s ≤ t
    · obtain ⟨s0, hs0, hs0t⟩ := hst
      have hms : ∀ m ∈ meet, ∀ s ∈ updTimes B0 ++ times, m ≤ s := fun m hm s h => hmeet.1 m hm s (by
        rcases List.mem_append.1 h with h | h <;> simp [h])
      have hmt : ∀ m ∈ meet, m ≤ t := fun m hm => (hms m hm s0 hs0).trans hs0t
      have hsome : ∃ m, meet = some m := by
        cases hm : meet with
        | none =>
          have := hmeet.2.1 hm
          simp only [List.append_eq_nil_iff] at this
          rw [this.1, this.2] at hs0
          simp at hs0
        | some m => exact ⟨m, rfl⟩
      obtain ⟨μ, hμ⟩ := hsome
      have hbelow : SeedMeet (keyUpds batch key) times μ := by
        refine ⟨fun v s h => ?_, fun s h => hms μ hμ s (by simp [h]), fun x hx => hmeet.2.2 μ hμ x fun s h => hx s ?_, ?_⟩
        rotate_left
        rotate_left
        · rcases List.mem_append.1 hs0 with hs0 | hs0
          · obtain ⟨u, hu, rfl⟩ := mem_updTimes.1 hs0
            exact Or.inl ⟨u.1, u.2.1, by rw [← b6 rfl]; exact b7 hbat.vals u hu⟩
          · exact Or.inr (List.ne_nil_of_mem hs0)
        rotate_left
        · rcases List.mem_append.1 h with h | h
          · exact List.mem_append_right _ h
          · exact List.mem_append_left _ (hB0 s h)
        rw [← b6 rfl] at h
        obtain ⟨r, hr⟩ := total_ne_zero_mem h
        exact hms μ hμ s (List.mem_append_left _ (mem_updTimes.2 ⟨_, hr, rfl⟩))
      let Good : T → Prop := fun q => Beyond lower q ∧ (∀ m ∈ meet, m ≤ q) ∧ ∀ p ∈ later, ¬ p ≤ q
      have hstart' : ∀ q, Good q → (∀ p ∈ times, ¬ p ≤ q) → ReducedAt f S0 O0 q := by
        rintro q ⟨q1, q2, q3⟩ q4
        refine reducedAt_congr (fun v => (s4 v q q2).symm) (fun v => (o4 v q q2).symm) (hstart q q1 ?_)
        intro p hp
        rcases List.mem_append.1 hp with hp | hp
        · exact q4 p hp
        · exact q3 p hp
      have hgt : Good t := ⟨ht, hmt, fun p hp => hpt p (List.mem_append_right _ hp)⟩
      have hT0 : TInv f Good B0 S0 O0 times t g0 st0 := by
        obtain hs0 | hs0 := List.mem_append.1 hs0
        · exact Or.inl ⟨s0, by simp [hg0, hs0], hs0t⟩
        · exact Or.inl ⟨s0, by simp [hst0, hs0], hs0t⟩
      have hT := c5 Good t (fun s h q h1 h2 => ⟨beyond_mono (hB s (hseeds s h)).1 h1, fun m hm => (hms m hm s h).trans h1,
        fun p hp hle => hpt p (List.mem_append_right _ hp) (hle.trans h2)⟩) ?_
        (fun x hx => hpt x (List.mem_append_left _ ((mem_sortDedup _ _).2 hx))) hstart' hT0
      · have := tInv_end c2 c3 hstart' hgt hT
        refine reducedAt_congr (fun v => ?_) (fun v => ?_) this
        · rw [accum_append, accum_append, s4 v t hmt, hacc]
        · rw [accum_append, accum_append, o4 v t hmt]; rfl
      · intro x hx hle hbu
        simp only [hacc]
        rcases List.mem_append.1 hx with hx | hx
        · obtain ⟨u, hu, rfl⟩ := mem_updTimes.1 hx
          obtain ⟨w, hw, e⟩ := s5 u hu
          rw [hμ] at e
          rw [e] at hle hbu ⊢
          exact hH w.2.1 (List.mem_append_left _ (mem_updTimes.2 ⟨w, hw, rfl⟩)) μ hbelow hle hbu
        · obtain ⟨u, hu, rfl⟩ := mem_updTimes.1 hx
          obtain ⟨w, hw, e⟩ := o5 u hu
          rw [hμ] at e
          rw [e] at hle hbu ⊢
          exact hH w.2.1 (List.mem_append_right _ (mem_updTimes.2 ⟨w, hw, rfl⟩)) μ hbelow hle hbu
    · have hno : ∀ s ∈ updTimes B0 ++ times, ¬ s ≤ t := fun s h hle => hst ⟨s, h, hle⟩
      have hz : ∀ v, accum B0 v t = 0 := accum_zero_of_not_le fun u hu => hno _ (List.mem_append_left _ (mem_updTimes.2 ⟨u, hu, rfl⟩))
      have hz2 : ∀ v, accum st'.log v t = 0 := accum_zero_of_not_le fun u hu hle => by
        obtain ⟨s, h1, h2⟩ := c2.seed u.2.1 (by
          have : u.2.1 ∈ updTimes st'.log := mem_updTimes.2 ⟨u, hu, rfl⟩
          simp [this])
        exact hno s h1 (h2.trans hle)
      refine reducedAt_congr (fun v => ?_) (fun v => ?_) (hstart t ht ?_)
      · rw [accum_append, ← hacc, hz, add_zero]
      · rw [accum_append]
        show _ = _ + accum st'.log v t
        rw [hz2, add_zero]
      · intro p hp
        rcases List.mem_append.1 hp with hp | hp
        · exact hno p (List.mem_append_right _ hp)
        · exact hpt p (List.mem_append_right _ hp)

end

end DD
