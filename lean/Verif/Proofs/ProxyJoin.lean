import Verif.Model.ProxyJoin
import Verif.Proofs.JoinIter

/-!
# Lemmas about the proxy join
-/

namespace DD
variable {T R0 R1 M : Type*}

namespace CrossState

/-- The matches so far. -/
def flat (st : CrossState T M) : Upds ((Nat × Nat) × (Nat × Nat)) T M := st.out.flatMap CrossCall.upds ++ st.buf.upds

/-- Calls have been made with full lists, and the buffers are not full. -/
structure Ok (chunk : Nat) (st : CrossState T M) : Prop where
  calls : ∀ c ∈ st.out, c.Aligned ∧ c.left.length = chunk
  aligned : st.buf.Aligned
  room : st.buf.left.length < chunk

/-- Many pushes. -/
def pushAll (chunk : Nat) (st : CrossState T M) (xs : Upds ((Nat × Nat) × (Nat × Nat)) T M) : CrossState T M :=
  xs.foldl (fun st x => st.push chunk x.1.1 x.1.2 x.2.1 x.2.2) st

theorem push_ok {chunk : Nat} (hc : 0 < chunk) {st : CrossState T M} (h : st.Ok chunk) (l r : Nat × Nat) (t : T) (d : M) :
    (st.push chunk l r t d).Ok chunk ∧ (st.push chunk l r t d).flat = st.flat ++ [((l, r), t, d)] := by
  obtain ⟨a1, a2, a3⟩ := h.aligned
  have hr := h.room
  have hu : CrossCall.upds { left := st.buf.left ++ [l], right := st.buf.right ++ [r], times := st.buf.times ++ [t], diffs := st.buf.diffs ++ [d] }
      = st.buf.upds ++ [((l, r), t, d)] := by
    simp only [CrossCall.upds]
    rw [List.zip_append a1.symm, List.zip_append (by omega), List.zip_append (by simp only [List.length_zip]; omega)]
    rfl
  unfold push
  by_cases hg : (st.buf.left ++ [l]).length ≥ chunk
  · simp only [hg, if_true]
    refine ⟨⟨?_, ?_, ?_⟩, ?_⟩
    · intro c hm
      simp only [flush] at hm
      rcases List.mem_append.1 hm with hm | hm
      · exact h.calls c hm
      · rw [List.mem_singleton.1 hm]
        refine ⟨⟨?_, ?_, ?_⟩, ?_⟩ <;> simp only [List.length_append, List.length_singleton] at hg ⊢ <;> omega
    · exact ⟨rfl, rfl, rfl⟩
    · exact hc
    · simp only [flat, flush, List.flatMap_append, List.flatMap_cons, List.flatMap_nil, List.append_nil, hu]
      simp [CrossCall.upds, CrossCall.empty]
  · simp only [hg, if_false]
    refine ⟨⟨h.calls, ⟨?_, ?_, ?_⟩, ?_⟩, ?_⟩
    · simp only [List.length_append, List.length_singleton]; omega
    · simp only [List.length_append, List.length_singleton]; omega
    · simp only [List.length_append, List.length_singleton]; omega
    · simpa using hg
    · simp only [flat, hu, List.append_assoc]

theorem pushAll_ok {chunk : Nat} (hc : 0 < chunk) : ∀ (xs : Upds ((Nat × Nat) × (Nat × Nat)) T M) {st : CrossState T M}, st.Ok chunk →
    (st.pushAll chunk xs).Ok chunk ∧ (st.pushAll chunk xs).flat = st.flat ++ xs := by
  intro xs
  induction xs with
  | nil => intro st h; exact ⟨h, by simp [pushAll]⟩
  | cons x xs ih =>
    intro st h
    obtain ⟨a, b⟩ := push_ok hc h x.1.1 x.1.2 x.2.1 x.2.2
    obtain ⟨c, d⟩ := ih a
    exact ⟨c, by rw [show st.pushAll chunk (x :: xs) = (st.push chunk x.1.1 x.1.2 x.2.1 x.2.2).pushAll chunk xs from rfl, d, b]; simp⟩

theorem pushAll_append (chunk : Nat) (st : CrossState T M) (xs ys : Upds ((Nat × Nat) × (Nat × Nat)) T M) : st.pushAll chunk (xs ++ ys) = (st.pushAll chunk xs).pushAll chunk ys := by
  simp [pushAll, List.foldl_append]

end CrossState

section
variable [Lattice T] [DecidableLE T] [LinearOrder (Lin T)] [AddCommMonoid R0] [DecidableEq R0] [AddCommMonoid R1] [DecidableEq R1] [AddCommMonoid M]

/-- The matches of a key, with the identifiers it is pushed with. -/
def keyMatches (mul : R0 → R1 → M) (kh : Nat) (outs : JoinOut Nat Nat T R0 R1) : Upds ((Nat × Nat) × (Nat × Nat)) T M :=
  outs.map fun o => (((kh, o.1), (kh, o.2.1)), o.2.2.1, mul o.2.2.2.1 o.2.2.2.2)

omit [LinearOrder (Lin T)] [AddCommMonoid R0] [DecidableEq R0] [AddCommMonoid R1] [DecidableEq R1] in
theorem accum_keyMatches (mul : R0 → R1 → M) (kh : Nat) (outs : JoinOut Nat Nat T R0 R1) (l r : Nat × Nat) (q : T) :
    accum (keyMatches mul kh outs) (l, r) q = if l.1 = kh ∧ r.1 = kh then joinAccum mul outs l.2 r.2 q else 0 := by
  induction outs with
  | nil => simp [keyMatches, joinAccum]
  | cons o outs ih =>
    rw [show keyMatches mul kh (o :: outs) = (((kh, o.1), (kh, o.2.1)), o.2.2.1, mul o.2.2.2.1 o.2.2.2.2) :: keyMatches mul kh outs from rfl, accum_cons, ih]
    obtain ⟨l1, l2⟩ := l
    obtain ⟨r1, r2⟩ := r
    have : joinAccum mul (o :: outs) l2 r2 q = (if o.1 = l2 ∧ o.2.1 = r2 ∧ o.2.2.1 ≤ q then mul o.2.2.2.1 o.2.2.2.2 else 0) + joinAccum mul outs l2 r2 q := by simp [joinAccum]
    simp only [this, Prod.mk.injEq]
    by_cases h1 : l1 = kh
    · by_cases h2 : r1 = kh
      · subst h1 h2
        simp only [and_self, if_true, true_and]
        congr 1
        simp only [and_assoc]
      · rw [if_neg (by tauto), if_neg (by tauto), if_neg (by tauto), zero_add]
    · rw [if_neg (by tauto), if_neg (by tauto), if_neg (by tauto), zero_add]

omit [DecidableLE T] in
theorem loadIter_none {V R : Type*} [LinearOrder V] [AddCommMonoid R] [DecidableEq R] (us : Upds V T R) (m : Option T) (h : ∀ u ∈ us, ∀ x ∈ m, x ≤ u.2.1) :
    ValueHistory.loadIter us none = ValueHistory.loadIter us m := by
  have : us.foldlM (ValueHistory.loadIterStep none) (EditList.empty, none) = us.foldlM (ValueHistory.loadIterStep m) (EditList.empty, none) := by
    generalize ((EditList.empty : EditList V T R), (none : Option V)) = s
    induction us generalizing s with
    | nil => rfl
    | cons u us ih =>
      have hs : ValueHistory.loadIterStep none s u = ValueHistory.loadIterStep m s u := by
        have : joinOpt m u.2.1 = u.2.1 := by
          cases m with
          | none => rfl
          | some x => exact sup_eq_left.2 (h u (by simp) x rfl)
        simp only [ValueHistory.loadIterStep, this]
        rfl
      rw [List.foldlM_cons, List.foldlM_cons, hs]
      congr 1
      funext s'
      exact ih (fun u hu => h u (List.mem_cons_of_mem _ hu)) s'
  unfold ValueHistory.loadIter
  rw [this]

theorem accum_run {R : Type*} [AddCommMonoid R] (us : Upds (Nat × Nat) T R) (kh : Nat) (h : ∀ u ∈ us, u.1.1 = kh) (id : Nat × Nat) (q : T) :
    accum us id q = if id.1 = kh then accum (us.map fun u => (u.1.2, u.2)) id.2 q else 0 := by
  induction us with
  | nil => simp
  | cons u us ih =>
    rw [accum_cons, ih fun x hx => h x (List.mem_cons_of_mem _ hx), List.map_cons, accum_cons]
    have hu := h u (by simp)
    obtain ⟨i1, i2⟩ := id
    obtain ⟨⟨u1, u2⟩, t, d⟩ := u
    simp only at hu
    subst hu
    simp only [Prod.mk.injEq]
    by_cases h1 : i1 = u1
    · subst h1; simp
    · rw [if_neg h1, if_neg h1, if_neg (by tauto), zero_add]

theorem proxyJoinKey_spec (small chunk : Nat) (mul : R0 →+ R1 →+ M) (kh : Nat) (run0 : Upds (Nat × Nat) T R0) (run1 : Upds (Nat × Nat) T R1) (st : CrossState T M)
    (m0 m1 : Option T) (h0 : AboveOpt m0 run0) (h1 : AboveOpt m1 run1) (k0 : ∀ u ∈ run0, u.1.1 = kh) (k1 : ∀ u ∈ run1, u.1.1 = kh) :
    ∃ xs, proxyJoinKey small chunk (fun a b => mul a b) kh run0 run1 st = some (st.pushAll chunk xs) ∧ (∀ x ∈ xs, (∀ m ∈ m0, m ≤ x.2.1) ∧ ∀ m ∈ m1, m ≤ x.2.1) ∧
      ∀ l r q, accum xs (l, r) q = if l.1 = r.1 then mul (accum run0 l q) (accum run1 r q) else 0 := by
  have fin : ∀ outs : JoinOut Nat Nat T R0 R1, (∀ v0 v1 q, joinAccum (fun a b => mul a b) outs v0 v1 q
      = mul (accum (run0.map fun u => (u.1.2, u.2)) v0 q) (accum (run1.map fun u => (u.1.2, u.2)) v1 q)) →
      ∀ l r q, accum (keyMatches (fun a b => mul a b) kh outs) (l, r) q = if l.1 = r.1 then mul (accum run0 l q) (accum run1 r q) else 0 := by
    intro outs ho l r q
    rw [accum_keyMatches, ho, accum_run run0 kh k0, accum_run run1 kh k1]
    by_cases hl : l.1 = kh
    · by_cases hr : r.1 = kh
      · simp [hl, hr]
      · rw [if_neg (by tauto), if_neg hr, map_zero, if_neg (fun e => hr (by rw [← e, hl]))]
    · rw [if_neg (by tauto), if_neg hl, map_zero, AddMonoidHom.zero_apply, ite_self]
  have hpush : ∀ outs : JoinOut Nat Nat T R0 R1, outs.foldl (fun st o => st.push chunk (kh, o.1) (kh, o.2.1) o.2.2.1 (mul o.2.2.2.1 o.2.2.2.2)) st
      = st.pushAll chunk (keyMatches (fun a b => mul a b) kh outs) := by
    intro outs
    simp only [CrossState.pushAll, keyMatches, List.foldl_map]
  unfold proxyJoinKey
  by_cases hs : run0.length < small ∨ run1.length < small
  · rw [if_pos hs]
    refine ⟨keyMatches (fun a b => mul a b) kh ((run0.map fun u => (u.1.2, u.2)).flatMap fun a => (run1.map fun u => (u.1.2, u.2)).map fun b =>
      (a.1, b.1, a.2.1 ⊔ b.2.1, a.2.2, b.2.2)), ?_, ?_, ?_⟩
    · rw [← hpush, List.foldl_flatMap, List.foldl_map]
      simp only [List.foldl_map]
    · intro x hx
      simp only [keyMatches, List.mem_map, List.mem_flatMap] at hx
      obtain ⟨o, ⟨a, ⟨u, hu, rfl⟩, b, ⟨v, hv, rfl⟩, rfl⟩, rfl⟩ := hx
      exact ⟨fun m hm => (h0 u hu m hm).trans le_sup_left, fun m hm => (h1 v hv m hm).trans le_sup_right⟩
    · exact fin _ fun v0 v1 q => joinAccum_cross mul _ _ v0 v1 q
  · rw [if_neg hs]
    have e0 := loadIter_none (run0.map fun u => (u.1.2, u.2)) m0 (fun u hu x hx => by obtain ⟨w, hw, rfl⟩ := List.mem_map.1 hu; exact h0 w hw x hx)
    have e1 := loadIter_none (run1.map fun u => (u.1.2, u.2)) m1 (fun u hu x hx => by obtain ⟨w, hw, rfl⟩ := List.mem_map.1 hu; exact h1 w hw x hx)
    obtain ⟨g0, r0, a1, a2, a3, a4, _⟩ := loadIter_ok (run0.map fun u => (u.1.2, u.2)) (none : Option T)
    obtain ⟨g1, r1, b1, b2, b3, b4, _⟩ := loadIter_ok (run1.map fun u => (u.1.2, u.2)) (none : Option T)
    obtain ⟨g0', s0, c1, c2, c3, _, c5⟩ := loadIter_ok (run0.map fun u => (u.1.2, u.2)) m0
    obtain ⟨g1', s1, d1, d2, d3, _, d5⟩ := loadIter_ok (run1.map fun u => (u.1.2, u.2)) m1
    obtain rfl : g0 = g0' := by rw [e0, c1] at a1; exact (Option.some.inj a1).symm
    obtain rfl : g1 = g1' := by rw [e1, d1] at b1; exact (Option.some.inj b1).symm
    have hi : WaveInv g0 g1 [] r0 [] r1 := ⟨a2, b2, fun _ _ _ _ _ => by rw [a3], fun _ _ _ _ _ => by rw [b3]⟩
    obtain ⟨outs, w1, w2⟩ := waveLoop_spec (M := M) (g0.history.length + g1.history.length) hi (by rw [a2.dec.length_eq, b2.dec.length_eq])
    have ht := waveLoop_times _ c2 d2 c5 d5 (by rw [c3]; simp [AboveOpt]) (by rw [d3]; simp [AboveOpt]) outs w1
    refine ⟨keyMatches (fun a b => mul a b) kh outs, ?_, ?_, ?_⟩
    · rw [a1, b1]
      simp only [bilinearWave, w1]
      rw [hpush]
    · intro x hx
      obtain ⟨o, ho, rfl⟩ := List.mem_map.1 hx
      exact ht o ho
    · refine fin _ fun v0 v1 q => ?_
      have := w2 mul v0 v1 q
      simp only [accum_nil, map_zero, AddMonoidHom.zero_apply, add_zero, List.nil_append] at this
      rw [this, a4 v0 q (by simp), b4 v1 q (by simp)]

theorem accum_other {R : Type*} [AddCommMonoid R] {us : Upds (Nat × Nat) T R} {id : Nat × Nat} (h : ∀ u ∈ us, u.1.1 ≠ id.1) (q : T) : accum us id q = 0 := by
  induction us with
  | nil => rfl
  | cons u us ih =>
    rw [accum_cons, ih fun x hx => h x (List.mem_cons_of_mem _ hx), if_neg (fun e => h u (by simp) (by rw [e.1])), add_zero]

theorem mem_dropWhile_hash {R : Type*} {us : Upds (Nat × Nat) T R} {k : Nat} (hs : us.Pairwise fun a b => a.1.1 ≤ b.1.1) (hk : ∀ u ∈ us, k ≤ u.1.1) :
    ∀ u ∈ us.dropWhile (fun u => decide (u.1.1 = k)), u.1.1 ≠ k := by
  induction us with
  | nil => simp
  | cons u us ih =>
    rw [List.pairwise_cons] at hs
    rw [List.dropWhile_cons]
    by_cases h : u.1.1 = k
    · simp only [h, decide_true, if_true]
      exact ih hs.2 fun x hx => hk x (List.mem_cons_of_mem _ hx)
    · simp only [h, decide_false]
      intro x hx
      rcases List.mem_cons.1 hx with rfl | hx
      · exact h
      · have := hs.1 x hx
        have := hk u (by simp)
        omega

theorem proxyMerge_spec (small chunk : Nat) (mul : R0 →+ R1 →+ M) (m0 m1 : Option T) : ∀ (n : Nat) (p0 : Upds (Nat × Nat) T R0) (p1 : Upds (Nat × Nat) T R1) (st : CrossState T M),
    p0.length + p1.length ≤ n → p0.Pairwise (fun a b => a.1.1 ≤ b.1.1) → p1.Pairwise (fun a b => a.1.1 ≤ b.1.1) → AboveOpt m0 p0 → AboveOpt m1 p1 →
    ∃ xs, proxyMerge small chunk (fun a b => mul a b) p0 p1 st = some (st.pushAll chunk xs) ∧ (∀ x ∈ xs, (∀ m ∈ m0, m ≤ x.2.1) ∧ ∀ m ∈ m1, m ≤ x.2.1) ∧
      ∀ l r q, accum xs (l, r) q = if l.1 = r.1 then mul (accum p0 l q) (accum p1 r q) else 0 := by
  intro n
  induction n with
  | zero =>
    intro p0 p1 st hn _ _ _ _
    have e0 : p0 = [] := List.length_eq_zero_iff.1 (by omega)
    have e1 : p1 = [] := List.length_eq_zero_iff.1 (by omega)
    subst e0 e1
    exact ⟨[], by simp [proxyMerge, CrossState.pushAll], by simp, by simp⟩
  | succ n ih =>
    intro p0 p1 st hn s0 s1 b0 b1
    cases p0 with
    | nil => exact ⟨[], by simp [proxyMerge, CrossState.pushAll], by simp, by simp⟩
    | cons a as =>
      cases p1 with
      | nil => exact ⟨[], by simp [proxyMerge, CrossState.pushAll], by simp, by simp⟩
      | cons b bs =>
        rw [proxyMerge]
        have s0' := List.pairwise_cons.1 s0
        have s1' := List.pairwise_cons.1 s1
        by_cases h1 : a.1.1 < b.1.1
        · rw [if_pos h1]
          obtain ⟨xs, c1, c2, c3⟩ := ih as (b :: bs) st (by simp at hn ⊢; omega) s0'.2 s1 (fun u hu => b0 u (List.mem_cons_of_mem _ hu)) b1
          refine ⟨xs, c1, c2, fun l r q => ?_⟩
          rw [c3]
          by_cases hlr : l.1 = r.1
          · rw [if_pos hlr, if_pos hlr, accum_cons a as]
            by_cases hal : a.1 = l ∧ a.2.1 ≤ q
            · have : accum (b :: bs) r q = 0 := accum_other (fun u hu e => by
                have hx : a.1.1 < u.1.1 := by
                  rcases List.mem_cons.1 hu with rfl | hu
                  · exact h1
                  · exact lt_of_lt_of_le h1 (s1'.1 u hu)
                rw [e, ← hlr, ← hal.1] at hx
                exact lt_irrefl _ hx) q
              rw [this, map_zero, map_zero]
            · rw [if_neg hal, zero_add]
          · rw [if_neg hlr, if_neg hlr]
        · rw [if_neg h1]
          by_cases h2 : b.1.1 < a.1.1
          · rw [if_pos h2]
            obtain ⟨xs, c1, c2, c3⟩ := ih (a :: as) bs st (by simp at hn ⊢; omega) s0 s1'.2 b0 (fun u hu => b1 u (List.mem_cons_of_mem _ hu))
            refine ⟨xs, c1, c2, fun l r q => ?_⟩
            rw [c3]
            by_cases hlr : l.1 = r.1
            · rw [if_pos hlr, if_pos hlr, accum_cons b bs]
              by_cases hal : b.1 = r ∧ b.2.1 ≤ q
              · have : accum (a :: as) l q = 0 := accum_other (fun u hu e => by
                  have hx : b.1.1 < u.1.1 := by
                    rcases List.mem_cons.1 hu with rfl | hu
                    · exact h2
                    · exact lt_of_lt_of_le h2 (s0'.1 u hu)
                  rw [e, hlr, ← hal.1] at hx
                  exact lt_irrefl _ hx) q
                rw [this, map_zero, AddMonoidHom.zero_apply, AddMonoidHom.zero_apply]
              · rw [if_neg hal, zero_add]
            · rw [if_neg hlr, if_neg hlr]
          · rw [if_neg h2]
            have hk : b.1.1 = a.1.1 := by omega
            have hsplit0 := List.takeWhile_append_dropWhile (p := fun u : (Nat × Nat) × T × R0 => decide (u.1.1 = a.1.1)) (l := as)
            have hsplit1 := List.takeWhile_append_dropWhile (p := fun u : (Nat × Nat) × T × R1 => decide (u.1.1 = a.1.1)) (l := bs)
            have hd0 := (List.dropWhile_sublist (l := as) fun u => decide (u.1.1 = a.1.1))
            have hd1 := (List.dropWhile_sublist (l := bs) fun u => decide (u.1.1 = a.1.1))
            have ht0 := (List.takeWhile_sublist (l := as) fun u => decide (u.1.1 = a.1.1))
            have ht1 := (List.takeWhile_sublist (l := bs) fun u => decide (u.1.1 = a.1.1))
            have hn0 := mem_dropWhile_hash (k := a.1.1) s0'.2 s0'.1
            have hn1 := mem_dropWhile_hash (k := a.1.1) s1'.2 (by rw [← hk]; exact s1'.1)
            have hr0 : ∀ u ∈ a :: as.takeWhile (fun u => decide (u.1.1 = a.1.1)), u.1.1 = a.1.1 := by
              intro u hu
              rcases List.mem_cons.1 hu with rfl | hu
              · rfl
              · simpa using List.mem_takeWhile_imp hu
            have hr1 : ∀ u ∈ b :: bs.takeWhile (fun u => decide (u.1.1 = a.1.1)), u.1.1 = a.1.1 := by
              intro u hu
              rcases List.mem_cons.1 hu with rfl | hu
              · exact hk
              · simpa using List.mem_takeWhile_imp hu
            have e0 : a :: as = (a :: as.takeWhile (fun u => decide (u.1.1 = a.1.1))) ++ as.dropWhile (fun u => decide (u.1.1 = a.1.1)) := by
              rw [List.cons_append, hsplit0]
            have e1 : b :: bs = (b :: bs.takeWhile (fun u => decide (u.1.1 = a.1.1))) ++ bs.dropWhile (fun u => decide (u.1.1 = a.1.1)) := by
              rw [List.cons_append, hsplit1]
            obtain ⟨ys, y1, y2, y3⟩ := proxyJoinKey_spec small chunk mul a.1.1 _ _ st m0 m1 (fun u hu => b0 u (by rw [e0]; exact List.mem_append_left _ hu))
              (fun u hu => b1 u (by rw [e1]; exact List.mem_append_left _ hu)) hr0 hr1
            rw [y1]
            simp only
            obtain ⟨xs, c1, c2, c3⟩ := ih _ _ (st.pushAll chunk ys) (by have := hd0.length_le; have := hd1.length_le; simp at hn; omega) (s0'.2.sublist hd0) (s1'.2.sublist hd1)
              (fun u hu => b0 u (by rw [e0]; exact List.mem_append_right _ hu)) (fun u hu => b1 u (by rw [e1]; exact List.mem_append_right _ hu))
            refine ⟨ys ++ xs, ?_, ?_, ?_⟩
            · rw [CrossState.pushAll_append]; exact c1
            · intro x hx
              rcases List.mem_append.1 hx with hx | hx
              · exact y2 x hx
              · exact c2 x hx
            · intro l r q
              rw [accum_append, y3, c3]
              by_cases hlr : l.1 = r.1
              · rw [if_pos hlr, if_pos hlr, if_pos hlr]
                conv_rhs => rw [e0, e1]
                rw [accum_append, accum_append]
                by_cases hl : l.1 = a.1.1
                · rw [accum_other (us := as.dropWhile _) (id := l) (by rw [hl]; exact hn0), accum_other (us := bs.dropWhile _) (id := r) (by rw [← hlr, hl]; exact hn1)]
                  simp
                · rw [accum_other (us := a :: as.takeWhile _) (id := l) (fun u hu e => hl (by rw [← e, hr0 u hu])),
                    accum_other (us := b :: bs.takeWhile _) (id := r) (fun u hu e => hl (by rw [hlr, ← e, hr1 u hu]))]
                  simp
              · rw [if_neg hlr, if_neg hlr, if_neg hlr, add_zero]

end
end DD
