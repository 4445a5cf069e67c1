import Verif.Proofs.ReduceOp

/-!
# Proofs about the `reduce` operator: runs
-/

namespace DD

/-! ### Frontiers -/

section
variable {T : Type*} [PartialOrder T]

theorem DescsTile.append : ∀ {ds es : List (Description T)} {lo mid mid' hi : List T}, DescsTile lo ds mid → mid.Perm mid' → DescsTile mid' es hi → DescsTile lo (ds ++ es) hi
  | [], [], _, _, _, _, h1, hp, h2 => h1.trans (hp.trans h2)
  | [], _ :: _, _, _, _, _, h1, hp, h2 => ⟨h1.trans (hp.trans h2.1), h2.2⟩
  | _ :: _, _, _, _, _, _, h1, hp, h2 => ⟨h1.1, h1.2.1, h1.2.2.1, DescsTile.append h1.2.2.2 hp h2⟩

end

section
variable {K V1 V2 T R1 R2 : Type*} [Lattice T] [OrderBot T] [DecidableLE T] [DecidableEq T] [TimeOrd T] [LinearOrder K] [LinearOrder V1] [LinearOrder V2]
  [AddCommMonoid R1] [DecidableEq R1] [AddCancelCommMonoid R2] [DecidableEq R2]

omit [TimeOrd T] in
theorem advanceUpper_spec (shown : List (Description T × Bool)) (hs : ∀ d ∈ shown, IsAntichainList d.1.lower ∧ FrontierLe d.1.lower d.1.upper) :
    ∀ upper, FrontierLe upper (advanceUpper shown upper) ∧
      ∀ t, (∀ d ∈ shown, d.2 = true → Beyond d.1.lower t → Beyond d.1.upper t) → Beyond upper t → Beyond (advanceUpper shown upper) t := by
  induction shown with
  | nil => exact fun upper => ⟨fun q h => h, fun t _ h => h⟩
  | cons d shown ih =>
    intro upper
    have ih := ih fun x hx => hs x (List.mem_cons_of_mem _ hx)
    have e : advanceUpper (d :: shown) upper = advanceUpper shown (if d.2 && acEq d.1.lower upper then d.1.upper else upper) := rfl
    rw [e]
    by_cases hc : (d.2 && acEq d.1.lower upper) = true
    · rw [if_pos hc]
      rw [Bool.and_eq_true] at hc
      obtain ⟨h1, h2⟩ := hs d (List.mem_cons_self ..)
      have hp := perm_of_acEq hc.2 (nodup_of_isAntichain h1)
      refine ⟨(frontierLe_of_perm hp.symm).trans (h2.trans (ih _).1), fun t ht hb => (ih _).2 t (fun x hx => ht x (List.mem_cons_of_mem _ hx)) ?_⟩
      exact ht d (List.mem_cons_self ..) hc.1 ((beyond_perm hp t).2 hb)
    · rw [if_neg hc]
      exact ⟨(ih _).1, fun t ht hb => (ih _).2 t (fun x hx => ht x (List.mem_cons_of_mem _ hx)) hb⟩

omit [Lattice T] [OrderBot T] [DecidableLE T] [DecidableEq T] [TimeOrd T] in
theorem lastUpper_spec {D R : Type*} : ∀ (bs : List (ArrBatch D T R)) (lower : List T),
    bs = [] ∧ bs.foldl (fun _ b => b.desc.upper) lower = lower ∨ ∃ b ∈ bs, bs.foldl (fun _ b => b.desc.upper) lower = b.desc.upper ∧ ∃ bs', bs = bs' ++ [b] := by
  intro bs
  induction bs using List.reverseRecOn with
  | nil => exact fun _ => Or.inl ⟨rfl, rfl⟩
  | append_singleton bs b _ => exact fun lower => Or.inr ⟨b, by simp, by simp, bs, rfl⟩

/-- What is known of the new upper frontier. -/
structure UpperOk (st : ReduceOp K V2 T R2) (later : List T) (a : ReduceAct K V1 V2 T R1 R2) : Prop where
  anti : IsAntichainList (a.nextUpper st.upper)
  le : FrontierLe st.upper (a.nextUpper st.upper)
  later : (∀ t ∈ later, Beyond st.upper t) → ∀ t ∈ later, Beyond (a.nextUpper st.upper) t
  inside : ∀ u ∈ a.upds, ¬ Beyond (a.nextUpper st.upper) u.2.1 ∧ ∃ m ∈ a.msgs, m.1 ≤ u.2.1

theorem nextUpper_spec {st : ReduceOp K V2 T R2} {inputs : Upds (K × V1) T R1} {later : List T} {a : ReduceAct K V1 V2 T R1 R2} (h : LegalAct st inputs later a) : UpperOk st later a := by
  obtain ⟨u1, u2⟩ := advanceUpper_spec a.shown h.intervals ((a.msgs.flatMap (·.2)).foldl (fun _ b => b.desc.upper) st.upper)
  have hlast := lastUpper_spec (a.msgs.flatMap (·.2)) st.upper
  have h1 : FrontierLe st.upper ((a.msgs.flatMap (·.2)).foldl (fun _ b => b.desc.upper) st.upper) := by
    rcases hlast with ⟨_, e⟩ | ⟨b, hb, e, _⟩
    · rw [e]; exact fun q h => h
    · rw [e]; exact h.notBefore b hb
  have h2 : ∀ b ∈ a.msgs.flatMap (·.2), FrontierLe b.desc.upper ((a.msgs.flatMap (·.2)).foldl (fun _ b => b.desc.upper) st.upper) := by
    intro c hc
    rcases hlast with ⟨e, _⟩ | ⟨b, hb, e, bs', e'⟩
    · rw [e] at hc; simp at hc
    · rw [e]
      have ho := h.inOrder
      rw [e'] at hc ho
      rcases List.mem_append.1 hc with hc | hc
      · exact (List.pairwise_append.1 ho).2.2 c hc b (by simp)
      · rw [List.mem_singleton.1 hc]
        exact fun q h => h
  refine ⟨isAntichain_acJoin _ _, ?_, ?_, ?_⟩
  · intro q hq
    exact h1 q (u1 q ((beyond_acJoin _ _ _).1 hq).1)
  · intro hl t ht
    refine (beyond_acJoin _ _ _).2 ⟨u2 t (fun d hd e => h.laterShown d hd e t ht) ?_, h.laterFrontier t ht⟩
    rcases hlast with ⟨_, e⟩ | ⟨b, hb, e, _⟩
    · rw [e]; exact hl t ht
    · rw [e]; exact h.laterBatches b hb t ht
  · intro u hu
    unfold ReduceAct.upds at hu
    obtain ⟨m, hm, hu⟩ := List.mem_flatMap.1 hu
    obtain ⟨b, hb, hu⟩ := List.mem_flatMap.1 hu
    obtain ⟨c1, c2⟩ := h.updates m hm b hb u hu
    refine ⟨fun hc => c2 ?_, m, hm, c1⟩
    exact h2 b (List.mem_flatMap.2 ⟨m, hm, hb⟩) _ (u1 _ ((beyond_acJoin _ _ _).1 hc).1)

/-! ### Retiring -/

/-- What retiring an interval makes. -/
structure RetireOk (f : K → List (V1 × R1) → List (V2 × R2)) (lower upper held : List T) (P : List (K × T)) (B src : Contents K V1 T R1) (out : Contents K V2 T R2)
    (produced : List (T × ArrBatch (K × V2) T R2)) (nx : List (K × T)) (frontier : List T) : Prop where
  sorted : nx.Pairwise fun x y => x.1 ≤ y.1
  pend : ∀ x ∈ nx, Beyond upper x.2 ∧ Beyond frontier x.2
  front : ∀ x ∈ frontier, Beyond upper x ∧ Beyond held x
  tiles : produced = [] ∨ DescsTile lower (produced.map fun x => x.2.desc) upper
  batches : ∀ x ∈ produced, x.1 ∈ held ∧ x.2.desc.since = [⊥] ∧ IsAntichainList x.2.desc.lower ∧ IsAntichainList x.2.desc.upper ∧
    ∀ u ∈ x.2.upds, x.2.desc.Covers u.2.1 ∧ x.1 ≤ u.2.1
  inside : ∀ u ∈ produced.flatMap (fun x => x.2.upds), Beyond lower u.2.1
  right : ∀ k t, Beyond lower t → (∀ p, (k, p) ∈ nx → ¬ p ≤ t) → HeedAt upper src out B P k t →
    ReducedAt (f k) (keyUpds src k ++ keyUpds B k) (keyUpds out k ++ ofKey (produced.flatMap fun x => x.2.upds) k) t

theorem retire_spec {f : K → List (V1 × R1) → List (V2 × R2)} {logic : K → List (V1 × R1) → List (V2 × R2) → List (V2 × R2)}
    (hl : ∀ k, ReducesBy (f k) (logic k)) (lower upper held : List T) (P : List (K × T)) (B src : Contents K V1 T R1) (out : Contents K V2 T R2)
    (hlo : IsAntichainList lower) (hup : IsAntichainList upper) (hle : FrontierLe lower upper) (hheld : ∀ h ∈ held, Beyond lower h)
    (hPs : P.Pairwise fun x y => x.1 ≤ y.1) (hBs : ContentsSorted B) (hsrc : src.Pairwise fun x y => x.1 < y.1) (hout : out.Pairwise fun x y => x.1 < y.1)
    (hP : ∀ p ∈ P, Beyond lower p.2 ∧ Beyond held p.2)
    (hB : ∀ k, ∀ s ∈ updTimes (keyUpds B k), Beyond lower s ∧ ¬ Beyond upper s ∧ Beyond held s)
    (hstart : ∀ k, ∀ q, Beyond lower q → (∀ p, (k, p) ∈ P → ¬ p ≤ q) → ReducedAt (f k) (keyUpds src k) (keyUpds out k) q) :
    ∃ N produced nx frontier, RetireOk f lower upper held P B src out produced nx frontier ∧
      ∀ fuel, N ≤ fuel → retire fuel logic P src out B lower upper held = some (produced, nx, frontier) := by
  by_cases hc : (held.any fun t => !lessEqual upper t) = true
  · obtain ⟨N, nx, bs, hr, hrun⟩ := retireLoop_spec hl lower upper held (P.length + B.length) P B ⟨src, out, [], held.map fun _ => []⟩ (le_refl _) hPs hBs hsrc hout (by simp) hP hB
      (fun k _ => hstart k)
    have hne : held ≠ [] := by rintro rfl; simp at hc
    have hz : List.zipWith (· ++ ·) (held.map fun _ => ([] : Upds (K × V2) T R2)) bs = bs := by
      have e : ∀ (bs : List (Upds (K × V2) T R2)) (held : List T), bs.length = held.length → List.zipWith (· ++ ·) (held.map fun _ => ([] : Upds (K × V2) T R2)) bs = bs := by
        intro bs
        induction bs with
        | nil => intro held _; simp
        | cons b bs ih =>
          intro held h
          cases held with
          | nil => simp at h
          | cons x held => simp only [List.map_cons, List.zipWith_cons_cons, List.nil_append, ih held (by simpa using h)]
      exact e bs held hr.len
    obtain ⟨s1, s2, s3⟩ := sealLoop_spec hup held lower bs hlo hle hheld (fun h => absurd h hne) hr.len hr.filed
    have hflat : (sealLoop upper lower held bs).flatMap (fun x => x.2.upds) = bs.flatten := s2
    refine ⟨N, sealLoop upper lower held bs, nx, acExtend [] (nx.map (·.2)), ⟨hr.sorted, ?_, ?_, Or.inr s1, s3, ?_, ?_⟩, ?_⟩
    · intro x hx
      exact ⟨(hr.pend x hx).1, (beyond_acExtend _ _ _).2 (Or.inr ⟨x.2, List.mem_map.2 ⟨x, hx, rfl⟩, le_refl _⟩)⟩
    · intro x hx
      rcases mem_acExtend hx with hx | hx
      · simp at hx
      · obtain ⟨y, hy, rfl⟩ := List.mem_map.1 hx
        exact ⟨(hr.pend y hy).1, (hr.pend y hy).2.2⟩
    · rw [hflat]
      intro u hu
      obtain ⟨b, hb, hu⟩ := List.mem_flatten.1 hu
      obtain ⟨i, hi⟩ := List.mem_iff_getElem?.1 hb
      exact (hr.filed i b hi u hu).1
    · intro k t ht hp hheed
      rw [hflat]
      by_cases hk : Touched P B k
      · exact hr.right k hk t ht hp hheed
      · have hB0 : keyUpds B k = [] := keyUpds_nil_of_not_mem fun b hb e => hk (Or.inr ⟨b, hb, e⟩)
        have h0 : ofKey bs.flatten k = [] := by
          rw [List.eq_nil_iff_forall_not_mem]
          intro u hu
          obtain ⟨b, hb, hu⟩ := List.mem_flatten.1 (mem_ofKey.1 hu)
          exact hk (hr.bkeys b hb _ hu)
        rw [hB0, h0, List.append_nil, List.append_nil]
        exact hstart k t ht fun p hp' => absurd (Or.inl ⟨_, hp', rfl⟩) hk
    · intro fuel hf
      obtain ⟨st', c1, c2, c3⟩ := hrun fuel hf
      unfold retire
      rw [if_pos hc, c1]
      simp only
      rw [c2, c3, hz, List.nil_append]
  · have hb : ∀ h ∈ held, Beyond upper h := by
      intro h hh
      rw [← lessEqual_iff]
      by_contra hn
      exact hc (List.any_eq_true.2 ⟨h, hh, by simpa using hn⟩)
    have hbey : ∀ t, Beyond held t → Beyond upper t := by
      rintro t ⟨h, hh, hht⟩
      exact beyond_mono (hb h hh) hht
    have hB0 : ∀ k, ∀ v t, accum (keyUpds B k) v t = 0 := by
      intro k v t
      refine accum_zero_of_not_le (fun u hu _ => ?_) v
      obtain ⟨_, h2, h3⟩ := hB k u.2.1 (mem_updTimes.2 ⟨u, hu, rfl⟩)
      exact h2 (hbey _ h3)
    refine ⟨0, [], P, held, ⟨hPs, fun x hx => ⟨hbey _ (hP x hx).2, (hP x hx).2⟩, fun x hx => ⟨hb x hx, ⟨x, hx, le_refl _⟩⟩, Or.inl rfl, by simp, by simp, ?_⟩, ?_⟩
    · intro k t ht hp _
      refine reducedAt_congr (fun v => ?_) (fun v => ?_) (hstart k t ht hp)
      · rw [accum_append, hB0, add_zero]
      · simp [ofKey]
    · intro fuel _
      unfold retire
      rw [if_neg hc]

/-! ### Shipping -/

theorem shipBatches_spec (caps : List T) : ∀ (produced : List (T × ArrBatch (K × V2) T R2)) (lo hi : List T) (w : TraceWriter (K × V2) T R2),
    (∀ x ∈ produced, Beyond caps x.1 ∧ IsAntichainList x.2.desc.lower ∧ IsAntichainList x.2.desc.upper) → w.upper.Perm lo → IsAntichainList w.upper →
    DescsTile lo (produced.map fun x => x.2.desc) hi →
    ∃ w', shipBatches caps produced w = some w' ∧ w'.upper.Perm hi ∧ IsAntichainList w'.upper ∧ w'.trace = w.trace ++ produced.map (·.2) := by
  intro produced
  induction produced with
  | nil => exact fun lo hi w _ hw ha ht => ⟨w, rfl, hw.trans ht, ha, by simp⟩
  | cons x produced ih =>
    intro lo hi w hx hw ha ht
    obtain ⟨time, batch⟩ := x
    obtain ⟨h1, h2, h3⟩ := hx _ (List.mem_cons_self ..)
    obtain ⟨t1, t2, t3, t4⟩ := ht
    obtain ⟨w', c1, c2, c3, c4⟩ := ih batch.desc.upper hi
      { upper := batch.desc.upper, trace := w.trace ++ [batch], queues := w.queues.map fun q => q ++ [.batch batch (some time), .frontier batch.desc.upper] }
      (fun x h => hx x (List.mem_cons_of_mem _ h)) (List.Perm.refl _) h3 t4
    refine ⟨w', ?_, c2, c3, by simp [c4]⟩
    rw [shipBatches, if_pos ((lessEqual_iff _ _).2 h1)]
    have : w.insert batch (some time) =
        some { upper := batch.desc.upper, trace := w.trace ++ [batch], queues := w.queues.map fun q => q ++ [.batch batch (some time), .frontier batch.desc.upper] } := by
      unfold TraceWriter.insert
      rw [if_pos (acEq_of_perm (hw.trans t1)), if_neg]
      intro he
      exact t3 (perm_of_acEq he (nodup_of_isAntichain h2))
    rw [this]
    exact c1

/-! ### Runs -/

/-- What holds after every activation. -/
structure RunInv (f : K → List (V1 × R1) → List (V2 × R2)) (st : ReduceOp K V2 T R2) (inputs : Upds (K × V1) T R1) (later : List T) : Prop where
  sorted : st.pending.Pairwise fun x y => x.1 ≤ y.1
  pend : ∀ x ∈ st.pending, Beyond st.upper x.2 ∧ Beyond st.caps x.2
  caps : ∀ c ∈ st.caps, Beyond st.upper c
  anti : IsAntichainList st.upper
  later : ∀ t ∈ later, Beyond st.upper t
  right : ∀ k q, (∀ p, (k, p) ∈ st.pending → ¬ p ≤ q) → ReducedAt (f k) (ofKey inputs k) (ofKey st.sentUpds k) q
  writer : st.writer.upper.Perm st.upper
  wanti : IsAntichainList st.writer.upper
  tiles : DescsTile [⊥] (st.writer.trace.map (·.desc)) st.writer.upper
  trace : st.writer.trace.flatMap (·.upds) = st.sentUpds
  covers : ∀ b ∈ st.writer.trace, b.desc.since = [⊥] ∧ ∀ u ∈ b.upds, b.desc.Covers u.2.1
  sent : ∀ x ∈ st.sent, x.2 ∈ st.writer.trace ∧ ∀ u ∈ x.2.upds, x.1 ≤ u.2.1

theorem runInv_start {f : K → List (V1 × R1) → List (V2 × R2)} (hf : ∀ k, f k [] = []) (later : List T) :
    RunInv f (ReduceOp.start (⊥ : T) : ReduceOp K V2 T R2) ([] : Upds (K × V1) T R1) later := by
  refine ⟨by simp [ReduceOp.start], by simp [ReduceOp.start], by simp [ReduceOp.start], isAntichain_bot, fun t _ => ⟨⊥, by simp [ReduceOp.start], bot_le⟩, ?_, List.Perm.refl _,
    isAntichain_bot, List.Perm.refl _, rfl, by simp [ReduceOp.start, TraceWriter.new], by simp [ReduceOp.start]⟩
  intro k q _
  refine ⟨[], ⟨⟨by simp, by simp⟩, fun v => by simp [ofKey, weight, accum]⟩, fun v => ?_⟩
  rw [hf]
  simp [ReduceOp.sentUpds, ReduceOp.start, ofKey, weight, accum]

theorem heedAt_of_heeded {st : ReduceOp K V2 T R2} {a : ReduceAct K V1 V2 T R1 R2} (h : Heeded st a) (k : K) (t : T) :
    HeedAt (a.nextUpper st.upper) a.source a.output a.fresh st.pending k t := by
  have e : (timesOf st.pending k).filter (fun t => !lessEqual (a.nextUpper st.upper) t) =
      st.pending.filterMap fun p => if p.1 = k ∧ lessEqual (a.nextUpper st.upper) p.2 = false then some p.2 else none := by
    unfold timesOf
    induction st.pending with
    | nil => rfl
    | cons p P ih =>
      rw [List.filterMap_cons, List.filterMap_cons, ← ih]
      by_cases h1 : p.1 = k
      · by_cases h2 : lessEqual (a.nextUpper st.upper) p.2 = false
        · simp [h1, h2]
        · simp [h1, h2]
      · simp [h1]
  intro w hw m hm _ hb
  rw [e] at hm ⊢
  exact h k w hw m hm hb

theorem act_spec {f : K → List (V1 × R1) → List (V2 × R2)} {logic : K → List (V1 × R1) → List (V2 × R2) → List (V2 × R2)}
    (hl : ∀ k, ReducesBy (f k) (logic k)) {st : ReduceOp K V2 T R2} {inputs : Upds (K × V1) T R1} {later : List T} {a : ReduceAct K V1 V2 T R1 R2}
    (hi : RunInv f st inputs (a.msgs.map (·.1) ++ later)) (ha : LegalAct st inputs later a) (hh : Heeded st a) :
    ∃ N st', RunInv f st' (inputs ++ a.upds) later ∧ st'.upper = a.nextUpper st.upper ∧ ∀ fuel, N ≤ fuel → st.act fuel logic a = some st' := by
  have hu := nextUpper_spec ha
  set upper := a.nextUpper st.upper with hupper
  set caps := acExtend st.caps (a.msgs.map (·.1)) with hcaps
  have hcapsB : ∀ c ∈ caps, Beyond st.upper c := by
    intro c hc
    rcases mem_acExtend hc with hc | hc
    · exact hi.caps c hc
    · exact hi.later c (List.mem_append_left _ hc)
  have hlater : ∀ t ∈ later, Beyond upper t := hu.later fun t ht => hi.later t (List.mem_append_right _ ht)
  have hupds : ∀ u ∈ a.upds, Beyond st.upper u.2.1 ∧ ¬ Beyond upper u.2.1 ∧ Beyond caps u.2.1 := by
    intro u hu'
    obtain ⟨h1, m, hm, h2⟩ := hu.inside u hu'
    have hm' : m.1 ∈ a.msgs.map (·.1) := List.mem_map.2 ⟨m, hm, rfl⟩
    exact ⟨beyond_mono (hi.later m.1 (List.mem_append_left _ hm')) h2, h1, (beyond_acExtend _ _ _).2 (Or.inr ⟨m.1, hm', h2⟩)⟩
  by_cases he : acEq upper st.upper = true
  · have hp := perm_of_acEq he (nodup_of_isAntichain hu.anti)
    have h0 : a.upds = [] := by
      rw [List.eq_nil_iff_forall_not_mem]
      intro u hu'
      obtain ⟨h1, h2, _⟩ := hupds u hu'
      exact h2 ((beyond_perm hp _).2 h1)
    refine ⟨0, { st with caps := caps, upper := upper }, ?_, rfl, ?_⟩
    · refine ⟨hi.sorted, ?_, ?_, hu.anti, hlater, ?_, hi.writer.trans hp.symm, hi.wanti, hi.tiles, hi.trace, hi.covers, hi.sent⟩
      · intro x hx
        obtain ⟨h1, h2⟩ := hi.pend x hx
        exact ⟨(beyond_perm hp _).2 h1, (beyond_acExtend _ _ _).2 (Or.inl h2)⟩
      · exact fun c hc => (beyond_perm hp _).2 (hcapsB c hc)
      · rw [h0, List.append_nil]
        exact hi.right
    · intro fuel _
      unfold ReduceOp.act
      simp only [← hupper, ← hcaps]
      rw [if_pos he]
  · set held := acExtend [] caps with hheld
    have hheldB : ∀ t, Beyond held t ↔ Beyond caps t := by
      intro t
      rw [hheld, beyond_acExtend]
      simp [Beyond]
    have hheldM : ∀ h ∈ held, h ∈ caps := by
      intro h hh'
      rcases mem_acExtend hh' with hh' | hh'
      · simp at hh'
      · exact hh'
    obtain ⟨N, produced, nx, frontier, hr, hrun⟩ := retire_spec hl st.upper upper held st.pending a.fresh a.source a.output hi.anti hu.anti hu.le (fun h hh' => hcapsB h (hheldM h hh'))
      hi.sorted ha.fresh.sorted ha.source.sorted.keys ha.output.sorted.keys
      (fun p hp => ⟨(hi.pend p hp).1, (hheldB _).2 ((beyond_acExtend _ _ _).2 (Or.inl (hi.pend p hp).2))⟩) (by
        intro k s hs
        obtain ⟨u, hu', _, e⟩ := ha.fresh.times k s hs
        obtain ⟨h1, h2, h3⟩ := hupds u hu'
        rw [← e]
        exact ⟨h1, h2, (hheldB _).2 h3⟩) (by
        intro k q hq hp
        refine reducedAt_congr (fun v => ?_) (fun v => ?_) (hi.right k q hp)
        · rw [accum_ofKey, ha.source.agrees k v q hq]
        · rw [accum_ofKey, ha.output.agrees k v q hq])
    have hship : ∃ w, shipBatches caps produced st.writer = some w ∧ (produced = [] ∧ w = st.writer ∨ w.upper.Perm upper) ∧ IsAntichainList w.upper ∧
        w.trace = st.writer.trace ++ produced.map (·.2) := by
      rcases hr.tiles with h | h
      · refine ⟨st.writer, by rw [h]; rfl, Or.inl ⟨h, rfl⟩, hi.wanti, by rw [h]; simp⟩
      · obtain ⟨w, c1, c2, c3, c4⟩ := shipBatches_spec caps produced st.upper upper st.writer (fun x hx => by
          obtain ⟨h1, _, h2, h3, _⟩ := hr.batches x hx
          exact ⟨⟨x.1, hheldM _ h1, le_refl _⟩, h2, h3⟩) hi.writer hi.wanti h
        exact ⟨w, c1, Or.inr c2, c3, c4⟩
    obtain ⟨w, w1, w2, w3, w4⟩ := hship
    have hseal : ∃ w', w.sealTo ⊥ upper = some w' ∧ w'.upper.Perm upper ∧ IsAntichainList w'.upper ∧
        DescsTile [⊥] (w'.trace.map (·.desc)) w'.upper ∧ w'.trace.flatMap (·.upds) = st.sentUpds ++ produced.flatMap (fun x => x.2.upds) ∧
        (∀ b ∈ w'.trace, b.desc.since = [⊥] ∧ ∀ u ∈ b.upds, b.desc.Covers u.2.1) ∧ (∀ x ∈ produced, x.2 ∈ w'.trace) ∧ ∀ b ∈ st.writer.trace, b ∈ w'.trace := by
      have hcov : ∀ b ∈ w.trace, b.desc.since = [⊥] ∧ ∀ u ∈ b.upds, b.desc.Covers u.2.1 := by
        intro b hb
        rw [w4] at hb
        rcases List.mem_append.1 hb with hb | hb
        · exact hi.covers b hb
        · obtain ⟨x, hx, rfl⟩ := List.mem_map.1 hb
          obtain ⟨_, h2, _, _, h5⟩ := hr.batches x hx
          exact ⟨h2, fun u hu' => (h5 u hu').1⟩
      have hfl : w.trace.flatMap (·.upds) = st.sentUpds ++ produced.flatMap (fun x => x.2.upds) := by
        rw [w4, List.flatMap_append, hi.trace, List.flatMap_map]
      rcases w2 with ⟨hp0, hw⟩ | hw
      · subst hw
        have hne : ¬ acEq st.writer.upper upper = true := by
          intro h
          have := perm_of_acEq h (nodup_of_isAntichain hi.wanti)
          exact he (acEq_of_perm (this.symm.trans hi.writer))
        refine ⟨{ upper := upper, trace := st.writer.trace ++ [⟨⟨st.writer.upper, upper, [⊥]⟩, []⟩],
                  queues := st.writer.queues.map fun q => q ++ [.batch ⟨⟨st.writer.upper, upper, [⊥]⟩, []⟩ none, .frontier upper] }, ?_, List.Perm.refl _, hu.anti, ?_, ?_, ?_, ?_, ?_⟩
        · unfold TraceWriter.sealTo
          rw [if_neg hne]
          unfold TraceWriter.insert
          simp only
          rw [if_pos (acEq_of_perm (List.Perm.refl _)), if_neg hne]
        · rw [List.map_append]
          refine hi.tiles.append (List.Perm.refl _) ⟨List.Perm.refl _, (frontierLe_of_perm hi.writer).trans hu.le, fun h => hne (acEq_of_perm h), List.Perm.refl _⟩
        · simp only [List.flatMap_append, hi.trace, hp0]
          simp
        · intro b hb
          rcases List.mem_append.1 hb with hb | hb
          · exact hi.covers b hb
          · rw [List.mem_singleton.1 hb]
            exact ⟨rfl, by simp⟩
        · rw [hp0]; simp
        · exact fun b hb => List.mem_append_left _ hb
      · refine ⟨w, ?_, hw, w3, ?_, hfl, hcov, ?_, ?_⟩
        · unfold TraceWriter.sealTo
          rw [if_pos (acEq_of_perm hw)]
        · rw [w4, List.map_append, List.map_map]
          rcases hr.tiles with h | h
          · rw [h] at w1 ⊢
            simp only [shipBatches, Option.some.injEq] at w1
            rw [List.map_nil, List.append_nil, ← w1]
            exact hi.tiles
          · refine (hi.tiles.append hi.writer (h : DescsTile st.upper _ upper)).append hw.symm (es := []) (List.Perm.refl _) |> (by simpa [Function.comp_def] using ·)
        · intro x hx
          rw [w4]
          exact List.mem_append_right _ (List.mem_map.2 ⟨x, hx, rfl⟩)
        · intro b hb
          rw [w4]
          exact List.mem_append_left _ hb
    obtain ⟨w', v1, v2, v3, v4, v5, v6, v7, v8⟩ := hseal
    have hall : (frontier.all fun t => lessEqual caps t) = true := by
      rw [List.all_eq_true]
      intro x hx
      rw [lessEqual_iff, ← hheldB]
      exact (hr.front x hx).2
    refine ⟨N, { pending := nx, caps := frontier, upper := upper, writer := w', sent := st.sent ++ produced }, ?_, rfl, ?_⟩
    · have hsu : (ReduceOp.sentUpds { pending := nx, caps := frontier, upper := upper, writer := w', sent := st.sent ++ produced } : Upds (K × V2) T R2) =
          st.sentUpds ++ produced.flatMap (fun x => x.2.upds) := by simp [ReduceOp.sentUpds]
      refine ⟨hr.sorted, fun x hx => hr.pend x hx, fun x hx => (hr.front x hx).1, hu.anti, hlater, ?_, v2, v3, v4, by rw [hsu]; exact v5, v6, ?_⟩
      · intro k q hp
        rw [hsu]
        by_cases hq : Beyond st.upper q
        · refine reducedAt_congr (fun v => ?_) (fun v => ?_) (hr.right k q hq hp (heedAt_of_heeded hh k q))
          · rw [accum_append, ha.source.agrees k v q hq, ha.fresh.agrees, accum_ofKey, accum_append]
          · rw [accum_append, ha.output.agrees k v q hq, accum_ofKey, accum_ofKey, accum_append]
        · have z1 : ∀ v, accum (ofKey a.upds k) v q = 0 := accum_zero_of_not_le fun u hu' hle => hq (beyond_mono (hupds _ (mem_ofKey.1 hu')).1 hle)
          have z2 : ∀ v, accum (ofKey (produced.flatMap fun x => x.2.upds) k) v q = 0 :=
            accum_zero_of_not_le fun u hu' hle => hq (beyond_mono (hr.inside _ (mem_ofKey.1 hu')) hle)
          refine reducedAt_congr (fun v => ?_) (fun v => ?_) (hi.right k q fun p hp' hle => hq (beyond_mono (hi.pend _ hp').1 hle))
          · rw [ofKey_append, accum_append, z1, add_zero]
          · rw [ofKey_append, accum_append, z2, add_zero]
      · intro x hx
        rcases List.mem_append.1 hx with hx | hx
        · exact ⟨v8 _ (hi.sent x hx).1, (hi.sent x hx).2⟩
        · exact ⟨v7 x hx, fun u hu' => ((hr.batches x hx).2.2.2.2 u hu').2⟩
    · intro fuel hf
      unfold ReduceOp.act
      simp only [← hupper, ← hcaps]
      rw [if_neg he, ← hheld, hrun fuel hf]
      simp only
      rw [w1]
      simp only
      rw [if_pos hall, v1]

/-- What the hypotheses on the seeds of the C27 theorems need. -/
theorem seed_inside {f : K → List (V1 × R1) → List (V2 × R2)} {st : ReduceOp K V2 T R2} {inputs : Upds (K × V1) T R1} {later : List T} {a : ReduceAct K V1 V2 T R1 R2}
    (hi : RunInv f st inputs (a.msgs.map (·.1) ++ later)) (ha : LegalAct st inputs later a) (k : K) :
    ∀ s ∈ (keyUpds a.fresh k).map (·.2.1) ++ st.pending.filterMap (fun p => if p.1 = k ∧ lessEqual (a.nextUpper st.upper) p.2 = false then some p.2 else none),
      Beyond st.upper s ∧ ¬ Beyond (a.nextUpper st.upper) s := by
  intro s hs
  have hu := nextUpper_spec ha
  rcases List.mem_append.1 hs with hs | hs
  · obtain ⟨u, hu', _, rfl⟩ := ha.fresh.times k s hs
    obtain ⟨h1, m, hm, h2⟩ := hu.inside u hu'
    exact ⟨beyond_mono (hi.later m.1 (List.mem_append_left _ (List.mem_map.2 ⟨m, hm, rfl⟩))) h2, h1⟩
  · obtain ⟨p, hp, h⟩ := List.mem_filterMap.1 hs
    split_ifs at h with hc
    obtain rfl := Option.some.inj h
    refine ⟨(hi.pend p hp).1, fun hb => ?_⟩
    rw [← lessEqual_iff, hc.2] at hb
    cases hb

theorem run_spec {f : K → List (V1 × R1) → List (V2 × R2)} {logic : K → List (V1 × R1) → List (V2 × R2) → List (V2 × R2)}
    (hl : ∀ k, ReducesBy (f k) (logic k)) {extra : ReduceOp K V2 T R2 → ReduceAct K V1 V2 T R1 R2 → Prop}
    (hextra : ∀ st (inputs : Upds (K × V1) T R1) later a, RunInv f st inputs (a.msgs.map (·.1) ++ later) → LegalAct st inputs later a → extra st a → Heeded st a) :
    ∀ (as : List (ReduceAct K V1 V2 T R1 R2)) (st : ReduceOp K V2 T R2) (inputs : Upds (K × V1) T R1),
    RunInv f st inputs (messageTimes as) → LegalRun logic extra st inputs as →
    ∃ N st', RunInv f st' (inputs ++ inputsOf as) [] ∧ (∀ fuel, N ≤ fuel → ReduceOp.run fuel logic st as = some st') ∧
      ∀ a ∈ as.getLast?, ∃ lower, st'.upper = a.nextUpper lower := by
  intro as
  induction as with
  | nil => exact fun st inputs hi _ => ⟨0, st, by simpa [inputsOf, messageTimes] using hi, fun _ _ => rfl, by simp⟩
  | cons a as ih =>
    rintro st inputs hi ⟨ha, hh, hrest⟩
    have hi' : RunInv f st inputs (a.msgs.map (·.1) ++ messageTimes as) := by simpa [messageTimes] using hi
    obtain ⟨N, st1, c1, c3, c2⟩ := act_spec hl hi' ha (hextra _ _ _ _ hi' ha hh)
    obtain ⟨M, st2, d1, d2, d3⟩ := ih st1 (inputs ++ a.upds) c1 (hrest N st1 (c2 N (le_refl _)))
    refine ⟨max N M, st2, ?_, ?_, ?_⟩
    · rw [List.append_assoc] at d1
      simpa [inputsOf] using d1
    · intro fuel hf
      rw [ReduceOp.run, c2 fuel (le_trans (le_max_left _ _) hf)]
      exact d2 fuel (le_trans (le_max_right _ _) hf)
    · intro b hb
      cases as with
      | nil =>
        simp only [List.getLast?_singleton, Option.mem_def, Option.some.injEq] at hb
        subst hb
        have h := d2 M (le_refl _)
        simp only [ReduceOp.run, Option.some.injEq] at h
        exact ⟨st.upper, by rw [← h]; exact c3⟩
      | cons c as =>
        rw [List.getLast?_cons_cons] at hb
        exact d3 b hb

/-! ### The result does not depend on the bound -/

omit [OrderBot T] in
theorem loop_mono {upper : List T} {logic : List (V1 × R1) → List (V2 × R2) → List (V2 × R2)} : ∀ {n m : Nat} {st r : ReduceState V1 V2 T R1 R2}, n ≤ m →
    st.loop upper logic n = some r → st.loop upper logic m = some r := by
  intro n
  induction n with
  | zero =>
    intro m st r _ h
    rw [ReduceState.loop] at h
    cases hn : st.nextTime with
    | some t => rw [hn] at h; simp at h
    | none =>
      rw [hn] at h
      cases m with
      | zero => rw [ReduceState.loop, hn]; exact h
      | succ m => rw [ReduceState.loop, hn]; exact h
  | succ n ih =>
    intro m st r hm h
    obtain ⟨m, rfl⟩ : ∃ k, m = k + 1 := ⟨m - 1, by omega⟩
    rw [ReduceState.loop] at h ⊢
    cases hn : st.nextTime with
    | none => rw [hn] at h; exact h
    | some t =>
      rw [hn] at h
      simp only at h ⊢
      cases hs : st.step upper logic t with
      | none => rw [hs] at h; simp at h
      | some st' =>
        rw [hs] at h
        exact ih (by omega) h

omit [OrderBot T] in
theorem reduceKey_mono {n m : Nat} (hnm : n ≤ m) {key : K} {source : Contents K V1 T R1} {output : Contents K V2 T R2} {batch : Contents K V1 T R1} {times : List T}
    {logic : List (V1 × R1) → List (V2 × R2) → List (V2 × R2)} {upper held : List T} {r}
    (h : reduceKey n key source output batch times logic upper held = some r) : reduceKey m key source output batch times logic upper held = some r := by
  unfold reduceKey at h ⊢
  cases hb : ValueHistory.replayKey batch key none with
  | none => rw [hb] at h; simp at h
  | some b =>
    rw [hb] at h
    simp only at h ⊢
    split at h
    · obtain ⟨st, h1, h2⟩ := Option.map_eq_some_iff.1 h
      rw [loop_mono hnm h1]
      exact congrArg some h2
    · simp at h

omit [OrderBot T] in
theorem retireLoop_mono {n m : Nat} (hnm : n ≤ m) {logic : K → List (V1 × R1) → List (V2 × R2) → List (V2 × R2)} {upper held : List T} :
    ∀ {i : Nat} {P : List (K × T)} {B : Contents K V1 T R1} {st r : RetireState K V1 V2 T R1 R2},
      retireLoop n logic upper held i P B st = some r → retireLoop m logic upper held i P B st = some r := by
  intro i
  induction i with
  | zero => intro P B st r h; exact h
  | succ i ih =>
    intro P B st r h
    have hcase : (match P.head?, B.head? with
      | some p, some b => some (min p.1 b.1)
      | some p, none => some p.1
      | none, some b => some b.1
      | none, none => none) = none ∨ ∃ key, (match P.head?, B.head? with
      | some p, some b => some (min p.1 b.1)
      | some p, none => some p.1
      | none, some b => some b.1
      | none, none => none) = some key := by
      cases P <;> cases B <;> simp
    rcases hcase with hk | ⟨key, hk⟩
    · cases P with
      | nil =>
        cases B with
        | nil => exact h
        | cons b B => simp at hk
      | cons p P => cases B <;> simp at hk
    · rw [retireLoop_succ _ _ _ _ _ _ _ _ _ hk] at h ⊢
      by_cases h1 : B.head?.map (·.1) = some key ∨ sortDedup (((P.takeWhile fun p => decide (p.1 = key)).map (·.2)).filter fun t => !lessEqual upper t) ≠ []
      · rw [if_pos h1] at h ⊢
        cases hr : reduceKey n key st.source st.output B (sortDedup (((P.takeWhile fun p => decide (p.1 = key)).map (·.2)).filter fun t => !lessEqual upper t)) (logic key) upper held with
        | none => rw [hr] at h; simp at h
        | some o =>
          rw [hr] at h
          rw [reduceKey_mono hnm hr]
          exact ih h
      · rw [if_neg h1] at h ⊢
        exact ih h

theorem act_mono {n m : Nat} (hnm : n ≤ m) {logic : K → List (V1 × R1) → List (V2 × R2) → List (V2 × R2)} {st st' : ReduceOp K V2 T R2} {a : ReduceAct K V1 V2 T R1 R2}
    (h : st.act n logic a = some st') : st.act m logic a = some st' := by
  unfold ReduceOp.act at h ⊢
  simp only at h ⊢
  split_ifs at h ⊢ with h1
  · exact h
  · cases hr : retire n logic st.pending a.source a.output a.fresh st.upper (a.nextUpper st.upper) (acExtend [] (acExtend st.caps (a.msgs.map (·.1)))) with
    | none => rw [hr] at h; simp at h
    | some o =>
      rw [hr] at h
      have : retire m logic st.pending a.source a.output a.fresh st.upper (a.nextUpper st.upper) (acExtend [] (acExtend st.caps (a.msgs.map (·.1)))) = some o := by
        unfold retire at hr ⊢
        split_ifs at hr ⊢ with h2
        · cases hl : retireLoop n logic (a.nextUpper st.upper) (acExtend [] (acExtend st.caps (a.msgs.map (·.1)))) (st.pending.length + a.fresh.length) st.pending a.fresh
            ⟨a.source, a.output, [], (acExtend [] (acExtend st.caps (a.msgs.map (·.1)))).map fun _ => []⟩ with
          | none => rw [hl] at hr; simp at hr
          | some x => rw [hl] at hr; rw [retireLoop_mono hnm hl]; exact hr
        · exact hr
      rw [this]
      exact h

/-- An activation has one result. -/
theorem act_unique {n m : Nat} {logic : K → List (V1 × R1) → List (V2 × R2) → List (V2 × R2)} {st st1 st2 : ReduceOp K V2 T R2} {a : ReduceAct K V1 V2 T R1 R2}
    (h1 : st.act n logic a = some st1) (h2 : st.act m logic a = some st2) : st1 = st2 :=
  Option.some.inj ((act_mono (le_max_left n m) h1).symm.trans (act_mono (le_max_right n m) h2))

omit [OrderBot T] in
theorem heeded_of_single {V R : Type*} [LinearOrder V] [AddCommMonoid R] [DecidableEq R] {upper : List T} {batch : Upds V T R} {times hist : List T} (s0 : T)
    (hsingle : ∀ s ∈ batch.map (·.2.1) ++ times, s = s0) : HistoryHeeded upper batch times hist := by
  intro w _ m hm _
  have hle : s0 ≤ w ⊔ m := (hm.greatest s0 fun s hs => (hsingle s hs).ge).trans le_sup_right
  rcases hm.some with ⟨v, s, hvs⟩ | hne
  · right
    refine ⟨v, fun hz => hvs ?_⟩
    obtain ⟨r, hr⟩ := total_ne_zero_mem hvs
    have hs : s = s0 := hsingle s (List.mem_append_left _ (List.mem_map.2 ⟨_, hr, rfl⟩))
    rw [← hz]
    unfold total accum
    congr 1
    apply List.map_congr_left
    intro u hu
    have : u.2.1 = s0 := hsingle u.2.1 (List.mem_append_left _ (List.mem_map.2 ⟨u, hu, rfl⟩))
    simp [this, hs, hle]
  · left
    obtain ⟨p, hp⟩ := List.exists_mem_of_ne_nil _ hne
    exact ⟨p, hp, (hsingle p (List.mem_append_right _ hp)).le.trans hle⟩

theorem LegalRun.imp {logic : K → List (V1 × R1) → List (V2 × R2) → List (V2 × R2)} {e1 e2 : ReduceOp K V2 T R2 → ReduceAct K V1 V2 T R1 R2 → Prop}
    (he : ∀ st a, e1 st a → e2 st a) : ∀ {as : List (ReduceAct K V1 V2 T R1 R2)} {st : ReduceOp K V2 T R2} {inputs : Upds (K × V1) T R1},
    LegalRun logic e1 st inputs as → LegalRun logic e2 st inputs as
  | [], _, _, _ => trivial
  | _ :: _, _, _, h => ⟨h.1, he _ _ h.2.1, fun fuel st' hst => LegalRun.imp he (h.2.2 fuel st' hst)⟩

end
end DD
