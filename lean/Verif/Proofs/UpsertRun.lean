import Verif.Proofs.Upsert

/-! # The invariant of the upsert operator -/

namespace DD
variable {K V T : Type*} [LinearOrder K] [LinearOrder V] [LinearOrder T]

/-! ### Values -/

theorem UpsertValue.unique {ups : List (Ups K V T)} {k : K} {q : T} {a b : Option V} (ha : UpsertValue ups k q a) (hb : UpsertValue ups k q b) : a = b := by
  rcases ha with ⟨t, h1, h2, h3⟩ | ⟨h1, h2⟩ <;> rcases hb with ⟨t', g1, g2, g3⟩ | ⟨g1, g2⟩
  · rcases h3 b t' g2 g1 with h | ⟨e, h⟩ <;> rcases g3 a t h2 h1 with g | ⟨e', g⟩
    · exact absurd g h.not_gt
    · exact absurd e' h.ne'
    · exact absurd e g.ne'
    · exact optionLe_antisymm ((optionLe_iff _ _).mpr g) ((optionLe_iff _ _).mpr h)
  · exact absurd h1 (g2 _ _ h2)
  · exact absurd g1 (h2 _ _ g2)
  · rw [h1, g1]

theorem upsertValue_congr {ups ups' : List (Ups K V T)} {k : K} {q q' : T} {o : Option V}
    (h : ∀ o t, (k, o, t) ∈ ups ∧ t ≤ q ↔ (k, o, t) ∈ ups' ∧ t ≤ q') : UpsertValue ups k q o ↔ UpsertValue ups' k q' o := by
  have aux : ∀ {ups ups' : List (Ups K V T)} {q q' : T}, (∀ o t, (k, o, t) ∈ ups ∧ t ≤ q ↔ (k, o, t) ∈ ups' ∧ t ≤ q') →
      UpsertValue ups k q o → UpsertValue ups' k q' o := by
    intro ups ups' q q' h hv
    rcases hv with ⟨t, h1, h2, h3⟩ | ⟨h1, h2⟩
    · obtain ⟨a, b⟩ := (h o t).mp ⟨h2, h1⟩
      exact Or.inl ⟨t, b, a, fun o' t' hm hle => by
        obtain ⟨a', b'⟩ := (h o' t').mpr ⟨hm, hle⟩
        exact h3 o' t' a' b'⟩
    · exact Or.inr ⟨h1, fun o' t' hm hle => by
        obtain ⟨a', b'⟩ := (h o' t').mpr ⟨hm, hle⟩
        exact h2 o' t' a' b'⟩
  exact ⟨aux h, aux fun o t => (h o t).symm⟩

theorem lastVal_mem {q : T} : ∀ {L : List (T × Option V)} (prev : Option V), L.Pairwise (fun a b => a.1 < b.1) → (∃ x ∈ L, x.1 ≤ q) →
    ∃ y ∈ L, y.1 ≤ q ∧ lastVal q prev L = y.2 ∧ ∀ z ∈ L, z.1 ≤ q → z.1 ≤ y.1 := by
  intro L
  induction L with
  | nil => rintro prev _ ⟨x, hx, _⟩; cases hx
  | cons x L ih =>
    intro prev hp hex
    rw [List.pairwise_cons] at hp
    have hxq : x.1 ≤ q := by
      obtain ⟨y, hy, hyq⟩ := hex
      rcases List.mem_cons.mp hy with rfl | hy
      · exact hyq
      · exact (hp.1 y hy).le.trans hyq
    rw [lastVal, if_pos hxq]
    by_cases h : ∃ y ∈ L, y.1 ≤ q
    · obtain ⟨y, hy, h1, h2, h3⟩ := ih x.2 hp.2 h
      refine ⟨y, List.mem_cons_of_mem _ hy, h1, h2, ?_⟩
      intro z hz hzq
      rcases List.mem_cons.mp hz with rfl | hz
      · exact (hp.1 y hy).le
      · exact h3 z hz hzq
    · push Not at h
      refine ⟨x, by simp, hxq, lastVal_of_gt fun y hy => not_le.mpr (h y hy), ?_⟩
      intro z hz hzq
      rcases List.mem_cons.mp hz with rfl | hz
      · exact le_refl _
      · exact absurd hzq (not_le.mpr (h z hz))

/-- An entry of the heap as an upsert. -/
def asUps (x : T × K × Option V) : Ups K V T := (x.2.1, x.2.2, x.1)

/-- The updates hold the values of the upserts, at all times. -/
def HoldsValues (ups : List (Ups K V T)) (us : Upds (K × V) T Int) : Prop :=
  ∀ k q, ∃ o, UpsertValue ups k q o ∧ ∀ v, accum us (k, v) q = if o = some v then 1 else 0

theorem exists_greatest {l : List (T × Option V)} {t : T} {o : Option V} (h : (t, o) ∈ l) :
    ∃ o', (t, o') ∈ l ∧ ∀ o2, (t, o2) ∈ l → optionLe o2 o' = true := by
  induction l generalizing o with
  | nil => cases h
  | cons a l ih =>
    have refl : ∀ o : Option V, optionLe o o = true := fun o => by rcases optionLe_total o o with h | h <;> exact h
    by_cases hl : ∃ o1, (t, o1) ∈ l
    · obtain ⟨o1, ho1⟩ := hl
      obtain ⟨o', g1, g2⟩ := ih ho1
      by_cases ha : a.1 = t
      · rcases optionLe_total a.2 o' with hle | hle
        · refine ⟨o', List.mem_cons_of_mem _ g1, fun o2 h2 => ?_⟩
          rcases List.mem_cons.mp h2 with e | h2
          · rw [← e] at hle; exact hle
          · exact g2 o2 h2
        · refine ⟨a.2, by rw [← ha]; simp, fun o2 h2 => ?_⟩
          rcases List.mem_cons.mp h2 with e | h2
          · rw [← e]; exact refl _
          · exact optionLe_trans (g2 o2 h2) hle
      · refine ⟨o', List.mem_cons_of_mem _ g1, fun o2 h2 => ?_⟩
        rcases List.mem_cons.mp h2 with e | h2
        · exact absurd (by rw [← e]) ha
        · exact g2 o2 h2
    · push Not at hl
      have ho : (t, o) = a := by
        rcases List.mem_cons.mp h with e | h
        · exact e
        · exact absurd h (hl o)
      refine ⟨o, h, fun o2 h2 => ?_⟩
      rcases List.mem_cons.mp h2 with e | h2
      · rw [← ho] at e
        obtain rfl : o2 = o := by simpa using e
        exact refl _
      · exact absurd h2 (hl o2)

theorem HoldsValues.step {done ready : List (T × K × Option V)} {us : Upds (K × V) T Int} (h : HoldsValues (done.map asUps) us)
    (hlt : ∀ d ∈ done, ∀ r ∈ ready, d.1 < r.1) {o : K → Option V} {Q : T} (hQ : ∀ d ∈ done, d.1 ≤ Q) (ho : ∀ k, UpsertValue (done.map asUps) k Q (o k))
    {m : List (K × List (T × Option V))} (hm : m.Pairwise fun a b => a.1 < b.1)
    (hme : ∀ k, entriesOf m k = (ready.filter fun x => x.2.1 = k).map fun x => (x.1, x.2.2)) :
    HoldsValues ((done ++ ready).map asUps) (us ++ m.flatMap fun e => keyUpserts e.1 (o e.1) e.2) := by
  intro k q
  have hmem : ∀ x : T × Option V, x ∈ entriesOf m k ↔ (x.1, k, x.2) ∈ ready := by
    intro x
    rw [hme, List.mem_map]
    constructor
    · rintro ⟨y, hy, rfl⟩
      rw [List.mem_filter] at hy
      obtain ⟨hy, hk⟩ := hy
      have : y.2.1 = k := by simpa using hk
      rw [← this]; exact hy
    · intro hx
      exact ⟨(x.1, k, x.2), List.mem_filter.mpr ⟨hx, by simp⟩, rfl⟩
  have hup : ∀ (l : List (T × K × Option V)) o t, (k, o, t) ∈ l.map asUps ↔ (t, k, o) ∈ l := by
    intro l o t
    rw [List.mem_map]
    constructor
    · rintro ⟨y, hy, e⟩
      obtain ⟨a, b, c⟩ := y
      simp only [asUps, Prod.mk.injEq] at e
      obtain ⟨rfl, rfl, rfl⟩ := e
      exact hy
    · intro h; exact ⟨_, h, rfl⟩
  have hacc := accum_flatMap_keys hm o k
  obtain ⟨s1, s2⟩ := sorted_spec (entriesOf m k)
  set L := dedupTimes ((entriesOf m k).insertionSort fun a b => listLe a b = true) with hL
  by_cases hr : ∃ x ∈ ready, x.2.1 = k ∧ x.1 ≤ q
  · obtain ⟨x, hx, hxk, hxq⟩ := hr
    have hdq : ∀ d ∈ done, d.1 ≤ q := fun d hd => (hlt d hd x hx).le.trans hxq
    have hdone : UpsertValue (done.map asUps) k q (o k) := by
      refine (upsertValue_congr ?_).mp (ho k)
      intro o' t
      rw [hup]
      constructor
      · rintro ⟨a, _⟩; exact ⟨a, hdq _ a⟩
      · rintro ⟨a, _⟩; exact ⟨a, hQ _ a⟩
    have husq : ∀ v, accum us (k, v) q = if o k = some v then 1 else 0 := by
      intro v
      obtain ⟨o', h1, h2⟩ := h k q
      rw [h2 v, h1.unique hdone]
    have hrep : ∀ t' o', (t', k, o') ∈ ready → ∃ z ∈ L, z.1 = t' ∧ optionLe o' z.2 = true := by
      intro t' o' hin
      obtain ⟨o2, g1, g2⟩ := exists_greatest ((hmem (t', o')).mpr hin)
      exact ⟨(t', o2), (s2 _).mpr ⟨g1, fun y hy e => g2 y.2 (by have e : y.1 = t' := e; rw [← e]; exact hy)⟩, rfl, g2 o' ((hmem (t', o')).mpr hin)⟩
    have hexL : ∃ y ∈ L, y.1 ≤ q := by
      obtain ⟨z, hz, e, _⟩ := hrep x.1 x.2.2 (by rw [← hxk]; exact hx)
      exact ⟨z, hz, e ▸ hxq⟩
    obtain ⟨y, hy, hyq, hyv, hymax⟩ := lastVal_mem (o k) s1 hexL
    refine ⟨y.2, ?_, ?_⟩
    · have hyr := (s2 y).mp hy
      refine Or.inl ⟨y.1, hyq, ?_, ?_⟩
      · rw [List.map_append, List.mem_append, hup, hup]
        exact Or.inr ((hmem y).mp hyr.1)
      · intro o' t' hm' hle
        rw [List.map_append, List.mem_append, hup, hup] at hm'
        rcases hm' with hm' | hm'
        · exact Or.inl (hlt _ hm' _ ((hmem y).mp hyr.1))
        · obtain ⟨z, hz, e, hz2⟩ := hrep t' o' hm'
          have hzy : t' ≤ y.1 := e ▸ hymax z hz (e ▸ hle)
          rcases hzy.lt_or_eq with h | h
          · exact Or.inl h
          · exact Or.inr ⟨h, (optionLe_iff _ _).mp (hyr.2 (t', o') ((hmem (t', o')).mpr hm') h)⟩
    · intro v
      rw [accum_append, husq, add_comm, hacc v q, hyv]
  · push Not at hr
    obtain ⟨o', h1, h2⟩ := h k q
    refine ⟨o', ?_, ?_⟩
    · refine (upsertValue_congr ?_).mp h1
      intro o2 t
      rw [List.map_append, List.mem_append, hup, hup]
      constructor
      · rintro ⟨a, b⟩; exact ⟨Or.inl a, b⟩
      · rintro ⟨a | a, b⟩
        · exact ⟨a, b⟩
        · exact absurd b (not_le.mpr (hr _ a rfl))
    · intro v
      have : lastVal q (o k) L = o k := lastVal_of_gt fun x hx => not_le.mpr (hr _ ((hmem x).mp ((s2 x).mp hx).1) rfl)
      have h3 := hacc v q
      rw [this] at h3
      rw [accum_append, h2 v]
      have h4 : accum (m.flatMap fun e => keyUpserts e.1 (o e.1) e.2) (k, v) q = 0 := by omega
      rw [h4, add_zero]

/-! ### Total order: frontiers have at most one element -/

theorem antichain_linear {F : List T} (h : IsAntichainList F) : F = [] ∨ ∃ f, F = [f] := by
  cases F with
  | nil => exact Or.inl rfl
  | cons f F =>
    cases F with
    | nil => exact Or.inr ⟨f, rfl⟩
    | cons g F =>
      rw [IsAntichainList, List.pairwise_cons] at h
      obtain ⟨h1, h2⟩ := h.1 g (by simp)
      exact absurd (le_total f g) (by tauto)

theorem acExtend_nil_linear {F : List T} (h : IsAntichainList F) : acExtend [] F = F := by
  rcases antichain_linear h with rfl | ⟨f, rfl⟩ <;> simp [acExtend, acInsert]

theorem acEq_linear {F G : List T} (hF : IsAntichainList F) (hG : IsAntichainList G) : acEq F G = true ↔ F = G := by
  rcases antichain_linear hF with rfl | ⟨f, rfl⟩ <;> rcases antichain_linear hG with rfl | ⟨g, rfl⟩ <;> simp [acEq]

theorem acJoin_linear {F G : List T} (hF : IsAntichainList F) (hG : IsAntichainList G) (h : ∀ g ∈ G, Beyond F g) : acJoin F G = G := by
  rcases antichain_linear hG with rfl | ⟨g, rfl⟩
  · rcases antichain_linear hF with rfl | ⟨f, rfl⟩ <;> simp [acJoin, acExtend]
  · obtain ⟨f, hf, hle⟩ := h g (by simp)
    rcases antichain_linear hF with rfl | ⟨f', rfl⟩
    · cases hf
    · rw [List.mem_singleton] at hf
      subst hf
      simp [acJoin, acExtend, acInsert, hle]

/-! ### Weights of a view -/

theorem exists_bound (f : T) (l : List T) : ∃ Q, f ≤ Q ∧ ∀ x ∈ l, x ≤ Q := by
  induction l with
  | nil => exact ⟨f, le_refl _, by simp⟩
  | cons a l ih =>
    obtain ⟨Q, h1, h2⟩ := ih
    refine ⟨max a Q, h1.trans (le_max_right _ _), ?_⟩
    intro x hx
    rcases List.mem_cons.mp hx with rfl | hx
    · exact le_max_left _ _
    · exact (h2 x hx).trans (le_max_right _ _)

theorem viewSum_eq_accum (t : Contents K V T Int) (k : K) (v : V) (Q : T) (hQ : ∀ u ∈ t.flatten, u.2.1 ≤ Q) : viewSum t k v = accum t.flatten (k, v) Q := by
  induction t with
  | nil => rfl
  | cons kv t ih =>
    have e : Contents.flatten (kv :: t) = (kv.2.flatMap fun vu => vu.2.map fun u => ((kv.1, vu.1), u.1, u.2)) ++ Contents.flatten t := rfl
    rw [e] at hQ ⊢
    rw [accum_append, ← ih fun u hu => hQ u (List.mem_append_right _ hu)]
    have e2 : Contents.at (kv :: t : Contents K V T Int) k v = (if kv.1 = k then kv.2.flatMap fun vu => if vu.1 = v then vu.2 else [] else []) ++ Contents.at t k v := rfl
    rw [viewSum, e2, List.map_append, List.sum_append, ← viewSum]
    congr 1
    have hQ' := fun u hu => hQ u (List.mem_append_left _ hu)
    clear ih hQ e e2
    generalize kv.2 = vals at *
    induction vals with
    | nil => by_cases h : kv.1 = k <;> simp [h, accum]
    | cons vu vals ih =>
      rw [List.flatMap_cons] at hQ'
      rw [List.flatMap_cons, List.flatMap_cons, accum_append, ← ih fun u hu => hQ' u (List.mem_append_right _ hu)]
      have h1 : accum (vu.2.map fun u => ((kv.1, vu.1), u.1, u.2)) (k, v) Q = if kv.1 = k ∧ vu.1 = v then (vu.2.map Prod.snd).sum else 0 := by
        have hQ2 : ∀ u ∈ vu.2, u.1 ≤ Q := fun u hu => hQ' _ (List.mem_append_left _ (List.mem_map_of_mem hu))
        rw [accum, List.map_map]
        by_cases h : kv.1 = k ∧ vu.1 = v
        · rw [if_pos h]
          congr 1
          apply List.map_congr_left
          intro u hu
          simp [h.1, h.2, hQ2 u hu]
        · rw [if_neg h]
          apply List.sum_eq_zero
          intro x hx
          rw [List.mem_map] at hx
          obtain ⟨u, hu, rfl⟩ := hx
          simp only [Function.comp, Prod.mk.injEq]
          rw [if_neg]
          rintro ⟨h', _⟩
          exact h h'
      rw [h1]
      by_cases hk : kv.1 = k <;> by_cases hv : vu.1 = v <;> simp [hk, hv]

/-! ### The invariant -/

/-- What holds between activations, when `recv` has been received and the frontier is `F`. -/
structure UpsertInv (minimum : T) (recv : List (Ups K V T)) (F : List T) (st : UpsertState K V T) : Prop where
  prev : st.prev = F
  since : st.since = F
  writer : st.writer.upper = F
  anti : IsAntichainList F
  caps : IsAntichainList st.caps
  capsF : ∀ c ∈ st.caps, Beyond F c
  sorted : st.queue.Pairwise fun a b => a.1 ≤ b.1
  queue : ∀ x ∈ st.queue, Beyond st.caps x.1
  done : ∃ done, ((st.queue ++ done).map asUps).Perm recv ∧ (∀ d ∈ done, ¬ Beyond F d.1) ∧
    HoldsValues (done.map asUps) (st.writer.trace.flatMap ArrBatch.upds)
  tiles : UpsertTiles [minimum] st.writer.trace F
  sentUpds : (st.sent.flatMap fun s => s.2.upds) = st.writer.trace.flatMap ArrBatch.upds
  sentSub : (st.sent.map Prod.snd).Sublist st.writer.trace
  sentCaps : ∀ s ∈ st.sent, Beyond s.2.desc.lower s.1 ∧ ∀ u ∈ s.2.upds, s.1 ≤ u.2.1

theorem beyond_of_caps {F caps : List T} (h : ∀ c ∈ caps, Beyond F c) {x : T} (hx : Beyond caps x) : Beyond F x := by
  obtain ⟨c, hc, hle⟩ := hx
  exact beyond_mono (h c hc) hle

theorem upsertInv_start (minimum : T) : UpsertInv minimum [] [minimum] (UpsertState.start (K := K) (V := V) minimum) where
  prev := rfl
  since := rfl
  writer := rfl
  anti := List.pairwise_singleton _ _
  caps := List.Pairwise.nil
  capsF := by intro c hc; cases hc
  sorted := List.Pairwise.nil
  queue := by intro c hc; cases hc
  done := ⟨[], by simp [UpsertState.start], by simp, fun k q => ⟨none, Or.inr ⟨rfl, by simp⟩, fun v => by simp [UpsertState.start, TraceWriter.new, accum]⟩⟩
  tiles := rfl
  sentUpds := rfl
  sentSub := List.Sublist.refl _
  sentCaps := by intro s hs; cases hs

theorem UpsertInv.receive {minimum : T} {recv : List (Ups K V T)} {F : List T} {st : UpsertState K V T} (h : UpsertInv minimum recv F st)
    (m : T × List (Ups K V T)) (hm : Beyond F m.1 ∧ ∀ u ∈ m.2, m.1 ≤ u.2.2) : UpsertInv minimum (recv ++ m.2) F (st.receive m) := by
  have key : ∀ (data : List (Ups K V T)) (q : List (T × K × Option V)), q.Pairwise (fun a b => a.1 ≤ b.1) →
      (data.foldl (fun q u => heapPush q (u.2.2, u.1, u.2.1)) q).Pairwise (fun a b => a.1 ≤ b.1) ∧
      (data.foldl (fun q u => heapPush q (u.2.2, u.1, u.2.1)) q).Perm (q ++ data.map fun u => (u.2.2, u.1, u.2.1)) := by
    intro data
    induction data with
    | nil => intro q hq; exact ⟨hq, by simp⟩
    | cons u data ih =>
      intro q hq
      obtain ⟨i1, i2⟩ := ih (heapPush q (u.2.2, u.1, u.2.1)) (heapPush_sorted _ _ hq)
      refine ⟨i1, i2.trans ?_⟩
      rw [List.map_cons]
      exact ((heapPush_perm _ _).append_right _).trans (List.perm_middle.symm)
  obtain ⟨k1, k2⟩ := key m.2 st.queue h.sorted
  obtain ⟨done, d1, d2, d3⟩ := h.done
  refine { prev := h.prev, since := h.since, writer := h.writer, anti := h.anti, caps := isAntichain_acInsert _ _ h.caps, capsF := ?_, sorted := k1,
           queue := ?_, done := ⟨done, ?_, d2, d3⟩, tiles := h.tiles, sentUpds := h.sentUpds, sentSub := h.sentSub, sentCaps := h.sentCaps }
  · intro c hc
    rcases mem_acInsert hc with hc | rfl
    · exact h.capsF c hc
    · exact hm.1
  · intro x hx
    have hx' := k2.mem_iff.mp hx
    show Beyond (acInsert st.caps m.1) x.1
    rw [beyond_acInsert]
    rcases List.mem_append.mp hx' with hx' | hx'
    · exact Or.inl (h.queue x hx')
    · rw [List.mem_map] at hx'
      obtain ⟨u, hu, rfl⟩ := hx'
      exact Or.inr (hm.2 u hu)
  · have e : (m.2.map fun u => (u.2.2, u.1, u.2.1)).map asUps = m.2 := by
      rw [List.map_map]
      exact List.map_id'' (fun u => rfl) m.2
    have p1 : ((st.receive m).queue ++ done).Perm ((st.queue ++ done) ++ m.2.map fun u => (u.2.2, u.1, u.2.1)) := by
      refine (k2.append_right done).trans ?_
      rw [List.append_assoc, List.append_assoc]
      exact List.Perm.append_left _ List.perm_append_comm
    refine (p1.map asUps).trans ?_
    rw [List.map_append, e]
    exact d1.append_right _

theorem UpsertInv.receiveAll {minimum : T} {F : List T} : ∀ (msgs : List (T × List (Ups K V T))) {recv : List (Ups K V T)} {st : UpsertState K V T},
    UpsertInv minimum recv F st → (∀ m ∈ msgs, Beyond F m.1 ∧ ∀ u ∈ m.2, m.1 ≤ u.2.2) →
    UpsertInv minimum (recv ++ msgs.flatMap Prod.snd) F (msgs.foldl UpsertState.receive st) := by
  intro msgs
  induction msgs with
  | nil => intro recv st h _; simpa using h
  | cons m msgs ih =>
    intro recv st h hm
    have := ih (h.receive m (hm m (by simp))) fun m' h' => hm m' (List.mem_cons_of_mem _ h')
    rw [List.append_assoc] at this
    exact this

theorem upsertTiles_append : ∀ {lo : List T} {bs : List (ArrBatch (K × V) T Int)} {hi : List T} {b : ArrBatch (K × V) T Int}, UpsertTiles lo bs hi → b.desc.lower = hi →
    (∀ u ∈ b.upds, Beyond hi u.2.1 ∧ ¬ Beyond b.desc.upper u.2.1) →
    b.upds.Pairwise (fun u v => toLex u.1 < toLex v.1 ∨ u.1 = v.1 ∧ u.2.1 < v.2.1) → (∀ u ∈ b.upds, u.2.2 ≠ 0) → UpsertTiles lo (bs ++ [b]) b.desc.upper := by
  intro lo bs
  induction bs generalizing lo with
  | nil =>
    intro hi b h h1 h2 h3 h4
    obtain rfl : lo = hi := h
    exact ⟨h1, h2, h3, h4, rfl⟩
  | cons c bs ih =>
    intro hi b h h1 h2 h3 h4
    obtain ⟨a1, a2, a3, a4, a5⟩ := h
    exact ⟨a1, a2, a3, a4, ih a5 h1 h2 h3 h4⟩

theorem acEq_self (F : List T) : acEq F F = true := by simp [acEq]

/-- Sealing without data, when everything queued is beyond the new frontier. -/
theorem UpsertInv.sealed {minimum : T} {recv : List (Ups K V T)} {F G : List T} {st : UpsertState K V T} (h : UpsertInv minimum recv F st)
    (hG : IsAntichainList G) (hle : ∀ g ∈ G, Beyond F g) (hne : F ≠ G) (hcaps : ∀ c ∈ st.caps, Beyond G c) :
    ∃ w, st.writer.sealTo minimum G = some w ∧ UpsertInv minimum recv G { st with writer := w, prev := G, since := G } := by
  have hacEq : acEq F G = false := by
    rw [Bool.eq_false_iff]; intro hc; exact hne ((acEq_linear h.anti hG).mp hc)
  refine ⟨⟨G, st.writer.trace ++ [⟨⟨F, G, [minimum]⟩, []⟩],
    st.writer.queues.map fun q => q ++ [.batch ⟨⟨F, G, [minimum]⟩, []⟩ none, .frontier G]⟩, ?_, ?_⟩
  · rw [TraceWriter.sealTo, h.writer, hacEq, TraceWriter.insert]
    simp only [Bool.false_eq_true, if_false, h.writer, acEq_self, if_true, hacEq]
  · obtain ⟨done, d1, d2, d3⟩ := h.done
    refine { prev := rfl, since := rfl, writer := rfl, anti := hG, caps := h.caps, capsF := hcaps, sorted := h.sorted, queue := h.queue,
             done := ⟨done, d1, ?_, ?_⟩, tiles := ?_, sentUpds := ?_, sentSub := ?_, sentCaps := h.sentCaps }
    · intro d hd hb
      obtain ⟨g, hg, hgd⟩ := hb
      exact d2 d hd (beyond_mono (hle g hg) hgd)
    · simpa using d3
    · exact upsertTiles_append h.tiles rfl (by simp) List.Pairwise.nil (by simp)
    · simpa using h.sentUpds
    · exact h.sentSub.trans (List.sublist_append_left _ _)

/-- Making a batch for the capability. -/
theorem UpsertInv.retired {minimum : T} {recv : List (Ups K V T)} {F G : List T} {st : UpsertState K V T} (h : UpsertInv minimum recv F st)
    {trace : TraceView K V T} (htr : HonestView trace) (hG : IsAntichainList G) (hle : ∀ g ∈ G, Beyond F g) {c : T} (hc : st.caps = [c]) (hnc : ¬ Beyond G c) :
    ∃ st', UpsertState.retireCap minimum trace G st c [] = some st' ∧ st'.caps = [c] ∧
      UpsertInv minimum recv G { st' with prev := G, since := G, caps := (acExtend [] (st'.queue.head?.map Prod.fst).toList) } := by
  have hbc : Beyond F c := h.capsF c (by rw [hc]; simp)
  have hne : F ≠ G := by rintro rfl; exact hnc hbc
  have hacEq : acEq F G = false := by
    rw [Bool.eq_false_iff]; intro hx; exact hne ((acEq_linear h.anti hG).mp hx)
  have hup : acExtend (acExtend [] G) [] = G := by rw [acExtend_nil_linear hG]; rfl
  obtain ⟨hT, hD⟩ := takeWhile_eq_filter_of_down (le := fun a b : T × K × Option V => a.1 ≤ b.1) (p := fun x => !lessEqual G x.1) (by
    intro a b hab hb
    rw [Bool.not_eq_true'] at hb ⊢
    rw [Bool.eq_false_iff] at hb ⊢
    intro ha
    exact hb ((lessEqual_iff _ _).mpr (beyond_mono ((lessEqual_iff _ _).mp ha) hab))) h.sorted
  set ready := st.queue.takeWhile fun x => !lessEqual G x.1 with hready
  set rest := st.queue.dropWhile fun x => !lessEqual G x.1 with hrest
  obtain ⟨done, d1, d2, d3⟩ := h.done
  have hreadyG : ∀ x ∈ ready, ¬ Beyond G x.1 := by
    intro x hx hb
    rw [hT, List.mem_filter] at hx
    rw [(lessEqual_iff _ _).mpr hb] at hx
    simp at hx
  have hreadyQ : ∀ x ∈ ready, x ∈ st.queue := fun x hx => (List.takeWhile_sublist _).subset hx
  have hreadyc : ∀ x ∈ ready, c ≤ x.1 := by
    intro x hx
    obtain ⟨c', hc', hle'⟩ := h.queue x (hreadyQ x hx)
    rw [hc, List.mem_singleton] at hc'
    rw [← hc']; exact hle'
  have hrestG : ∀ x ∈ rest, Beyond G x.1 := by
    intro x hx
    rw [hD, List.mem_filter] at hx
    rw [← lessEqual_iff]
    simpa using hx.2
  have hlt : ∀ d ∈ done, ∀ r ∈ ready, d.1 < r.1 := by
    intro d hd r hr
    by_contra hcon
    exact d2 d hd (beyond_mono (beyond_mono hbc (hreadyc r hr)) (not_lt.mp hcon))
  -- the view
  obtain ⟨v1, v2⟩ := htr st.sent.length st.since (st.writer.trace.flatMap ArrBatch.upds)
  set view := trace st.sent.length st.since (st.writer.trace.flatMap ArrBatch.upds) with hview
  rw [h.since] at v2
  obtain ⟨f, hf, hfc⟩ := hbc
  obtain ⟨Q, q1, q2⟩ := exists_bound f (view.flatten.map (fun u => u.2.1) ++ done.map fun d => d.1)
  have hQF : Beyond F Q := ⟨f, hf, q1⟩
  choose o ho1 ho2 using fun k => d3 k Q
  have hsum : ∀ k v, viewSum view k v = if o k = some v then 1 else 0 := by
    intro k v
    rw [viewSum_eq_accum view k v Q fun u hu => q2 _ (List.mem_append_left _ (List.mem_map_of_mem hu)), v2 _ _ hQF]
    exact ho2 k v
  -- the updates
  obtain ⟨e1, e2⟩ := entries_fold (fun x : T × K × Option V => x.2.1) (fun x => (x.1, x.2.2)) ready
  set m := ready.foldl (fun m x => entryPush m x.2.1 (x.1, x.2.2)) [] with hm
  have hkeys := upsertKeys_spec v1 o hsum m (Pos.start view) e1 fun e _ => ⟨[], rfl, by simp⟩
  set us := m.flatMap fun e => keyUpserts e.1 (o e.1) e.2 with hus
  have husmem : ∀ u ∈ us, u.2.2 ≠ 0 ∧ ∃ x ∈ ready, x.1 = u.2.1 := by
    intro u hu
    rw [hus, List.mem_flatMap] at hu
    obtain ⟨e, he, hu⟩ := hu
    obtain ⟨_, h0, x, hx, hxt⟩ := (keyUpserts_spec _ _ _).1 u hu
    refine ⟨h0, ?_⟩
    have hx2 : x ∈ entriesOf m e.1 := by
      rw [entriesOf, List.mem_flatMap]
      exact ⟨e, he, by simpa using hx⟩
    rw [e2, List.mem_map] at hx2
    obtain ⟨y, hy, rfl⟩ := hx2
    exact ⟨y, (List.mem_filter.mp hy).1, hxt⟩
  have hstep := d3.step (done := done) (ready := ready) hlt (fun d hd => q2 _ (List.mem_append_right _ (List.mem_map_of_mem (f := fun d : T × K × Option V => d.1) hd))) ho1 e1 e2
  refine ⟨{ st with prev := G, queue := rest, sent := st.sent ++ [(c, ⟨⟨F, G, [minimum]⟩, us⟩)],
                    writer := ⟨G, st.writer.trace ++ [⟨⟨F, G, [minimum]⟩, us⟩],
                      st.writer.queues.map fun q => q ++ [.batch ⟨⟨F, G, [minimum]⟩, us⟩ (some c), .frontier G]⟩ }, ?_, hc, ?_⟩
  · rw [UpsertState.retireCap, hup]
    simp only [← hready, ← hrest, ← hview, ← hm, hkeys, h.prev, Option.bind_eq_bind, Option.bind_some, TraceWriter.insert, h.writer, acEq_self, hacEq, if_true]
    simp
  · refine { prev := rfl, since := rfl, writer := rfl, anti := hG, caps := isAntichain_acExtend _ _ List.Pairwise.nil, capsF := ?_, sorted := ?_, queue := ?_,
             done := ⟨done ++ ready, ?_, ?_, ?_⟩, tiles := ?_, sentUpds := ?_, sentSub := ?_, sentCaps := ?_ }
    · intro c' hc'
      rcases mem_acExtend hc' with hx | hx
      · cases hx
      · simp only [Option.mem_toList, Option.mem_def, Option.map_eq_some_iff] at hx
        obtain ⟨x, hx, rfl⟩ := hx
        exact hrestG x (List.mem_of_mem_head? hx)
    · exact h.sorted.sublist (List.dropWhile_sublist _)
    · intro x hx
      have hx : x ∈ rest := hx
      show Beyond (acExtend [] (rest.head?.map Prod.fst).toList) x.1
      rw [beyond_acExtend]
      right
      have hs : rest.Pairwise fun a b => a.1 ≤ b.1 := h.sorted.sublist (List.dropWhile_sublist _)
      cases hr : rest with
      | nil => rw [hr] at hx; cases hx
      | cons y ys =>
        rw [hr] at hx hs
        rw [List.pairwise_cons] at hs
        refine ⟨y.1, by simp, ?_⟩
        rcases List.mem_cons.mp hx with rfl | hx
        · exact le_refl _
        · exact hs.1 x hx
    · refine List.Perm.trans ?_ d1
      apply List.Perm.map
      have : st.queue = ready ++ rest := (List.takeWhile_append_dropWhile ..).symm
      rw [this]
      show (rest ++ (done ++ ready)).Perm (ready ++ rest ++ done)
      rw [← List.append_assoc]
      refine List.perm_append_comm.trans ?_
      rw [List.append_assoc]
    · intro d hd
      rcases List.mem_append.mp hd with hd | hd
      · intro hb
        obtain ⟨g, hg, hgd⟩ := hb
        exact d2 d hd (beyond_mono (hle g hg) hgd)
      · exact hreadyG d hd
    · simpa using hstep
    · refine upsertTiles_append h.tiles rfl ?_ (pairwise_flatMap_keys e1 o) fun u hu => (husmem u hu).1
      intro u hu
      obtain ⟨_, x, hx, e⟩ := husmem u hu
      rw [← e]
      exact ⟨beyond_mono ⟨f, hf, hfc⟩ (hreadyc x hx), hreadyG x hx⟩
    · simp [h.sentUpds]
    · simpa using h.sentSub.append (List.Sublist.refl [(⟨⟨F, G, [minimum]⟩, us⟩ : ArrBatch (K × V) T Int)])
    · intro s hs
      rcases List.mem_append.mp hs with hs | hs
      · exact h.sentCaps s hs
      · rw [List.mem_singleton] at hs
        subst hs
        refine ⟨⟨f, hf, hfc⟩, fun u hu => ?_⟩
        obtain ⟨_, x, hx, e⟩ := husmem u hu
        rw [← e]
        exact hreadyc x hx

theorem UpsertInv.activated {minimum : T} {recv : List (Ups K V T)} {F : List T} {st : UpsertState K V T} (h : UpsertInv minimum recv F st)
    {trace : TraceView K V T} (htr : HonestView trace) {act : UpsertAct K V T} (hm : ∀ m ∈ act.msgs, Beyond F m.1 ∧ ∀ u ∈ m.2, m.1 ≤ u.2.2)
    (hG : IsAntichainList act.frontier) (hle : ∀ g ∈ act.frontier, Beyond F g) :
    ∃ st', st.activate minimum trace act = some st' ∧ UpsertInv minimum (recv ++ act.msgs.flatMap Prod.snd) act.frontier st' := by
  have h1 := h.receiveAll act.msgs hm
  rw [UpsertState.activate]
  set st1 := act.msgs.foldl UpsertState.receive st with hst1
  have hacle : acLe st1.prev act.frontier = true := by
    rw [h1.prev, acLe, List.all_eq_true]
    intro g hg
    rw [lessEqual_iff]; exact hle g hg
  simp only [hacle, Bool.not_true, Bool.false_eq_true, if_false]
  by_cases heq : F = act.frontier
  · refine ⟨st1, ?_, heq ▸ h1⟩
    rw [if_pos]
    rw [h1.prev, heq]; exact acEq_self _
  · have hne : acEq st1.prev act.frontier ≠ true := by
      rw [h1.prev]; intro hx; exact heq ((acEq_linear h.anti hG).mp hx)
    rw [if_neg hne]
    have hprev : acExtend [] act.frontier = act.frontier := acExtend_nil_linear hG
    have hsince : acJoin F act.frontier = act.frontier := acJoin_linear h.anti hG hle
    by_cases hany : (st1.caps.any fun c => !lessEqual act.frontier c) = true
    · rw [if_pos hany]
      rcases antichain_linear h1.caps with hc | ⟨c, hc⟩
      · rw [hc] at hany; simp at hany
      · have hnc : ¬ Beyond act.frontier c := by
          rw [hc] at hany
          simp only [List.any_cons, List.any_nil, Bool.or_false, Bool.not_eq_true'] at hany
          intro hb
          rw [(lessEqual_iff _ _).mpr hb] at hany
          cases hany
        obtain ⟨st2, r1, r2, r3⟩ := h1.retired htr hG hle hc hnc
        have hlf : lessEqual act.frontier c = false := by
          rw [Bool.eq_false_iff]; intro hx; exact hnc ((lessEqual_iff _ _).mp hx)
        have e1 : UpsertState.retireCaps minimum trace act.frontier st1.caps st1 = some st2 := by
          rw [hc]
          simp [UpsertState.retireCaps, hlf, r1]
        rw [e1]
        have e2 : st2.since = F := by
          have : st2.since = st1.since := by
            rw [UpsertState.retireCap] at r1
            simp only [Option.bind_eq_bind, Option.bind_eq_some_iff, Option.some.injEq] at r1
            obtain ⟨_, _, _, _, rfl⟩ := r1
            rfl
          rw [this, h1.since]
        have e3 : st2.downgrade = some { st2 with caps := acExtend [] (st2.queue.head?.map Prod.fst).toList } := by
          rw [UpsertState.downgrade]
          cases hq : st2.queue with
          | nil => rfl
          | cons x xs =>
            have hqx : x ∈ st1.queue := by
              have : st2.queue = st1.queue.dropWhile fun x => !lessEqual (acExtend (acExtend [] act.frontier) []) x.1 := by
                rw [UpsertState.retireCap] at r1
                simp only [Option.bind_eq_bind, Option.bind_eq_some_iff, Option.some.injEq] at r1
                obtain ⟨_, _, _, _, rfl⟩ := r1
                rfl
              exact (List.dropWhile_sublist _).subset (by rw [← this, hq]; simp)
            obtain ⟨c', hc', hle'⟩ := h1.queue x hqx
            rw [hc, List.mem_singleton] at hc'
            subst hc'
            obtain ⟨t, kv⟩ := x
            obtain ⟨k, v⟩ := kv
            have : (st2.caps.find? fun c => decide (c ≤ t)) = some c' := by rw [r2]; simp [hle']
            simp only [this]
            rfl
        refine ⟨_, ?_, r3⟩
        simp only [Option.bind_eq_bind, Option.bind_some, e3, e2, hprev, hsince]
    · rw [if_neg hany]
      have hcaps : ∀ c ∈ st1.caps, Beyond act.frontier c := by
        intro c hc
        by_contra hb
        apply hany
        rw [List.any_eq_true]
        refine ⟨c, hc, ?_⟩
        rw [Bool.not_eq_true', Bool.eq_false_iff]
        intro hx; exact hb ((lessEqual_iff _ _).mp hx)
      obtain ⟨w, w1, w2⟩ := h1.sealed hG hle heq hcaps
      refine ⟨_, ?_, w2⟩
      simp only [w1, Option.map_some, Option.bind_eq_bind, Option.bind_some, h1.since, hprev, hsince]

theorem upsertRun_inv {minimum : T} {trace : TraceView K V T} (htr : HonestView trace) : ∀ (acts : List (UpsertAct K V T)) {recv : List (Ups K V T)} {F : List T}
    {st : UpsertState K V T}, UpsertInv minimum recv F st → LegalUpserts F acts →
    ∃ st', upsertRun minimum trace st acts = some st' ∧ UpsertInv minimum (recv ++ upsertsOf acts) (lastFrontier F acts) st' := by
  intro acts
  induction acts with
  | nil => intro recv F st h _; exact ⟨st, rfl, by simpa [upsertsOf, lastFrontier] using h⟩
  | cons act acts ih =>
    intro recv F st h hl
    obtain ⟨h1, h2, h3, h4⟩ := hl
    obtain ⟨st1, r1, r2⟩ := h.activated htr h1 h2 h3
    obtain ⟨st2, s1, s2⟩ := ih r2 h4
    refine ⟨st2, by rw [upsertRun, r1]; exact s1, ?_⟩
    rw [List.append_assoc] at s2
    exact s2

end DD
