import Verif.Proofs.ColBasic
import Verif.Model.ColChunk

/-! Selecting updates of a trie, and melding tries. -/

namespace DD
set_option linter.unusedSectionVars false

section lists
variable {α β : Type*}

/-- The elements with a mark. -/
def marked (us : List α) (bs : List Bool) : List α := ((us.zip bs).filter Prod.snd).map Prod.fst

theorem marked_cons (u : α) (us : List α) (b : Bool) (bs : List Bool) : marked (u :: us) (b :: bs) = (if b then [u] else []) ++ marked us bs := by
  cases b <;> simp [marked]

theorem marked_map (p : β → Bool) (f : β → α) (xs : List β) : marked (xs.map f) (xs.map p) = (xs.filter p).map f := by
  induction xs with
  | nil => rfl
  | cons x xs ih =>
    rw [List.map_cons, List.map_cons, marked_cons, ih]
    cases h : p x <;> simp [h]

theorem marked_filter (p : α → Bool) (us : List α) : marked us (us.map p) = us.filter p := by
  have := marked_map p id us
  simpa using this

theorem marked_take (us : List α) (n : Nat) : marked us ((List.range us.length).map fun i => decide (i < n)) = us.take n := by
  induction us generalizing n with
  | nil => simp [marked]
  | cons u us ih =>
    rw [List.length_cons, List.range_succ_eq_map, List.map_cons, List.map_map, marked_cons]
    cases n with
    | zero =>
      have := ih 0
      simp [Function.comp_def] at this ⊢
      exact this
    | succ n =>
      have := ih n
      simp [Function.comp_def]
      exact this

theorem marked_drop (us : List α) (n : Nat) : marked us (((List.range us.length).map fun i => decide (i < n)).map (!·)) = us.drop n := by
  induction us generalizing n with
  | nil => simp [marked]
  | cons u us ih =>
    rw [List.length_cons, List.range_succ_eq_map, List.map_cons, List.map_map, List.map_cons, marked_cons]
    cases n with
    | zero =>
      have := ih 0
      simp [Function.comp_def] at this ⊢
      exact this
    | succ n =>
      have := ih n
      simp only [List.map_map, Function.comp_def] at this
      simp [Function.comp_def]
      exact this

theorem filter_range_mapM (f : β → α) (p : β → Bool) (xs : List β) :
    (((List.range (xs.map p).length).filter fun i => (xs.map p).getD i false).mapM fun i => (xs.map f)[i]?) = some ((xs.filter p).map f) := by
  have key : ∀ n ≤ xs.length, (((List.range n).filter fun i => (xs.map p).getD i false).mapM fun i => (xs.map f)[i]?) = some (((xs.take n).filter p).map f) := by
    intro n hn
    induction n with
    | zero => rfl
    | succ n ih =>
      have hl : n < xs.length := by omega
      rw [List.range_succ, List.filter_append, List.mapM_append, ih (by omega), List.take_succ_eq_append_getElem hl, List.filter_append, List.map_append]
      have e1 : (xs.map p).getD n false = p xs[n] := by simp [List.getD_eq_getElem?_getD, hl]
      rw [List.filter_singleton, e1]
      cases hp : p xs[n]
      · simp [hp]
      · simp [hp, hl]
  have := key xs.length le_rfl
  rw [List.take_length] at this
  rw [List.length_map, this]

end lists

section annotate
variable {K V T R : Type*}

/-- Without the marks. -/
def unmarkV (vs : List (V × List (T × R × Bool))) : List (V × List (T × R)) := vs.map fun v => (v.1, v.2.map fun x => (x.1, x.2.1))
/-- Without the marks. -/
def unmark (c : Contents K V T (R × Bool)) : Contents K V T R := c.map fun k => (k.1, unmarkV k.2)

theorem unmarkV_exists (vs : List (V × List (T × R))) (bs : List Bool) (h : bs.length = (vs.flatMap Prod.snd).length) :
    ∃ vs' : List (V × List (T × R × Bool)), unmarkV vs' = vs ∧ (vs'.flatMap Prod.snd).map (fun x => x.2.2) = bs := by
  induction vs generalizing bs with
  | nil =>
    refine ⟨[], rfl, ?_⟩
    simpa using (List.length_eq_zero_iff.1 (by simpa using h)).symm
  | cons v vs ih =>
    rw [List.flatMap_cons, List.length_append] at h
    obtain ⟨vs', e1, e2⟩ := ih (bs.drop v.2.length) (by rw [List.length_drop]; omega)
    refine ⟨(v.1, (v.2.zip (bs.take v.2.length)).map fun x => (x.1.1, x.1.2, x.2)) :: vs', ?_, ?_⟩
    · rw [unmarkV, List.map_cons, ← unmarkV, e1, List.map_map]
      have : (v.2.zip (bs.take v.2.length)).map ((fun x : T × R × Bool => (x.1, x.2.1)) ∘ fun x => (x.1.1, x.1.2, x.2)) = v.2 := by
        have : ((fun x : T × R × Bool => (x.1, x.2.1)) ∘ fun x : (T × R) × Bool => (x.1.1, x.1.2, x.2)) = Prod.fst := rfl
        rw [this, List.map_fst_zip (by rw [List.length_take]; omega)]
      rw [this]
    · rw [List.flatMap_cons, List.map_append, e2, List.map_map]
      have : ((fun x : T × R × Bool => x.2.2) ∘ fun x : (T × R) × Bool => (x.1.1, x.1.2, x.2)) = Prod.snd := rfl
      rw [this, List.map_snd_zip (by rw [List.length_take]; omega), List.take_append_drop]

theorem unmark_exists (c : Contents K V T R) (bs : List Bool) (h : bs.length = ((c.flatMap Prod.snd).flatMap Prod.snd).length) :
    ∃ c' : Contents K V T (R × Bool), unmark c' = c ∧ ((c'.flatMap Prod.snd).flatMap Prod.snd).map (fun x => x.2.2) = bs := by
  induction c generalizing bs with
  | nil =>
    refine ⟨[], rfl, ?_⟩
    simpa using (List.length_eq_zero_iff.1 (by simpa using h)).symm
  | cons k c ih =>
    rw [List.flatMap_cons, List.flatMap_append, List.length_append] at h
    obtain ⟨c', e1, e2⟩ := ih (bs.drop (k.2.flatMap Prod.snd).length) (by rw [List.length_drop]; omega)
    obtain ⟨vs', e3, e4⟩ := unmarkV_exists k.2 (bs.take (k.2.flatMap Prod.snd).length) (by rw [List.length_take]; omega)
    refine ⟨(k.1, vs') :: c', ?_, ?_⟩
    · rw [unmark, List.map_cons, ← unmark, e1, e3]
    · rw [List.flatMap_cons, List.flatMap_append, List.map_append, e2, e4, List.take_append_drop]

theorem unmark_snd (c : Contents K V T (R × Bool)) : (unmark c).flatMap Prod.snd = unmarkV (c.flatMap Prod.snd) := by
  simp [unmark, unmarkV, List.flatMap_map, List.map_flatMap]

theorem unmarkV_snd (vs : List (V × List (T × R × Bool))) : (unmarkV vs).flatMap Prod.snd = (vs.flatMap Prod.snd).map fun x => (x.1, x.2.1) := by
  simp [unmarkV, List.flatMap_map, List.map_flatMap]

theorem upds_unmark (c : Contents K V T (R × Bool)) : (unmark c).upds = c.upds.map fun u => (u.1, u.2.1, u.2.2.1) := by
  simp [unmark, unmarkV, Contents.upds, List.flatMap_map, List.map_flatMap, Function.comp_def]

theorem leaves_upds {R : Type*} (c : Contents K V T R) : (c.flatMap Prod.snd).flatMap Prod.snd = c.upds.map Prod.snd := by
  simp [Contents.upds, List.flatMap_assoc, List.map_flatMap, Function.comp_def]

variable [LinearOrder K] [LinearOrder V]

theorem canonical_unmark {c : Contents K V T (R × Bool)} : Canonical (unmark c) ↔ Canonical c := by
  simp only [Canonical, contentsSorted_iff, NoEmpty, unmark, unmarkV, List.pairwise_map, List.forall_mem_map, ne_eq, List.map_eq_nil_iff]

theorem select_spec {t : ColTrie K V T R} {us : Upds (K ×ₗ V) T R} (h : t.Holds us) (bs : List Bool) (hb : bs.length = us.length) :
    ∃ s, t.select bs = some s ∧ s.Holds (marked us bs) := by
  obtain ⟨c, h1, h2, rfl, rfl⟩ := h
  obtain ⟨c', rfl, rfl⟩ := unmark_exists c bs (by rw [hb, leaves_upds, List.length_map])
  have hc' : Canonical c' := canonical_unmark.1 ⟨h1, h2⟩
  let p : T × R × Bool → Bool := fun x => x.2.2
  have hp : Canonical (pruneK p c') := canonical_pruneK p hc'
  let q : Contents K V T R := unmark (pruneK p c')
  have hq : Canonical q := canonical_unmark.2 hp
  have hu : q.upds = marked (unmark c').upds (((c'.flatMap Prod.snd).flatMap Prod.snd).map fun x => x.2.2) := by
    rw [upds_unmark, upds_pruneK, upds_unmark, leaves_upds, List.map_map]
    exact (marked_map (fun u : (K ×ₗ V) × T × R × Bool => u.2.2.2) (fun u => (u.1, u.2.1, u.2.2.1)) c'.upds).symm
  refine ⟨q.forest.layout, ?_, q, hq.1, hq.2, rfl, hu⟩
  have hr := retain_spec p (Prod.fst : T × R × Bool → T) (if c' = [] then [] else [c']) (Forest.layout (unmark c').forest).diffs
  have hfl : (if c' = [] then [] else [c'] : List (List (K × List (V × List (T × R × Bool))))).flatten = c' := by split_ifs with e <;> simp [e]
  rw [hfl] at hr
  have e1 : (⟨.of ((if c' = [] then [] else [c'] : List (List (K × List (V × List (T × R × Bool))))).map fun g => g.map Prod.fst), .of (c'.map fun k => k.2.map Prod.fst),
      .of ((c'.flatMap Prod.snd).map fun v => v.2.map Prod.fst), (Forest.layout (unmark c').forest).diffs⟩ : ColTrie K V T R) = Forest.layout (unmark c').forest := by
    by_cases e : c' = []
    · subst e; rfl
    · have : unmark c' ≠ [] := by simpa [unmark] using e
      rw [layout_forest this, if_neg e, layoutC, unmark_snd]
      simp [unmark, unmarkV, Function.comp_def]
  rw [e1] at hr
  rw [ColTrie.select, hr, Option.bind_some]
  have e2 : (Forest.layout (unmark c').forest).diffs.values = ((c'.flatMap Prod.snd).flatMap Prod.snd).map fun x => x.2.1 := by
    by_cases e : c' = []
    · subst e; rfl
    · have : unmark c' ≠ [] := by simpa [unmark] using e
      rw [layout_forest this, layoutC, unmark_snd, unmarkV_snd]
      generalize (c'.flatMap Prod.snd).flatMap Prod.snd = xs
      induction xs with
      | nil => rfl
      | cons x xs ih => simp only [Lists.of, List.map_cons, List.flatten_cons] at ih ⊢; rw [ih]; rfl
  rw [e2, filter_range_mapM, Option.map_some]
  congr 1
  have e3 : (Lists.of ((pruneV p (c'.flatMap Prod.snd)).map fun v => v.2.map Prod.fst)).values.length = ((((c'.flatMap Prod.snd).flatMap Prod.snd).filter p).map fun x => x.2.1).length := by
    rw [← pruneV_snd]
    generalize pruneV p (c'.flatMap Prod.snd) = vs
    simp [Lists.of, List.length_flatMap, Function.comp_def]
  simp only
  rw [e3, single_of, ← pruneV_snd, ← pruneK_snd]
  by_cases e : pruneK p c' = []
  · have : q = [] := by simp [q, unmark, e]
    rw [this, layout_forest_nil, e]
    by_cases e' : c' = [] <;> simp [e', e, ColTrie.empty, Lists.of, Lists.empty]
  · have hq0 : q ≠ [] := by simpa [q, unmark] using e
    have e' : c' ≠ [] := by rintro rfl; exact e rfl
    rw [layout_forest hq0, if_neg e', layoutC, unmark_snd, unmarkV_snd]
    simp only [q, unmark, unmarkV, List.map_map, Function.comp_def, List.map_cons, List.map_nil]
    rw [List.filter_cons, if_pos (by simpa using e)]
    simp

end annotate

section
variable {K V T R : Type*} [LinearOrder K] [LinearOrder V]

/-- C63 lemma: `split_at` splits the updates. -/
theorem splitAt_spec {t : ColTrie K V T R} {us : Upds (K ×ₗ V) T R} (h : t.Holds us) (n : Nat) :
    ∃ a b, t.splitAt n = some (a, b) ∧ a.Holds (us.take n) ∧ b.Holds (us.drop n) := by
  have hlen := len_layout h
  rw [ColTrie.splitAt]
  split_ifs with h0 h1
  · subst h0
    exact ⟨_, _, rfl, holds_nil.2 rfl, h⟩
  · rw [hlen] at h1
    refine ⟨_, _, rfl, ?_, ?_⟩
    · rwa [List.take_of_length_le h1]
    · rw [List.drop_of_length_le h1]; exact holds_nil.2 rfl
  · obtain ⟨a, ha, ha'⟩ := select_spec h ((List.range us.length).map fun i => decide (i < n)) (by simp)
    obtain ⟨b, hb, hb'⟩ := select_spec h (((List.range us.length).map fun i => decide (i < n)).map (!·)) (by simp)
    rw [marked_take] at ha'
    rw [marked_drop] at hb'
    refine ⟨a, b, ?_, ha', hb'⟩
    simp only [hlen, ha, hb, Option.bind_some, Option.map_some]

theorem times_layout {t : ColTrie K V T R} {us : Upds (K ×ₗ V) T R} (h : t.Holds us) : t.times.values = us.map fun u => u.2.1 := by
  obtain ⟨c, h1, h2, rfl, rfl⟩ := h
  by_cases hc : c = []
  · subst hc; rfl
  · rw [layout_forest hc, layoutC]
    simp only [Lists.of]
    rw [← List.flatMap_def]
    simp [Contents.upds, List.flatMap_assoc, List.map_flatMap, Function.comp_def]

/-- `extract` parts the updates. -/
theorem extract_spec [PartialOrder T] [DecidableLE T] {t : ColTrie K V T R} {us : Upds (K ×ₗ V) T R} (h : t.Holds us) (upper frontier : List T) :
    ∃ ship keep, t.extract upper frontier = some (us.foldl (fun r u => if lessEqual upper u.2.1 then acInsert r u.2.1 else r) frontier, ship, keep) ∧
      (∀ s, ship = some s → s.Holds (us.filter fun u => !lessEqual upper u.2.1)) ∧ (ship = none → us.filter (fun u => !lessEqual upper u.2.1) = []) ∧
      (∀ s, keep = some s → s.Holds (us.filter fun u => lessEqual upper u.2.1)) ∧ (keep = none → us.filter (fun u => lessEqual upper u.2.1) = []) := by
  have ht := times_layout h
  have hbm : (t.times.values.map fun t => lessEqual upper t) = us.map fun u => lessEqual upper u.2.1 := by rw [ht, List.map_map]; rfl
  have hfr : t.times.values.foldl (fun r t => if lessEqual upper t then acInsert r t else r) frontier =
      us.foldl (fun r u => if lessEqual upper u.2.1 then acInsert r u.2.1 else r) frontier := by rw [ht, List.foldl_map]
  rw [ColTrie.extract]
  simp only [hbm, hfr]
  split_ifs with h1 h2
  · have hall : ∀ u ∈ us, lessEqual upper u.2.1 = true := by simpa using h1
    refine ⟨none, some t, rfl, by simp, fun _ => ?_, ?_, by simp⟩
    · rw [List.filter_eq_nil_iff]; intro u hu; simp [hall u hu]
    · intro s hs
      cases hs
      rwa [List.filter_eq_self.2 hall]
  · have hall : ∀ u ∈ us, lessEqual upper u.2.1 = false := by simpa using h2
    refine ⟨some t, none, rfl, ?_, by simp, by simp, fun _ => ?_⟩
    · intro s hs
      cases hs
      rwa [List.filter_eq_self.2 (by intro u hu; simp [hall u hu])]
    · rw [List.filter_eq_nil_iff]; intro u hu; simp [hall u hu]
  · obtain ⟨a, ha, ha'⟩ := select_spec h (us.map fun u => lessEqual upper u.2.1) (by simp)
    obtain ⟨b, hb, hb'⟩ := select_spec h ((us.map fun u => lessEqual upper u.2.1).map (!·)) (by simp)
    rw [marked_filter] at ha'
    rw [List.map_map] at hb hb'
    rw [marked_filter] at hb'
    rw [List.map_map, ha, hb]
    refine ⟨some b, some a, rfl, ?_, by simp, ?_, by simp⟩
    · intro s hs; cases hs; exact hb'
    · intro s hs; cases hs; exact ha'

theorem melded_spec {a b : ColTrie K V T R} {us ws : Upds (K ×ₗ V) T R} (h : a.Holds us) (h' : b.Holds ws) (hle : ∀ u ∈ us, ∀ w ∈ ws, u.1 ≤ w.1) :
    ∃ c, ColTrie.melded a b = some c ∧ c.Holds (us ++ ws) := by
  obtain ⟨b', e, hb⟩ := builds_meld (builderFrom_spec h) h' hle
  exact ⟨_, by rw [ColTrie.melded, e]; rfl, builderDone_spec hb⟩

end

end DD
