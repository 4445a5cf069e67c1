import Verif.Proofs.ColIter
import Verif.Proofs.Consolidation

/-! # Forming and melding tries -/

namespace DD
set_option linter.unusedSectionVars false
open ColTrie
variable {K V T R : Type*}

/-- The layout of contents that are not empty. -/
def layoutC (c : Contents K V T R) : ColTrie K V T R where
  keys := .of [c.map Prod.fst]
  vals := .of (c.map fun k => k.2.map Prod.fst)
  times := .of ((c.flatMap Prod.snd).map fun v => v.2.map Prod.fst)
  diffs := .of (((c.flatMap Prod.snd).flatMap Prod.snd).map fun u => [u.2])

/-- The forest of contents, as one group. -/
def treeC (c : Contents K V T R) : List (K × List (V × List (T × List R))) := c.map fun k => (k.1, k.2.map fun v => (v.1, v.2.map fun u => (u.1, [u.2])))

theorem layout_forest {c : Contents K V T R} (h : c ≠ []) : c.forest.layout = layoutC c := by
  rw [Contents.forest, if_neg (by simpa using h)]
  simp only [Forest.layout, layoutC, List.flatten_singleton, List.map_cons, List.map_nil, List.map_map, List.flatMap_map, List.map_flatMap, Function.comp_def, List.flatMap_assoc]

theorem layout_forest_nil : (Contents.forest ([] : Contents K V T R)).layout = ColTrie.empty := rfl

theorem upds_forest (c : Contents K V T R) : c.forest.upds = c.upds := by
  rw [Contents.forest]
  split_ifs with h
  · rw [List.isEmpty_iff.1 h]; rfl
  · simp only [Forest.upds, Contents.upds, List.flatMap_map, List.flatten_singleton, List.map_cons, List.map_nil]
    simp [List.map_eq_flatMap]

/-- The layout with the last lists open. -/
def openC (g0 : Contents K V T R) (k : K) (vs0 : List (V × List (T × R))) (v : V) (ts : List (T × R)) : ColTrie K V T R where
  keys := .opened [] (g0.map Prod.fst ++ [k])
  vals := .opened (g0.map fun k => k.2.map Prod.fst) (vs0.map Prod.fst ++ [v])
  times := .opened ((g0.flatMap Prod.snd ++ vs0).map fun v => v.2.map Prod.fst) (ts.map Prod.fst)
  diffs := .of (((g0.flatMap Prod.snd ++ vs0).flatMap Prod.snd ++ ts).map fun u => [u.2])

theorem reopen_layoutC (g0 : Contents K V T R) (k : K) (vs0 : List (V × List (T × R))) (v : V) (ts : List (T × R)) :
    (layoutC (g0 ++ [(k, vs0 ++ [(v, ts)])])).reopen = openC g0 k vs0 v ts := by
  have e : ([(g0 ++ [(k, vs0 ++ [(v, ts)])]).map Prod.fst] : List (List K)) = [] ++ [g0.map Prod.fst ++ [k]] := by simp
  have e2 : (g0 ++ [(k, vs0 ++ [(v, ts)])]).map (fun k => k.2.map Prod.fst) = (g0.map fun k => k.2.map Prod.fst) ++ [vs0.map Prod.fst ++ [v]] := by simp
  have e3 : ((g0 ++ [(k, vs0 ++ [(v, ts)])]).flatMap Prod.snd).map (fun v => v.2.map Prod.fst) = ((g0.flatMap Prod.snd ++ vs0).map fun v => v.2.map Prod.fst) ++ [ts.map Prod.fst] := by
    simp [List.flatMap_append]
  rw [ColTrie.reopen, layoutC, openC]
  simp only [e, e2, e3, Lists.reopen_of]
  simp [List.flatMap_append]

theorem close_openC (g0 : Contents K V T R) (k : K) (vs0 : List (V × List (T × R))) (v : V) (ts : List (T × R)) :
    ({ openC g0 k vs0 v ts with keys := (openC g0 k vs0 v ts).keys.close, vals := (openC g0 k vs0 v ts).vals.close, times := (openC g0 k vs0 v ts).times.close } : ColTrie K V T R) =
      layoutC (g0 ++ [(k, vs0 ++ [(v, ts)])]) := by
  simp [openC, layoutC, List.flatMap_append]

/-- Contents in canonical form. -/
def Canonical [LT K] [LT V] (c : Contents K V T R) : Prop := ContentsSorted c ∧ NoEmpty c

theorem split_last {c : Contents K V T R} (h : c ≠ []) (hn : NoEmpty c) : ∃ g0 k vs0 v ts, c = g0 ++ [(k, vs0 ++ [(v, ts)])] ∧ ts ≠ [] := by
  obtain ⟨g0, kv, rfl⟩ : ∃ g0 kv, c = g0 ++ [kv] := ⟨c.dropLast, c.getLast h, (List.dropLast_append_getLast h).symm⟩
  have hk := hn kv (by simp)
  obtain ⟨vs0, vu, e⟩ : ∃ vs0 vu, kv.2 = vs0 ++ [vu] := ⟨kv.2.dropLast, kv.2.getLast hk.1, (List.dropLast_append_getLast hk.1).symm⟩
  refine ⟨g0, kv.1, vs0, vu.1, vu.2, ?_, hk.2 vu (by simp [e])⟩
  rw [← e]

theorem split_first {c : Contents K V T R} (h : c ≠ []) (hn : NoEmpty c) : ∃ k v ts vs h0, c = (k, (v, ts) :: vs) :: h0 ∧ ts ≠ [] := by
  cases c with
  | nil => exact absurd rfl h
  | cons kv c =>
    have hk := hn kv (by simp)
    obtain ⟨k, vs⟩ := kv
    cases vs with
    | nil => exact absurd rfl hk.1
    | cons vu vs => exact ⟨k, vu.1, vu.2, vs, c, rfl, hk.2 vu (by simp)⟩

@[simp] theorem Contents.upds_nil : (Contents.upds ([] : Contents K V T R)) = [] := rfl

theorem Contents.upds_append (a b : Contents K V T R) : Contents.upds (a ++ b) = a.upds ++ b.upds := by simp [Contents.upds]

theorem Contents.upds_cons (k : K) (vs : List (V × List (T × R))) (b : Contents K V T R) :
    Contents.upds ((k, vs) :: b) = (vs.flatMap fun v => v.2.map fun u => (toLex (k, v.1), u)) ++ b.upds := by simp [Contents.upds]

section canon
variable [LinearOrder K] [LinearOrder V]

/-- The three ways to put contents together. -/
theorem canonical_keys {a b : Contents K V T R} (ha : Canonical a) (hb : Canonical b) (h : ∀ x ∈ a, ∀ y ∈ b, x.1 < y.1) : Canonical (a ++ b) := by
  refine ⟨⟨List.pairwise_append.2 ⟨ha.1.keys, hb.1.keys, h⟩, ?_⟩, ?_⟩
  · intro kv hkv
    rcases List.mem_append.1 hkv with h | h
    exacts [ha.1.vals _ h, hb.1.vals _ h]
  · intro kv hkv
    rcases List.mem_append.1 hkv with h | h
    exacts [ha.2 _ h, hb.2 _ h]

theorem canonical_mid {g0 h0 : Contents K V T R} {k : K} {vs : List (V × List (T × R))} :
    Canonical (g0 ++ (k, vs) :: h0) ↔ Canonical g0 ∧ Canonical h0 ∧ (∀ x ∈ g0, x.1 < k) ∧ (∀ x ∈ h0, k < x.1) ∧ (∀ x ∈ g0, ∀ y ∈ h0, x.1 < y.1) ∧
      vs.Pairwise (fun x y => x.1 < y.1) ∧ vs ≠ [] ∧ ∀ vu ∈ vs, vu.2 ≠ [] := by
  constructor
  · rintro ⟨⟨h1, h2⟩, h3⟩
    rw [List.pairwise_append] at h1
    obtain ⟨a1, a2, a3⟩ := h1
    rw [List.pairwise_cons] at a2
    refine ⟨⟨⟨a1, fun kv h => h2 kv (by simp [h])⟩, fun kv h => h3 kv (by simp [h])⟩, ⟨⟨a2.2, fun kv h => h2 kv (by simp [h])⟩, fun kv h => h3 kv (by simp [h])⟩,
      fun x hx => a3 x hx (k, vs) (by simp), fun x hx => a2.1 x hx, fun x hx y hy => a3 x hx y (by simp [hy]), h2 (k, vs) (by simp), h3 (k, vs) (by simp)⟩
  · rintro ⟨⟨h1, h2⟩, ⟨h3, h4⟩, h5, h6, h7, h8, h9⟩
    refine ⟨⟨?_, ?_⟩, ?_⟩
    · rw [List.pairwise_append, List.pairwise_cons]
      refine ⟨h1.keys, ⟨h6, h3.keys⟩, fun x hx y hy => ?_⟩
      rcases List.mem_cons.1 hy with rfl | hy
      exacts [h5 x hx, h7 x hx y hy]
    · intro kv hkv
      simp only [List.mem_append, List.mem_cons] at hkv
      rcases hkv with h | rfl | h
      exacts [h1.vals _ h, h8, h3.vals _ h]
    · intro kv hkv
      simp only [List.mem_append, List.mem_cons] at hkv
      rcases hkv with h | rfl | h
      exacts [h2 _ h, h9, h4 _ h]

theorem canonical_joinKey {g0 h0 : Contents K V T R} {k : K} {vs ws : List (V × List (T × R))} (ha : Canonical (g0 ++ [(k, vs)])) (hb : Canonical ((k, ws) :: h0))
    (h : ∀ x ∈ vs, ∀ y ∈ ws, x.1 < y.1) : Canonical (g0 ++ (k, vs ++ ws) :: h0) := by
  rw [canonical_mid] at ha
  rw [← List.nil_append ((k, ws) :: h0), canonical_mid] at hb
  obtain ⟨a1, -, a3, -, -, a6, a7, a8⟩ := ha
  obtain ⟨-, b2, -, b4, -, b6, b7, b8⟩ := hb
  rw [canonical_mid]
  refine ⟨a1, b2, a3, b4, fun x hx y hy => (a3 x hx).trans (b4 y hy), List.pairwise_append.2 ⟨a6, b6, h⟩, by simp [a7], fun vu hvu => ?_⟩
  rcases List.mem_append.1 hvu with h | h
  exacts [a8 _ h, b8 _ h]

theorem canonical_joinVal {g0 h0 : Contents K V T R} {k : K} {v : V} {vs ws : List (V × List (T × R))} {ts us : List (T × R)}
    (ha : Canonical (g0 ++ [(k, vs ++ [(v, ts)])])) (hb : Canonical ((k, (v, us) :: ws) :: h0)) : Canonical (g0 ++ (k, vs ++ (v, ts ++ us) :: ws) :: h0) := by
  rw [canonical_mid] at ha
  rw [← List.nil_append ((k, (v, us) :: ws) :: h0), canonical_mid] at hb
  obtain ⟨a1, -, a3, -, -, a6, a7, a8⟩ := ha
  obtain ⟨-, b2, -, b4, -, b6, b7, b8⟩ := hb
  rw [canonical_mid]
  rw [List.pairwise_append] at a6
  rw [List.pairwise_cons] at b6
  refine ⟨a1, b2, a3, b4, fun x hx y hy => (a3 x hx).trans (b4 y hy), ?_, by simp, fun vu hvu => ?_⟩
  · rw [List.pairwise_append, List.pairwise_cons]
    refine ⟨a6.1, ⟨fun y hy => b6.1 y hy, b6.2⟩, fun x hx y hy => ?_⟩
    have := a6.2.2 x hx (v, ts) (by simp)
    rcases List.mem_cons.1 hy with rfl | hy
    exacts [this, lt_trans this (b6.1 y hy)]
  · simp only [List.mem_append, List.mem_cons] at hvu
    rcases hvu with h | rfl | h
    · exact a8 _ (by simp [h])
    · have := a8 (v, ts) (by simp); simp at this; simp [this]
    · exact b8 _ (by simp [h])

end canon

/-! ### Forming -/

section form
variable [LinearOrder K] [LinearOrder V] [LinearOrder (Lin T)] [AddCommMonoid R] [DecidableEq R]

theorem runScan_eq (us : Upds (K ×ₗ V) T R) (u : (K ×ₗ V) × T × R) (acc : R) :
    runScan (updLayout (K ×ₗ V) T R) u acc us =
      (let diff := (us.takeWhile fun w => w.1 = u.1 ∧ toLin w.2.1 = toLin u.2.1).foldl (fun diff w => diff + w.2.2) acc
       if diff = 0 then [] else [(u.1, u.2.1, diff)]) ++ scanned (updLayout (K ×ₗ V) T R) (us.dropWhile fun w => w.1 = u.1 ∧ toLin w.2.1 = toLin u.2.1) := by
  induction us generalizing u acc with
  | nil => simp [runScan, updLayout, scanned]
  | cons w us ih =>
    have hk : (updLayout (K ×ₗ V) T R).key w = (updLayout (K ×ₗ V) T R).key u ↔ w.1 = u.1 ∧ toLin w.2.1 = toLin u.2.1 := by
      simp only [updLayout, EmbeddingLike.apply_eq_iff_eq, Prod.mk.injEq]
    by_cases h : w.1 = u.1 ∧ toLin w.2.1 = toLin u.2.1
    · rw [runScan, if_pos (hk.2 h), ih, List.takeWhile_cons_of_pos (by simpa using h), List.dropWhile_cons_of_pos (by simpa using h)]
      have : w.2.1 = u.2.1 := h.2
      rw [h.1, this, List.foldl_cons]; rfl
    · rw [runScan, if_neg (mt hk.1 h), List.takeWhile_cons_of_neg (by simpa using h), List.dropWhile_cons_of_neg (by simpa using h)]
      rfl

theorem consolidating_eq (us : Upds (K ×ₗ V) T R) : consolidating us = scanned (updLayout (K ×ₗ V) T R) us := by
  induction hn : us.length using Nat.strong_induction_on generalizing us with
  | _ n ih =>
    cases us with
    | nil => rw [consolidating]; rfl
    | cons u us =>
      rw [consolidating, scanned, runScan_eq]
      have hlen := (List.dropWhile_sublist (l := us) fun w => w.1 = u.1 ∧ toLin w.2.1 = toLin u.2.1).length_le
      rw [ih _ (by rw [← hn, List.length_cons]; omega) _ rfl]
      have e : (updLayout (K ×ₗ V) T R).diff u = u.2.2 := rfl
      simp only [e]
      generalize (us.takeWhile fun w => w.1 = u.1 ∧ toLin w.2.1 = toLin u.2.1).foldl (fun diff w => diff + w.2.2) u.2.2 = d
      by_cases h : d = 0
      · rw [if_neg (by simpa using h), if_pos h]; rfl
      · rw [if_pos h, if_neg h]; rfl

/-- Sorted by key, value and time. -/
def SortedU (us : Upds (K ×ₗ V) T R) : Prop := us.Pairwise updLe

theorem sortedU_iff (us : Upds (K ×ₗ V) T R) : SortedU us ↔ us.Pairwise fun x y => (updLayout (K ×ₗ V) T R).key x ≤ (updLayout (K ×ₗ V) T R).key y := by
  simp only [SortedU, updLayout, Prod.Lex.toLex_le_toLex]; rfl

theorem consolidated_consolidating {us : Upds (K ×ₗ V) T R} (h : SortedU us) : Consolidated (consolidating us) := by
  rw [consolidating_eq, consolidated_iff]
  exact scanned_canon _ (updLayout_lawful _ _ _) us ((sortedU_iff us).1 h)

theorem total_consolidating [DecidableEq T] (us : Upds (K ×ₗ V) T R) (d : K ×ₗ V) (t : T) : total (consolidating us) d t = total us d t := by
  rw [consolidating_eq, total_eq_keyWeight, total_eq_keyWeight, keyWeight_eq, keyWeight_eq, measure_scanned _ (updLayout_lawful _ _ _)]

theorem colLe_total (u w : (K ×ₗ V) × T × R) : updLe u w ∨ updLe w u := by
  unfold updLe
  rcases lt_trichotomy u.1 w.1 with h | h | h
  · exact .inl (.inl h)
  · rcases le_total (toLin u.2.1) (toLin w.2.1) with h' | h'
    exacts [.inl (.inr ⟨h, h'⟩), .inr (.inr ⟨h.symm, h'⟩)]
  · exact .inr (.inl h)

theorem colLe_trans {u w x : (K ×ₗ V) × T × R} (h1 : updLe u w) (h2 : updLe w x) : updLe u x := by
  rcases h1 with h1 | ⟨e1, h1⟩ <;> rcases h2 with h2 | ⟨e2, h2⟩
  · exact .inl (h1.trans h2)
  · exact .inl (e2 ▸ h1)
  · exact .inl (e1 ▸ h2)
  · exact .inr ⟨e1.trans e2, h1.trans h2⟩

theorem sortedU_sort (us : Upds (K ×ₗ V) T R) : SortedU (us.insertionSort updLe) := by
  have : Std.Total (updLe (K := K) (V := V) (T := T) (R := R)) := ⟨colLe_total⟩
  have : IsTrans _ (updLe (K := K) (V := V) (T := T) (R := R)) := ⟨fun _ _ _ => colLe_trans⟩
  exact List.pairwise_insertionSort updLe us

theorem formStep_spec (g0 : Contents K V T R) (k : K) (vs0 : List (V × List (T × R))) (v : V) (ts : List (T × R)) (t0 : T) (r0 : R) (u : (K ×ₗ V) × T × R)
    (hc : Canonical (g0 ++ [(k, vs0 ++ [(v, ts)])])) (hlt : toLex (k, v) < u.1 ∨ (toLex (k, v) = u.1 ∧ toLin t0 < toLin u.2.1)) :
    ∃ g0' vs0' ts', formStep (openC g0 k vs0 v ts) (toLex (k, v), t0, r0) u = some (openC g0' (ofLex u.1).1 vs0' (ofLex u.1).2 ts') ∧
      Canonical (g0' ++ [((ofLex u.1).1, vs0' ++ [((ofLex u.1).2, ts')])]) ∧
      Contents.upds (g0' ++ [((ofLex u.1).1, vs0' ++ [((ofLex u.1).2, ts')])]) = Contents.upds (g0 ++ [(k, vs0 ++ [(v, ts)])]) ++ [u] := by
  obtain ⟨⟨k', v'⟩, t, r⟩ := u
  have hsingle : Canonical ([(k', [(v', [(t, r)])])] : Contents K V T R) := by
    refine ⟨⟨by simp, by simp⟩, ?_⟩
    intro kv hkv; simp at hkv; subst hkv; simp
  change (toLex (k, v) < toLex (k', v') ∨ (toLex (k, v) = toLex (k', v') ∧ toLin t0 < toLin t)) at hlt
  change ∃ g0' vs0' ts', formStep (openC g0 k vs0 v ts) (toLex (k, v), t0, r0) (toLex (k', v'), t, r) = some (openC g0' k' vs0' v' ts') ∧
      Canonical (g0' ++ [(k', vs0' ++ [(v', ts')])]) ∧
      Contents.upds (g0' ++ [(k', vs0' ++ [(v', ts')])]) = Contents.upds (g0 ++ [(k, vs0 ++ [(v, ts)])]) ++ [(toLex (k', v'), t, r)]
  rw [formStep]
  simp only [ofLex_toLex]
  by_cases h1 : k' = k
  · subst h1
    rw [if_neg (by simp)]
    by_cases h2 : v' = v
    · subst h2
      rw [if_neg (by simp)]
      have hlt' : toLin t0 < toLin t := by
        rcases hlt with h | h
        exacts [absurd h (lt_irrefl _), h.2]
      rw [if_pos hlt'.ne']
      refine ⟨g0, vs0, ts ++ [(t, r)], ?_, ?_, ?_⟩
      · simp [openC, Lists.push_of]
      · have := canonical_joinVal hc hsingle; simpa using this
      · simp [Contents.upds]
    · rw [if_pos h2]
      have hv : v < v' := by
        rcases hlt with h | h
        · rw [Prod.Lex.toLex_lt_toLex] at h
          rcases h with h | h
          exacts [absurd h (lt_irrefl _), h.2]
        · have := congrArg (fun x => (ofLex x).2) h.1
          exact absurd this.symm h2
      refine ⟨g0, vs0 ++ [(v, ts)], [(t, r)], ?_, ?_, ?_⟩
      · simp [openC, Lists.push_of]
      · have := canonical_joinKey hc hsingle (by
          intro x hx y hy
          simp only [List.mem_singleton] at hy; subst hy
          rcases List.mem_append.1 hx with hx | hx
          · rw [canonical_mid] at hc
            have := (List.pairwise_append.1 hc.2.2.2.2.2.1).2.2 x hx (v, ts) (by simp)
            exact lt_trans this hv
          · simp only [List.mem_singleton] at hx; subst hx; exact hv)
        simpa using this
      · simp [Contents.upds]
  · rw [if_pos h1]
    have hk : k < k' := by
      rcases hlt with h | h
      · rw [Prod.Lex.toLex_lt_toLex] at h
        rcases h with h | h
        exacts [h, absurd h.1.symm h1]
      · have := congrArg (fun x => (ofLex x).1) h.1
        exact absurd this.symm h1
    refine ⟨g0 ++ [(k, vs0 ++ [(v, ts)])], [], [(t, r)], ?_, ?_, ?_⟩
    · simp [openC, Lists.push_of, List.flatMap_append]
    · have := canonical_keys hc hsingle (by
        intro x hx y hy
        simp only [List.mem_singleton] at hy; subst hy
        rcases List.mem_append.1 hx with hx | hx
        · rw [canonical_mid] at hc
          exact lt_trans (hc.2.2.1 x hx) hk
        · simp only [List.mem_singleton] at hx; subst hx; exact hk)
      simpa using this
    · simp [Contents.upds]

theorem formLoop_spec (us : Upds (K ×ₗ V) T R) (g0 : Contents K V T R) (k : K) (vs0 : List (V × List (T × R))) (v : V) (ts : List (T × R)) (t0 : T) (r0 : R)
    (hc : Canonical (g0 ++ [(k, vs0 ++ [(v, ts)])]))
    (hs : ((toLex (k, v), t0, r0) :: us).Pairwise fun u w => u.1 < w.1 ∨ (u.1 = w.1 ∧ toLin u.2.1 < toLin w.2.1)) :
    ∃ g0' k' vs0' v' ts', formLoop (openC g0 k vs0 v ts) (toLex (k, v), t0, r0) us = some (openC g0' k' vs0' v' ts') ∧
      Canonical (g0' ++ [(k', vs0' ++ [(v', ts')])]) ∧
      Contents.upds (g0' ++ [(k', vs0' ++ [(v', ts')])]) = Contents.upds (g0 ++ [(k, vs0 ++ [(v, ts)])]) ++ us := by
  induction us generalizing g0 k vs0 v ts t0 r0 with
  | nil => exact ⟨g0, k, vs0, v, ts, rfl, hc, by simp⟩
  | cons u us ih =>
    rw [List.pairwise_cons] at hs
    obtain ⟨g1, vs1, ts1, e1, c1, u1⟩ := formStep_spec g0 k vs0 v ts t0 r0 u hc (hs.1 u (by simp))
    rw [formLoop, e1]
    obtain ⟨g2, k2, vs2, v2, ts2, e2, c2, u2⟩ := ih g1 _ vs1 _ ts1 u.2.1 u.2.2 c1 hs.2
    refine ⟨g2, k2, vs2, v2, ts2, e2, c2, ?_⟩
    rw [u2, u1]; simp

/-- `form` of sorted updates: the trie that holds them consolidated. -/
theorem form_holds {us : Upds (K ×ₗ V) T R} (hs : SortedU us) : ∃ t, form us = some t ∧ t.Holds (consolidating us) := by
  have hc := consolidated_consolidating hs
  rw [form]
  cases e : consolidating us with
  | nil => exact ⟨_, rfl, [], ⟨by simp, by simp⟩, by simp [NoEmpty], rfl, rfl⟩
  | cons u us' =>
    rw [e] at hc
    obtain ⟨⟨k, v⟩, t, r⟩ := u
    have h1 : Canonical ([] ++ [(k, [] ++ [(v, [(t, r)])])] : Contents K V T R) := by
      refine ⟨⟨by simp, by simp⟩, ?_⟩
      intro kv hkv; simp at hkv; subst hkv; simp
    obtain ⟨g2, k2, vs2, v2, ts2, e2, c2, u2⟩ := formLoop_spec us' [] k [] v [(t, r)] t r h1 hc.1
    have e3 : (⟨Lists.empty.push k, Lists.empty.push v, Lists.empty.push t, (Lists.empty.push r).close⟩ : ColTrie K V T R) = openC [] k [] v [(t, r)] := by
      simp [openC, Lists.push_of]
    change ∃ t', (match formLoop (⟨Lists.empty.push k, Lists.empty.push v, Lists.empty.push t, (Lists.empty.push r).close⟩ : ColTrie K V T R) (toLex (k, v), t, r) us' with
      | none => none
      | some output => some { output with keys := output.keys.close, vals := output.vals.close, times := output.times.close }) = some t' ∧ _
    rw [e3, e2]
    refine ⟨_, rfl, _, c2.1, c2.2, ?_, ?_⟩
    · rw [layout_forest (by simp)]; exact close_openC _ _ _ _ _
    · rw [u2]; rfl

end form

/-! ### Melding -/

section meld
variable [LinearOrder K] [LinearOrder V]

theorem extend_first {α : Type*} (L : List (List α)) (last x : List α) (X : List (List α)) (i : Nat) (hi : i ≤ x.length) :
    (Lists.opened L last).extendValues (.of (x :: X)) i x.length = .opened L (last ++ x.drop i) := by
  simp only [Lists.extendValues, Lists.opened, Lists.of, slice, List.flatten_cons, List.append_assoc]
  congr 3
  rw [List.drop_append_of_le_length hi, List.take_append_of_le_length (by simp), List.take_of_length_le (by simp)]

theorem extend_rest {α : Type*} (L : List (List α)) (last : List α) (X : List (List α)) (i n : Nat) (hi : i ≤ X.length) (hn : n = X.length) :
    (Lists.opened L last).close.extendFromSelf (.of X) i n = some (.of (L ++ [last] ++ X.drop i)) := by
  subst hn
  rw [Lists.close_opened, Lists.extend_of _ _ hi (le_refl _), slice, List.take_of_length_le (by simp)]

theorem canonical_drop_last {g0 : Contents K V T R} {k : K} {vs : List (V × List (T × R))} (h : Canonical (g0 ++ [(k, vs)])) : ∀ x ∈ g0, x.1 < k :=
  (canonical_mid.1 h).2.2.1

theorem meldKeys_both (ks : List K) (k : K) (ks' : List K) : meldKeys true (Lists.opened [] ks) (.of [k :: ks']) = .opened [] (ks ++ ks') := by
  rw [meldKeys, if_pos rfl]
  cases ks' with
  | nil => simp [Lists.of]
  | cons k' ks' => simp [Lists.of, Lists.extendValues, Lists.opened, slice]

theorem meldKeys_none (ks ks' : List K) : meldKeys false (Lists.opened [] ks) (.of [ks']) = .opened [] (ks ++ ks') := by
  rw [meldKeys, if_neg (by simp)]
  simp [Lists.of, Lists.extendValues, Lists.opened, slice]

theorem meldVals_none (vm : Bool) (n : Nat) (r : Nat × Nat) (L : List (List V)) (last : List V) (X : List (List V)) (hn : n = X.length) :
    meldVals false vm n r (.opened L last) (.of X) = some (Lists.of (L ++ [last] ++ X)).reopen := by
  rw [meldVals, if_neg (by simp), extend_rest _ _ _ _ _ (Nat.zero_le _) hn]; simp

theorem extend_more {α : Type*} (L : List (List α)) (last x : List α) (X : List (List α)) (n : Nat) (hn : n = X.length + 1) :
    (if n > 1 then ((Lists.opened L last).close.extendFromSelf (.of (x :: X)) 1 n).map Lists.reopen else some (Lists.opened L last)) =
      some (Lists.of (L ++ [last] ++ X)).reopen := by
  cases X with
  | nil => rw [if_neg (by simp [hn]), List.append_nil, Lists.reopen_of]
  | cons y X => rw [if_pos (by simp [hn]), extend_rest _ _ _ _ _ (by simp) (by simpa using hn)]; simp

theorem meldVals_key (n m : Nat) (L : List (List V)) (last x : List V) (X : List (List V)) (hn : n = X.length + 1) (hm : m = x.length) :
    meldVals true false n (0, m) (.opened L last) (.of (x :: X)) = some (Lists.of (L ++ [last ++ x] ++ X)).reopen := by
  subst hm
  rw [meldVals, if_pos rfl]
  simp only [Bool.false_eq_true, if_false]
  rw [extend_first _ _ _ _ _ (Nat.zero_le _), List.drop_zero, extend_more _ _ _ _ _ hn]

theorem meldVals_both (n m : Nat) (L : List (List V)) (last : List V) (v : V) (x : List V) (X : List (List V)) (hn : n = X.length + 1) (hm : m = x.length + 1) :
    meldVals true true n (0, m) (.opened L last) (.of ((v :: x) :: X)) = some (Lists.of (L ++ [last ++ x] ++ X)).reopen := by
  subst hm
  rw [meldVals, if_pos rfl]
  simp only [if_true]
  have : (if x.length + 1 - 0 > 1 then (Lists.opened L last).extendValues (.of ((v :: x) :: X)) (0 + 1) (x.length + 1) else Lists.opened L last) = .opened L (last ++ x) := by
    split_ifs with h
    · have := extend_first L last (v :: x) X 1 (by simp)
      simpa using this
    · obtain rfl : x = [] := List.length_eq_zero_iff.1 (by omega)
      simp
  rw [this, extend_more _ _ _ _ _ hn]

theorem meldTimes_none (n : Nat) (r : Nat × Nat) (L : List (List T)) (last : List T) (X : List (List T)) (hn : n = X.length) :
    meldTimes false n r (.opened L last) (.of X) = some (Lists.of (L ++ [last] ++ X)).reopen := by
  rw [meldTimes, if_neg (by simp), extend_rest _ _ _ _ _ (Nat.zero_le _) hn]; simp

theorem meldTimes_both (n m : Nat) (L : List (List T)) (last x : List T) (X : List (List T)) (hn : n = X.length + 1) (hm : m = x.length) :
    meldTimes true n (0, m) (.opened L last) (.of (x :: X)) = some (Lists.of (L ++ [last ++ x] ++ X)).reopen := by
  subst hm
  rw [meldTimes, if_pos rfl]
  simp only
  rw [extend_first _ _ _ _ _ (Nat.zero_le _), List.drop_zero, extend_more _ _ _ _ _ hn]

/-- The columns of two tries, the second after the first, put together. -/
theorem meld_spec (a b : Contents K V T R) (ha : Canonical a) (hb : Canonical b) (na : a ≠ []) (nb : b ≠ []) (h : ∀ u ∈ a.upds, ∀ w ∈ b.upds, u.1 ≤ w.1) :
    ∃ e, Canonical e ∧ e ≠ [] ∧ e.upds = a.upds ++ b.upds ∧ meld (layoutC a).reopen (layoutC b) = some (layoutC e).reopen := by
  obtain ⟨g0, k, vs0, v, ts, rfl, hts⟩ := split_last na ha.2
  obtain ⟨k', v', ts', vs', h0, rfl, hts'⟩ := split_first nb hb.2
  rw [reopen_layoutC]
  have hle : toLex (k, v) ≤ toLex (k', v') := by
    obtain ⟨x, xs, rfl⟩ := List.exists_cons_of_ne_nil hts
    obtain ⟨y, ys, rfl⟩ := List.exists_cons_of_ne_nil hts'
    refine h (toLex (k, v), x) ?_ (toLex (k', v'), y) ?_
    · simp [Contents.upds]
    · simp [Contents.upds]
  have hlen : ¬ (layoutC ((k', (v', ts') :: vs') :: h0)).len = 0 := by
    simp only [ColTrie.len, layoutC, Lists.of]
    have := List.length_pos_iff.2 hts'
    simp [Function.comp_def]; intro h; exact absurd h hts'
  have hkl : ¬ (openC g0 k vs0 v ts).keys.values.length = 0 := by simp [openC, Lists.opened]
  have e1 : (openC g0 k vs0 v ts).keys.values.getLast? = some k := by simp [openC, Lists.opened]
  have e2 : (openC g0 k vs0 v ts).vals.values.getLast? = some v := by simp [openC, Lists.opened]
  have e3 : (layoutC ((k', (v', ts') :: vs') :: h0)).keys.values.head? = some k' := by simp [layoutC, Lists.of]
  have e4 : (layoutC ((k', (v', ts') :: vs') :: h0)).vals.values.head? = some v' := by simp [layoutC, Lists.of]
  have e5 : (layoutC ((k', (v', ts') :: vs') :: h0)).vals.range 0 = some (0, vs'.length + 1) := by
    rw [layoutC]; simp only; rw [Lists.range_of _ _ (by simp)]; simp [startAt]
  have e6 : (layoutC ((k', (v', ts') :: vs') :: h0)).times.range 0 = some (0, ts'.length) := by
    rw [layoutC]; simp only; rw [Lists.range_of _ _ (by simp)]; simp [startAt]
  have kv1 : (layoutC ((k', (v', ts') :: vs') :: h0)).keys.values = k' :: h0.map Prod.fst := by simp [layoutC, Lists.of]
  have vv1 : (layoutC ((k', (v', ts') :: vs') :: h0)).vals.values.length = (((k', (v', ts') :: vs') :: h0).flatMap Prod.snd).length := by
    simp [layoutC, Lists.of, List.length_flatMap, Function.comp_def]
  have tv1 : (layoutC ((k', (v', ts') :: vs') :: h0)).times.values.length = ((((k', (v', ts') :: vs') :: h0).flatMap Prod.snd).flatMap Prod.snd).length := by
    simp [layoutC, Lists.of, List.length_flatMap, Function.comp_def, List.map_flatMap]
  have hd : (openC g0 k vs0 v ts).diffs.extendFromSelf (layoutC ((k', (v', ts') :: vs') :: h0)).diffs 0 (layoutC ((k', (v', ts') :: vs') :: h0)).times.values.length =
      some (.of ((((g0.flatMap Prod.snd ++ vs0).flatMap Prod.snd ++ ts) ++ (((k', (v', ts') :: vs') :: h0).flatMap Prod.snd).flatMap Prod.snd).map fun u => [u.2])) := by
    rw [tv1, openC, layoutC]
    simp only
    rw [Lists.extend_of _ _ (Nat.zero_le _) (by simp), slice_all _ (by simp)]
    simp
  rw [meld, if_neg hlen, if_neg hkl]
  simp only [e1, e2, e4, e5, e6, Option.bind_some, hd, kv1, vv1, List.head?_cons, Option.some.injEq]
  rw [openC, layoutC]
  simp only [List.map_cons, List.flatMap_cons, List.cons_append]
  by_cases h1 : k = k'
  · subst h1
    simp only [decide_true, Bool.true_and]
    by_cases h2 : v = v'
    · subst h2
      simp only [decide_true]
      refine ⟨g0 ++ (k, vs0 ++ (v, ts ++ ts') :: vs') :: h0, canonical_joinVal ha hb, by simp, by simp [Contents.upds], ?_⟩
      rw [meldVals_both _ _ _ _ _ _ _ (by simp) (by simp), Option.bind_some, meldTimes_both _ _ _ _ _ _ (by simp) (by simp), Option.bind_some, meldKeys_both]
      simp [ColTrie.reopen, layoutC, List.flatMap_append, Lists.opened, Lists.reopen, Lists.of, ends]
    · simp only [h2, decide_false]
      have hv : v < v' := by
        rw [Prod.Lex.toLex_le_toLex] at hle
        rcases hle with h | h
        exacts [absurd h (lt_irrefl _), lt_of_le_of_ne h.2 h2]
      refine ⟨g0 ++ (k, (vs0 ++ [(v, ts)]) ++ (v', ts') :: vs') :: h0, canonical_joinKey ha hb ?_, by simp, by simp [Contents.upds], ?_⟩
      · intro x hx y hy
        have hx' : x.1 ≤ v := by
          rcases List.mem_append.1 hx with hx | hx
          · have := (canonical_mid.1 ha).2.2.2.2.2.1
            exact ((List.pairwise_append.1 this).2.2 x hx (v, ts) (by simp)).le
          · simp only [List.mem_singleton] at hx; subst hx; exact le_refl _
        have hy' : v' ≤ y.1 := by
          rcases List.mem_cons.1 hy with rfl | hy
          · exact le_refl _
          · have := (canonical_mid (g0 := []).1 hb).2.2.2.2.2.1
            exact ((List.pairwise_cons.1 this).1 y hy).le
        exact lt_of_le_of_lt hx' (lt_of_lt_of_le hv hy')
      rw [meldVals_key _ _ _ _ _ _ (by simp) (by simp), Option.bind_some, meldTimes_none _ _ _ _ _ (by simp), Option.bind_some, meldKeys_both]
      simp [ColTrie.reopen, layoutC, List.flatMap_append, Lists.opened, Lists.reopen, Lists.of, ends]
  · simp only [h1, decide_false, Bool.false_and]
    have hk : k < k' := by
      rw [Prod.Lex.toLex_le_toLex] at hle
      rcases hle with h | h
      exacts [h, absurd h.1 h1]
    refine ⟨(g0 ++ [(k, vs0 ++ [(v, ts)])]) ++ (k', (v', ts') :: vs') :: h0, canonical_keys ha hb ?_, by simp, by simp [Contents.upds], ?_⟩
    · intro x hx y hy
      have hx' : x.1 ≤ k := by
        rcases List.mem_append.1 hx with hx | hx
        · exact (canonical_drop_last ha x hx).le
        · simp only [List.mem_singleton] at hx; subst hx; exact le_refl _
      have hy' : k' ≤ y.1 := by
        rcases List.mem_cons.1 hy with rfl | hy
        · exact le_refl _
        · exact (canonical_mid (g0 := []).1 hb).2.2.2.1 y hy |>.le
      exact lt_of_le_of_lt hx' (lt_of_lt_of_le hk hy')
    rw [meldVals_none _ _ _ _ _ _ (by simp), Option.bind_some, meldTimes_none _ _ _ _ _ (by simp), Option.bind_some, meldKeys_none]
    simp [ColTrie.reopen, layoutC, List.flatMap_append, Lists.opened, Lists.reopen, Lists.of, ends]

end meld

end DD
