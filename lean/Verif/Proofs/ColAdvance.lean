import Verif.Proofs.ColMerge
import Verif.Proofs.ChunkAdvance

/-! Advancing columnar tries. -/

namespace DD
set_option linter.unusedSectionVars false

theorem foldlM_range' {σ : Type*} (f : σ → Nat → Option σ) (I : Nat → σ) (start : Nat) : ∀ n, (∀ i < n, f (I i) (start + i) = some (I (i + 1))) →
    (List.range' start n).foldlM f (I 0) = some (I n) := by
  intro n
  induction n with
  | zero => intro _; rfl
  | succ n ih =>
    intro h
    rw [List.range'_1_concat, List.foldlM_append, ih fun i hi => h i (by omega)]
    simp [h n (by omega)]

theorem mapM_range' {β : Type*} (f : Nat → Option β) (start : Nat) (l : List β) (h : ∀ i, (hi : i < l.length) → f (start + i) = some l[i]) :
    (List.range' start l.length).mapM f = some l := by
  induction l generalizing start with
  | nil => rfl
  | cons b l ih =>
    have h0 := h 0 (by simp)
    rw [List.length_cons, List.range'_succ, List.mapM_cons]
    simp only [Nat.add_zero, List.getElem_cons_zero] at h0
    rw [h0, ih (start + 1) fun i hi => by
      have := h (i + 1) (by simpa using hi)
      rw [List.getElem_cons_succ] at this
      rw [← this]; congr 1; omega]
    rfl

theorem flatten_get {α : Type*} (ls : List (List α)) {j : Nat} (hj : j < ls.length) {i : Nat} (hi : i < ls[j].length) : ls.flatten[startAt ls j + i]? = some ls[j][i] := by
  induction ls generalizing j with
  | nil => simp at hj
  | cons l ls ih =>
    cases j with
    | zero =>
      simp only [List.getElem_cons_zero] at hi ⊢
      rw [startAt_zero, Nat.zero_add, List.flatten_cons, List.getElem?_append_left hi, List.getElem?_eq_getElem hi]
    | succ j =>
      simp only [List.getElem_cons_succ] at hi ⊢
      rw [startAt_cons, List.flatten_cons, List.getElem?_append_right (by omega), show l.length + startAt ls j + i - l.length = startAt ls j + i by omega]
      exact ih _ hi

theorem startAt_singles {α β : Type*} (l : List α) (f : α → β) {n : Nat} (h : n ≤ l.length) : startAt (l.map fun x => [f x]) n = n := by
  rw [startAt, ← List.map_take]
  simp [Function.comp_def, h]

section
variable {D T R : Type*} [LinearOrder D] [LinearOrder (Lin T)] [AddCommMonoid R] [DecidableEq R]

theorem foldl_add_map (d0 : D) (l : List (T × R)) (r : R) : (l.map fun u => (d0, u)).foldl (fun diff v => diff + v.2.2) r = l.foldl (fun d w => d + w.2) r := by
  rw [List.foldl_map]

theorem coalesced_map (d0 : D) (run : List (T × R)) : coalesced (run.map fun u => (d0, u)) = (ColTrie.mergeRun run).map fun u => (d0, u) := by
  fun_induction ColTrie.mergeRun run with
  | case1 => simp [coalesced]
  | case2 u run d rest h ih =>
    rw [List.map_cons, coalesced]
    simp only [List.takeWhile_map, List.dropWhile_map, Function.comp_def, foldl_add_map, ih]
    rw [if_pos h]; rfl
  | case3 u run d rest h ih =>
    rw [List.map_cons, coalesced]
    simp only [List.takeWhile_map, List.dropWhile_map, Function.comp_def, foldl_add_map, ih]
    rw [if_neg h]; rfl

variable [DecidableEq T] [Lattice T]

/-- The times and differences of a value, advanced. -/
def runOf (F : List T) (ts : List (T × R)) : List (T × R) := ColTrie.mergeRun ((ts.map fun u => (advanceBy u.1 F, u.2)).insertionSort fun a b => toLin a.1 ≤ toLin b.1)

theorem insertionSort_map_pair (d0 : D) (l : List (T × R)) :
    ((l.map fun u => (d0, u)).insertionSort fun a b => toLin a.2.1 ≤ toLin b.2.1) = (l.insertionSort fun a b => toLin a.1 ≤ toLin b.1).map fun u => (d0, u) := by
  symm
  apply List.map_insertionSort
  intro a _ b _
  rfl

theorem advanced_nil (F : List T) : advanced F ([] : Upds D T R) = [] := by
  have := chunkAdvance_spec 1 F ([] : Chain D T R) [] true List.Pairwise.nil (by simp [Full])
  obtain ⟨a, b, h1, h2, -, h3, -⟩ := this
  have ha : a = [] := by
    have := congrArg List.length h1
    simp at this
    exact List.length_eq_zero_iff.1 (by omega)
  subst ha
  simpa [chunkAdvance] using h3.symm

theorem runOf_spec (F : List T) (d0 : D) (ts : List (T × R)) : (runOf F ts).map (fun u => (d0, u)) = advanced F (ts.map fun u => (d0, u)) := by
  rw [← group_spec F _ d0 (by intro u hu; obtain ⟨_, _, rfl⟩ := List.mem_map.1 hu; rfl), List.map_map, runOf, ← coalesced_map, ← insertionSort_map_pair, List.map_map]
  rfl

end

section
variable {K V T R : Type*}

/-- The output in the loop over the values of a key. -/
def stateV (P : Contents K V T R) (k : K) (Q : List (V × List (T × R))) : ColTrie K V T R where
  keys := .opened [] (P.map Prod.fst ++ if Q = [] then [] else [k])
  vals := .opened (P.map fun k => k.2.map Prod.fst) (Q.map Prod.fst)
  times := .of ((P.flatMap Prod.snd ++ Q).map fun v => v.2.map Prod.fst)
  diffs := .of (((P.flatMap Prod.snd ++ Q).flatMap Prod.snd).map fun u => [u.2])

/-- The output in the loop over the keys. -/
def stateK (P : Contents K V T R) : ColTrie K V T R where
  keys := .opened [] (P.map Prod.fst)
  vals := .of (P.map fun k => k.2.map Prod.fst)
  times := .of ((P.flatMap Prod.snd).map fun v => v.2.map Prod.fst)
  diffs := .of (((P.flatMap Prod.snd).flatMap Prod.snd).map fun u => [u.2])

theorem stateV_nil (P : Contents K V T R) (k : K) : stateV P k [] = stateK P := by
  simp [stateV, stateK, Lists.opened_nil]

theorem stateK_nil : stateK ([] : Contents K V T R) = ColTrie.empty := rfl

theorem pushRun_spec (run : List (T × R)) (t : ColTrie K V T R) (tss : List (List T)) : ∀ (xs : List T) (ds : List (List R)), t.times = .opened tss xs → t.diffs = .of ds →
    ColTrie.pushRun run t = { t with times := .opened tss (xs ++ run.map Prod.fst), diffs := .of (ds ++ run.map fun u => [u.2]) } := by
  induction run generalizing t with
  | nil =>
    intro xs ds h1 h2
    obtain ⟨a, b, c, d⟩ := t
    simp only at h1 h2
    simp [ColTrie.pushRun, h1, h2]
  | cons u run ih =>
    intro xs ds h1 h2
    have : ColTrie.pushRun (u :: run) t = ColTrie.pushRun run { t with times := t.times.push u.1, diffs := (t.diffs.push u.2).close } := rfl
    rw [this, ih { t with times := t.times.push u.1, diffs := (t.diffs.push u.2).close } (xs ++ [u.1]) (ds ++ [[u.2]]) (by rw [h1, Lists.push_opened]) (by rw [h2, Lists.push_of, Lists.close_opened])]
    simp

end

section
variable {K V T R : Type*} [LinearOrder (Lin T)] [AddCommMonoid R] [DecidableEq R] [Lattice T]

/-- The values of a key, advanced. -/
def advV (F : List T) (vs : List (V × List (T × R))) : List (V × List (T × R)) := (vs.map fun v => (v.1, runOf F v.2)).filter fun v => !v.2.isEmpty

/-- Contents, advanced. -/
def advC (F : List T) (c : Contents K V T R) : Contents K V T R := (c.map fun k => (k.1, advV F k.2)).filter fun k => !k.2.isEmpty

theorem advV_snoc (F : List T) (vs : List (V × List (T × R))) (v : V × List (T × R)) :
    advV F (vs ++ [v]) = advV F vs ++ if runOf F v.2 = [] then [] else [(v.1, runOf F v.2)] := by
  rw [advV, List.map_append, List.filter_append, ← advV, List.map_singleton, List.filter_singleton]
  cases h : runOf F v.2 <;> simp

theorem advC_snoc (F : List T) (c : Contents K V T R) (k : K × List (V × List (T × R))) :
    advC F (c ++ [k]) = advC F c ++ if advV F k.2 = [] then [] else [(k.1, advV F k.2)] := by
  rw [advC, List.map_append, List.filter_append, ← advC, List.map_singleton, List.filter_singleton]
  cases h : advV F k.2 <;> simp

theorem gather_spec (c : Contents K V T R) (F : List T) {j : Nat} (hj : j < (c.flatMap Prod.snd).length) :
    ColTrie.gather (layoutC c) F j = some ((c.flatMap Prod.snd)[j].2.map fun u => (advanceBy u.1 F, u.2)) := by
  simp only [ColTrie.gather, layoutC]
  generalize c.flatMap Prod.snd = H at hj
  have hst : ∀ i, startAt (H.map fun v => v.2.map Prod.fst) i = startAt (H.map Prod.snd) i := fun i => startAt_map H Prod.snd Prod.fst i
  rw [Lists.range_of _ _ (by simpa using hj), Option.bind_some, hst, hst]
  have hs := startAt_succ (H.map Prod.snd) (i := j) (by simpa using hj)
  simp only [List.getElem_map] at hs
  have hb : startAt (H.map Prod.snd) (j + 1) ≤ (H.flatMap Prod.snd).length := startAt_le_flatMap H Prod.snd (j + 1)
  have key := mapM_range' (fun time_idx =>
      ((Lists.of (H.map fun v => v.2.map Prod.fst)).values[time_idx]?).bind fun time =>
      ((Lists.of ((H.flatMap Prod.snd).map fun u => [u.2])).range time_idx).bind fun d =>
      ((List.range' d.1 (d.2 - d.1)).mapM fun diff_idx => (Lists.of ((H.flatMap Prod.snd).map fun u => [u.2])).values[diff_idx]?).map fun diffs => (advanceBy time F, diffs.foldl (· + ·) 0))
    (startAt (H.map Prod.snd) j) (H[j].2.map fun u => (advanceBy u.1 F, u.2)) (by
      intro i hi
      simp only [List.length_map] at hi
      have g1 : (Lists.of (H.map fun v => v.2.map Prod.fst)).values[startAt (H.map Prod.snd) j + i]? = some (H[j].2[i]).1 := by
        rw [← hst]
        simp only [Lists.of]
        rw [flatten_get (H.map fun v => v.2.map Prod.fst) (j := j) (by simpa using hj) (i := i) (by simpa using hi)]
        simp
      have g2 : (H.flatMap Prod.snd)[startAt (H.map Prod.snd) j + i]? = some H[j].2[i] := by
        rw [List.flatMap_def, flatten_get (H.map Prod.snd) (j := j) (by simpa using hj) (i := i) (by simpa using hi)]
        simp
      have g3 : (Lists.of ((H.flatMap Prod.snd).map fun u => [u.2])).values[startAt (H.map Prod.snd) j + i]? = some (H[j].2[i]).2 := by
        have : (Lists.of ((H.flatMap Prod.snd).map fun u => [u.2])).values = (H.flatMap Prod.snd).map Prod.snd := by
          simp only [Lists.of]; rw [← List.flatMap_def]; exact List.map_eq_flatMap.symm
        rw [this, List.getElem?_map, g2]; rfl
      have g4 := Lists.range_of ((H.flatMap Prod.snd).map fun u => [u.2]) (startAt (H.map Prod.snd) j + i) (by rw [List.length_map]; omega)
      rw [startAt_singles _ _ (by omega), startAt_singles _ _ (by omega)] at g4
      rw [g1, Option.bind_some, g4, Option.bind_some]
      simp [g3, List.range'_one])
  rw [List.length_map, show H[j].2.length = startAt (H.map Prod.snd) (j + 1) - startAt (H.map Prod.snd) j by omega] at key
  exact key

theorem advanceVal_spec (c P : Contents K V T R) (F : List T) {i : Nat} (hi : i < c.length) (Q : List (V × List (T × R))) {j : Nat} (hj : j < c[i].2.length) :
    ColTrie.advanceVal (layoutC c) F i (stateV P c[i].1 Q, decide (Q ≠ [])) (startAt (c.map Prod.snd) i + j) =
      some (stateV P c[i].1 (Q ++ if runOf F c[i].2[j].2 = [] then [] else [(c[i].2[j].1, runOf F c[i].2[j].2)]),
        decide ((Q ++ if runOf F c[i].2[j].2 = [] then [] else [(c[i].2[j].1, runOf F c[i].2[j].2)]) ≠ [])) := by
  have g2 : (c.flatMap Prod.snd)[startAt (c.map Prod.snd) i + j]? = some c[i].2[j] := by
    rw [List.flatMap_def, flatten_get (c.map Prod.snd) (j := i) (by simpa using hi) (i := j) (by simpa using hj)]
    simp
  obtain ⟨hlt, g3⟩ := List.getElem?_eq_some_iff.1 g2
  rw [ColTrie.advanceVal, gather_spec c F hlt, Option.bind_some, g3]
  have hrun : ColTrie.mergeRun ((c[i].2[j].2.map fun u => (advanceBy u.1 F, u.2)).insertionSort fun a b => toLin a.1 ≤ toLin b.1) = runOf F c[i].2[j].2 := rfl
  simp only [hrun]
  by_cases hr : runOf F c[i].2[j].2 = []
  · simp [hr]
  · have hk : (layoutC c).keys.values[i]? = some c[i].1 := by simp [layoutC, Lists.of, hi]
    have hv : (layoutC c).vals.values[startAt (c.map Prod.snd) i + j]? = some c[i].2[j].1 := by
      have : (layoutC c).vals.values = (c.flatMap Prod.snd).map Prod.fst := by
        simp only [layoutC, Lists.of]; rw [← List.flatMap_def, List.map_flatMap]
      rw [this, List.getElem?_map, g2]; rfl
    rw [if_neg (by simpa using hr), hk, hv]
    simp only [if_neg hr]
    generalize c[i].2[j].1 = v
    generalize runOf F c[i].2[j].2 = run at hr
    generalize c[i].1 = k
    congr 1
    refine Prod.ext ?_ (by simp)
    simp only
    by_cases hQ : Q = []
    · subst hQ
      simp only [decide_not, decide_true, Bool.not_true, Bool.false_eq_true, if_false]
      rw [pushRun_spec run _ ((P.flatMap Prod.snd).map fun v => v.2.map Prod.fst) [] (((P.flatMap Prod.snd).flatMap Prod.snd).map fun u => [u.2]) (by simp [stateV, Lists.opened_nil]) (by simp [stateV])]
      simp [stateV, List.flatMap_append]
    · simp only [hQ, decide_not, decide_false, Bool.not_false, if_true]
      rw [pushRun_spec run _ ((P.flatMap Prod.snd ++ Q).map fun v => v.2.map Prod.fst) [] (((P.flatMap Prod.snd ++ Q).flatMap Prod.snd).map fun u => [u.2]) (by simp [stateV, Lists.opened_nil]) (by simp [stateV])]
      simp [stateV, List.flatMap_append, hQ]

theorem advanceKey_spec (c : Contents K V T R) (F : List T) {i : Nat} (hi : i < c.length) (P : Contents K V T R) :
    ColTrie.advanceKey (layoutC c) F (stateK P, decide (P ≠ [])) i =
      some (stateK (P ++ if advV F c[i].2 = [] then [] else [(c[i].1, advV F c[i].2)]), decide ((P ++ if advV F c[i].2 = [] then [] else [(c[i].1, advV F c[i].2)]) ≠ [])) := by
  have hst : ∀ n, startAt (c.map fun k => k.2.map Prod.fst) n = startAt (c.map Prod.snd) n := fun n => startAt_map c Prod.snd Prod.fst n
  have hs := startAt_succ (c.map Prod.snd) (i := i) (by simpa using hi)
  simp only [List.getElem_map] at hs
  have hrange : (layoutC c).vals.range i = some (startAt (c.map Prod.snd) i, startAt (c.map Prod.snd) (i + 1)) := by
    simp only [layoutC]
    rw [Lists.range_of _ _ (by simpa using hi), hst, hst]
  rw [ColTrie.advanceKey, hrange, Option.bind_some]
  simp only [show startAt (c.map Prod.snd) (i + 1) - startAt (c.map Prod.snd) i = c[i].2.length by omega]
  have key := foldlM_range' (ColTrie.advanceVal (layoutC c) F i) (fun n => (stateV P c[i].1 (advV F (c[i].2.take n)), decide (advV F (c[i].2.take n) ≠ [])))
    (startAt (c.map Prod.snd) i) c[i].2.length (by
      intro j hj
      rw [advanceVal_spec c P F hi _ hj, List.take_succ_eq_append_getElem hj, advV_snoc])
  have h0 : (stateV P c[i].1 (advV F (c[i].2.take 0)), decide (advV F (c[i].2.take 0) ≠ [])) = (stateK P, false) := by
    simp [advV, stateV_nil]
  simp only [h0, List.take_length] at key
  rw [key, Option.map_some]
  by_cases hQ : advV F c[i].2 = []
  · simp [hQ, stateV_nil]
  · simp only [hQ, ne_eq, not_false_eq_true, decide_true, if_true, if_false]
    congr 1
    refine Prod.ext ?_ (by simp)
    simp [stateV, stateK, hQ, List.flatMap_append]

theorem advanceTrie_layout (c : Contents K V T R) (F : List T) : ColTrie.advanceTrie (layoutC c) F = some (advC F c).forest.layout := by
  have hl : (layoutC c).keys.values.length = c.length := by simp [layoutC, Lists.of]
  rw [ColTrie.advanceTrie, hl, List.range_eq_range']
  have key := foldlM_range' (ColTrie.advanceKey (layoutC c) F) (fun n => (stateK (advC F (c.take n)), decide (advC F (c.take n) ≠ []))) 0 c.length (by
    intro i hi
    simp only [Nat.zero_add]
    rw [advanceKey_spec c F hi, List.take_succ_eq_append_getElem hi, advC_snoc])
  have h0 : (stateK (advC F (c.take 0)), decide (advC F (c.take 0) ≠ [])) = ((ColTrie.empty : ColTrie K V T R), false) := by
    simp [advC, stateK_nil]
  simp only [h0, List.take_length] at key
  rw [key, Option.map_some]
  by_cases hQ : advC F c = []
  · simp only [hQ, ne_eq, not_true_eq_false, decide_false, Bool.false_eq_true, if_false]; rfl
  · rw [layout_forest hQ]
    simp [hQ, stateK, layoutC]

end

section
variable {K V T R : Type*} [LinearOrder K] [LinearOrder V] [LinearOrder (Lin T)] [AddCommMonoid R] [DecidableEq R] [Lattice T] [DecidableEq T]

theorem canonical_advC (F : List T) {c : Contents K V T R} (h : Canonical c) : Canonical (advC F c) := by
  refine ⟨⟨?_, ?_⟩, ?_⟩
  · rw [advC]
    exact List.Pairwise.sublist List.filter_sublist (by rw [List.pairwise_map]; exact h.1.keys)
  · intro kv hkv
    obtain ⟨hkv, -⟩ := List.mem_filter.1 hkv
    obtain ⟨k, hk, rfl⟩ := List.mem_map.1 hkv
    simp only [advV]
    exact List.Pairwise.sublist List.filter_sublist (by rw [List.pairwise_map]; exact h.1.vals k hk)
  · intro kv hkv
    obtain ⟨hkv, hne⟩ := List.mem_filter.1 hkv
    refine ⟨by simpa using hne, ?_⟩
    obtain ⟨k, hk, rfl⟩ := List.mem_map.1 hkv
    intro v hv
    obtain ⟨-, hne⟩ := List.mem_filter.1 hv
    simpa using hne

theorem upds_advV (F : List T) (k : K) (vs : List (V × List (T × R))) (h : vs.Pairwise fun x y => x.1 < y.1) :
    ((advV F vs).flatMap fun v => v.2.map fun u => ((toLex (k, v.1) : K ×ₗ V), u)) = advanced F (vs.flatMap fun v => v.2.map fun u => (toLex (k, v.1), u)) := by
  induction vs with
  | nil => simp [advV, advanced_nil]
  | cons v vs ih =>
    rw [List.pairwise_cons] at h
    rw [List.flatMap_cons, advanced_append, ← ih h.2, ← runOf_spec]
    · have : advV F (v :: vs) = (if runOf F v.2 = [] then [] else [(v.1, runOf F v.2)]) ++ advV F vs := by
        rw [advV, List.map_cons, List.filter_cons, ← advV]
        cases h : runOf F v.2 <;> simp
      rw [this, List.flatMap_append]
      congr 1
      split_ifs with h
      · simp [h]
      · simp
    · intro a ha b hb
      obtain ⟨u, -, rfl⟩ := List.mem_map.1 ha
      obtain ⟨w, hw, hb⟩ := List.mem_flatMap.1 hb
      obtain ⟨x, -, rfl⟩ := List.mem_map.1 hb
      exact Prod.Lex.toLex_lt_toLex.2 (Or.inr ⟨rfl, h.1 w hw⟩)

theorem upds_advC (F : List T) {c : Contents K V T R} (h : ContentsSorted c) : (advC F c).upds = advanced F c.upds := by
  induction c with
  | nil => simp [advC, advanced_nil]
  | cons k c ih =>
    obtain ⟨k, vs⟩ := k
    have h1 := List.pairwise_cons.1 h.keys
    have hs : ContentsSorted c := ⟨h1.2, fun kv hkv => h.vals kv (by simp [hkv])⟩
    rw [Contents.upds_cons, advanced_append, ← ih hs, ← upds_advV F k vs (h.vals _ List.mem_cons_self)]
    · have : advC F ((k, vs) :: c) = (if advV F vs = [] then [] else [(k, advV F vs)]) ++ advC F c := by
        rw [advC, List.map_cons, List.filter_cons, ← advC]
        cases advV F vs <;> simp
      rw [this, Contents.upds_append]
      congr 1
      split_ifs with h
      · simp [h]
      · simp [Contents.upds]
    · intro a ha b hb
      obtain ⟨v, -, ha⟩ := List.mem_flatMap.1 ha
      obtain ⟨u, -, rfl⟩ := List.mem_map.1 ha
      obtain ⟨k', hk', hb⟩ := List.mem_flatMap.1 hb
      obtain ⟨w, -, hb⟩ := List.mem_flatMap.1 hb
      obtain ⟨x, -, rfl⟩ := List.mem_map.1 hb
      exact Prod.Lex.toLex_lt_toLex.2 (Or.inl (h1.1 k' hk'))

theorem advanceTrie_spec {t : ColTrie K V T R} {us : Upds (K ×ₗ V) T R} (h : t.Holds us) (F : List T) : ∃ s, ColTrie.advanceTrie t F = some s ∧ s.Holds (advanced F us) := by
  obtain ⟨c, h1, h2, rfl, rfl⟩ := h
  by_cases hc : c = []
  · subst hc
    refine ⟨ColTrie.empty, rfl, ?_⟩
    rw [Contents.upds_nil, advanced_nil]
    exact ⟨[], h1, h2, rfl, rfl⟩
  · rw [layout_forest hc, advanceTrie_layout c]
    obtain ⟨a, b⟩ := canonical_advC F (c := c) ⟨h1, h2⟩
    exact ⟨_, rfl, _, a, b, rfl, upds_advC F h1⟩

omit [LinearOrder (Lin T)] [AddCommMonoid R] [DecidableEq R] [Lattice T] [DecidableEq T] in
theorem tailLen_spec {t : ColTrie K V T R} {us : Upds (K ×ₗ V) T R} (h : t.Holds us) (hne : us ≠ []) :
    ∃ x y d, us = x ++ y ∧ t.tailLen = some y.length ∧ y ≠ [] ∧ (∀ u ∈ y, u.1 = d) ∧ ∀ u ∈ x, u.1 < d := by
  obtain ⟨c, h1, h2, rfl, rfl⟩ := h
  have hc : c ≠ [] := fun e => hne ((upds_eq_nil h2).2 e)
  rw [layout_forest hc]
  obtain ⟨g0, k, vs0, v, ts, rfl, hts⟩ := split_last hc h2
  refine ⟨Contents.upds g0 ++ (vs0.flatMap fun v => v.2.map fun u => (toLex (k, v.1), u)), ts.map fun u => (toLex (k, v), u), toLex (k, v), ?_, ?_, by simpa using hts, ?_, ?_⟩
  · rw [Contents.upds_append, Contents.upds_cons]; simp
  · have hpos : 0 < ts.length := List.length_pos_iff.2 hts
    have hH : (g0 ++ [(k, vs0 ++ [(v, ts)])]).flatMap Prod.snd = (g0.flatMap Prod.snd ++ vs0) ++ [(v, ts)] := by simp [List.flatMap_append]
    simp only [ColTrie.tailLen, layoutC, hH]
    generalize hG : g0.flatMap Prod.snd ++ vs0 = G
    have hn : (g0 ++ [(k, vs0 ++ [(v, ts)])]).length = g0.length + 1 := by simp
    have e1 : (Lists.of ((g0 ++ [(k, vs0 ++ [(v, ts)])]).map fun k => k.2.map Prod.fst)).range ((Lists.of [(g0 ++ [(k, vs0 ++ [(v, ts)])]).map Prod.fst]).values.length - 1) =
        some (startAt ((g0 ++ [(k, vs0 ++ [(v, ts)])]).map fun k => k.2.map Prod.fst) g0.length, G.length + 1) := by
      have : (Lists.of [(g0 ++ [(k, vs0 ++ [(v, ts)])]).map Prod.fst]).values.length - 1 = g0.length := by simp [Lists.of]
      rw [this, Lists.range_of _ _ (by simp), startAt_all _ (i := g0.length + 1) (by simp)]
      rw [← List.flatMap_def, ← List.map_flatMap, List.length_map, hH, hG]
      simp
    rw [e1, Option.bind_some]
    have e2 : (Lists.of ((G ++ [(v, ts)]).map fun v => v.2.map Prod.fst)).range (G.length + 1 - 1) = some ((G.flatMap Prod.snd).length, (G.flatMap Prod.snd).length + ts.length) := by
      rw [Nat.add_sub_cancel, Lists.range_of _ _ (by simp), startAt_all _ (i := G.length + 1) (by simp)]
      have : startAt ((G ++ [(v, ts)]).map fun v => v.2.map Prod.fst) G.length = (G.flatMap Prod.snd).length := by
        rw [startAt, ← List.map_take, List.take_left, ← List.flatMap_def, ← List.map_flatMap, List.length_map]
      rw [this, ← List.flatMap_def, ← List.map_flatMap, List.length_map]
      simp
    simp only [e2, Option.bind_some]
    have hL : ((G ++ [(v, ts)]).flatMap Prod.snd).length = (G.flatMap Prod.snd).length + ts.length := by simp
    rw [Lists.range_of _ _ (by rw [List.length_map, hL]; omega), Lists.range_of _ _ (by rw [List.length_map, hL]; omega), Option.bind_some, Option.map_some,
      startAt_singles _ _ (by omega), startAt_singles _ _ (by omega)]
    congr 1
    have e3 := startAt_singles ((G ++ [(v, ts)]).flatMap Prod.snd) Prod.snd (n := (G.flatMap Prod.snd).length) (by omega)
    simp only [List.length_map, e3]
    omega
  · intro u hu
    obtain ⟨_, _, rfl⟩ := List.mem_map.1 hu
    rfl
  · intro u hu
    have hc' : Canonical (g0 ++ [(k, vs0 ++ [(v, ts)])]) := ⟨h1, h2⟩
    obtain ⟨-, -, c3, -, -, c6, -, -⟩ := canonical_mid.1 hc'
    rcases List.mem_append.1 hu with hu | hu
    · obtain ⟨k', hk', hu⟩ := List.mem_flatMap.1 hu
      obtain ⟨w, -, hu⟩ := List.mem_flatMap.1 hu
      obtain ⟨x, -, rfl⟩ := List.mem_map.1 hu
      exact Prod.Lex.toLex_lt_toLex.2 (Or.inl (c3 k' hk'))
    · obtain ⟨w, hw, hu⟩ := List.mem_flatMap.1 hu
      obtain ⟨x, -, rfl⟩ := List.mem_map.1 hu
      exact Prod.Lex.toLex_lt_toLex.2 (Or.inr ⟨rfl, (List.pairwise_append.1 c6).2.2 w hw (v, ts) (by simp)⟩)

/-- What the loop of `advance` keeps true: the updates read are split into those advanced and those carried. -/
structure AdvOk (F : List T) (O0 : Chain (K ×ₗ V) T R) (done : Upds (K ×ₗ V) T R) (s : Option (ColTrie K V T R) × List (ColTrie K V T R)) (a b : Upds (K ×ₗ V) T R) (O : Chain (K ×ₗ V) T R) : Prop where
  split : done = a ++ b
  carry : (s.1 = none ∧ b = []) ∨ ∃ c, s.1 = some c ∧ c.Holds b ∧ b ≠ []
  out : HoldsAll s.2 O
  full : Full O
  flat : O.flatten = O0.flatten ++ advanced F a
  below : ∀ u ∈ a, ∀ v ∈ b, u.1 < v.1
  none : b = [] → a = []

theorem advanceStep_spec (F : List T) {O0 O : Chain (K ×ₗ V) T R} {done a b : Upds (K ×ₗ V) T R} {s : Option (ColTrie K V T R) × List (ColTrie K V T R)}
    (h : AdvOk F O0 done s a b O) {t : ColTrie K V T R} {us : Upds (K ×ₗ V) T R} (ht : t.Holds us) (hs : SortedD (done ++ us)) :
    ∃ s' a' b' O', ColTrie.advanceStep F s t = some s' ∧ AdvOk F O0 (done ++ us) s' a' b' O' := by
  obtain ⟨sc, out⟩ := s
  obtain ⟨h1, h2, h4, h5, h6, h7, h8⟩ := h
  simp only at h2 h4
  rw [h1] at hs
  have hcomb : ∃ m, (sc.elim (some t) fun c => ColTrie.melded c t) = some m ∧ m.Holds (b ++ us) := by
    rcases h2 with ⟨rfl, rfl⟩ | ⟨c, rfl, hc, -⟩
    · exact ⟨t, rfl, ht⟩
    · refine melded_spec hc ht fun u hu w hw => ?_
      exact (List.pairwise_append.1 hs).2.2 u (by simp [hu]) w hw
  obtain ⟨m, em, hm⟩ := hcomb
  rw [ColTrie.advanceStep]
  simp only [em, Option.bind_some, len_layout hm]
  by_cases hz : b ++ us = []
  · obtain ⟨rfl, rfl⟩ := List.append_eq_nil_iff.1 hz
    refine ⟨_, a, [], O, if_pos rfl, ⟨by simpa using h1, Or.inl ⟨rfl, rfl⟩, h4, h5, h6, h7, h8⟩⟩
  · rw [if_neg (by simpa using hz)]
    obtain ⟨x, y, d, e, et, hy, hd, hlt⟩ := tailLen_spec hm hz
    rw [et, Option.bind_some, e, List.length_append]
    have hxy : (a ++ b) ++ us = (a ++ x) ++ y := by rw [List.append_assoc, e, List.append_assoc]
    rw [hxy] at hs
    have hax : ∀ u ∈ a, ∀ v ∈ x, u.1 < v.1 := by
      intro u hu v hv
      have hbne : b ≠ [] := by
        rintro rfl
        rw [h8 rfl] at hu; simp at hu
      obtain ⟨b0, bs, rfl⟩ := List.exists_cons_of_ne_nil hbne
      have h0 := h7 u hu b0 (by simp)
      have hv' : v ∈ b0 :: bs ++ us := by rw [e]; simp [hv]
      refine lt_of_lt_of_le h0 ?_
      have hs' : SortedD (b0 :: bs ++ us) := by
        rw [e]
        exact List.Pairwise.sublist (by simp [List.append_assoc]) hs
      rcases List.mem_cons.1 hv' with rfl | hv'
      · exact le_refl _
      · exact (List.pairwise_cons.1 hs').1 v hv'
    by_cases hx : x = []
    · subst hx
      rw [if_pos (by simp)]
      refine ⟨_, a, y, O, rfl, ⟨by rw [h1, hxy]; simp, Or.inr ⟨m, rfl, by simpa [e] using hm, hy⟩, h4, h5, h6, ?_, fun h => absurd h hy⟩⟩
      intro u hu v hv
      have hbne : b ≠ [] := by
        rintro rfl
        rw [h8 rfl] at hu; simp at hu
      obtain ⟨b0, bs, rfl⟩ := List.exists_cons_of_ne_nil hbne
      have hb0 : b0 ∈ y := by
        have : b0 ∈ b0 :: bs ++ us := by simp
        rw [e] at this; simpa using this
      rw [hd v hv, ← hd b0 hb0]
      exact h7 u hu b0 (by simp)
    · have hxl := List.length_pos_iff.2 hx
      rw [if_neg (by omega), show x.length + y.length - y.length = x.length by omega]
      obtain ⟨p, q, ep, hp, hq⟩ := splitAt_spec hm x.length
      rw [e, List.take_left] at hp
      rw [e, List.drop_left] at hq
      obtain ⟨w, ew, hw⟩ := advanceTrie_spec hp F
      obtain ⟨O', ko, fo, eo⟩ := emit_spec (len_layout hw) (fun _ => hw) h4 h5
      refine ⟨(some q, ColTrie.emit w out), a ++ x, y, O', ?_, ⟨by rw [h1, hxy], Or.inr ⟨q, rfl, hq, hy⟩, ko, fo, ?_, ?_, fun h => absurd h hy⟩⟩
      · rw [ep, Option.bind_some, ew, Option.map_some]
      · rw [eo, h6, List.append_assoc, advanced_append F hax]
      · intro u hu v hv
        rw [hd v hv]
        rcases List.mem_append.1 hu with hu1 | hu1
        · obtain ⟨x0, xs, rfl⟩ := List.exists_cons_of_ne_nil hx
          exact (hax u hu1 x0 (by simp)).trans (hlt x0 (by simp))
        · exact hlt u hu1

theorem advanceFold_spec (F : List T) {O0 : Chain (K ×ₗ V) T R} {input : List (ColTrie K V T R)} {U : Chain (K ×ₗ V) T R} (hi : HoldsAll input U) :
    ∀ {O : Chain (K ×ₗ V) T R} {done a b : Upds (K ×ₗ V) T R} {s : Option (ColTrie K V T R) × List (ColTrie K V T R)}, AdvOk F O0 done s a b O → SortedD (done ++ U.flatten) →
    ∃ s' a' b' O', input.foldlM (ColTrie.advanceStep F) s = some s' ∧ AdvOk F O0 (done ++ U.flatten) s' a' b' O' := by
  induction hi with
  | nil => intro O done a b s h _; exact ⟨s, a, b, O, rfl, by simpa using h⟩
  | @cons t us input U ht _ ih =>
    intro O done a b s h hs
    rw [List.flatten_cons, ← List.append_assoc] at hs
    obtain ⟨s', a', b', O', e, h'⟩ := advanceStep_spec F h ht (List.pairwise_append.1 hs).1
    obtain ⟨s'', a'', b'', O'', e', h''⟩ := ih h' hs
    refine ⟨s'', a'', b'', O'', ?_, by rw [List.flatten_cons, ← List.append_assoc]; exact h''⟩
    rw [List.foldlM_cons, e]; exact e'

/-- `advance`. -/
theorem colAdvance_spec (F : List T) {input out : List (ColTrie K V T R)} {U O : Chain (K ×ₗ V) T R} (hi : HoldsAll input U) (ho : HoldsAll out O) (hs : SortedD U.flatten) (hf : Full O) (done : Bool) :
    ∃ left out' L O' a b, ColTrie.chunkAdvance input F done out = some (left, out') ∧ HoldsAll left L ∧ HoldsAll out' O' ∧ U.flatten = a ++ b ∧ L.flatten = b ∧ Full L ∧
      O'.flatten = O.flatten ++ advanced F a ∧ Full O' ∧ (∀ u ∈ a, ∀ v ∈ b, u.1 < v.1) ∧ (done = true → b = []) ∧ (done = false → b = [] → a = []) ∧ L.length ≤ 1 := by
  obtain ⟨s, a, b, O', e, h⟩ := advanceFold_spec F (O0 := O) hi (O := O) (done := []) (a := []) (b := []) (s := (none, out))
    ⟨rfl, Or.inl ⟨rfl, rfl⟩, ho, hf, by simp [advanced_nil], by simp, fun _ => rfl⟩ (by simpa using hs)
  rw [List.nil_append] at h
  rw [ColTrie.chunkAdvance, e, Option.bind_some]
  obtain ⟨sc, out'⟩ := s
  obtain ⟨h1, h2, h4, h5, h6, h7, h8⟩ := h
  simp only at h2 h4
  rcases h2 with ⟨rfl, rfl⟩ | ⟨c, rfl, hc, hb⟩
  · exact ⟨_, _, [], O', a, [], rfl, .nil, h4, h1, rfl, by simp [Full], h6, h5, by simp, fun _ => rfl, fun _ => h8, by simp⟩
  · cases done with
    | false =>
      exact ⟨_, _, [b], O', a, b, rfl, .cons hc .nil, h4, h1, by simp, by simpa [Full] using hb, h6, h5, h7, by simp, fun _ h => absurd h hb, by simp⟩
    | true =>
      obtain ⟨w, ew, hw⟩ := advanceTrie_spec hc F
      obtain ⟨O'', ko, fo, eo⟩ := emit_spec (len_layout hw) (fun _ => hw) h4 h5
      refine ⟨[], ColTrie.emit w out', [], O'', a ++ b, [], ?_, .nil, ko, by simpa using h1, rfl, by simp [Full], ?_, fo, by simp, fun _ => rfl, by simp, by simp⟩
      · simp [ew]
      · rw [eo, h6, List.append_assoc, advanced_append F h7]

end

end DD
