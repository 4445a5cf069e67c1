import Verif.Proofs.TrieMerge

/-! What is left of a trie after a merge. -/

namespace DD
set_option linter.unusedSectionVars false
variable {α β γ δ κ : Type*}

theorem bounds_pruned (l : List (List γ)) : ∀ (G X : List (List γ)) (base top lo : Nat), lo ≤ G.flatten.length → G.flatten.length + l.flatten.length ≤ top →
    ((List.range' G.length l.length).mapM fun i => ((Lists.of (G ++ (l ++ X))).range i).map fun b => base + min b.2 top - lo) =
      some (ends (base + (G.flatten.length - lo)) l) := by
  induction l with
  | nil => intros; rfl
  | cons x l ih =>
    intro G X base top lo hlo htop
    rw [List.length_cons, List.range'_succ, List.mapM_cons]
    rw [Lists.range_of _ _ (by simp)]
    have e : startAt (G ++ (x :: l ++ X)) (G.length + 1) = G.flatten.length + x.length := by
      have := startAt_left_add G [x] (l ++ X)
      simpa using this
    rw [e]
    simp only [List.flatten_cons, List.length_append] at htop
    have := ih (G ++ [x]) X base top lo (by rw [List.flatten_append, List.length_append]; omega) (by rw [List.flatten_append, List.length_append]; simp only [List.flatten_cons, List.flatten_nil, List.append_nil]; omega)
    simp only [List.length_append, List.length_cons, List.length_nil, Nat.zero_add, List.append_assoc, List.cons_append, List.nil_append, List.flatten_append,
      List.flatten_cons, List.flatten_nil, List.append_nil] at this
    simp only [Option.map_some, Option.bind_eq_bind, Option.bind_some, List.cons_append, Option.pure_def, ends]
    rw [this]
    simp only [Option.bind_some, Option.some.injEq, List.cons.injEq]
    constructor
    · rw [Nat.min_eq_left (by omega)]; omega
    · congr 1; omega

/-- One layer of the suffix. -/
theorem writeLayer_suffix (A : List (List γ)) (b : List γ) (B : List (List γ)) (e : Lists γ) (j : Nat) (hj : j ≤ b.length) :
    writeLayer (Lists.of (A ++ b :: B)) e [.this A.length (A.length + (B.length + 1))] [.this (A.flatten.length + j) (A ++ b :: B).flatten.length] =
      some (Lists.of (b.drop j :: B)) := by
  have top : (A ++ b :: B).flatten.length = A.flatten.length + (b.length + B.flatten.length) := by
    rw [List.flatten_append, List.length_append, List.flatten_cons, List.length_append]
  have hb := bounds_pruned B (A ++ [b]) [] 0 (A ++ b :: B).flatten.length (A.flatten.length + j)
    (by rw [List.flatten_append, List.length_append]; simp only [List.flatten_cons, List.flatten_nil, List.append_nil]; omega)
    (by rw [top, List.flatten_append, List.length_append]; simp only [List.flatten_cons, List.flatten_nil, List.append_nil]; omega)
  simp only [List.append_nil, List.append_assoc, List.cons_append, List.nil_append, List.length_append, List.length_cons, List.length_nil, Nat.zero_add] at hb
  have hs : startAt (A ++ b :: B) (A.length + 1) = A.flatten.length + b.length := by
    have := startAt_left_add A [b] B
    simpa using this
  simp only [writeLayer, writeLoop, writeReport, copyLists, List.isEmpty_nil, Bool.or_true, if_true]
  rw [show A.length + (B.length + 1) - A.length = B.length + 1 by omega, List.range'_succ, List.mapM_cons, Lists.range_of _ _ (by simp), hs]
  simp only [Option.map_some, Option.bind_eq_bind, Option.bind_some, Option.pure_def]
  have e0 : (Lists.empty : Lists γ).values.length = 0 := rfl
  rw [e0]
  simp only [Nat.zero_add] at hb ⊢
  rw [hb]
  simp only [Option.bind_some, Option.map_some, Option.some.injEq]
  have v : (Lists.of (A ++ b :: B)).values = A.flatten ++ (b ++ B.flatten) := by simp [Lists.of]
  have sl : slice (A.flatten ++ (b ++ B.flatten)) (A.flatten.length + j) (A ++ b :: B).flatten.length = b.drop j ++ B.flatten := by
    rw [top, slice, List.drop_append, List.drop_of_length_le (by omega), List.nil_append, show A.flatten.length + j - A.flatten.length = j by omega]
    rw [List.drop_append_of_le_length hj, List.take_of_length_le]
    simp only [List.length_append, List.length_drop]; omega
  rw [v, sl]
  have b1 : min (A.flatten.length + b.length) (A ++ b :: B).flatten.length - (A.flatten.length + j) = (b.drop j).length := by
    rw [List.length_drop, top, Nat.min_eq_left (by omega)]; omega
  have b2 : (A ++ [b]).flatten.length - (A.flatten.length + j) = (b.drop j).length := by
    rw [List.flatten_append, List.length_append, List.length_drop]; simp only [List.flatten_cons, List.flatten_nil, List.append_nil]; omega
  rw [b1, b2]
  simp [Lists.empty, Lists.of, ends]

section
variable {K V T R : Type*}

/-- Position `nk`, `nv`, `nt` lies in the contents: it is the place of an update, or the place after the last key or value before it; `rest` is what
follows. -/
def Owner (c : Contents K V T R) (nk nv nt : Nat) (rest : Contents K V T R) : Prop :=
  ∃ P k vs v ts X Z Y, c = P ++ (k, vs ++ (v, ts ++ X) :: Z) :: Y ∧ X ≠ [] ∧ rest = (k, (v, X) :: Z) :: Y ∧ (nk = P.length ∨ nk = P.length + 1) ∧
    (nv = (valsC P).length + vs.length ∨ nv = (valsC P).length + vs.length + 1) ∧ nt = (timesC P).length + (vs.flatMap Prod.snd).length + ts.length

theorem valsC_append (a b : Contents K V T R) : valsC (a ++ b) = valsC a ++ valsC b := by simp [valsC]
theorem timesC_append (a b : Contents K V T R) : timesC (a ++ b) = timesC a ++ timesC b := by simp [timesC, valsC_append]
theorem valsC_cons (k : K) (vs : List (V × List (T × R))) (c : Contents K V T R) : valsC ((k, vs) :: c) = vs ++ valsC c := by simp [valsC]
theorem timesC_cons (k : K) (vs : List (V × List (T × R))) (c : Contents K V T R) : timesC ((k, vs) :: c) = vs.flatMap Prod.snd ++ timesC c := by simp [timesC, valsC_cons]

theorem ownerK {P Y : Contents K V T R} (hY : Y ≠ []) (hn : NoEmpty Y) : Owner (P ++ Y) P.length (valsC P).length (timesC P).length Y := by
  obtain ⟨⟨k, vs⟩, Y, rfl⟩ := List.exists_cons_of_ne_nil hY
  obtain ⟨h1, h2⟩ := hn (k, vs) (by simp)
  obtain ⟨⟨v, ts⟩, Z, rfl⟩ := List.exists_cons_of_ne_nil h1
  exact ⟨P, k, [], v, [], ts, Z, Y, by simp, h2 (v, ts) (by simp), rfl, Or.inl rfl, Or.inl (by simp), by simp⟩

theorem ownerV {P Y : Contents K V T R} (k : K) (vs : List (V × List (T × R))) {Z : List (V × List (T × R))} (hZ : Z ≠ []) (hn : ∀ v ∈ Z, v.2 ≠ []) :
    Owner (P ++ (k, vs ++ Z) :: Y) (P.length + 1) ((valsC P).length + vs.length) ((timesC P).length + (vs.flatMap Prod.snd).length) ((k, Z) :: Y) := by
  obtain ⟨⟨v, ts⟩, Z, rfl⟩ := List.exists_cons_of_ne_nil hZ
  exact ⟨P, k, vs, v, [], ts, Z, Y, by simp, hn (v, ts) (by simp), rfl, Or.inr rfl, Or.inl rfl, by simp⟩

theorem nudge_spec (A : List (List γ)) (b : List γ) (B : List (List γ)) {i below : Nat} (hi : i = A.length ∨ i = A.length + 1) (h0 : A.flatten.length ≤ below)
    (h1 : below < A.flatten.length + b.length) : nudge (Lists.of (A ++ b :: B)) i below = some A.length := by
  have hl : (Lists.of (A ++ b :: B)).bounds.length = A.length + (B.length + 1) := by simp [Lists.of]
  rw [nudge, hl]
  rcases hi with rfl | rfl
  · rw [if_neg (by omega), Lists.range_of _ _ (by simp), startAt_left]
    simp only [Option.map_some]
    rw [if_neg (by omega)]
  · have hs : startAt (A ++ b :: B) (A.length + 1) = A.flatten.length + b.length := by
      have := startAt_left_add A [b] B
      simpa using this
    split_ifs with h
    · simp
    · rw [Lists.range_of _ _ (by simp; omega), hs]
      simp only [Option.map_some]
      rw [if_pos (by omega)]
      simp

variable [AddCommMonoid R] [DecidableEq R]

/-- The cursor to what is left, and what is there. -/
theorem suffix_spec {c rest : Contents K V T R} {nk nv nt : Nat} (h : Owner c nk nv nt rest) :
    ∃ k v, nudge (layoutC c).times nv nt = some v ∧ nudge (layoutC c).vals nk v = some k ∧ ColTrie.suffixChunk (k, v, nt) (layoutC c) = some (layoutC rest) := by
  obtain ⟨P, k, vs, v, ts, X, Z, Y, rfl, hX, rfl, hk, hv, rfl⟩ := h
  have hX := List.length_pos_iff.2 hX
  -- the columns
  have et : (layoutC (P ++ (k, vs ++ (v, ts ++ X) :: Z) :: Y)).times = .of (((valsC P ++ vs).map fun v => v.2.map Prod.fst) ++ ((ts ++ X).map Prod.fst) :: ((Z ++ valsC Y).map fun v => v.2.map Prod.fst)) := by
    simp [layoutC, valsC]
  have ev : (layoutC (P ++ (k, vs ++ (v, ts ++ X) :: Z) :: Y)).vals = .of ((P.map fun k => k.2.map Prod.fst) ++ ((vs ++ (v, ts ++ X) :: Z).map Prod.fst) :: (Y.map fun k => k.2.map Prod.fst)) := by
    simp [layoutC]
  have ek : (layoutC (P ++ (k, vs ++ (v, ts ++ X) :: Z) :: Y)).keys = .of ([] ++ (P.map Prod.fst ++ k :: Y.map Prod.fst) :: []) := by simp [layoutC]
  have lt : ((valsC P ++ vs).map fun v => v.2.map Prod.fst).flatten.length = (timesC P).length + (vs.flatMap Prod.snd).length := by
    have : ((valsC P ++ vs).map fun v => v.2.map Prod.fst).flatten = ((valsC P ++ vs).flatMap Prod.snd).map Prod.fst := flatten_itemsOf Prod.snd Prod.fst _
    rw [this, List.length_map, List.flatMap_append, List.length_append, timesC]
  have lv : (P.map fun k => k.2.map Prod.fst).flatten.length = (valsC P).length := by
    have : (P.map fun k => k.2.map Prod.fst).flatten = (P.flatMap Prod.snd).map Prod.fst := flatten_itemsOf Prod.snd Prod.fst _
    rw [this, List.length_map, valsC]
  refine ⟨P.length, (valsC P).length + vs.length, ?_, ?_, ?_⟩
  · rw [et]
    have := nudge_spec ((valsC P ++ vs).map fun v => v.2.map Prod.fst) ((ts ++ X).map Prod.fst) ((Z ++ valsC Y).map fun v => v.2.map Prod.fst) (i := nv)
      (below := (timesC P).length + (vs.flatMap Prod.snd).length + ts.length) (by simpa using hv) (by omega) (by rw [lt]; simp only [List.length_map, List.length_append]; omega)
    rw [this]; simp
  · rw [ev]
    have := nudge_spec (P.map fun k => k.2.map Prod.fst) ((vs ++ (v, ts ++ X) :: Z).map Prod.fst) (Y.map fun k => k.2.map Prod.fst) (i := nk)
      (below := (valsC P).length + vs.length) (by simpa using hk) (by omega) (by rw [lv]; simp only [List.length_map, List.length_append, List.length_cons]; omega)
    rw [this]; simp
  · rw [ColTrie.suffixChunk, ColTrie.writeFromSurveys]
    have nk : (layoutC (P ++ (k, vs ++ (v, ts ++ X) :: Z) :: Y)).keys.values.length = P.length + (Y.length + 1) := by rw [ek]; simp [Lists.of]
    have wk := writeLayer_suffix [] (P.map Prod.fst ++ k :: Y.map Prod.fst) [] (ColTrie.empty (K := K) (V := V) (T := T) (R := R)).keys P.length (by simp)
    have wv := writeLayer_suffix (P.map fun k => k.2.map Prod.fst) ((vs ++ (v, ts ++ X) :: Z).map Prod.fst) (Y.map fun k => k.2.map Prod.fst)
      (ColTrie.empty (K := K) (V := V) (T := T) (R := R)).vals vs.length (by simp)
    have wt := writeLayer_suffix ((valsC P ++ vs).map fun v => v.2.map Prod.fst) ((ts ++ X).map Prod.fst) ((Z ++ valsC Y).map fun v => v.2.map Prod.fst)
      (ColTrie.empty (K := K) (V := V) (T := T) (R := R)).times ts.length (by simp)
    have vk : (layoutC (P ++ (k, vs ++ (v, ts ++ X) :: Z) :: Y)).keys.values.length = ([] ++ (P.map Prod.fst ++ k :: Y.map Prod.fst) :: []).flatten.length := by rw [ek]; rfl
    have vv : (layoutC (P ++ (k, vs ++ (v, ts ++ X) :: Z) :: Y)).vals.values.length = ((P.map fun k => k.2.map Prod.fst) ++ ((vs ++ (v, ts ++ X) :: Z).map Prod.fst) :: (Y.map fun k => k.2.map Prod.fst)).flatten.length := by rw [ev]; rfl
    have vt : (layoutC (P ++ (k, vs ++ (v, ts ++ X) :: Z) :: Y)).times.values.length = (((valsC P ++ vs).map fun v => v.2.map Prod.fst) ++ ((ts ++ X).map Prod.fst) :: ((Z ++ valsC Y).map fun v => v.2.map Prod.fst)).flatten.length := by rw [et]; rfl
    have nv : (layoutC (P ++ (k, vs ++ (v, ts ++ X) :: Z) :: Y)).vals.values.length = (valsC P).length + vs.length + ((Z ++ valsC Y).length + 1) := by
      rw [vv, List.flatten_append, List.length_append, lv, List.flatten_cons, List.length_append]
      have : (Y.map fun k => k.2.map Prod.fst).flatten = (Y.flatMap Prod.snd).map Prod.fst := flatten_itemsOf Prod.snd Prod.fst _
      rw [this]
      simp only [List.length_map, List.length_append, List.length_cons, valsC]; omega
    rw [ek] at vk ⊢
    rw [ev] at vv ⊢
    rw [et] at vt ⊢
    simp only [List.flatten_nil, List.length_nil, Nat.zero_add] at wk
    simp only [lv, List.length_map] at wv
    simp only [lt, List.length_map, List.length_append] at wt
    rw [vk, wk, Option.bind_some]
    rw [← vk, ← ek, nk, vv, wv, Option.bind_some]
    rw [← vv, ← ev, nv, vt]
    simp only [List.length_append] at wt ⊢
    rw [wt, Option.bind_some, ← vt, ← et]
    have nt : (layoutC (P ++ (k, vs ++ (v, ts ++ X) :: Z) :: Y)).times.values.length = (timesC P).length + (vs.flatMap Prod.snd).length + ts.length + (X.length + ((Z.flatMap Prod.snd).length + (timesC Y).length)) := by
      have : ((Z ++ valsC Y).map fun v => v.2.map Prod.fst).flatten = ((Z ++ valsC Y).flatMap Prod.snd).map Prod.fst := flatten_itemsOf Prod.snd Prod.fst _
      rw [et, vt, List.flatten_append, List.length_append, lt, List.flatten_cons, List.length_append, this]
      simp only [List.length_map, List.length_append, List.flatMap_append, timesC]; omega
    have ed : (layoutC (P ++ (k, vs ++ (v, ts ++ X) :: Z) :: Y)).diffs = .of (((timesC P ++ (vs.flatMap Prod.snd ++ ts)) ++ (X ++ (Z.flatMap Prod.snd ++ timesC Y))).map fun u => [u.2]) := by
      simp [layoutC, timesC, valsC]
    have wd : writeDiffs (layoutC (P ++ (k, vs ++ (v, ts ++ X) :: Z) :: Y)).diffs (ColTrie.empty (K := K) (V := V) (T := T) (R := R)).diffs
        [.this ((timesC P).length + (vs.flatMap Prod.snd).length + ts.length) (layoutC (P ++ (k, vs ++ (v, ts ++ X) :: Z) :: Y)).times.values.length] =
          some (Lists.of ((X ++ (Z.flatMap Prod.snd ++ timesC Y)).map fun u => [u.2])) := by
      rw [ed, nt, writeDiffs]
      simp only [List.foldlM_cons, List.foldlM_nil, writeDiff, Option.bind_eq_bind, Lists.empty_eq]
      rw [Lists.extend_of _ _ (by omega) (by simp only [List.length_map, List.length_append]; omega)]
      simp only [Option.bind_some, List.nil_append, ← map_slice, Option.pure_def]
      congr 3
      have := slice_mid (timesC P ++ (vs.flatMap Prod.snd ++ ts)) (X ++ (Z.flatMap Prod.snd ++ timesC Y)) []
      simp only [List.append_nil, List.length_append] at this
      simpa only [Nat.add_assoc, List.append_assoc] using this
    rw [wd]
    simp only [Option.map_some, Option.some.injEq]
    apply ColTrie.ext
    · simp [layoutC]
    · simp [layoutC]
    · simp [layoutC, valsC]
    · simp [layoutC, timesC, valsC]

end

end DD
