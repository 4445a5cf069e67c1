import Verif.Model.NavChunk
import Verif.Proofs.ColAdvance
import Verif.Proofs.CursorRun

/-! # Cursors over columnar chunks -/

namespace DD
set_option linter.unusedSectionVars false
variable {K V T R : Type*} [LinearOrder K] [LinearOrder V]

/-- The columns of contents, as far as the cursor reads them. -/
structure ColOf (s : ColTrie K V T R) (c : Contents K V T R) : Prop where
  keys : s.keys.values = c.map Prod.fst
  vals : s.vals = .of (c.map fun k => k.2.map Prod.fst)
  times : s.times = .of ((c.flatMap Prod.snd).map fun v => v.2.map Prod.fst)
  diffs : s.diffs = .of (((c.flatMap Prod.snd).flatMap Prod.snd).map fun u => [u.2])

theorem colOf_forest (c : Contents K V T R) : ColOf c.forest.layout c := by
  by_cases h : c = []
  · subst h; exact ⟨rfl, rfl, rfl, rfl⟩
  · rw [layout_forest h]
    exact ⟨by simp [layoutC, Lists.of], rfl, rfl, rfl⟩

/-- A cursor and the position it stands for. -/
def ColPos (c : Contents K V T R) (x : ColChunkCursor) (p : Pos K V T R) : Prop :=
  x.key_cursor ≤ c.length ∧ p.keys = c.drop x.key_cursor ∧
    ((x.key_cursor = c.length ∧ p.vals = []) ∨
      ∃ (h : x.key_cursor < c.length) (j : Nat), j ≤ c[x.key_cursor].2.length ∧ x.val_cursor = startAt (c.map Prod.snd) x.key_cursor + j ∧ p.vals = c[x.key_cursor].2.drop j)

section
variable {s : ColTrie K V T R} {c : Contents K V T R} {x : ColChunkCursor} {p : Pos K V T R}

theorem ColOf.length (h : ColOf s c) : s.keys.values.length = c.length := by rw [h.keys, List.length_map]

theorem ColOf.range (h : ColOf s c) {i : Nat} (hi : i < c.length) : s.vals.range i = some (startAt (c.map Prod.snd) i, startAt (c.map Prod.snd) i + c[i].2.length) := by
  rw [h.vals, Lists.range_of _ _ (by simpa using hi), startAt_map c Prod.snd Prod.fst, startAt_map c Prod.snd Prod.fst, startAt_succ (c.map Prod.snd) (by simpa using hi)]
  simp

theorem ColOf.flat (c : Contents K V T R) {i : Nat} (hi : i < c.length) {j : Nat} (hj : j < c[i].2.length) : (c.flatMap Prod.snd)[startAt (c.map Prod.snd) i + j]? = some c[i].2[j] := by
  rw [List.flatMap_def, flatten_get (c.map Prod.snd) (j := i) (by simpa using hi) (i := j) (by simpa using hj)]
  simp

theorem ColOf.values (h : ColOf s c) : s.vals.values = (c.flatMap Prod.snd).map Prod.fst := by
  rw [h.vals]; simp only [Lists.of]; rw [← List.flatMap_def, List.map_flatMap]

theorem ColPos.valid (h : ColPos c x p) : p.keys ≠ [] ↔ x.key_cursor < c.length := by
  rw [h.2.1, Ne, List.drop_eq_nil_iff]; omega

theorem ColPos.key? (h : ColPos c x p) : p.key? = (c[x.key_cursor]?).map Prod.fst := by
  rw [Pos.key?, h.2.1, List.head?_drop]

/-- The relation at a valid key. -/
theorem ColPos.at (h : ColPos c x p) (hk : p.keys ≠ []) : ∃ (hl : x.key_cursor < c.length) (j : Nat), j ≤ c[x.key_cursor].2.length ∧
    x.val_cursor = startAt (c.map Prod.snd) x.key_cursor + j ∧ p.vals = c[x.key_cursor].2.drop j := by
  have := h.valid.1 hk
  rcases h.2.2 with h' | h'
  · omega
  · exact h'

theorem colPos_start (c : Contents K V T R) {i : Nat} (hi : i < c.length) : ColPos c ⟨i, startAt (c.map Prod.snd) i⟩ (Pos.start (c.drop i)) := by
  refine ⟨hi.le, rfl, Or.inr ⟨hi, 0, by omega, rfl, ?_⟩⟩
  rw [Pos.start, List.head?_drop, List.getElem?_eq_getElem hi]; rfl

theorem colPos_end (c : Contents K V T R) (v : Nat) : ColPos c ⟨c.length, v⟩ (Pos.start (c.drop c.length)) := by
  refine ⟨le_rfl, rfl, Or.inl ⟨rfl, ?_⟩⟩
  rw [List.drop_length]; rfl

theorem col_key_valid (h : ColOf s c) : x.key_valid s = decide (x.key_cursor < c.length) := by rw [ColChunkCursor.key_valid, h.length]

theorem col_rewind (h : ColOf s c) (hi : x.key_cursor < c.length) : ColChunkCursor.rewind_vals s x = some ⟨x.key_cursor, startAt (c.map Prod.snd) x.key_cursor⟩ := by
  rw [ColChunkCursor.rewind_vals, col_key_valid h, if_pos (by simpa using hi), h.range hi]; rfl

theorem col_val_valid (h : ColOf s c) (hl : x.key_cursor < c.length) {j : Nat} (hv : x.val_cursor = startAt (c.map Prod.snd) x.key_cursor + j) :
    x.val_valid s = some (decide (j < c[x.key_cursor].2.length)) := by
  rw [ColChunkCursor.val_valid, col_key_valid h, if_pos (by simpa using hl), h.range hl, Option.map_some, hv]
  congr 1; rw [decide_eq_decide]; omega

theorem val?_drop {l : List (V × List (T × R))} {j : Nat} (hp : p.vals = l.drop j) : p.val? = (l[j]?).map Prod.fst := by
  rw [Pos.val?, hp, List.head?_drop]

theorem val?_isSome {l : List (V × List (T × R))} {j : Nat} (hp : p.vals = l.drop j) : p.val?.isSome = decide (j < l.length) := by
  rw [val?_drop hp, Option.isSome_map, Bool.eq_iff_iff, decide_eq_true_iff]; simp

theorem col_times (h : ColOf s c) {j : Nat} (hj : j < (c.flatMap Prod.snd).length) :
    ((s.times.range j).bind fun r =>
      ((List.range' r.1 (r.2 - r.1)).mapM fun t =>
        (s.times.values[t]?).bind fun time =>
        (s.diffs.range t).bind fun d =>
        (List.range' d.1 (d.2 - d.1)).mapM fun d => (s.diffs.values[d]?).map fun diff => (time, diff)).map List.flatten) = some (c.flatMap Prod.snd)[j].2 := by
  rw [h.times, h.diffs]
  generalize c.flatMap Prod.snd = H at hj
  have hst : ∀ i, startAt (H.map fun v => v.2.map Prod.fst) i = startAt (H.map Prod.snd) i := fun i => startAt_map H Prod.snd Prod.fst i
  rw [Lists.range_of _ _ (by simpa using hj), Option.bind_some, hst, hst]
  have hs := startAt_succ (H.map Prod.snd) (i := j) (by simpa using hj)
  simp only [List.getElem_map] at hs
  have hb : startAt (H.map Prod.snd) (j + 1) ≤ (H.flatMap Prod.snd).length := startAt_le_flatMap H Prod.snd (j + 1)
  have key := mapM_range' (fun t =>
      ((Lists.of (H.map fun v => v.2.map Prod.fst)).values[t]?).bind fun time =>
      ((Lists.of ((H.flatMap Prod.snd).map fun u => [u.2])).range t).bind fun d =>
      (List.range' d.1 (d.2 - d.1)).mapM fun d => ((Lists.of ((H.flatMap Prod.snd).map fun u => [u.2])).values[d]?).map fun diff => (time, diff))
    (startAt (H.map Prod.snd) j) (H[j].2.map fun u => [u]) (by
      intro i hi
      simp only [List.length_map] at hi
      have g1 : (Lists.of (H.map fun v => v.2.map Prod.fst)).values[startAt (H.map Prod.snd) j + i]? = some (H[j].2[i]).1 := by
        rw [← hst]
        simp only [Lists.of]
        rw [flatten_get (H.map fun v => v.2.map Prod.fst) (j := j) (by simpa using hj) (i := i) (by simpa using hi)]
        simp
      have g2 : (H.flatMap Prod.snd)[startAt (H.map Prod.snd) j + i]? = some H[j].2[i] := by
        rw [List.flatMap_def, flatten_get (H.map Prod.snd) (j := j) (by simpa using hj) (i := i) (by simpa using hi)]
        simp
      have g3 : (Lists.of ((H.flatMap Prod.snd).map fun u => [u.2])).values[startAt (H.map Prod.snd) j + i]? = some (H[j].2[i]).2 := by
        have : (Lists.of ((H.flatMap Prod.snd).map fun u => [u.2])).values = (H.flatMap Prod.snd).map Prod.snd := by
          simp only [Lists.of]; rw [← List.flatMap_def]; exact List.map_eq_flatMap.symm
        rw [this, List.getElem?_map, g2]; rfl
      have g4 := Lists.range_of ((H.flatMap Prod.snd).map fun u => [u.2]) (startAt (H.map Prod.snd) j + i) (by rw [List.length_map]; omega)
      rw [startAt_singles _ _ (by omega), startAt_singles _ _ (by omega)] at g4
      rw [g1, Option.bind_some, g4, Option.bind_some]
      simp [g3, List.range'_one])
  rw [List.length_map, show H[j].2.length = startAt (H.map Prod.snd) (j + 1) - startAt (H.map Prod.snd) j by omega] at key
  refine (congrArg (Option.map List.flatten) key).trans ?_
  rw [Option.map_some, ← List.flatMap_def]
  simp

theorem col_seek_key (h : ColOf s c) (hs : ContentsSorted c) (hp : ColPos c x p) (k : K) : ∃ x', ColChunkCursor.seek_key s x k = some x' ∧ ColPos c x' (p.seekKey k) := by
  have hpw : (((c.map Prod.fst).take c.length).drop x.key_cursor).Pairwise fun u v => decide (v < k) = true → decide (u < k) = true := by
    rw [List.take_of_length_le (by simp), ← List.map_drop]
    refine List.pairwise_map.2 ((hs.keys.sublist (List.drop_sublist _ _)).imp fun {a b} hab => ?_)
    simp only [decide_eq_true_eq]
    exact fun h => hab.trans h
  have hg := gallop_eq ((c.map Prod.fst).take c.length) x.key_cursor (fun z => decide (z < k)) hpw
  rw [List.take_of_length_le (by simp), ← List.map_drop, List.takeWhile_map, List.length_map] at hg
  set n := ((c.drop x.key_cursor).takeWhile ((fun z => decide (z < k)) ∘ Prod.fst)).length with hn
  have hle : n ≤ c.length - x.key_cursor := by rw [hn, ← List.length_drop]; exact (List.takeWhile_sublist _).length_le
  have e : p.seekKey k = Pos.start (c.drop (x.key_cursor + n)) := by
    rw [Pos.seekKey, hp.2.1, dropWhile_eq_drop, List.drop_drop]; rfl
  have hx := hp.1
  rw [ColChunkCursor.seek_key, gallopIn, h.keys, List.take_length, hg, Option.bind_some, e]
  simp only
  by_cases hi : x.key_cursor + n < c.length
  · rw [col_key_valid h, if_pos (by simpa using hi), col_rewind h hi]
    exact ⟨_, rfl, colPos_start c hi⟩
  · rw [col_key_valid h, if_neg (by simpa using hi)]
    have : x.key_cursor + n = c.length := by omega
    rw [this]
    exact ⟨_, rfl, colPos_end c _⟩

/-- Cursors over a columnar chunk behave as positions in its contents. -/
theorem colCursor_presents (h : ColOf s c) (hs : ContentsSorted c) : Presents ColChunkCursor.ops s c (ColPos c) where
  inside := by
    intro x p hp
    refine ⟨hp.2.1 ▸ List.drop_suffix _ _, fun kv hkv => ?_⟩
    have hne : p.keys ≠ [] := by rintro e; rw [e] at hkv; cases hkv
    obtain ⟨hl, j, -, -, hv⟩ := hp.at hne
    rw [hp.2.1, List.head?_drop, List.getElem?_eq_getElem hl] at hkv
    cases hkv
    rw [hv]; exact List.drop_suffix _ _
  key_valid := by
    intro x p hp
    rw [hp.key?, Option.isSome_map]
    refine congrArg some ?_
    show x.key_valid s = _
    rw [col_key_valid h, Bool.eq_iff_iff, decide_eq_true_iff]; simp
  get_key := by
    intro x p hp
    rw [hp.key?]
    show ColChunkCursor.get_key s x = _
    rw [ColChunkCursor.get_key, col_key_valid h, ColChunkCursor.key, h.keys, List.getElem?_map]
    by_cases hl : x.key_cursor < c.length
    · rw [if_pos (by simpa using hl), List.getElem?_eq_getElem hl]; rfl
    · rw [if_neg (by simpa using hl), List.getElem?_eq_none (by omega)]; rfl
  key := by
    intro x p hp
    rw [hp.key?]
    show s.keys.values[x.key_cursor]? = _
    rw [h.keys, List.getElem?_map]
  val_valid := by
    intro x p hp hk
    obtain ⟨hl, j, hj, h1, h2⟩ := hp.at hk
    rw [val?_isSome h2]
    exact col_val_valid h hl h1
  get_val := by
    intro x p hp hk
    obtain ⟨hl, j, hj, h1, h2⟩ := hp.at hk
    rw [val?_drop h2]
    show ColChunkCursor.get_val s x = _
    rw [ColChunkCursor.get_val, col_val_valid h hl h1, Option.bind_some, ColChunkCursor.val, h.values, List.getElem?_map, h1]
    by_cases hlt : j < c[x.key_cursor].2.length
    · rw [if_pos (by simpa using hlt), ColOf.flat c hl hlt, List.getElem?_eq_getElem hlt]; rfl
    · rw [if_neg (by simpa using hlt), List.getElem?_eq_none (by omega)]; rfl
  val := by
    intro x p hp hk hv
    obtain ⟨hl, j, hj, h1, h2⟩ := hp.at hk
    have hlt : j < c[x.key_cursor].2.length := by
      rw [h2, Ne, List.drop_eq_nil_iff] at hv; omega
    rw [val?_drop h2]
    show s.vals.values[x.val_cursor]? = _
    rw [h.values, List.getElem?_map, h1, ColOf.flat c hl hlt, List.getElem?_eq_getElem hlt]
  map_times := by
    intro x p hp hk hv
    obtain ⟨hl, j, hj, h1, h2⟩ := hp.at hk
    have hlt : j < c[x.key_cursor].2.length := by
      rw [h2, Ne, List.drop_eq_nil_iff] at hv; omega
    obtain ⟨g1, g2⟩ := List.getElem?_eq_some_iff.1 (ColOf.flat c hl hlt)
    show ColChunkCursor.map_times s x = _
    rw [ColChunkCursor.map_times, col_val_valid h hl h1, Option.bind_some, if_pos (by simpa using hlt), h1, col_times h g1, g2, Pos.upds?, h2, List.head?_drop,
      List.getElem?_eq_getElem hlt]
    rfl
  step_key := by
    intro x p hp
    have e : p.stepKey = Pos.start (c.drop (x.key_cursor + 1)) := by rw [Pos.stepKey, hp.2.1, List.tail_drop]
    show ∃ c', ColChunkCursor.step_key s x = some c' ∧ _
    rw [ColChunkCursor.step_key, e]
    simp only
    by_cases hi : x.key_cursor + 1 < c.length
    · rw [col_key_valid h, if_pos (by simpa using hi), col_rewind h hi]
      exact ⟨_, rfl, colPos_start c hi⟩
    · rw [col_key_valid h, if_neg (by simpa using hi), h.length, List.drop_eq_nil_of_le (by omega), ← List.drop_length (l := c)]
      exact ⟨_, rfl, colPos_end c _⟩
  seek_key := fun x p k hp => col_seek_key h hs hp k
  step_val := by
    intro x p hp hk
    obtain ⟨hl, j, hj, h1, h2⟩ := hp.at hk
    show ∃ c', ColChunkCursor.step_val s x = some c' ∧ _
    rw [ColChunkCursor.step_val]
    simp only
    rw [col_val_valid (x := { x with val_cursor := x.val_cursor + 1 }) h hl (j := j + 1) (by simp only; omega), Option.bind_some]
    by_cases hlt : j + 1 < c[x.key_cursor].2.length
    · rw [if_pos (by simpa using hlt)]
      refine ⟨_, rfl, hp.1, hp.2.1, Or.inr ⟨hl, j + 1, by simp only; omega, by simp only; omega, ?_⟩⟩
      rw [Pos.stepVal]; simp only; rw [h2, List.tail_drop]
    · rw [if_neg (by simpa using hlt), h.range hl, Option.map_some]
      refine ⟨_, rfl, hp.1, hp.2.1, Or.inr ⟨hl, c[x.key_cursor].2.length, by simp only; omega, rfl, ?_⟩⟩
      rw [Pos.stepVal]; simp only
      rw [h2, List.tail_drop, List.drop_eq_nil_of_le (by omega), List.drop_eq_nil_of_le (by omega)]
  rewind_keys := by
    intro x p hp
    show ∃ c', ColChunkCursor.rewind_keys s x = some c' ∧ _
    rw [ColChunkCursor.rewind_keys]
    by_cases hi : 0 < c.length
    · rw [col_rewind (x := { x with key_cursor := 0 }) h hi]
      exact ⟨_, rfl, colPos_start c hi⟩
    · rw [ColChunkCursor.rewind_vals, col_key_valid h, if_neg (by simpa using hi)]
      have : c = [] := List.length_eq_zero_iff.1 (by omega)
      subst this
      exact ⟨_, rfl, colPos_end _ _⟩
  rewind_vals := by
    intro x p hp hk
    have hl := hp.valid.1 hk
    show ∃ c', ColChunkCursor.rewind_vals s x = some c' ∧ _
    rw [col_rewind h hl, Pos.rewindVals, hp.2.1]
    exact ⟨_, rfl, colPos_start c hl⟩

theorem colCursor_seeksVals (h : ColOf s c) (hs : ContentsSorted c) : SeeksVals ColChunkCursor.ops s (ColPos c) := by
  intro x p v hp hk
  obtain ⟨hl, j, hj, h1, h2⟩ := hp.at hk
  have hflat : ((c.flatMap Prod.snd).map Prod.fst).take (startAt (c.map Prod.snd) x.key_cursor + c[x.key_cursor].2.length) =
      (((c.take x.key_cursor).flatMap Prod.snd).map Prod.fst) ++ c[x.key_cursor].2.map Prod.fst := by
    have : c = c.take x.key_cursor ++ c[x.key_cursor] :: c.drop (x.key_cursor + 1) := by rw [List.getElem_cons_drop, List.take_append_drop]
    have hst : startAt (c.map Prod.snd) x.key_cursor = ((c.take x.key_cursor).flatMap Prod.snd).length := by
      rw [startAt, ← List.map_take, List.flatMap_def]
    have e : c.flatMap Prod.snd = (c.take x.key_cursor ++ c[x.key_cursor] :: c.drop (x.key_cursor + 1)).flatMap Prod.snd := congrArg (List.flatMap Prod.snd) this
    rw [e, List.flatMap_append, List.flatMap_cons, List.map_append, List.map_append]
    rw [← List.append_assoc, List.take_left' (by simp [hst])]
  have hlen : (((c.take x.key_cursor).flatMap Prod.snd).map Prod.fst).length = startAt (c.map Prod.snd) x.key_cursor := by
    rw [startAt, ← List.map_take, List.length_map, List.flatMap_def]
  have hdrop : ((((c.take x.key_cursor).flatMap Prod.snd).map Prod.fst) ++ c[x.key_cursor].2.map Prod.fst).drop x.val_cursor = (c[x.key_cursor].2.drop j).map Prod.fst := by
    rw [h1, ← hlen, List.drop_append, List.map_drop]
    simp
  have hg := gallop_eq (((c.flatMap Prod.snd).map Prod.fst).take (startAt (c.map Prod.snd) x.key_cursor + c[x.key_cursor].2.length)) x.val_cursor (fun z => decide (z < v)) (by
    rw [hflat, hdrop]
    refine List.pairwise_map.2 (((hs.vals _ (List.getElem_mem hl)).sublist (List.drop_sublist _ _)).imp fun {a b} hab => ?_)
    simp only [decide_eq_true_eq]
    exact fun h => hab.trans h)
  rw [hflat, hdrop, List.takeWhile_map, List.length_map] at hg
  set n := ((c[x.key_cursor].2.drop j).takeWhile ((fun z => decide (z < v)) ∘ Prod.fst)).length with hn
  have hle : n ≤ c[x.key_cursor].2.length - j := by rw [hn, ← List.length_drop]; exact (List.takeWhile_sublist _).length_le
  show ∃ c', ColChunkCursor.seek_val s x v = some c' ∧ _
  rw [ColChunkCursor.seek_val, col_key_valid h, if_pos (by simpa using hl), h.range hl, Option.bind_some, gallopIn, h.values, hflat, hg, Option.map_some]
  refine ⟨_, rfl, hp.1, hp.2.1, Or.inr ⟨hl, j + n, by simp only; omega, by simp only; omega, ?_⟩⟩
  rw [Pos.seekVal]; simp only
  rw [h2, dropWhile_eq_drop, List.drop_drop]; rfl

end
end DD
