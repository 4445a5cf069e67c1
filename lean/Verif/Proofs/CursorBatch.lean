import Verif.Proofs.CursorListSim
import Verif.Proofs.OrdKey
import Verif.Proofs.BatchContainer

/-! # The cursors of single batches meet the contract -/

namespace DD

theorem takeWhile_stop {A : Type*} (q : A → Bool) (l : List A) : ∀ {i : Nat} {a : A}, (l.takeWhile q).length = i → l[i]? = some a → q a = false := by
  induction l with
  | nil => intro i a _ h; simp at h
  | cons x l ih =>
    intro i a hi h
    rw [List.takeWhile_cons] at hi
    by_cases hx : q x = true
    · rw [if_pos hx, List.length_cons] at hi
      subst hi
      exact ih rfl (by simpa using h)
    · rw [if_neg hx] at hi
      subst hi
      simp only [List.length_nil, List.getElem?_cons_zero, Option.some.injEq] at h
      subst h; simpa using hx

theorem dropWhile_eq_drop {A : Type*} (q : A → Bool) (l : List A) : l.dropWhile q = l.drop (l.takeWhile q).length := by
  conv_rhs => enter [2]; rw [← List.takeWhile_append_dropWhile (p := q) (l := l)]
  rw [List.drop_left]

/-- Seeking in a sorted range of a vector. -/
theorem seek_range {A : Type*} [LinearOrder A] (xs ws : List A) (start : Nat) (h : ∀ i a, ws[i]? = some a → xs[start + i]? = some a)
    (hs : ws.Pairwise (· ≤ ·)) (key : A) :
    advance (fun i => (xs[i]?).map fun x => decide (x < key)) start (start + ws.length) = some (ws.takeWhile fun x => decide (x < key)).length := by
  have hle : (ws.takeWhile fun x => decide (x < key)).length ≤ ws.length := (List.takeWhile_sublist _).length_le
  refine advance_spec ⟨Or.inl (by omega), fun i hi => ?_, fun i hi hi' => ?_⟩ (by omega)
  · have hi' : i < ws.length := by omega
    rw [h i _ (List.getElem?_eq_getElem hi')]
    simp only [Option.map_some, Option.some.injEq, decide_eq_true_eq]
    have hall := List.all_takeWhile (p := fun x => decide (x < key)) (l := ws)
    rw [List.all_eq_true] at hall
    have := hall _ (List.getElem_mem hi)
    rw [(List.takeWhile_prefix _).getElem hi] at this
    simpa using this
  · have hi2 : i < ws.length := by omega
    rw [h i _ (List.getElem?_eq_getElem hi2)]
    simp only [Option.map_some, Option.some.injEq, decide_eq_false_iff_not, not_lt]
    set n := (ws.takeWhile fun x => decide (x < key)).length with hn
    have hfirst := takeWhile_stop (fun x => decide (x < key)) ws hn.symm (List.getElem?_eq_getElem (by omega : n < ws.length))
    simp only [decide_eq_false_iff_not, not_lt] at hfirst
    rcases Nat.eq_or_lt_of_le hi with he | hlt
    · simpa [he] using hfirst
    · exact hfirst.trans (List.pairwise_iff_getElem.1 hs _ _ (by omega) hi2 hlt)

theorem takeWhile_map_length {A B : Type*} (f : A → B) (q : B → Bool) (l : List A) :
    ((l.map f).takeWhile q).length = (l.takeWhile fun x => q (f x)).length := by
  rw [List.takeWhile_map, List.length_map]; rfl

section
variable {K V T R : Type*} [LinearOrder K] [LinearOrder V]

theorem valid_iff' {s : ValStorage K V T R} {t : Contents K V T R} (h : Repr s t) (c : ValCursor) :
    c.key_valid s = decide (c.key_cursor < t.length) := by
  rw [ValCursor.key_valid, h.keys, List.length_map]

theorem rewind_eq' {s : ValStorage K V T R} {t : Contents K V T R} (h : Repr s t) (c : ValCursor) (hc : c.key_cursor < t.length) :
    c.rewind_vals s = some ⟨c.key_cursor, Trie.off t c.key_cursor⟩ := by
  rw [ValCursor.rewind_vals, h.voffs _ hc]; rfl

theorem mapTimes_eq' (c : ValCursor) (s : ValStorage K V T R) : c.map_times s = s.upds.read c.val_cursor := rfl

theorem drop_cons' {α : Type*} {l : List α} {n : Nat} {a : α} (h : l[n]? = some a) : l.drop n = a :: l.drop (n + 1) := by
  obtain ⟨h1, h2⟩ := List.getElem?_eq_some_iff.mp h
  rw [List.drop_eq_getElem_cons h1, h2]

/-- A cursor of a key-value batch, and the position it stands for. -/
structure ValRel (t : Contents K V T R) (c : ValCursor) (p : Pos K V T R) : Prop where
  le : c.key_cursor ≤ t.length
  keys : p.keys = t.drop c.key_cursor
  vals : ∀ kv, t[c.key_cursor]? = some kv → ∃ j, j ≤ kv.2.length ∧ c.val_cursor = Trie.off t c.key_cursor + j ∧ p.vals = kv.2.drop j

variable {s : ValStorage K V T R} {t : Contents K V T R}

theorem ValRel.cur {c : ValCursor} {p : Pos K V T R} (h : ValRel t c p) (hk : p.keys ≠ []) :
    ∃ kv, t[c.key_cursor]? = some kv ∧ c.key_cursor < t.length ∧ p.keys = kv :: t.drop (c.key_cursor + 1) := by
  have : c.key_cursor < t.length := by
    by_contra hc
    exact hk (by rw [h.keys, List.drop_eq_nil_of_le (by omega)])
  refine ⟨t[c.key_cursor], List.getElem?_eq_getElem this, this, ?_⟩
  rw [h.keys, drop_cons' (List.getElem?_eq_getElem this)]

theorem ValRel.key? {c : ValCursor} {p : Pos K V T R} (h : ValRel t c p) : p.key? = (t[c.key_cursor]?).map Prod.fst := by
  rw [Pos.key?, h.keys, List.head?_drop]

/-- Landing on a key and rewinding its values. -/
theorem ValRel.land (hr : Repr s t) (i v : Nat) (hi : i ≤ t.length) :
    ∃ c', (if (⟨i, v⟩ : ValCursor).key_valid s then (⟨i, v⟩ : ValCursor).rewind_vals s else some ⟨i, v⟩) = some c' ∧ ValRel t c' (Pos.start (t.drop i)) := by
  rw [valid_iff' hr]
  split_ifs with h
  · simp only [decide_eq_true_eq] at h
    refine ⟨_, rewind_eq' hr _ h, by simpa using h.le, rfl, ?_⟩
    intro kv hkv
    refine ⟨0, Nat.zero_le _, rfl, ?_⟩
    simp only [Pos.start, List.head?_drop, hkv, Option.map_some, Option.getD_some, List.drop_zero]
  · simp only [decide_eq_true_eq, not_lt] at h
    refine ⟨_, rfl, hi, rfl, ?_⟩
    intro kv hkv
    rw [List.getElem?_eq_none (by simpa using h)] at hkv; simp at hkv

theorem valCursor_presents (hr : Repr s t) (hs : ContentsSorted t) : Presents ValCursor.ops s t (ValRel t) where
  inside c p h := by
    refine ⟨by rw [h.keys]; exact List.drop_suffix _ _, ?_⟩
    intro kv hkv
    rw [h.keys, List.head?_drop] at hkv
    obtain ⟨j, _, _, hj⟩ := h.vals kv hkv
    rw [hj]; exact List.drop_suffix _ _
  key_valid c p h := by
    show some (c.key_valid s) = _
    rw [valid_iff' hr, h.key?]
    rcases Nat.lt_or_ge c.key_cursor t.length with hlt | hge
    · simp [hlt]
    · simp [List.getElem?_eq_none hge, hge]
  get_key c p h := by
    show some (c.key s) = _
    rw [ValCursor.key, hr.keys, List.getElem?_map, h.key?]
  key c p h := by
    show c.key s = _
    rw [ValCursor.key, hr.keys, List.getElem?_map, h.key?]
  val_valid c p h hk := by
    obtain ⟨kv, h1, h2, _⟩ := h.cur hk
    obtain ⟨j, j1, j2, j3⟩ := h.vals kv h1
    show c.val_valid s = _
    rw [ValCursor.val_valid, hr.voffs _ h2, Trie.off_succ t h1, Pos.val?, j3, List.head?_drop, j2]
    rcases Nat.lt_or_ge j kv.2.length with hlt | hge
    · simp [hlt]
    · simp [List.getElem?_eq_none hge, hge]
  get_val c p h hk := by
    obtain ⟨kv, h1, h2, _⟩ := h.cur hk
    obtain ⟨j, j1, j2, j3⟩ := h.vals kv h1
    have hv : c.val_valid s = some (decide (j < kv.2.length)) := by
      rw [ValCursor.val_valid, hr.voffs _ h2, Trie.off_succ t h1, j2]; simp
    simp only [ValCursor.ops, hv]
    rw [Pos.val?, j3, List.head?_drop]
    rcases Nat.lt_or_ge j kv.2.length with hlt | hge
    · have := (hasVals_of_repr hr h1 j _ (List.getElem?_eq_getElem hlt)).1
      rw [decide_eq_true hlt, ValCursor.val, j2, this, List.getElem?_eq_getElem hlt]; rfl
    · rw [decide_eq_false (by omega), List.getElem?_eq_none hge]; rfl
  val c p h hk hv := by
    obtain ⟨kv, h1, h2, _⟩ := h.cur hk
    obtain ⟨j, j1, j2, j3⟩ := h.vals kv h1
    have hlt : j < kv.2.length := by
      by_contra hc
      exact hv (by rw [j3, List.drop_eq_nil_of_le (by omega)])
    show c.val s = _
    have := (hasVals_of_repr hr h1 j _ (List.getElem?_eq_getElem hlt)).1
    rw [ValCursor.val, j2, this, Pos.val?, j3, List.head?_drop, List.getElem?_eq_getElem hlt]; rfl
  map_times c p h hk hv := by
    obtain ⟨kv, h1, h2, _⟩ := h.cur hk
    obtain ⟨j, j1, j2, j3⟩ := h.vals kv h1
    have hlt : j < kv.2.length := by
      by_contra hc
      exact hv (by rw [j3, List.drop_eq_nil_of_le (by omega)])
    show c.map_times s = _
    have := (hasVals_of_repr hr h1 j _ (List.getElem?_eq_getElem hlt)).2
    rw [mapTimes_eq', j2, this, Pos.upds?, j3, List.head?_drop, List.getElem?_eq_getElem hlt]; rfl
  step_key c p h := by
    show ∃ c', c.step_key s = some c' ∧ _
    have hp : p.stepKey = Pos.start (t.drop (c.key_cursor + 1)) := by rw [Pos.stepKey, h.keys, List.tail_drop]
    rw [hp, ValCursor.step_key]
    rcases Nat.lt_or_ge c.key_cursor t.length with hlt | hge
    · have := ValRel.land hr (c.key_cursor + 1) c.val_cursor (by omega)
      by_cases hv : (⟨c.key_cursor + 1, c.val_cursor⟩ : ValCursor).key_valid s = true
      · simp only [hv, if_true] at this ⊢; exact this
      · simp only [hv, Bool.false_eq_true, if_false] at this ⊢
        rw [valid_iff' hr] at hv
        simp only [decide_eq_true_eq, not_lt] at hv
        rw [hr.keys, List.length_map, show t.length = c.key_cursor + 1 by omega]
        exact this
    · have hv : ¬ (⟨c.key_cursor + 1, c.val_cursor⟩ : ValCursor).key_valid s = true := by
        rw [valid_iff' hr]; simp; omega
      simp only [hv, Bool.false_eq_true, if_false]
      rw [hr.keys, List.length_map]
      refine ⟨_, rfl, le_refl _, ?_, ?_⟩
      · show t.drop (c.key_cursor + 1) = _
        rw [List.drop_eq_nil_of_le (by omega), List.drop_eq_nil_of_le (by simp)]
      · intro kv hkv
        rw [List.getElem?_eq_none (by simp)] at hkv; simp at hkv
  seek_key c p k h := by
    show ∃ c', c.seek_key s k = some c' ∧ ValRel t c' (p.seekKey k)
    have hadv := seek_range s.keys ((t.drop c.key_cursor).map Prod.fst) c.key_cursor (by
      intro i a ha
      rw [hr.keys, List.getElem?_map]
      rw [List.getElem?_map, List.getElem?_drop] at ha
      exact ha) (by
      have : (t.drop c.key_cursor).Pairwise fun x y => x.1 ≤ y.1 := (hs.keys.imp fun h => h.le).sublist (List.drop_sublist _ _)
      exact List.pairwise_map.mpr this) k
    have hlen : c.key_cursor + ((t.drop c.key_cursor).map Prod.fst).length = s.keys.length := by
      have := h.le
      rw [hr.keys]; simp; omega
    rw [hlen, takeWhile_map_length] at hadv
    rw [ValCursor.seek_key, hadv]
    have hp : p.seekKey k = Pos.start (t.drop (c.key_cursor + ((t.drop c.key_cursor).takeWhile fun x => decide (x.1 < k)).length)) := by
      rw [Pos.seekKey, h.keys, dropWhile_eq_drop, List.drop_drop]
    rw [hp]
    apply ValRel.land hr
    have : ((t.drop c.key_cursor).takeWhile fun x => decide (x.1 < k)).length ≤ (t.drop c.key_cursor).length := (List.takeWhile_sublist _).length_le
    have h2 := h.le
    rw [List.length_drop] at this
    omega
  step_val c p h hk := by
    obtain ⟨kv, h1, h2, _⟩ := h.cur hk
    obtain ⟨j, j1, j2, j3⟩ := h.vals kv h1
    show ∃ c', c.step_val s = some c' ∧ _
    simp only [ValCursor.step_val, hr.voffs _ h2, Trie.off_succ t h1]
    split_ifs with hc
    · refine ⟨_, rfl, h.le, h.keys, ?_⟩
      intro kv' hkv'
      rw [h1] at hkv'; cases hkv'
      refine ⟨j + 1, by omega, by simp [j2]; omega, ?_⟩
      rw [Pos.stepVal]; simp only; rw [j3, List.tail_drop]
    · refine ⟨_, rfl, h.le, h.keys, ?_⟩
      intro kv' hkv'
      rw [h1] at hkv'; cases hkv'
      refine ⟨kv.2.length, le_refl _, rfl, ?_⟩
      rw [Pos.stepVal]; simp only; rw [j3, List.tail_drop, List.drop_eq_nil_of_le (by omega), List.drop_eq_nil_of_le (le_refl _)]
  rewind_keys c p h := by
    show ∃ c', c.rewind_keys s = some c' ∧ _
    exact ValRel.land hr 0 c.val_cursor (Nat.zero_le _)
  rewind_vals c p h hk := by
    obtain ⟨kv, h1, h2, _⟩ := h.cur hk
    show ∃ c', c.rewind_vals s = some c' ∧ _
    refine ⟨_, rewind_eq' hr _ h2, h.le, h.keys, ?_⟩
    intro kv' hkv'
    rw [h1] at hkv'; cases hkv'
    refine ⟨0, Nat.zero_le _, rfl, ?_⟩
    rw [Pos.rewindVals, h.keys]
    simp [Pos.start, List.head?_drop, h1]

theorem valCursor_seeksVals (hr : Repr s t) (hs : ContentsSorted t) : SeeksVals ValCursor.ops s (ValRel t) := by
  intro c p v h hk
  obtain ⟨kv, h1, h2, _⟩ := h.cur hk
  obtain ⟨j, j1, j2, j3⟩ := h.vals kv h1
  have hadv := seek_range s.vals.vals ((kv.2.drop j).map Prod.fst) c.val_cursor (by
      intro i a ha
      rw [List.getElem?_map, List.getElem?_drop] at ha
      cases hg : kv.2[j + i]? with
      | none => rw [hg] at ha; simp at ha
      | some vu =>
        have := (hasVals_of_repr hr h1 (j + i) vu hg).1
        rw [j2, Nat.add_assoc, this]
        rw [hg] at ha; simpa using ha) (by
      have : (kv.2.drop j).Pairwise fun x y => x.1 ≤ y.1 :=
        ((hs.vals kv (List.mem_of_getElem? h1)).imp fun h => h.le).sublist (List.drop_sublist _ _)
      exact List.pairwise_map.mpr this) v
  have hlen : c.val_cursor + ((kv.2.drop j).map Prod.fst).length = Trie.off t c.key_cursor + kv.2.length := by
    rw [j2]; simp; omega
  rw [hlen, takeWhile_map_length] at hadv
  have hle : ((kv.2.drop j).takeWhile fun x => decide (x.1 < v)).length ≤ (kv.2.drop j).length := (List.takeWhile_sublist _).length_le
  rw [List.length_drop] at hle
  show ∃ c', c.seek_val s v = some c' ∧ _
  simp only [ValCursor.seek_val, hr.voffs _ h2, Trie.off_succ t h1, hadv]
  refine ⟨_, rfl, h.le, h.keys, ?_⟩
  intro kv' hkv'
  rw [h1] at hkv'; cases hkv'
  refine ⟨j + ((kv.2.drop j).takeWhile fun x => decide (x.1 < v)).length, by omega, by simp [j2]; omega, ?_⟩
  rw [Pos.seekVal]; simp only; rw [j3, dropWhile_eq_drop, List.drop_drop]

theorem valRel_init (t : Contents K V T R) : ValRel t ValCursor.init (Pos.start t) := by
  refine ⟨Nat.zero_le _, rfl, ?_⟩
  intro kv hkv
  have hkv : t[0]? = some kv := hkv
  refine ⟨0, Nat.zero_le _, by simp [ValCursor.init, Trie.off, Trie.vals], ?_⟩
  rw [← List.head?_eq_getElem?] at hkv
  simp [Pos.start, hkv]

end

section
variable {K T R : Type*} [LinearOrder K]

/-- The contents of a key-only batch: one value per key. -/
def unitVals (t : List (K × List (T × R))) : Contents K Unit T R := t.map fun kv => (kv.1, [((), kv.2)])

/-- A cursor of a key-only batch, and the position it stands for. -/
structure KeyRel (t : List (K × List (T × R))) (c : KeyCursor) (p : Pos K Unit T R) : Prop where
  le : c.key_cursor ≤ t.length
  keys : p.keys = unitVals (t.drop c.key_cursor)
  vals : ∀ kv, t[c.key_cursor]? = some kv → p.vals = if c.val_stepped then [] else [((), kv.2)]

variable {s : KeyStorage K T R} {t : List (K × List (T × R))}

theorem unitVals_drop (t : List (K × List (T × R))) (i : Nat) : unitVals (t.drop i) = (unitVals t).drop i := by
  rw [unitVals, unitVals, List.map_drop]

theorem KeyRel.cur {c : KeyCursor} {p : Pos K Unit T R} (h : KeyRel t c p) (hk : p.keys ≠ []) :
    ∃ kv, t[c.key_cursor]? = some kv ∧ c.key_cursor < t.length := by
  have : c.key_cursor < t.length := by
    by_contra hc
    exact hk (by rw [h.keys, List.drop_eq_nil_of_le (by omega)]; rfl)
  exact ⟨t[c.key_cursor], List.getElem?_eq_getElem this, this⟩

theorem KeyRel.key? {c : KeyCursor} {p : Pos K Unit T R} (h : KeyRel t c p) : p.key? = (t[c.key_cursor]?).map Prod.fst := by
  rw [Pos.key?, h.keys, unitVals, List.head?_map, List.head?_drop, Option.map_map]; rfl

theorem KeyRel.land (hr : KRepr s t) (i : Nat) (b : Bool) (hi : i ≤ t.length) :
    KeyRel t (if (⟨i, b⟩ : KeyCursor).key_valid s then (⟨i, b⟩ : KeyCursor).rewind_vals else ⟨i, b⟩) (Pos.start ((unitVals t).drop i)) := by
  rw [KeyCursor.key_valid, hr.length]
  split_ifs with h
  · refine ⟨hi, (unitVals_drop _ _).symm, ?_⟩
    intro kv hkv
    have hkv : t[i]? = some kv := hkv
    simp [Pos.start, List.head?_drop, unitVals, KeyCursor.rewind_vals, hkv]
  · simp only [decide_eq_true_eq, not_lt] at h
    refine ⟨hi, (unitVals_drop _ _).symm, ?_⟩
    intro kv hkv
    rw [List.getElem?_eq_none (by simpa using h)] at hkv; simp at hkv

theorem keyCursor_presents (hr : KRepr s t) (hs : t.Pairwise fun x y => x.1 < y.1) :
    Presents KeyCursor.ops s (unitVals t) (KeyRel t) where
  inside c p h := by
    refine ⟨by rw [h.keys, unitVals_drop]; exact List.drop_suffix _ _, ?_⟩
    intro kv hkv
    rw [h.keys, unitVals, List.head?_map, List.head?_drop] at hkv
    cases hg : t[c.key_cursor]? with
    | none => rw [hg] at hkv; simp at hkv
    | some x =>
      rw [hg] at hkv
      simp only [Option.map_some, Option.mem_some_iff] at hkv
      rw [h.vals x hg, ← hkv]
      split_ifs
      · exact List.nil_suffix
      · exact List.suffix_refl _
  key_valid c p h := by
    show some (c.key_valid s) = _
    rw [KeyCursor.key_valid, hr.length, h.key?]
    rcases Nat.lt_or_ge c.key_cursor t.length with hlt | hge
    · simp [hlt]
    · simp [List.getElem?_eq_none hge, hge]
  get_key c p h := by
    show some (c.key s) = _
    rw [KeyCursor.key, hr.keys, List.getElem?_map, h.key?]
  key c p h := by
    show c.key s = _
    rw [KeyCursor.key, hr.keys, List.getElem?_map, h.key?]
  val_valid c p h hk := by
    obtain ⟨kv, h1, h2⟩ := h.cur hk
    show some c.val_valid = _
    rw [KeyCursor.val_valid, Pos.val?, h.vals kv h1]
    cases c.val_stepped <;> rfl
  get_val c p h hk := by
    obtain ⟨kv, h1, h2⟩ := h.cur hk
    simp only [KeyCursor.ops, KeyCursor.val_valid, Pos.val?, h.vals kv h1]
    by_cases hb : c.val_stepped = true <;> simp [hb]
  val c p h hk hv := by
    obtain ⟨kv, h1, h2⟩ := h.cur hk
    show some () = _
    rw [Pos.val?]
    cases hp : p.vals with
    | nil => exact absurd hp hv
    | cons a l => rfl
  map_times c p h hk hv := by
    obtain ⟨kv, h1, h2⟩ := h.cur hk
    have hb : c.val_stepped = false := by
      cases hb : c.val_stepped with
      | false => rfl
      | true => exact absurd (by rw [h.vals kv h1, hb]; rfl) hv
    show c.map_times s = _
    have : c.map_times s = some kv.2 := hr.upds c.key_cursor kv.2 (by rw [List.getElem?_map, h1]; rfl)
    rw [this, Pos.upds?, h.vals kv h1, hb]; rfl
  step_key c p h := by
    refine ⟨_, rfl, ?_⟩
    have hp : p.stepKey = Pos.start ((unitVals t).drop (c.key_cursor + 1)) := by rw [Pos.stepKey, h.keys, unitVals_drop, List.tail_drop]
    show KeyRel t (c.step_key s) _
    rw [hp, KeyCursor.step_key]
    rcases Nat.lt_or_ge c.key_cursor t.length with hlt | hge
    · have := KeyRel.land hr (c.key_cursor + 1) c.val_stepped (by omega)
      by_cases hv : (⟨c.key_cursor + 1, c.val_stepped⟩ : KeyCursor).key_valid s = true
      · simp only [hv, if_true] at this ⊢; exact this
      · simp only [hv, Bool.false_eq_true, if_false] at this ⊢
        rw [KeyCursor.key_valid, hr.length] at hv
        simp only [decide_eq_true_eq, not_lt] at hv
        rw [hr.length, show t.length = c.key_cursor + 1 by omega]
        exact this
    · have hv : ¬ (⟨c.key_cursor + 1, c.val_stepped⟩ : KeyCursor).key_valid s = true := by
        rw [KeyCursor.key_valid, hr.length]; simp; omega
      simp only [hv, Bool.false_eq_true, if_false]
      rw [hr.length]
      refine ⟨le_refl _, ?_, ?_⟩
      · show (unitVals t).drop (c.key_cursor + 1) = _
        rw [unitVals_drop, List.drop_eq_nil_of_le (by simp [unitVals]; omega), List.drop_eq_nil_of_le (by simp [unitVals])]
      · intro kv hkv
        rw [List.getElem?_eq_none (by simp)] at hkv; simp at hkv
  seek_key c p k h := by
    show ∃ c', c.seek_key s k = some c' ∧ KeyRel t c' (p.seekKey k)
    have hadv := seek_range s.keys ((t.drop c.key_cursor).map Prod.fst) c.key_cursor (by
      intro i a ha
      rw [hr.keys, List.getElem?_map]
      rw [List.getElem?_map, List.getElem?_drop] at ha
      exact ha) (by
      have : (t.drop c.key_cursor).Pairwise fun x y => x.1 ≤ y.1 := (hs.imp fun h => h.le).sublist (List.drop_sublist _ _)
      exact List.pairwise_map.mpr this) k
    have hlen : c.key_cursor + ((t.drop c.key_cursor).map Prod.fst).length = s.keys.length := by
      have := h.le
      rw [hr.keys]; simp; omega
    rw [hlen, takeWhile_map_length] at hadv
    rw [KeyCursor.seek_key, hadv]
    have hp : p.seekKey k = Pos.start ((unitVals t).drop (c.key_cursor + ((t.drop c.key_cursor).takeWhile fun x => decide (x.1 < k)).length)) := by
      have e : ((unitVals (t.drop c.key_cursor)).takeWhile fun x => decide (x.1 < k)).length =
          ((t.drop c.key_cursor).takeWhile fun x => decide (x.1 < k)).length := by
        rw [unitVals, takeWhile_map_length]
      rw [Pos.seekKey, h.keys, dropWhile_eq_drop, e, unitVals_drop, List.drop_drop]
    rw [hp]
    have hl := KeyRel.land hr (c.key_cursor + ((t.drop c.key_cursor).takeWhile fun x => decide (x.1 < k)).length) c.val_stepped (by
      have : ((t.drop c.key_cursor).takeWhile fun x => decide (x.1 < k)).length ≤ (t.drop c.key_cursor).length := (List.takeWhile_sublist _).length_le
      have h2 := h.le
      rw [List.length_drop] at this
      omega)
    refine ⟨_, ?_, hl⟩
    simp only
    split_ifs <;> rfl
  step_val c p h hk := by
    obtain ⟨kv, h1, h2⟩ := h.cur hk
    refine ⟨_, rfl, h.le, h.keys, ?_⟩
    intro kv' hkv'
    rw [Pos.stepVal]; simp only
    rw [h.vals kv' hkv']
    simp only [KeyCursor.step_val]
    cases c.val_stepped <;> rfl
  rewind_keys c p h := ⟨_, rfl, KeyRel.land hr 0 c.val_stepped (Nat.zero_le _)⟩
  rewind_vals c p h hk := by
    refine ⟨_, rfl, h.le, h.keys, ?_⟩
    intro kv hkv
    have hkv : t[c.key_cursor]? = some kv := hkv
    rw [Pos.rewindVals, h.keys]
    simp [Pos.start, unitVals, List.head?_drop, hkv, KeyCursor.rewind_vals]

theorem keyCursor_seeksVals : SeeksVals KeyCursor.ops s (KeyRel t) := by
  intro c p v h hk
  refine ⟨c, rfl, h.le, h.keys, ?_⟩
  intro kv hkv
  rw [Pos.seekVal]; simp only
  rw [h.vals kv hkv]
  split_ifs
  · rfl
  · simp

theorem keyRel_init (t : List (K × List (T × R))) : KeyRel t KeyCursor.init (Pos.start (unitVals t)) := by
  refine ⟨Nat.zero_le _, rfl, ?_⟩
  intro kv hkv
  have hkv : t[0]? = some kv := hkv
  rw [← List.head?_eq_getElem?] at hkv
  simp [Pos.start, unitVals, hkv, KeyCursor.init]

end

/-! ## Walking any cursor that meets the contract -/

section
variable {C S K V T R : Type*} [LinearOrder K] [LinearOrder V]
variable {ops : CursorOps C S K V T R} {s : S} {t : Contents K V T R} {Rel : C → Pos K V T R → Prop} {back : Bool}

theorem walkVals_presents (hp : Presents ops s t Rel back) (fuel : Nat) : ∀ (c : C) (p : Pos K V T R), Rel c p → p.keys ≠ [] →
    p.vals.length < fuel → ∃ c', ops.walkVals s fuel c = some (p.vals, c') ∧ Rel c' { p with vals := [] } := by
  induction fuel with
  | zero => intro c p _ _ h; omega
  | succ fuel ih =>
    intro c p h hk hf
    rw [CursorOps.walkVals, hp.get_val c p h hk]
    cases hv : p.vals with
    | nil =>
      rw [Pos.val?, hv]
      exact ⟨c, rfl, by rw [← hv]; exact h⟩
    | cons vu vs =>
      have e1 : p.val? = some vu.1 := by rw [Pos.val?, hv]; rfl
      have e2 : p.upds? = some vu.2 := by rw [Pos.upds?, hv]; rfl
      obtain ⟨c', g1, g2⟩ := hp.step_val c p h hk
      rw [e1, hp.map_times c p h hk (by rw [hv]; simp), e2, g1]
      simp only
      obtain ⟨c'', k1, k2⟩ := ih c' p.stepVal g2 hk (by rw [Pos.stepVal]; simp only; rw [hv]; rw [hv] at hf; simpa using hf)
      rw [k1]
      refine ⟨c'', ?_, k2⟩
      simp only [Option.map_some, Option.some.injEq, Prod.mk.injEq, and_true]
      rw [Pos.stepVal]; simp only; rw [hv]; rfl

theorem walkKeys_presents (hp : Presents ops s t Rel back) (fuelVals : Nat) (hfv : ∀ kv ∈ t, kv.2.length < fuelVals) (fuel : Nat) :
    ∀ (c : C) (p : Pos K V T R), Rel c p → p.keys.length < fuel → ops.walkKeys s fuelVals fuel c = some p.keys := by
  induction fuel with
  | zero => intro c p _ h; omega
  | succ fuel ih =>
    intro c p h hf
    rw [CursorOps.walkKeys, hp.get_key c p h]
    cases hk : p.keys with
    | nil => rw [Pos.key?, hk]; rfl
    | cons kv t' =>
      have e1 : p.key? = some kv.1 := by rw [Pos.key?, hk]; rfl
      have hne : p.keys ≠ [] := by rw [hk]; simp
      obtain ⟨c1, g1, g2⟩ := hp.rewind_vals c p h hne
      have hrv : p.rewindVals = ⟨kv :: t', kv.2⟩ := by rw [Pos.rewindVals, hk]; rfl
      rw [hrv] at g2
      have hmem : kv ∈ t := (hp.inside c p h).keys.subset (by rw [hk]; simp)
      obtain ⟨c2, k1, k2⟩ := walkVals_presents hp fuelVals c1 _ g2 (by simp) (hfv kv hmem)
      obtain ⟨c3, m1, m2⟩ := hp.step_key c2 _ k2
      rw [e1, g1]
      simp only [k1, m1]
      rw [ih c3 _ m2 (by rw [hk] at hf; simpa [Pos.stepKey, Pos.start] using hf)]
      rfl

theorem toVec_presents (hp : Presents ops s t Rel back) (fuel : Nat) (h1 : t.length < fuel) (h2 : ∀ kv ∈ t, kv.2.length < fuel) {c : C}
    {p : Pos K V T R} (h : Rel c p) : ops.toVec s fuel c = some t := by
  obtain ⟨c', g1, g2⟩ := hp.rewind_keys c p h
  rw [CursorOps.toVec, g1]
  exact walkKeys_presents hp fuel h2 fuel c' _ g2 h1

end

end DD
