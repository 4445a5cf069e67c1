import Verif.Model.BatchContainer
import Mathlib.Tactic.Ring

namespace DD

namespace OffsetList

theorem tryInto_toNat {n offset : Nat} {b : BitVec n} (h : tryInto n offset = some b) : b.toNat = offset := by
  unfold tryInto at h
  split_ifs at h with hlt
  simp only [Option.some.injEq] at h
  subst h
  simp [Nat.mod_eq_of_lt hlt]

/-- What the list denotes. -/
def denote (o : OffsetList) : List Nat := List.replicate o.zero_prefix 0 ++ o.smol.map BitVec.toNat ++ o.chonk.map BitVec.toNat

theorem push_spec (o : OffsetList) (offset : Nat) (h : offset < 2 ^ 64) :
    ∃ o', o.push offset = some o' ∧ o'.denote = o.denote ++ [offset] := by
  have h64 : tryInto 64 offset = some (BitVec.ofNat 64 offset) := by unfold tryInto; rw [if_pos h]
  have e64 : (BitVec.ofNat 64 offset).toNat = offset := by simpa using Nat.mod_eq_of_lt h
  unfold push
  split_ifs with h1 h2
  · simp only [Bool.and_eq_true, List.isEmpty_iff, beq_iff_eq] at h1
    obtain ⟨⟨hs, hc⟩, rfl⟩ := h1
    refine ⟨_, rfl, ?_⟩
    simp [denote, hs, hc, List.replicate_succ']
  · simp only [List.isEmpty_iff] at h2
    cases h32 : tryInto 32 offset with
    | some s =>
      refine ⟨_, rfl, ?_⟩
      simp [denote, h2, tryInto_toNat h32]
    | none =>
      rw [h64]
      refine ⟨_, rfl, ?_⟩
      simp only [denote, List.map_append, List.map_cons, List.map_nil, e64, List.append_assoc]
  · rw [h64]
    refine ⟨_, rfl, ?_⟩
    simp only [denote, List.map_append, List.map_cons, List.map_nil, e64, List.append_assoc]

theorem pushAll_spec (xs : List Nat) : ∀ (o : OffsetList), (∀ x ∈ xs, x < 2 ^ 64) →
    ∃ o', o.pushAll xs = some o' ∧ o'.denote = o.denote ++ xs := by
  induction xs with
  | nil => intro o _; exact ⟨o, rfl, by simp⟩
  | cons x xs ih =>
    intro o h
    obtain ⟨o1, h1, h2⟩ := push_spec o x (h x (by simp))
    obtain ⟨o2, h3, h4⟩ := ih o1 (fun y hy => h y (by simp [hy]))
    refine ⟨o2, ?_, ?_⟩
    · rw [pushAll, List.foldlM_cons, h1]; exact h3
    · rw [h4, h2]; simp

theorem len_eq (o : OffsetList) : o.len = o.denote.length := by simp [len, denote, Nat.add_assoc]

theorem index_eq (o : OffsetList) (i : Nat) : o.index i = o.denote[i]? := by
  unfold index denote
  split_ifs with h1 h2
  · rw [List.append_assoc, List.getElem?_append_left (by simpa using h1)]; simp [h1]
  · rw [List.getElem?_append_left (by simp; omega), List.getElem?_append_right (by simp; omega)]; simp
  · rw [List.getElem?_append_right (by simp; omega)]; simp [Nat.sub_sub]

end OffsetList

/-! ### Galloping -/

section advance
variable {read : Nat → Option Bool} {start stop n : Nat}

/-- `read` is defined exactly on `[start, stop)` and true exactly on the first `n`. -/
structure ReadOk (read : Nat → Option Bool) (start stop n : Nat) : Prop where
  le : start + n ≤ stop ∨ n = 0
  yes : ∀ i, i < n → read (start + i) = some true
  no : ∀ i, n ≤ i → start + i < stop → read (start + i) = some false

theorem probe_eq (h : ReadOk read start stop n) (k : Nat) : probe read start stop k = some (decide (k < n)) := by
  unfold probe
  split_ifs with hk
  · by_cases hn : k < n
    · simp [h.yes k hn, hn]
    · simp [h.no k (by omega) hk, hn]
  · have : ¬ k < n := by rcases h.le with hl | hl <;> omega
    simp [this]

theorem growLoop_spec (h : ReadOk read start stop n) (fuel : Nat) : ∀ (index k : Nat), index < n → n ≤ index + fuel →
    ∃ index' k', growLoop read start stop fuel index (2 ^ k) = some (index', 2 ^ k') ∧ index' < n ∧ n ≤ index' + 2 ^ k' ∧ k' ≤ k + fuel := by
  induction fuel with
  | zero => intro index k h1 h2; omega
  | succ fuel ih =>
    intro index k h1 h2
    rw [growLoop, probe_eq h]
    have hpos : 0 < 2 ^ k := Nat.pos_of_ne_zero (by simp)
    by_cases hk : index + 2 ^ k < n
    · simp only [hk, decide_true]
      rw [show (2 ^ k) <<< 1 = 2 ^ (k + 1) by rw [Nat.shiftLeft_eq]; ring]
      obtain ⟨i', k', a, b, c, d⟩ := ih (index + 2 ^ k) (k + 1) hk (by omega)
      exact ⟨i', k', a, b, c, by omega⟩
    · simp only [hk, decide_false]
      exact ⟨index, k, rfl, h1, by omega, by omega⟩

theorem shrinkLoop_zero (start stop fuel index : Nat) : shrinkLoop read start stop fuel index 0 = some index := by
  cases fuel <;> simp [shrinkLoop]

theorem shrinkLoop_spec (h : ReadOk read start stop n) (fuel : Nat) : ∀ (index k : Nat), index < n → n ≤ index + 2 ^ k →
    k ≤ fuel → shrinkLoop read start stop fuel index ((2 ^ k) >>> 1) = some (n - 1) := by
  induction fuel with
  | zero =>
    intro index k h1 h2 h3
    have : k = 0 := by omega
    subst this
    simp only [shrinkLoop, pow_zero] at *
    congr 1; omega
  | succ fuel ih =>
    intro index k h1 h2 h3
    cases k with
    | zero =>
      simp only [pow_zero] at h2 ⊢
      rw [show (1 : Nat) >>> 1 = 0 from rfl, shrinkLoop_zero]
      congr 1; omega
    | succ k =>
      have e : (2 ^ (k + 1)) >>> 1 = 2 ^ k := by rw [Nat.shiftRight_eq_div_pow, pow_succ]; simp
      rw [e, shrinkLoop, if_pos (Nat.pos_of_ne_zero (by simp)), probe_eq h]
      simp only
      by_cases hk : index + 2 ^ k < n
      · simp only [hk, decide_true, if_true]
        exact ih _ k hk (by rw [pow_succ] at h2; omega) (by omega)
      · simp only [hk, decide_false, Bool.false_eq_true, if_false]
        exact ih _ k h1 (by omega) (by omega)

theorem countTo_spec (h : ReadOk read start stop n) (m : Nat) (hm : start + m ≤ stop) :
    countTo read start (start + m) = some (min n m) := by
  unfold countTo
  rw [Nat.add_sub_cancel_left]
  have key : ∀ (k j acc : Nat), j + k = m →
      (List.range' (start + j) k).foldlM (fun n x => (read x).map fun b => if b then n + 1 else n) acc
        = some (acc + (min n m - min n j)) := by
    intro k
    induction k with
    | zero => intro j acc hj; have : j = m := by omega
              subst this; simp
    | succ k ih =>
      intro j acc hj
      rw [List.range'_succ, List.foldlM_cons]
      by_cases hn : j < n
      · rw [h.yes j hn]
        simp only [Option.map_some, if_true, Option.bind_eq_bind, Option.bind_some]
        rw [show start + j + 1 = start + (j + 1) by omega, ih (j + 1) (acc + 1) (by omega)]
        congr 1; omega
      · rw [h.no j (by omega) (by omega)]
        simp only [Option.map_some, Bool.false_eq_true, if_false, Option.bind_eq_bind, Option.bind_some]
        rw [show start + j + 1 = start + (j + 1) by omega, ih (j + 1) acc (by omega)]
        congr 1; omega
  have := key m 0 0 (by omega)
  simpa using this

theorem advance_spec (h : ReadOk read start stop n) (hse : start ≤ stop) : advance read start stop = some n := by
  unfold advance
  simp only
  by_cases h8 : stop > start + 8
  · rw [if_pos h8]
    by_cases hn : 8 < n
    · rw [h.yes 8 hn]
      simp only
      rw [probe_eq h]
      by_cases h9 : 9 < n
      · simp only [show 8 + 1 = 9 from rfl, h9, decide_true]
        have hle : start + n ≤ stop := by rcases h.le with hl | hl <;> omega
        obtain ⟨i', k', a, b, c, d⟩ := growLoop_spec h (stop - start) 9 0 h9 (by omega)
        rw [show (1 : Nat) = 2 ^ 0 from rfl, a]
        simp only
        have hk' : k' ≤ stop - start := by omega
        rw [show (2 ^ 0 : Nat) = 1 from rfl, shrinkLoop_spec h (stop - start) i' k' b c hk']
        simp only [Option.some.injEq]
        omega
      · simp only [show 8 + 1 = 9 from rfl, h9, decide_false, Option.some.injEq]
        omega
    · rw [h.no 8 (by omega) (by omega)]
      simp only
      rw [show min stop (start + 8) = start + 8 by omega, countTo_spec h 8 (by omega)]
      congr 1; omega
  · rw [if_neg h8]
    simp only
    obtain ⟨m, rfl⟩ := Nat.exists_eq_add_of_le hse
    rw [show min (start + m) (start + 8) = start + m by omega, countTo_spec h m le_rfl]
    congr 1
    rcases h.le with hl | hl <;> omega

end advance

/-! ### Slices -/

namespace SliceContainer
variable {B : Type*}

/-- Offsets of the concatenation of some slices. -/
structure Ok (c : SliceContainer B) (items : List (List B)) : Prop where
  inner : c.inner = items.flatten
  offsets : c.offsets = (List.range (items.length + 1)).map fun i => (items.take i).flatten.length

theorem ok_init : Ok (init : SliceContainer B) [] := ⟨rfl, rfl⟩

theorem ok_push {c : SliceContainer B} {items : List (List B)} (h : Ok c items) (item : List B) : Ok (c.push item) (items ++ [item]) := by
  refine ⟨by simp [push, h.inner], ?_⟩
  simp only [push, h.inner, h.offsets]
  rw [show (items ++ [item]).length + 1 = items.length + 1 + 1 by simp, List.range_succ (n := items.length + 1), List.map_append]
  congr 1
  · apply List.map_congr_left
    intro i hi
    rw [List.mem_range] at hi
    rw [List.take_append_of_le_length (by omega)]
  · simp [List.take_of_length_le]

theorem ok_len {c : SliceContainer B} {items : List (List B)} (h : Ok c items) : c.len = items.length := by
  simp [len, h.offsets]

theorem ok_index {c : SliceContainer B} {items : List (List B)} (h : Ok c items) (i : Nat) : c.index i = items[i]? := by
  unfold index
  rw [h.offsets, h.inner]
  simp only [List.getElem?_map, List.getElem?_range', List.getElem?_range]
  by_cases hi : i < items.length
  · have h1 : (List.range (items.length + 1))[i]? = some i := by rw [List.getElem?_range]; omega
    have h2 : (List.range (items.length + 1))[i + 1]? = some (i + 1) := by rw [List.getElem?_range]; omega
    rw [h1, h2]
    simp only [Option.map_some]
    have hsplit : (items.take (i + 1)).flatten = (items.take i).flatten ++ items[i] := by
      rw [List.take_add_one, List.flatten_append]; simp [hi]
    have hall : items.flatten = (items.take (i + 1)).flatten ++ (items.drop (i + 1)).flatten := by
      rw [← List.flatten_append, List.take_append_drop]
    rw [if_pos]
    · rw [hall, List.take_left', List.getElem?_eq_getElem hi]
      · rw [hsplit, List.drop_left]
      · rfl
    · rw [hall, hsplit]; simp
  · have h2 : (List.range (items.length + 1))[i + 1]? = none := by rw [List.getElem?_eq_none_iff]; simp; omega
    have h3 : items[i]? = none := List.getElem?_eq_none_iff.2 (by omega)
    rw [h2, h3]
    cases (List.range (items.length + 1))[i]? <;> simp

end SliceContainer

end DD
