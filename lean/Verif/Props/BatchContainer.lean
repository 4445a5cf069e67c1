import Verif.Proofs.BatchContainer

/-!
# Properties C10, C11, C41: containers
-/

namespace DD

/-! ### C10 -/

/-- C10: any sequence of 64-bit offsets can be pushed; the length is the number of pushes and every index reads what was pushed
(and nothing beyond the end), from whichever region. -/
theorem C10_offset_list (xs : List Nat) (h : ∀ x ∈ xs, x < 2 ^ 64) :
    ∃ o, OffsetList.init.pushAll xs = some o ∧ o.len = xs.length ∧ ∀ i, o.index i = xs[i]? := by
  obtain ⟨o, h1, h2⟩ := OffsetList.pushAll_spec xs OffsetList.init h
  have h2 : o.denote = xs := by rw [h2]; rfl
  exact ⟨o, h1, by rw [OffsetList.len_eq, h2], fun i => by rw [OffsetList.index_eq, h2]⟩

/-- C10: the iterator yields what was pushed, in order. -/
theorem C10_offset_list_iter (xs : List Nat) (h : ∀ x ∈ xs, x < 2 ^ 64) :
    ∃ o, OffsetList.init.pushAll xs = some o ∧ o.iterFrom (o.len + 1) 0 = some xs := by
  obtain ⟨o, h1, h2, h3⟩ := C10_offset_list xs h
  refine ⟨o, h1, ?_⟩
  have key : ∀ fuel i, i + fuel = xs.length + 1 → o.iterFrom fuel i = some (xs.drop i) := by
    intro fuel
    induction fuel with
    | zero => intro i hi; rw [OffsetList.iterFrom, List.drop_eq_nil_of_le (by omega)]
    | succ fuel ih =>
      intro i hi
      rw [OffsetList.iterFrom, h2]
      split_ifs with hlt
      · rw [h3, List.getElem?_eq_getElem hlt, ih (i + 1) (by omega), List.drop_eq_getElem_cons hlt]
      · rw [List.drop_eq_nil_of_le (by omega)]
  have := key (xs.length + 1) 0 (by omega)
  rw [h2]; simpa using this

/-- Non-vacuity: zeros, a small, a large, and a small offset after a large one. -/
example : ((OffsetList.init.pushAll [0, 0, 7, 2 ^ 40, 0, 3]).map fun o => (o.zero_prefix, o.smol.length, o.chonk.length, o.index 4))
    = some (2, 1, 3, some 0) := by decide +kernel

/-! ### C11 -/

/-- C11: on a range `[start, stop)` of a container, if `pred` holds of the first `n` elements and fails on the others, then `advance`
returns `n`. Only positions in the range are read: the container may be undefined everywhere else. -/
theorem C11_advance {α : Type*} (index : Nat → Option α) (pred : α → Bool) (start stop n : Nat) (hn : start + n ≤ stop)
    (hdef : ∀ i, start ≤ i → i < stop → ∃ x, index i = some x)
    (hyes : ∀ i x, start ≤ i → i < start + n → index i = some x → pred x = true)
    (hno : ∀ i x, start + n ≤ i → i < stop → index i = some x → pred x = false) :
    advance (fun i => if start ≤ i ∧ i < stop then (index i).map pred else none) start stop = some n := by
  refine advance_spec ⟨Or.inl hn, fun i hi => ?_, fun i hi hi' => ?_⟩ (by omega)
  · obtain ⟨x, hx⟩ := hdef (start + i) (by omega) (by omega)
    rw [if_pos ⟨by omega, by omega⟩, hx, Option.map_some, hyes _ x (by omega) (by omega) hx]
  · obtain ⟨x, hx⟩ := hdef (start + i) (by omega) (by omega)
    rw [if_pos ⟨by omega, by omega⟩, hx, Option.map_some, hno _ x (by omega) (by omega) hx]

/-- C11 for vectors, as the cursors use it: seeking `key` in a sorted vector lands on the first element not less than `key`. -/
theorem C11_seek_sorted {K : Type*} [LinearOrder K] (keys : List K) (hs : keys.Pairwise (· ≤ ·)) (start : Nat)
    (hstart : start ≤ keys.length) (key : K) :
    advance (fun i => (keys[i]?).map fun x => decide (x < key)) start keys.length
      = some ((keys.drop start).takeWhile (fun x => decide (x < key))).length := by
  set n := ((keys.drop start).takeWhile (fun x => decide (x < key))).length with hn
  have hle : n ≤ keys.length - start := by
    have := (List.takeWhile_sublist (fun x => decide (x < key)) (l := keys.drop start)).length_le
    simpa using this
  have hget : ∀ i, i < n → ∃ x, keys[start + i]? = some x ∧ x < key := by
    intro i hi
    have hi' : start + i < keys.length := by omega
    refine ⟨keys[start + i], List.getElem?_eq_getElem hi', ?_⟩
    have hm : ((keys.drop start).takeWhile (fun x => decide (x < key)))[i] = keys[start + i] := by
      have := (List.takeWhile_prefix (fun x => decide (x < key)) (l := keys.drop start)).getElem hi
      rw [this]; simp
    have hall := List.all_takeWhile (p := fun x => decide (x < key)) (l := keys.drop start)
    rw [List.all_eq_true] at hall
    have := hall _ (List.getElem_mem hi)
    rw [hm] at this
    simpa using this
  refine advance_spec ⟨Or.inl (by omega), fun i hi => ?_, fun i hi hi' => ?_⟩ hstart
  · obtain ⟨x, hx, hlt⟩ := hget i hi
    rw [hx]; simp [hlt]
  · have hx : keys[start + i]? = some keys[start + i] := List.getElem?_eq_getElem hi'
    rw [hx]
    simp only [Option.map_some, Option.some.injEq, decide_eq_false_iff_not, not_lt]
    have hlen : start + n < keys.length := by omega
    have hfirst : ¬ keys[start + n] < key := by
      have hdw : (keys.drop start).dropWhile (fun x => decide (x < key)) = keys.drop (start + n) := by
        have hsplit := List.takeWhile_append_dropWhile (p := fun x => decide (x < key)) (l := keys.drop start)
        have : (keys.drop start).drop n = (keys.drop start).dropWhile (fun x => decide (x < key)) := by
          conv_lhs => rw [← hsplit]
          rw [hn, List.drop_left]
        rw [← this, List.drop_drop]
      have hne : (keys.drop start).dropWhile (fun x => decide (x < key)) ≠ [] := by
        rw [hdw]; intro e; have := congrArg List.length e; simp at this; omega
      have := List.head_dropWhile_not (fun x => decide (x < key)) hne
      have hh : ((keys.drop start).dropWhile (fun x => decide (x < key))).head hne = keys[start + n] := by
        simp only [hdw]; rw [List.head_drop]
      rw [hh] at this
      simpa using this
    have hmono : keys[start + n] ≤ keys[start + i] := by
      rcases Nat.eq_or_lt_of_le hi with rfl | hlt
      · exact le_rfl
      · exact List.pairwise_iff_getElem.1 hs _ _ hlen hi' (by omega)
    exact (not_lt.1 hfirst).trans hmono

/-- Non-vacuity of `C11`: a search that uses the exponential and the binary phase. -/
example : advance (fun i => ((List.range 40)[i]?).map fun x => decide (x < 30)) 2 40 = some 28 := by decide +kernel

/-! ### C41: slice containers -/

/-- C41: after any sequence of pushes of slices, a `SliceContainer` has their number and reads each back. -/
theorem C41_slice_container {B : Type*} (items : List (List B)) :
    let c := items.foldl SliceContainer.push SliceContainer.init
    c.len = items.length ∧ ∀ i, c.index i = items[i]? := by
  have key : SliceContainer.Ok (items.foldl SliceContainer.push SliceContainer.init) items := by
    have : ∀ (xs done : List (List B)) (c : SliceContainer B), SliceContainer.Ok c done →
        SliceContainer.Ok (xs.foldl SliceContainer.push c) (done ++ xs) := by
      intro xs
      induction xs with
      | nil => intro done c h; simpa using h
      | cons x xs ih => intro done c h; have := ih _ _ (SliceContainer.ok_push h x); simpa using this
    simpa using this items [] _ SliceContainer.ok_init
  exact ⟨SliceContainer.ok_len key, SliceContainer.ok_index key⟩

/-- C41, the part that fails: `clone_onto` is documented to clone the slice onto an existing owned value, but panics whenever the
lengths differ, as `clone_from_slice` does. -/
theorem C41_clone_onto_fails : ¬ ∀ (item other : List Nat), SliceContainer.cloneOnto item other = some item := by
  intro h; have := h [1] []; simp [SliceContainer.cloneOnto] at this

/-- C41: `clone_onto` is right when the lengths agree. -/
theorem C41_clone_onto_partial {B : Type*} (item other : List B) (h : item.length = other.length) :
    SliceContainer.cloneOnto item other = some item := by simp [SliceContainer.cloneOnto, h]

example : ([[1, 2], [], [3]].foldl SliceContainer.push (SliceContainer.init (B := Nat))).index 2 = some [3] := by decide

end DD
