import Verif.Model.Consolidation
import Mathlib.Algebra.Group.Hom.Basic
import Mathlib.Data.List.Sort
import Mathlib.Algebra.BigOperators.Group.List.Lemmas

namespace DD

/-- The laws of a layout: overwriting the difference keeps the key. -/
structure Layout.Lawful {α K R : Type*} (L : Layout α K R) : Prop where
  key_set : ∀ x r, L.key (L.setDiff x r) = L.key x
  diff_set : ∀ x r, L.diff (L.setDiff x r) = r
  ext : ∀ x y, L.key x = L.key y → L.diff x = L.diff y → x = y

theorem pairLayout_lawful (K R : Type*) : (pairLayout K R).Lawful :=
  ⟨fun _ _ => rfl, fun _ _ => rfl, fun _ _ h1 h2 => Prod.ext h1 h2⟩

theorem updLayout_lawful (D T R : Type*) : (updLayout D T R).Lawful := by
  refine ⟨fun _ _ => rfl, fun _ _ => rfl, fun x y h1 h2 => ?_⟩
  have h : (x.1, toLin x.2.1) = (y.1, toLin y.2.1) := toLex.injective h1
  simp only [Prod.mk.injEq] at h
  exact Prod.ext h.1 (Prod.ext h.2 h2)

section
variable {α K R : Type*} [LinearOrder K] [AddCommMonoid R] [DecidableEq R] (L : Layout α K R)

/-- Functional form of the scan: `last` is the previous element, `acc` the accumulation of its run. -/
def runScan : α → R → List α → List α
  | last, acc, [] => if acc = 0 then [] else [L.setDiff last acc]
  | last, acc, x :: xs =>
    if L.key x = L.key last then runScan x (acc + L.diff x) xs
    else (if acc = 0 then [] else [L.setDiff last acc]) ++ runScan x (L.diff x) xs

/-- Functional form of consolidation of a sorted list. -/
def scanned : List α → List α
  | [] => []
  | x :: xs => runScan L x (L.diff x) xs

theorem flushAt_spec (hL : L.Lawful) (s : List α) (off idx : Nat) (acc : R) (y : α)
    (ho : off ≤ idx) (hy : s[idx]? = some y) :
    ∃ s' off', flushAt L s off acc idx = some (s', off') ∧ s'.length = s.length ∧ off ≤ off' ∧ off' ≤ idx + 1 ∧
      s'.take off' = s.take off ++ (if acc = 0 then [] else [L.setDiff y acc]) ∧
      (∀ j, idx < j → s'[j]? = s[j]?) := by
  unfold flushAt
  by_cases hacc : acc ≠ 0
  · simp only [if_pos hacc]
    have hidx : idx < s.length := (List.getElem?_eq_some_iff.1 hy).1
    have hoff : off < s.length := by omega
    have hso : s[off]? = some s[off] := List.getElem?_eq_getElem hoff
    simp only [swap?, hso, hy]
    have hget : ((s.set off y).set idx s[off])[off]? = some y := by
      by_cases h : idx = off
      · subst h
        have : s[idx] = y := (List.getElem?_eq_some_iff.1 hy).2
        simp [hidx, this]
      · rw [List.getElem?_set_ne h]; simp [hoff]
    rw [hget]
    refine ⟨_, _, rfl, by simp, by omega, by omega, ?_, ?_⟩
    · rw [List.take_add_one, List.getElem?_set_self (by simpa using hoff)]
      rw [List.take_set_of_le (Nat.le_refl _)]
      rw [List.take_set_of_le ho, List.take_set_of_le (Nat.le_refl _)]
      simp [hacc]
    · intro j hj
      rw [List.getElem?_set_ne (by omega), List.getElem?_set_ne (by omega), List.getElem?_set_ne (by omega)]
  · simp only [if_neg hacc]
    exact ⟨s, off, rfl, rfl, le_rfl, by omega, by simp [not_not.1 hacc], fun _ _ => rfl⟩

theorem scan_spec (hL : L.Lawful) (orig : List α) (k : Nat) : ∀ (i : Nat) (s : List α) (off : Nat) (acc : R) (last : α),
    i + 1 + k = orig.length → s.length = orig.length → off ≤ i → (∀ j, i ≤ j → s[j]? = orig[j]?) → orig[i]? = some last →
    ∃ s1 off1 acc1 s2 m, (List.range' (i+1) k).foldlM (scanStep L) (s, off, acc) = some (s1, off1, acc1) ∧
      flushAt L s1 off1 acc1 (orig.length - 1) = some (s2, m) ∧ s2.length = orig.length ∧ m ≤ orig.length ∧
      s2.take m = s.take off ++ runScan L last acc (orig.drop (i+1)) := by
  induction k with
  | zero =>
    intro i s off acc last hk hs ho hj hl
    simp only [List.range'_zero, List.foldlM_nil, Option.pure_def, Option.some.injEq, Prod.mk.injEq]
    have hi : orig.length - 1 = i := by omega
    obtain ⟨s', off', h1, h2, h3, h4, h5, -⟩ := flushAt_spec L hL s off i acc last ho (by rw [hj i le_rfl]; exact hl)
    refine ⟨s, off, acc, s', off', ⟨rfl, rfl, rfl⟩, by rw [hi]; exact h1, by omega, by omega, ?_⟩
    rw [h5, List.drop_eq_nil_of_le (by omega)]
    rfl
  | succ k ih =>
    intro i s off acc last hk hs ho hj hl
    have hlt : i + 1 < orig.length := by omega
    have hx : orig[i+1]? = some orig[i+1] := List.getElem?_eq_getElem hlt
    rw [List.range'_succ, List.foldlM_cons]
    have hdrop : orig.drop (i+1) = orig[i+1] :: orig.drop (i+1+1) := (List.drop_eq_getElem_cons hlt)
    have hsx : s[i+1]? = some orig[i+1] := by rw [hj _ (by omega)]; exact hx
    have hsl : s[i]? = some last := by rw [hj _ le_rfl]; exact hl
    by_cases hkey : L.key orig[i+1] = L.key last
    · have hstep : scanStep L (s, off, acc) (i+1) = some (s, off, acc + L.diff orig[i+1]) := by
        simp [scanStep, hsx, hsl, hkey]
      rw [hstep]
      simp only [Option.bind_eq_bind, Option.bind_some]
      obtain ⟨s1, off1, acc1, s2, m, h1, h2, h3, h4, h5⟩ := ih (i+1) s off (acc + L.diff orig[i+1]) orig[i+1]
        (by omega) hs (by omega) (fun j hj' => hj j (by omega)) hx
      refine ⟨s1, off1, acc1, s2, m, h1, h2, h3, h4, ?_⟩
      rw [h5, hdrop, runScan, if_pos hkey]
    · obtain ⟨s', off', f1, f2, f3, f4, f5, f6⟩ := flushAt_spec L hL s off i acc last ho hsl
      have hstep : scanStep L (s, off, acc) (i+1) = some (s', off', L.diff orig[i+1]) := by
        simp [scanStep, hsx, hsl, hkey, f1]
      rw [hstep]
      simp only [Option.bind_eq_bind, Option.bind_some]
      obtain ⟨s1, off1, acc1, s2, m, h1, h2, h3, h4, h5⟩ := ih (i+1) s' off' (L.diff orig[i+1]) orig[i+1]
        (by omega) (by omega) (by omega) (fun j hj' => by rw [f6 j (by omega)]; exact hj j (by omega)) hx
      refine ⟨s1, off1, acc1, s2, m, h1, h2, h3, h4, ?_⟩
      rw [h5, hdrop, runScan, if_neg hkey, f5, List.append_assoc]

theorem scanSlice_spec (hL : L.Lawful) (s : List α) (hs : s ≠ []) :
    ∃ s' m, scanSlice L s = some (s', m) ∧ s'.length = s.length ∧ m ≤ s.length ∧ s'.take m = scanned L s := by
  cases s with
  | nil => exact absurd rfl hs
  | cons x xs =>
    obtain ⟨s1, off1, acc1, s2, m, h1, h2, h3, h4, h5⟩ := scan_spec L hL (x :: xs) xs.length 0 (x :: xs) 0 (L.diff x) x
      (by simp; omega) rfl le_rfl (fun _ _ => rfl) rfl
    refine ⟨s2, m, ?_, h3, h4, ?_⟩
    · unfold scanSlice
      simp only [List.length_cons, Nat.add_sub_cancel, List.getElem?_cons_zero] at h1 h2 ⊢
      rw [h1]; exact h2
    · rw [h5]; rfl

/-- The functional meaning of `consolidate_slice`. -/
def consolidatedL (s : List α) : List α := scanned L (s.insertionSort (fun x y => L.key x ≤ L.key y))

theorem consolidateSlice_spec (hL : L.Lawful) (s : List α) :
    ∃ s' m, consolidateSlice L s = some (s', m) ∧ s'.length = s.length ∧ m ≤ s.length ∧ s'.take m = consolidatedL L s := by
  unfold consolidateSlice consolidatedL
  by_cases h : s.length > 1
  · rw [if_pos h]
    have hne : s.insertionSort (fun x y => L.key x ≤ L.key y) ≠ [] := by
      intro e; have := congrArg List.length e; simp at this; subst this; simp at h
    obtain ⟨s', m, h1, h2, h3, h4⟩ := scanSlice_spec L hL _ hne
    simp only [List.length_insertionSort] at h2 h3
    exact ⟨s', m, h1, h2, h3, h4⟩
  · rw [if_neg h]
    refine ⟨s, _, rfl, rfl, List.length_filter_le _ _, ?_⟩
    match s, h with
    | [], _ => simp [scanned]
    | [x], _ =>
      simp only [List.insertionSort_cons, List.insertionSort_nil, List.orderedInsert_nil, scanned, runScan]
      by_cases hx : L.diff x = 0
      · simp [hx]
      · simp only [List.filter_cons, hx, ne_eq, not_false_eq_true, decide_true, if_true, List.filter_nil, List.length_singleton]
        simp only [List.take_succ_cons, List.take_zero]
        rw [if_neg (by simp), ← hL.ext _ _ (hL.key_set x (L.diff x)).symm (hL.diff_set x (L.diff x)).symm]
    | _ :: _ :: _, h => simp at h

theorem consolidateFrom_spec (hL : L.Lawful) (v : List α) (offset : Nat) (h : offset ≤ v.length) :
    consolidateFrom L v offset = some (v.take offset ++ consolidatedL L (v.drop offset)) := by
  unfold consolidateFrom
  rw [if_pos h]
  obtain ⟨s', m, h1, h2, h3, h4⟩ := consolidateSlice_spec L hL (v.drop offset)
  rw [h1]
  simp only [Option.some.injEq]
  rw [List.take_append, List.length_take, Nat.min_eq_left h, List.take_of_length_le (by simp)]
  rw [Nat.add_sub_cancel_left, h4]

/-! ### What the scan computes -/

/-- Sum of an arbitrary key-dependent additive measurement of the differences. -/
def measure {M : Type*} [AddCommMonoid M] (φ : K → R →+ M) (l : List α) : M :=
  (l.map fun x => φ (L.key x) (L.diff x)).sum

theorem measure_append {M : Type*} [AddCommMonoid M] (φ : K → R →+ M) (l l' : List α) :
    measure L φ (l ++ l') = measure L φ l + measure L φ l' := by simp [measure]

theorem measure_perm {M : Type*} [AddCommMonoid M] (φ : K → R →+ M) {l l' : List α} (h : l.Perm l') :
    measure L φ l = measure L φ l' := (h.map _).sum_eq

theorem measure_flush (hL : L.Lawful) {M : Type*} [AddCommMonoid M] (φ : K → R →+ M) (x : α) (acc : R) :
    measure L φ (if acc = 0 then [] else [L.setDiff x acc]) = φ (L.key x) acc := by
  split_ifs with h
  · simp [measure, h]
  · simp [measure, hL.key_set, hL.diff_set]

theorem measure_runScan (hL : L.Lawful) {M : Type*} [AddCommMonoid M] (φ : K → R →+ M) (xs : List α) :
    ∀ (last : α) (acc : R), measure L φ (runScan L last acc xs) = φ (L.key last) acc + measure L φ xs := by
  induction xs with
  | nil => intro last acc; rw [runScan, measure_flush L hL]; simp [measure]
  | cons x xs ih =>
    intro last acc
    have hx : measure L φ (x :: xs) = φ (L.key x) (L.diff x) + measure L φ xs := by simp [measure]
    rw [runScan, hx]
    split_ifs with h h'
    · rw [ih, h, map_add, add_assoc]
    · rw [List.nil_append, ih]; simp [h']
    · rw [List.cons_append, List.nil_append]
      have : measure L φ (L.setDiff last acc :: runScan L x (L.diff x) xs)
          = φ (L.key last) acc + measure L φ (runScan L x (L.diff x) xs) := by
        simp [measure, hL.key_set, hL.diff_set]
      rw [this, ih]

theorem measure_scanned (hL : L.Lawful) {M : Type*} [AddCommMonoid M] (φ : K → R →+ M) (s : List α) :
    measure L φ (scanned L s) = measure L φ s := by
  cases s with
  | nil => rfl
  | cons x xs => rw [scanned, measure_runScan L hL]; simp [measure]

theorem measure_consolidatedL (hL : L.Lawful) {M : Type*} [AddCommMonoid M] (φ : K → R →+ M) (s : List α) :
    measure L φ (consolidatedL L s) = measure L φ s := by
  rw [consolidatedL, measure_scanned L hL]
  exact measure_perm L φ (List.perm_insertionSort _ _)

/-- Strictly increasing keys and no zero differences. -/
def Canon (l : List α) : Prop := l.Pairwise (fun x y => L.key x < L.key y) ∧ ∀ x ∈ l, L.diff x ≠ 0

theorem runScan_mem_key (hL : L.Lawful) (xs : List α) : ∀ (last : α) (acc : R), ∀ y ∈ runScan L last acc xs,
    ∃ x ∈ last :: xs, L.key y = L.key x := by
  induction xs with
  | nil =>
    intro last acc y hy
    rw [runScan] at hy
    split_ifs at hy with h
    · simp at hy
    · simp only [List.mem_singleton] at hy; subst hy; exact ⟨last, by simp, hL.key_set _ _⟩
  | cons x xs ih =>
    intro last acc y hy
    rw [runScan] at hy
    split_ifs at hy with h h'
    · obtain ⟨z, hz, e⟩ := ih _ _ y hy; exact ⟨z, by simp only [List.mem_cons] at *; tauto, e⟩
    · obtain ⟨z, hz, e⟩ := ih _ _ y (by simpa using hy); exact ⟨z, by simp only [List.mem_cons] at *; tauto, e⟩
    · simp only [List.cons_append, List.nil_append, List.mem_cons] at hy
      rcases hy with rfl | hy
      · exact ⟨last, by simp, hL.key_set _ _⟩
      · obtain ⟨z, hz, e⟩ := ih _ _ y hy; exact ⟨z, by simp only [List.mem_cons] at *; tauto, e⟩

theorem runScan_canon (hL : L.Lawful) (xs : List α) : ∀ (last : α) (acc : R),
    (last :: xs).Pairwise (fun x y => L.key x ≤ L.key y) → Canon L (runScan L last acc xs) := by
  induction xs with
  | nil =>
    intro last acc _
    rw [runScan]
    split_ifs with h
    · exact ⟨List.Pairwise.nil, by simp⟩
    · exact ⟨by simp, by simp only [List.mem_singleton, forall_eq, hL.diff_set]; exact h⟩
  | cons x xs ih =>
    intro last acc hp
    have hp' := (List.pairwise_cons.1 hp)
    rw [runScan]
    split_ifs with h h'
    · exact ih _ _ hp'.2
    · simpa using ih _ _ hp'.2
    · obtain ⟨c1, c2⟩ := ih x (L.diff x) hp'.2
      refine ⟨?_, ?_⟩
      · simp only [List.cons_append, List.nil_append, List.pairwise_cons]
        refine ⟨fun y hy => ?_, c1⟩
        obtain ⟨z, hz, e⟩ := runScan_mem_key L hL xs x _ y hy
        rw [hL.key_set, e]
        have hlx : L.key last < L.key x := lt_of_le_of_ne (hp'.1 x (by simp)) (Ne.symm h)
        rcases List.mem_cons.1 hz with rfl | hz
        · exact hlx
        · exact hlx.trans_le ((List.pairwise_cons.1 hp'.2).1 z hz)
      · intro y hy
        simp only [List.cons_append, List.nil_append, List.mem_cons] at hy
        rcases hy with rfl | hy
        · rw [hL.diff_set]; exact h'
        · exact c2 y hy

theorem scanned_canon (hL : L.Lawful) (s : List α) (h : s.Pairwise (fun x y => L.key x ≤ L.key y)) : Canon L (scanned L s) := by
  cases s with
  | nil => exact ⟨List.Pairwise.nil, by simp [scanned]⟩
  | cons x xs => exact runScan_canon L hL xs x _ h

instance keyLE_total : Std.Total (fun x y : α => L.key x ≤ L.key y) := ⟨fun _ _ => le_total _ _⟩
instance keyLE_trans : IsTrans α (fun x y : α => L.key x ≤ L.key y) := ⟨fun _ _ _ => le_trans⟩

theorem sorted_sort (s : List α) :
    (s.insertionSort (fun x y => L.key x ≤ L.key y)).Pairwise (fun x y => L.key x ≤ L.key y) :=
  List.pairwise_insertionSort _ s

theorem consolidatedL_canon (hL : L.Lawful) (s : List α) : Canon L (consolidatedL L s) :=
  scanned_canon L hL _ (sorted_sort L s)

/-- Weight of one key. -/
def keyWeight (k : K) (l : List α) : R := (l.map fun x => if L.key x = k then L.diff x else 0).sum

/-- The additive measurement that reads off one key's weight. -/
def keyHom (k : K) : K → R →+ R := fun k' => if k' = k then AddMonoidHom.id R else 0

theorem keyWeight_eq (k : K) (l : List α) : keyWeight L k l = measure L (keyHom k) l := by
  unfold keyWeight measure keyHom
  congr 1
  apply List.map_congr_left
  intro x _
  split_ifs <;> simp

theorem keyWeight_of_not_mem (k : K) (l : List α) (h : ∀ x ∈ l, L.key x ≠ k) : keyWeight L k l = 0 := by
  unfold keyWeight
  apply List.sum_eq_zero
  intro r hr
  obtain ⟨x, hx, rfl⟩ := List.mem_map.1 hr
  rw [if_neg (h x hx)]

theorem keyWeight_cons (k : K) (x : α) (l : List α) :
    keyWeight L k (x :: l) = (if L.key x = k then L.diff x else 0) + keyWeight L k l := by simp [keyWeight]

/-- Canonical lists are determined by their weights. -/
theorem canon_unique (hL : L.Lawful) {l l' : List α} (h : Canon L l) (h' : Canon L l')
    (hw : ∀ k, keyWeight L k l = keyWeight L k l') : l = l' := by
  induction l generalizing l' with
  | nil =>
    cases l' with
    | nil => rfl
    | cons y l' =>
      exfalso
      have := hw (L.key y)
      rw [keyWeight_cons, if_pos rfl, keyWeight_of_not_mem L _ l' fun z hz => ((List.pairwise_cons.1 h'.1).1 z hz).ne'] at this
      simp only [keyWeight, List.map_nil, List.sum_nil, add_zero] at this
      exact h'.2 y (by simp) this.symm
  | cons x l ih =>
    have hx := keyWeight_of_not_mem L (L.key x) l fun z hz => ((List.pairwise_cons.1 h.1).1 z hz).ne'
    cases l' with
    | nil =>
      exfalso
      have := hw (L.key x)
      rw [keyWeight_cons, if_pos rfl, hx] at this
      simp only [keyWeight, List.map_nil, List.sum_nil, add_zero] at this
      exact h.2 x (by simp) this
    | cons y l' =>
      have hy := keyWeight_of_not_mem L (L.key y) l' fun z hz => ((List.pairwise_cons.1 h'.1).1 z hz).ne'
      have hkey : L.key x = L.key y := by
        rcases lt_trichotomy (L.key x) (L.key y) with hlt | heq | hgt
        · exfalso
          have := hw (L.key x)
          rw [keyWeight_cons, if_pos rfl, hx, keyWeight_of_not_mem L (L.key x) (y :: l'), add_zero] at this
          · exact h.2 x (by simp) this
          · intro z hz
            rcases List.mem_cons.1 hz with rfl | hz
            · exact hlt.ne'
            · exact (hlt.trans ((List.pairwise_cons.1 h'.1).1 z hz)).ne'
        · exact heq
        · exfalso
          have := hw (L.key y)
          rw [keyWeight_cons L (L.key y) y, if_pos rfl, hy, keyWeight_of_not_mem L (L.key y) (x :: l), add_zero] at this
          · exact h'.2 y (by simp) this.symm
          · intro z hz
            rcases List.mem_cons.1 hz with rfl | hz
            · exact hgt.ne'
            · exact (hgt.trans ((List.pairwise_cons.1 h.1).1 z hz)).ne'
      have hdiff : L.diff x = L.diff y := by
        have := hw (L.key x)
        rw [keyWeight_cons, if_pos rfl, hx, keyWeight_cons, if_pos hkey.symm, hkey, hy] at this
        simpa using this
      have hxy := hL.ext _ _ hkey hdiff
      subst hxy
      congr 1
      refine ih ⟨(List.pairwise_cons.1 h.1).2, fun z hz => h.2 z (by simp [hz])⟩
        ⟨(List.pairwise_cons.1 h'.1).2, fun z hz => h'.2 z (by simp [hz])⟩ fun k => ?_
      by_cases hk : L.key x = k
      · subst hk; rw [hx, hy]
      · have := hw k
        rw [keyWeight_cons, keyWeight_cons, if_neg hk] at this
        simpa using this

theorem keyWeight_consolidatedL (hL : L.Lawful) (k : K) (s : List α) :
    keyWeight L k (consolidatedL L s) = keyWeight L k s := by
  rw [keyWeight_eq, keyWeight_eq, measure_consolidatedL L hL]

theorem consolidatedL_of_canon (hL : L.Lawful) {s : List α} (h : Canon L s) : consolidatedL L s = s :=
  canon_unique L hL (consolidatedL_canon L hL s) h fun k => keyWeight_consolidatedL L hL k s

end

/-! ### The two instances, as total functions used by the rest of the model -/

section
variable {K R : Type*} [LinearOrder K] [AddCommMonoid R] [DecidableEq R]

/-- What `consolidate` returns (`consolidate_eq`: it never fails). -/
def consolidated (v : List (K × R)) : List (K × R) := consolidatedL (pairLayout K R) v

theorem consolidate_eq (v : List (K × R)) : consolidate v = some (consolidated v) := by
  unfold consolidate
  rw [consolidateFrom_spec _ (pairLayout_lawful K R) v 0 (Nat.zero_le _)]
  simp [consolidated]

theorem weight_eq (v : List (K × R)) (k : K) : weight v k = keyWeight (pairLayout K R) k v := rfl

theorem weight_consolidated (v : List (K × R)) (k : K) : weight (consolidated v) k = weight v k :=
  keyWeight_consolidatedL _ (pairLayout_lawful K R) k v

end

section
variable {D T R : Type*} [LinearOrder D] [LinearOrder (Lin T)] [AddCommMonoid R] [DecidableEq R]

/-- What `consolidate_updates` returns (`consolidateUpdates_eq`: it never fails). -/
def consolidatedU (v : Upds D T R) : Upds D T R := consolidatedL (updLayout D T R) v

theorem consolidateUpdates_eq (v : Upds D T R) : consolidateUpdates v = some (consolidatedU v) := by
  unfold consolidateUpdates
  rw [consolidateFrom_spec _ (updLayout_lawful D T R) v 0 (Nat.zero_le _)]
  simp [consolidatedU]

/-- Any additive measurement of updates that depends on data and time is preserved. -/
theorem measure_consolidatedU {M : Type*} [AddCommMonoid M] (φ : D → T → R →+ M) (v : Upds D T R) :
    ((consolidatedU v).map fun u => φ u.1 u.2.1 u.2.2).sum = (v.map fun u => φ u.1 u.2.1 u.2.2).sum :=
  measure_consolidatedL (updLayout D T R) (updLayout_lawful D T R) (fun k => φ (ofLex k).1 (ofLex k).2) v

theorem accum_consolidatedU [LE T] [DecidableLE T] (v : Upds D T R) (d : D) (q : T) :
    accum (consolidatedU v) d q = accum v d q := by
  have := measure_consolidatedU (fun d' t => if d' = d ∧ t ≤ q then AddMonoidHom.id R else 0) v
  unfold accum
  convert this using 3 <;> (funext u; split_ifs <;> simp)

theorem total_consolidatedU [DecidableEq T] (v : Upds D T R) (d : D) (t : T) :
    total (consolidatedU v) d t = total v d t := by
  have := measure_consolidatedU (fun d' t' => if d' = d ∧ t' = t then AddMonoidHom.id R else 0) v
  unfold total
  convert this using 3 <;> (funext u; split_ifs <;> simp)

theorem total_eq_keyWeight [DecidableEq T] (v : Upds D T R) (d : D) (t : T) :
    total v d t = keyWeight (updLayout D T R) (toLex (d, toLin t)) v := by
  unfold total keyWeight
  congr 1
  apply List.map_congr_left
  intro u _
  have : (updLayout D T R).key u = toLex (d, toLin t) ↔ u.1 = d ∧ u.2.1 = t := by
    simp only [updLayout, EmbeddingLike.apply_eq_iff_eq, Prod.mk.injEq]; exact Iff.rfl
  simp only [this]
  rfl

end

end DD

namespace DD

section
variable {K R : Type*} [LinearOrder K] [AddCommMonoid R] [DecidableEq R]

theorem consolidatedPairs_iff (v : List (K × R)) : ConsolidatedPairs v ↔ Canon (pairLayout K R) v := Iff.rfl

theorem consolidatedPairs_consolidated (v : List (K × R)) : ConsolidatedPairs (consolidated v) :=
  consolidatedL_canon _ (pairLayout_lawful K R) v

theorem consolidatedPairs_unique {v w : List (K × R)} (hv : ConsolidatedPairs v) (hw : ConsolidatedPairs w)
    (h : ∀ k, weight v k = weight w k) : v = w :=
  canon_unique _ (pairLayout_lawful K R) hv hw h

theorem consolidated_of_canon {v : List (K × R)} (hv : ConsolidatedPairs v) : consolidated v = v :=
  consolidatedL_of_canon _ (pairLayout_lawful K R) hv

theorem consolidated_congr {v w : List (K × R)} (h : ∀ k, weight v k = weight w k) : consolidated v = consolidated w :=
  consolidatedPairs_unique (consolidatedPairs_consolidated v) (consolidatedPairs_consolidated w) fun k => by
    rw [weight_consolidated, weight_consolidated, h]

end

section
variable {D T R : Type*} [LinearOrder D] [LinearOrder (Lin T)] [AddCommMonoid R] [DecidableEq R]

theorem updLayout_lt (u v : D × T × R) : (updLayout D T R).key u < (updLayout D T R).key v ↔
    (u.1 < v.1 ∨ (u.1 = v.1 ∧ toLin u.2.1 < toLin v.2.1)) := by
  simp only [updLayout, Prod.Lex.toLex_lt_toLex]

theorem consolidated_iff (v : Upds D T R) : Consolidated v ↔ Canon (updLayout D T R) v := by
  simp only [Consolidated, Canon, updLayout_lt]; exact Iff.rfl

theorem consolidated_consolidatedU (v : Upds D T R) : Consolidated (consolidatedU v) :=
  (consolidated_iff _).2 (consolidatedL_canon _ (updLayout_lawful D T R) v)

theorem consolidatedU_unique [DecidableEq T] {v w : Upds D T R} (hv : Consolidated v) (hw : Consolidated w)
    (h : ∀ d t, total v d t = total w d t) : v = w := by
  refine canon_unique _ (updLayout_lawful D T R) ((consolidated_iff _).1 hv) ((consolidated_iff _).1 hw) fun k => ?_
  obtain ⟨d, t, rfl⟩ : ∃ (d : D) (t : T), k = toLex (d, toLin t) := ⟨(ofLex k).1, (ofLex k).2, rfl⟩
  rw [← total_eq_keyWeight, ← total_eq_keyWeight, h]

theorem consolidatedU_of_canon {v : Upds D T R} (hv : Consolidated v) : consolidatedU v = v :=
  consolidatedL_of_canon _ (updLayout_lawful D T R) ((consolidated_iff _).1 hv)

theorem consolidatedU_congr [DecidableEq T] {v w : Upds D T R} (h : ∀ d t, total v d t = total w d t) :
    consolidatedU v = consolidatedU w :=
  consolidatedU_unique (consolidated_consolidatedU v) (consolidated_consolidatedU w) fun d t => by
    rw [total_consolidatedU, total_consolidatedU, h]

/-- Equal totals force equal measurements of every additive kind. -/
theorem measure_of_total [DecidableEq T] {M : Type*} [AddCommMonoid M] (φ : D → T → R →+ M) {v w : Upds D T R}
    (h : ∀ d t, total v d t = total w d t) :
    (v.map fun u => φ u.1 u.2.1 u.2.2).sum = (w.map fun u => φ u.1 u.2.1 u.2.2).sum := by
  rw [← measure_consolidatedU φ v, ← measure_consolidatedU φ w, consolidatedU_congr h]

theorem accum_of_total [DecidableEq T] [LE T] [DecidableLE T] {v w : Upds D T R}
    (h : ∀ d t, total v d t = total w d t) (d : D) (q : T) : accum v d q = accum w d q := by
  rw [← accum_consolidatedU v, ← accum_consolidatedU w, consolidatedU_congr h]

theorem Consolidated.sublist {v w : Upds D T R} (hw : Consolidated w) (h : v.Sublist w) : Consolidated v :=
  ⟨hw.1.sublist h, fun u hu => hw.2 u (h.subset hu)⟩

end

section
variable {D T R : Type*} [DecidableEq D] [AddCommMonoid R]

@[simp] theorem total_nil [DecidableEq T] (d : D) (t : T) : total ([] : Upds D T R) d t = 0 := rfl
theorem total_append [DecidableEq T] (v w : Upds D T R) (d : D) (t : T) :
    total (v ++ w) d t = total v d t + total w d t := by simp [total]
theorem total_cons [DecidableEq T] (u : D × T × R) (w : Upds D T R) (d : D) (t : T) :
    total (u :: w) d t = (if u.1 = d ∧ u.2.1 = t then u.2.2 else 0) + total w d t := by simp [total]
theorem total_perm [DecidableEq T] {v w : Upds D T R} (h : v.Perm w) (d : D) (t : T) : total v d t = total w d t :=
  (h.map _).sum_eq
@[simp] theorem accum_nil [LE T] [DecidableLE T] (d : D) (t : T) : accum ([] : Upds D T R) d t = 0 := rfl
theorem accum_append [LE T] [DecidableLE T] (v w : Upds D T R) (d : D) (t : T) :
    accum (v ++ w) d t = accum v d t + accum w d t := by simp [accum]
theorem accum_cons [LE T] [DecidableLE T] (u : D × T × R) (w : Upds D T R) (d : D) (t : T) :
    accum (u :: w) d t = (if u.1 = d ∧ u.2.1 ≤ t then u.2.2 else 0) + accum w d t := by simp [accum]
theorem accum_perm [LE T] [DecidableLE T] {v w : Upds D T R} (h : v.Perm w) (d : D) (t : T) : accum v d t = accum w d t :=
  (h.map _).sum_eq
@[simp] theorem weight_nil (d : D) : weight ([] : List (D × R)) d = 0 := rfl
theorem weight_append (v w : List (D × R)) (d : D) : weight (v ++ w) d = weight v d + weight w d := by simp [weight]
theorem weight_cons (u : D × R) (w : List (D × R)) (d : D) :
    weight (u :: w) d = (if u.1 = d then u.2 else 0) + weight w d := by simp [weight]
theorem weight_perm {v w : List (D × R)} (h : v.Perm w) (d : D) : weight v d = weight w d := (h.map _).sum_eq

end

end DD
