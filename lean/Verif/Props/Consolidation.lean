import Verif.Proofs.Consolidation

/-!
# Property C06: consolidation
-/

namespace DD

section
variable {K R : Type*} [LinearOrder K] [AddCommMonoid R] [DecidableEq R]

/-- C06, pairs. `consolidate` never fails (no out-of-bounds access in the in-place scan); its result is strictly sorted,
without zeros, and has every weight of its input. -/
theorem C06_consolidate (v : List (K × R)) :
    ∃ w, consolidate v = some w ∧ ConsolidatedPairs w ∧ ∀ k, weight w k = weight v k :=
  ⟨_, consolidate_eq v, consolidatedPairs_consolidated v, weight_consolidated v⟩

/-- C06, pairs: inputs with equal weights consolidate to the same list. -/
theorem C06_consolidate_canonical (v w : List (K × R)) (h : ∀ k, weight v k = weight w k) : consolidate v = consolidate w := by
  rw [consolidate_eq, consolidate_eq, consolidated_congr h]

/-- C06, pairs, from an offset: the prefix is untouched and the suffix is consolidated. An offset past the end panics. -/
theorem C06_consolidate_from (v : List (K × R)) (offset : Nat) :
    (offset ≤ v.length → ∃ w, consolidateFrom (pairLayout K R) v offset = some (v.take offset ++ w) ∧ ConsolidatedPairs w ∧
      ∀ k, weight w k = weight (v.drop offset) k) ∧
    (v.length < offset → consolidateFrom (pairLayout K R) v offset = none) := by
  refine ⟨fun h => ⟨_, consolidateFrom_spec _ (pairLayout_lawful K R) v offset h, consolidatedPairs_consolidated _,
    weight_consolidated _⟩, fun h => ?_⟩
  unfold consolidateFrom; rw [if_neg (by omega)]

end

section
variable {D T R : Type*} [LinearOrder D] [LinearOrder (Lin T)] [DecidableEq T] [AddCommMonoid R] [DecidableEq R]

/-- C06, triples. -/
theorem C06_consolidate_updates (v : Upds D T R) :
    ∃ w, consolidateUpdates v = some w ∧ Consolidated w ∧ ∀ d t, total w d t = total v d t :=
  ⟨_, consolidateUpdates_eq v, consolidated_consolidatedU v, total_consolidatedU v⟩

/-- C06, triples: the collection at every time is unchanged. -/
theorem C06_consolidate_updates_accum [LE T] [DecidableLE T] (v : Upds D T R) :
    ∃ w, consolidateUpdates v = some w ∧ ∀ d q, accum w d q = accum v d q :=
  ⟨_, consolidateUpdates_eq v, accum_consolidatedU v⟩

/-- C06, triples: inputs with equal totals consolidate to the same list. -/
theorem C06_consolidate_updates_canonical (v w : Upds D T R) (h : ∀ d t, total v d t = total w d t) :
    consolidateUpdates v = consolidateUpdates w := by
  rw [consolidateUpdates_eq, consolidateUpdates_eq, consolidatedU_congr h]

/-- C06, triples, from an offset. -/
theorem C06_consolidate_updates_from (v : Upds D T R) (offset : Nat) :
    (offset ≤ v.length → ∃ w, consolidateFrom (updLayout D T R) v offset = some (v.take offset ++ w) ∧ Consolidated w ∧
      ∀ d t, total w d t = total (v.drop offset) d t) ∧
    (v.length < offset → consolidateFrom (updLayout D T R) v offset = none) := by
  refine ⟨fun h => ⟨_, consolidateFrom_spec _ (updLayout_lawful D T R) v offset h, consolidated_consolidatedU _,
    total_consolidatedU _⟩, fun h => ?_⟩
  unfold consolidateFrom; rw [if_neg (by omega)]

/-- C06: the (possibly unstable) sort may order equal keys in any way: the scan of any sorted permutation of the input gives the
same valid prefix. -/
theorem C06_any_sort (v s : Upds D T R) (hp : s.Perm v) (hne : v ≠ [])
    (hs : s.Pairwise (fun x y => x.1 < y.1 ∨ (x.1 = y.1 ∧ toLin x.2.1 ≤ toLin y.2.1))) :
    ∃ s' m, scanSlice (updLayout D T R) s = some (s', m) ∧ consolidateUpdates v = some (s'.take m) := by
  have hne' : s ≠ [] := fun e => hne (by subst e; exact (List.nil_perm.1 hp))
  obtain ⟨s', m, h1, -, -, h4⟩ := scanSlice_spec _ (updLayout_lawful D T R) s hne'
  refine ⟨s', m, h1, ?_⟩
  rw [consolidateUpdates_eq, h4]
  congr 1
  have hL := updLayout_lawful D T R
  refine canon_unique _ hL (consolidatedL_canon _ hL v) (scanned_canon _ hL s (hs.imp fun h => ?_)) fun k => ?_
  · simp only [updLayout, Prod.Lex.toLex_le_toLex]; exact h
  · rw [consolidatedU, keyWeight_consolidatedL _ hL, keyWeight_eq, keyWeight_eq, measure_scanned _ hL, measure_perm _ _ hp]

end

/-- Non-vacuity of `C06`: repeated keys, cancellation, an unsorted input and a zero. -/
example : consolidate ([(3, 1), (1, 2), (3, -1), (2, 0), (1, 5)] : List (Nat × Int)) = some [(1, 7)] := by decide +kernel

/-- Non-vacuity of `C06_any_sort`: a sorted permutation that is not the stable one. -/
example : ([(1, 0, 5), (1, 0, 2)] : Upds Nat Nat Int).Perm [(1, 0, 2), (1, 0, 5)] := by decide

end DD
