import Verif.Proofs.ColBasic
import Verif.Proofs.TimeOrd

/-!
# C62: columnar tries hold exactly the updates put into them

`ColTrie.Holds t us`: the trie `t` is the canonical layout of the updates `us`.
-/

namespace DD
open ColTrie

section
variable {K V T R : Type*}

/-- **C62**, iterating: the iterator of a trie laid out from any forest (keys in groups, values under keys, times under values, any number of differences
under each time, some of these lists empty) gives exactly its updates, in order, if the first key has a value and the first value has a time. -/
theorem C62_iter (f : Forest K V T R) (h1 : ∀ k ∈ f.flatten.head?, k.2 ≠ []) (h2 : ∀ v ∈ (f.flatten.flatMap Prod.snd).head?, v.2 ≠ []) :
    f.layout.iter = some f.upds := iter_layout f h1 h2

/-- The documentation of the iterator says that empty groups are skipped; if the first key has no value, the updates of the next key are attributed to it. -/
theorem C62_iter_defect : ∃ f : Forest Nat Nat Nat Int, f.layout.iter ≠ some f.upds ∧ (f.layout.iter).isSome :=
  ⟨[[(1, []), (2, [(5, [(0, [1])])])]], by decide +kernel, by decide +kernel⟩

/-- **C62**, pushing: the updates pushed into an empty trie are those its iterator gives. -/
theorem C62_push (us : Upds (K ×ₗ V) T R) : (us.foldl ColTrie.push ColTrie.empty).iter = some us := iter_pushed us

/-- **C62**, copying keys: `extend_from_keys` appends the keys `lo .. hi` of another trie, with all that is below them, to the last group of keys. -/
theorem C62_extend_from_keys (f h : Forest K V T R) (g : List (K × List (V × List (T × List R)))) (lo hi : Nat) (hl : lo ≤ hi) (hh : hi ≤ h.flatten.length) :
    extendFromKeys { (Forest.layout (f ++ [g])) with keys := (Forest.layout (f ++ [g])).keys.reopen } h.layout lo hi =
      some { (Forest.layout (f ++ [g ++ (h.flatten.drop lo).take (hi - lo)])) with keys := (Forest.layout (f ++ [g ++ (h.flatten.drop lo).take (hi - lo)])).keys.reopen } :=
  extendFromKeys_spec f h g lo hi hl hh

end

section
variable {K V T R : Type*} [LinearOrder K] [LinearOrder V]

/-- **C62**, canonical: there is one trie only that holds given updates, and its iterator gives them. -/
theorem C62_canonical {t t' : ColTrie K V T R} {us : Upds (K ×ₗ V) T R} (h : t.Holds us) (h' : t'.Holds us) : t = t' ∧ t.iter = some us ∧ t.len = us.length :=
  ⟨holds_unique h h', iter_holds h, len_layout h⟩

/-- **C62**, building: a builder made from a trie, into which tries are melded, each of whose updates come, by key and value, at or after those before, ends up
with a trie that holds all their updates, one after the other. -/
theorem C62_builder {t : ColTrie K V T R} {us : Upds (K ×ₗ V) T R} (h : t.Holds us) (ts : List (ColTrie K V T R × Upds (K ×ₗ V) T R)) (ht : ∀ x ∈ ts, x.1.Holds x.2)
    (hle : (us :: ts.map Prod.snd).Pairwise fun a b => ∀ u ∈ a, ∀ w ∈ b, u.1 ≤ w.1) :
    ∃ b, (ts.map Prod.fst).foldlM meld (builderFrom t) = some b ∧ (builderDone b).Holds (us ++ (ts.map Prod.snd).flatten) := builder_spec h ts ht hle

/-- **C62**, dropping what cancelled: of a trie with at most one difference under each time, `filter_zero` leaves the canonical trie of its updates. -/
theorem C62_filter_zero (g : Contents K V T (List R)) (hs : ContentsSorted g) (hn : NoEmpty g) (h1 : ∀ k ∈ g, ∀ v ∈ k.2, ∀ x ∈ v.2, x.2.length ≤ 1) :
    ∃ t, filterZero (Forest.layout [g]) = some t ∧ t.Holds (Forest.upds [g]) := filterZero_spec g ⟨hs, hn⟩ h1

end

section
variable {K V T R : Type*} [LinearOrder K] [LinearOrder V] [LinearOrder (Lin T)] [DecidableEq T] [AddCommMonoid R] [DecidableEq R]

/-- **C62**, forming: from any updates, `form_unsorted` makes the trie that holds them consolidated. -/
theorem C62_form_unsorted (us : Upds (K ×ₗ V) T R) :
    ∃ t ws, formUnsorted us = some t ∧ t.Holds ws ∧ Consolidated ws ∧ ∀ d q, total ws d q = total us d q := formUnsorted_spec us

/-- **C62**, forming from sorted updates. -/
theorem C62_form (us : Upds (K ×ₗ V) T R) (hs : us.Pairwise fun u w => u.1 < w.1 ∨ (u.1 = w.1 ∧ toLin u.2.1 ≤ toLin w.2.1)) :
    ∃ t ws, form us = some t ∧ t.Holds ws ∧ Consolidated ws ∧ ∀ d q, total ws d q = total us d q := by
  obtain ⟨t, h1, h2⟩ := form_holds (us := us) hs
  exact ⟨t, _, h1, h2, consolidated_consolidating hs, fun d q => total_consolidating us d q⟩

/-- **C62**, consolidating: `consolidate` of the layout of any forest (whose first lists are not empty) is the trie that holds its updates consolidated. -/
theorem C62_consolidate (f : Forest K V T R) (h1 : ∀ k ∈ f.flatten.head?, k.2 ≠ []) (h2 : ∀ v ∈ (f.flatten.flatMap Prod.snd).head?, v.2 ≠ []) :
    ∃ t ws, f.layout.consolidate = some t ∧ t.Holds ws ∧ Consolidated ws ∧ ∀ d q, total ws d q = total f.upds d q := by
  rw [ColTrie.consolidate, iter_layout f h1 h2]
  exact formUnsorted_spec f.upds

end

/-! ### Examples -/

section
/-- Two groups, one of them empty, an empty list of differences, and a value without times. -/
private def exF : Forest Nat Nat Nat Int := [[(1, [(10, [(0, [1, 2]), (1, [])]), (11, [])])], [], [(2, [(10, [(3, [4])])]), (1, [(10, [(1, [5])])])]]

example : exF.layout.iter = some [(toLex (1, 10), 0, 1), (toLex (1, 10), 0, 2), (toLex (2, 10), 3, 4), (toLex (1, 10), 1, 5)] := by decide +kernel
example : (∀ k ∈ exF.flatten.head?, k.2 ≠ []) ∧ ∀ v ∈ (exF.flatten.flatMap Prod.snd).head?, v.2 ≠ [] := by decide +kernel
example : exF.layout.consolidate =
    some (Forest.layout [[(1, [(10, [(0, [3]), (1, [5])])]), (2, [(10, [(3, [4])])])]]) := by decide +kernel
example : formUnsorted ([(toLex (2, 1), 0, 1), (toLex (1, 1), 0, 1), (toLex (2, 1), 0, -1), (toLex (1, 1), 1, 2)] : Upds (Nat ×ₗ Nat) Nat Int) =
    some (Forest.layout [[(1, [(1, [(0, [1]), (1, [2])])])]]) := by decide +kernel
example : filterZero (Forest.layout [([(1, [(10, [(0, []), (1, [5])])]), (2, [(10, [(3, [])])])] : Contents Nat Nat Nat (List Int))]) =
    some (Forest.layout [[(1, [(10, [(1, [5])])])]]) := by decide +kernel
/-- A value split across two tries. -/
example : ((builderFrom (Forest.layout [[(1, [(10, [(0, [1])])])]] : ColTrie Nat Nat Nat Int)).meld (Forest.layout [[(1, [(10, [(1, [2])]), (11, [(0, [3])])]), (2, [(5, [(0, [1])])])]])).map builderDone =
    some (Forest.layout [[(1, [(10, [(0, [1]), (1, [2])]), (11, [(0, [3])])]), (2, [(5, [(0, [1])])])]]) := by decide +kernel
example : (Forest.layout [[(1, [(10, [(0, [1])])])]] : ColTrie Nat Nat Nat Int).Holds [(toLex (1, 10), 0, 1)] :=
  ⟨[(1, [(10, [(0, 1)])])], ⟨by simp, by simp⟩, by simp [NoEmpty], rfl, rfl⟩

end

end DD
