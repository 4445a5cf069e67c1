import Verif.Spec.Basic
import Mathlib.Data.Prod.Lex
import Mathlib.Data.List.Sort
import Mathlib.Algebra.Group.Hom.Defs

/-!
# Model of `differential-dataflow/src/consolidation.rs` (functions)

`consolidate_slice_slow` and `consolidate_updates_slice_slow` are the same program up to the projections used (the
key is `.0`, respectively the pair `(.0, .1)`; the difference is `.1`, respectively `.2`). The model is written once,
over a `Layout` that supplies those projections, and instantiated twice. A slice is a list of fixed length that is
indexed and overwritten; an out-of-bounds access, which would panic, is `none`.
-/

namespace DD

/-- Which field is the key and which the difference of a slice element. -/
structure Layout (α K R : Type*) where
  key : α → K
  diff : α → R
  setDiff : α → R → α

/-- `(T, R)` elements (consolidation.rs:41-80). -/
def pairLayout (K R : Type*) : Layout (K × R) K R :=
  { key := fun x => x.1, diff := fun x => x.2, setDiff := fun x r => (x.1, r) }

/-- `(D, T, R)` elements (consolidation.rs:105-145): compared by `(&x.0, &x.1)` lexicographically. -/
def updLayout (D T R : Type*) : Layout (D × T × R) (D ×ₗ Lin T) R :=
  { key := fun x => toLex (x.1, toLin x.2.1), diff := fun x => x.2.2, setDiff := fun x r => (x.1, x.2.1, r) }

section
variable {α K R : Type*} [LinearOrder K] [AddCommMonoid R] [DecidableEq R]

/-- `slice.swap(i, j)`; `none` if out of bounds. -/
def swap? (s : List α) (i j : Nat) : Option (List α) :=
  match s[i]?, s[j]? with
  | some x, some y => some ((s.set i y).set j x)
  | _, _ => none

/-- `slice.swap(offset, at); slice[offset].diff = accum; offset += 1` guarded by `!accum.is_zero()`
(consolidation.rs:65-69 and 73-77; 130-134 and 138-142). -/
def flushAt (L : Layout α K R) (s : List α) (offset : Nat) (accum : R) (idx : Nat) : Option (List α × Nat) :=
  if accum ≠ 0 then
    match swap? s offset idx with
    | none => none
    | some s' =>
      match s'[offset]? with
      | none => none
      | some x => some (s'.set offset (L.setDiff x accum), offset + 1)
  else some (s, offset)

/-- One iteration of the scan, for `index` (consolidation.rs:60-72; 125-137). -/
def scanStep (L : Layout α K R) (st : List α × Nat × R) (index : Nat) : Option (List α × Nat × R) :=
  match st.1[index]?, st.1[index - 1]? with
  | some x, some y =>
    if L.key x = L.key y then some (st.1, st.2.1, st.2.2 + L.diff x)
    else
      match flushAt L st.1 st.2.1 st.2.2 (index - 1) with
      | none => none
      | some (s', offset') => some (s', offset', L.diff x)
  | _, _ => none

/-- `consolidate_slice_slow` after the sort (consolidation.rs:56-80), `consolidate_updates_slice_slow` (121-145): returns the
overwritten slice and the length of its valid prefix. -/
def scanSlice (L : Layout α K R) (s : List α) : Option (List α × Nat) :=
  match s[0]? with
  | none => none
  | some x0 =>
    match (List.range' 1 (s.length - 1)).foldlM (scanStep L) (s, 0, L.diff x0) with
    | none => none
    | some (s', offset, accum) => flushAt L s' offset accum (s.length - 1)

/-- `consolidate_slice` (consolidation.rs:41-48), `consolidate_updates_slice` (105-113). The sort is `sort_by` respectively
`sort_unstable_by` on keys; the model uses a stable insertion sort (`C06_any_sort` shows the choice does not matter). -/
def consolidateSlice (L : Layout α K R) (s : List α) : Option (List α × Nat) :=
  if s.length > 1 then scanSlice L (s.insertionSort (fun x y => L.key x ≤ L.key y))
  else some (s, (s.filter (fun x => decide (L.diff x ≠ 0))).length)

/-- `consolidate_from` (consolidation.rs:34-37), `consolidate_updates_from` (98-101): `none` if `offset` is past the end
(the slicing `vec[offset..]` panics). -/
def consolidateFrom (L : Layout α K R) (v : List α) (offset : Nat) : Option (List α) :=
  if offset ≤ v.length then
    match consolidateSlice L (v.drop offset) with
    | none => none
    | some (s, length) => some ((v.take offset ++ s).take (offset + length))
  else none

end

/-- `consolidate` (consolidation.rs:24-26) on pairs. -/
def consolidate {K R : Type*} [LinearOrder K] [AddCommMonoid R] [DecidableEq R] (v : List (K × R)) : Option (List (K × R)) :=
  consolidateFrom (pairLayout K R) v 0

/-- `consolidate_updates` (consolidation.rs:88-90) on triples. -/
def consolidateUpdates {D T R : Type*} [LinearOrder D] [LinearOrder (Lin T)] [AddCommMonoid R] [DecidableEq R]
    (v : Upds D T R) : Option (Upds D T R) :=
  consolidateFrom (updLayout D T R) v 0

end DD
