import Verif.Spec.Columnar
import Verif.Model.Chunk

/-!
# Model of `columnar/updates.rs`: tries of updates in columns

Columns are lists (of the `columnar` crate, only the interface used is modelled; `Strides` are lists of bounds). `none` stands for a panic: an index
out of bounds, or a failed assertion. An update is a triple of a pair of key and value (`K ×ₗ V`, in lexicographic order), a time and a difference.
-/

namespace DD

/-! ### Lists -/

/-- The elements from `lo` to `hi`. -/
def slice {α : Type*} (l : List α) (lo hi : Nat) : List α := (l.drop lo).take (hi - lo)

namespace Lists
variable {α : Type*}

/-- `Default`. -/
def empty : Lists α := ⟨[], []⟩

/-- `child_range` (updates.rs:358-364), and `bounds.bounds(i)` of the `columnar` crate. -/
def range (l : Lists α) (i : Nat) : Option (Nat × Nat) :=
  (l.bounds[i]?).map fun hi => (if i = 0 then 0 else l.bounds.getD (i - 1) 0, hi)

/-- `bounds.push(values.len())`. -/
def close (l : Lists α) : Lists α := { l with bounds := l.bounds ++ [l.values.length] }

/-- `values.push(x)`. -/
def push (l : Lists α) (x : α) : Lists α := { l with values := l.values ++ [x] }

/-- `bounds.pop()`. -/
def reopen (l : Lists α) : Lists α := { l with bounds := l.bounds.dropLast }

/-- `values.extend_from_self(other.values, lo .. hi)`. -/
def extendValues (l : Lists α) (other : Lists α) (lo hi : Nat) : Lists α := { l with values := l.values ++ slice other.values lo hi }

/-- `extend_from_self(other, lo .. hi)` of `Vecs` (of the `columnar` crate): appends the lists `lo .. hi` of the other. -/
def extendFromSelf (l other : Lists α) (lo hi : Nat) : Option (Lists α) :=
  if lo < hi then
    match other.range lo, other.range (hi - 1) with
    | some (lower, _), some (_, upper) =>
      some ⟨l.values ++ slice other.values lower upper, l.bounds ++ (slice other.bounds lo hi).map fun b => b - lower + l.values.length⟩
    | _, _ => none
  else some l

/-- `vals_bounds` and `times_bounds` (updates.rs:136-153): the range of items of a range of lists. -/
def translate (l : Lists α) (r : Nat × Nat) : Option (Nat × Nat) :=
  if r.1 < r.2 then
    match l.range r.1, l.range (r.2 - 1) with
    | some (lower, _), some (_, upper) => some (lower, upper)
    | _, _ => none
  else some r

/-- `Strides::new(1, n)` as bounds. -/
def single (values : List α) (n : Nat) : Lists α := ⟨values, (List.range n).map (· + 1)⟩

end Lists

/-- The loop over the items of one list of `retain_items` (updates.rs:29-33): `none` if `keep` is too short. -/
def retainList {α : Type*} (lists : Lists α) (keep : List Bool) (output : Lists α) (lower upper : Nat) : Option (Lists α) :=
  (List.range' lower (upper - lower)).foldlM (fun output i =>
    match keep[i]?, lists.values[i]? with
    | some b, some x => some (if b then output.push x else output)
    | _, _ => none) output

/-- The body of the loop over the lists of `retain_items` (updates.rs:28-39). -/
def retainStep {α : Type*} (lists : Lists α) (keep : List Bool) (s : Lists α × List Bool) (i : Nat) : Option (Lists α × List Bool) :=
  match lists.range i with
  | none => none
  | some (lower, upper) =>
    match retainList lists keep s.1 lower upper with
    | none => none
    | some output => some (if output.values.length > output.bounds.getLast?.getD 0 then (output.close, s.2 ++ [true]) else (output, s.2 ++ [false]))

/-- `retain_items` (updates.rs:20-43). -/
def retainItems {α : Type*} (lists : Lists α) (keep : List Bool) : Option (Lists α × List Bool) :=
  if keep.length = lists.values.length then (List.range lists.bounds.length).foldlM (retainStep lists keep) (.empty, []) else none

namespace ColTrie
variable {K V T R : Type*}

/-- `Default` (updates.rs:68-77). -/
def empty : ColTrie K V T R := ⟨.empty, .empty, .empty, .empty⟩

/-- `len` (updates.rs:530). -/
def len (t : ColTrie K V T R) : Nat := t.diffs.values.length

/-! ### Iteration -/

/-- The fields of `UpdatesIter` other than the view (updates.rs:164-169). -/
structure Iter where
  k : Nat
  v : Nat
  t : Nat
  d : Nat
  v_end : Nat
  t_end : Nat
  d_end : Nat

/-- `while v >= v_end { k += 1; v_end = vals.bounds[k]; }` (updates.rs:188-191); the first argument bounds the rounds: they end, at the latest, with an index out of bounds. -/
def Iter.keyLoop (c : ColTrie K V T R) : Nat → Iter → Option Iter
  | 0, _ => none
  | n + 1, i =>
    if i.v ≥ i.v_end then
      match c.vals.bounds[i.k + 1]? with
      | none => none
      | some v_end => Iter.keyLoop c n { i with k := i.k + 1, v_end := v_end }
    else some i

/-- `while t >= t_end { v += 1; .. t_end = times.bounds[v]; }` (updates.rs:186-193). -/
def Iter.valLoop (c : ColTrie K V T R) : Nat → Iter → Option Iter
  | 0, _ => none
  | n + 1, i =>
    if i.t ≥ i.t_end then
      match Iter.keyLoop c (c.vals.bounds.length + 1) { i with v := i.v + 1 } with
      | none => none
      | some i =>
        match c.times.bounds[i.v]? with
        | none => none
        | some t_end => Iter.valLoop c n { i with t_end := t_end }
    else some i

/-- `while d >= d_end { t += 1; .. d_end = diffs.bounds[t]; }` (updates.rs:184-195). -/
def Iter.timeLoop (c : ColTrie K V T R) : Nat → Iter → Option Iter
  | 0, _ => none
  | n + 1, i =>
    if i.d ≥ i.d_end then
      match Iter.valLoop c (c.times.bounds.length + 1) { i with t := i.t + 1 } with
      | none => none
      | some i =>
        match c.diffs.bounds[i.t]? with
        | none => none
        | some d_end => Iter.timeLoop c n { i with d_end := d_end }
    else some i

/-- `next` (updates.rs:179-204), when `d < leaves`. -/
def Iter.next (c : ColTrie K V T R) (i : Iter) : Option (((K ×ₗ V) × T × R) × Iter) :=
  match Iter.timeLoop c (c.diffs.bounds.length + 1) i with
  | none => none
  | some i =>
    match c.keys.values[i.k]?, c.vals.values[i.v]?, c.times.values[i.t]?, c.diffs.values[i.d]? with
    | some k, some v, some t, some d => some ((toLex (k, v), t, d), { i with d := i.d + 1 })
    | _, _, _, _ => none

/-- The items of the iterator, `n` of which are left. -/
def Iter.collect (c : ColTrie K V T R) : Nat → Iter → Option (Upds (K ×ₗ V) T R)
  | 0, _ => some []
  | n + 1, i =>
    match i.next c with
    | none => none
    | some r => (Iter.collect c n r.2).map (r.1 :: ·)

/-- `iter` (updates.rs:118-134), run to its end. -/
def iter (c : ColTrie K V T R) : Option (Upds (K ×ₗ V) T R) :=
  if c.diffs.values.length > 0 then
    match c.vals.bounds[0]?, c.times.bounds[0]?, c.diffs.bounds[0]? with
    | some v_end, some t_end, some d_end => Iter.collect c c.diffs.values.length ⟨0, 0, 0, 0, v_end, t_end, d_end⟩
    | _, _, _ => none
  else some []

/-! ### Forming -/

section form
variable [LinearOrder K] [LinearOrder V] [LinearOrder (Lin T)] [AddCommMonoid R] [DecidableEq R]

/-- `Consolidating`, run to its end (updates.rs:366-418). -/
def consolidating : Upds (K ×ₗ V) T R → Upds (K ×ₗ V) T R
  | [] => []
  | u :: us =>
    let same := us.takeWhile fun w => w.1 = u.1 ∧ toLin w.2.1 = toLin u.2.1
    let diff := same.foldl (fun diff w => diff + w.2.2) u.2.2
    let rest := consolidating (us.dropWhile fun w => w.1 = u.1 ∧ toLin w.2.1 = toLin u.2.1)
    if diff ≠ 0 then (u.1, u.2.1, diff) :: rest else rest
termination_by us => us.length
decreasing_by
  simp only [List.length_cons]
  exact Nat.lt_succ_of_le (List.dropWhile_sublist _).length_le

/-- The body of the loop of `form` (updates.rs:461-483); `prev` is the update before. -/
def formStep (output : ColTrie K V T R) (prev u : (K ×ₗ V) × T × R) : Option (ColTrie K V T R) :=
  let record := fun output : ColTrie K V T R => { output with times := output.times.push u.2.1, diffs := (output.diffs.push u.2.2).close }
  if (ofLex u.1).1 ≠ (ofLex prev.1).1 then
    some (record { output with keys := output.keys.push (ofLex u.1).1, vals := output.vals.close.push (ofLex u.1).2, times := output.times.close })
  else if (ofLex u.1).2 ≠ (ofLex prev.1).2 then
    some (record { output with vals := output.vals.push (ofLex u.1).2, times := output.times.close })
  else if toLin u.2.1 ≠ toLin prev.2.1 then some (record output)
  else none

/-- The loop of `form` (updates.rs:459-484). -/
def formLoop : ColTrie K V T R → (K ×ₗ V) × T × R → Upds (K ×ₗ V) T R → Option (ColTrie K V T R)
  | output, _, [] => some output
  | output, prev, u :: us =>
    match formStep output prev u with
    | none => none
    | some output => formLoop output u us

/-- `form` (updates.rs:440-494). -/
def form (sorted : Upds (K ×ₗ V) T R) : Option (ColTrie K V T R) :=
  match consolidating sorted with
  | [] => some empty
  | u :: us =>
    let output : ColTrie K V T R := ⟨Lists.empty.push (ofLex u.1).1, Lists.empty.push (ofLex u.1).2, Lists.empty.push u.2.1, (Lists.empty.push u.2.2).close⟩
    match formLoop output u us with
    | none => none
    | some output => some { output with keys := output.keys.close, vals := output.vals.close, times := output.times.close }

/-- The order by key, value and time. -/
def updLe (u w : (K ×ₗ V) × T × R) : Prop := u.1 < w.1 ∨ (u.1 = w.1 ∧ toLin u.2.1 ≤ toLin w.2.1)

instance : DecidableRel (updLe (K := K) (V := V) (T := T) (R := R)) := fun _ _ => inferInstanceAs (Decidable (_ ∨ (_ ∧ _)))

/-- `form_unsorted` (updates.rs:431-438). The sort also orders equal triples by difference, which only changes the order of a sum. -/
def formUnsorted (us : Upds (K ×ₗ V) T R) : Option (ColTrie K V T R) := form (us.insertionSort updLe)

/-- `consolidate` (updates.rs:496-499). -/
def consolidate (c : ColTrie K V T R) : Option (ColTrie K V T R) := c.iter.bind formUnsorted

end form

/-- Retaining the keys, values and times of the updates to keep: the three calls of `retain_items` (updates.rs:512-514, trie_merger.rs:58-60). -/
def retain (c : ColTrie K V T R) (keep : List Bool) : Option (ColTrie K V T R) :=
  (retainItems c.times keep).bind fun times =>
  (retainItems c.vals times.2).bind fun vals =>
  (retainItems c.keys vals.2).map fun keys => ⟨keys.1, vals.1, times.1, .empty⟩

/-- `filter_zero` (updates.rs:500-526). That every time has one difference (`strided() == Some(1)`) is read off the bounds; there are none in an empty trie. -/
def filterZero (c : ColTrie K V T R) : Option (ColTrie K V T R) :=
  if c.diffs.bounds ≠ [] ∧ c.diffs.bounds = (List.range c.diffs.bounds.length).map (· + 1) then some c
  else
    ((List.range c.times.values.length).mapM fun i => (c.diffs.range i).map fun b => decide (b.1 < b.2)).bind fun keep =>
    (c.retain keep).map fun r => { r with diffs := .single c.diffs.values c.diffs.values.length }

/-- `push` of one update (updates.rs:532-553). -/
def push (c : ColTrie K V T R) (u : (K ×ₗ V) × T × R) : ColTrie K V T R where
  keys := (c.keys.push (ofLex u.1).1).close
  vals := (c.vals.push (ofLex u.1).2).close
  times := (c.times.push u.2.1).close
  diffs := (c.diffs.push u.2.2).close

/-- `extend_from_keys` (updates.rs:421-429). -/
def extendFromKeys (c other : ColTrie K V T R) (lo hi : Nat) : Option (ColTrie K V T R) :=
  let keys := c.keys.extendValues other.keys lo hi
  (c.vals.extendFromSelf other.vals lo hi).bind fun vals =>
  (other.vals.translate (lo, hi)).bind fun vr =>
  (c.times.extendFromSelf other.times vr.1 vr.2).bind fun times =>
  (other.times.translate vr).bind fun tr =>
  (c.diffs.extendFromSelf other.diffs tr.1 tr.2).map fun diffs => ⟨keys, vals, times, diffs⟩

/-! ### Building from consolidated tries -/

/-- Reopening the last lists of keys, values and times. -/
def reopen (c : ColTrie K V T R) : ColTrie K V T R := { c with keys := c.keys.reopen, vals := c.vals.reopen, times := c.times.reopen }

/-- `UpdatesBuilder::new_from` (updates.rs:603-616). -/
def builderFrom (c : ColTrie K V T R) : ColTrie K V T R := if c.keys.values.length > 0 then c.reopen else c

/-- `UpdatesBuilder::done` (updates.rs:743-755). -/
def builderDone (c : ColTrie K V T R) : ColTrie K V T R :=
  if c.keys.values.length > 0 then { c with times := c.times.close, vals := c.vals.close, keys := c.keys.close } else c

/-- The keys in `meld` (updates.rs:663-673). -/
def meldKeys (keys_match : Bool) (keys chunk : Lists K) : Lists K :=
  if keys_match then
    if chunk.values.length > 1 then keys.extendValues chunk 1 chunk.values.length else keys
  else keys.extendValues chunk 0 chunk.values.length

/-- The values in `meld` (updates.rs:675-705). -/
def meldVals (keys_match vals_match : Bool) (num_keys : Nat) (first_key_vals : Nat × Nat) (vals chunk : Lists V) : Option (Lists V) :=
  if keys_match then
    let vals :=
      if vals_match then
        if first_key_vals.2 - first_key_vals.1 > 1 then vals.extendValues chunk (first_key_vals.1 + 1) first_key_vals.2 else vals
      else vals.extendValues chunk first_key_vals.1 first_key_vals.2
    if num_keys > 1 then (vals.close.extendFromSelf chunk 1 num_keys).map Lists.reopen else some vals
  else (vals.close.extendFromSelf chunk 0 num_keys).map Lists.reopen

/-- The times in `meld` (updates.rs:707-733); `differ` is the negation of `vals_match`. -/
def meldTimes (vals_match : Bool) (num_vals : Nat) (first_val_times : Nat × Nat) (times chunk : Lists T) : Option (Lists T) :=
  if vals_match then
    let times := times.extendValues chunk first_val_times.1 first_val_times.2
    if num_vals > 1 then (times.close.extendFromSelf chunk 1 num_vals).map Lists.reopen else some times
  else (times.close.extendFromSelf chunk 0 num_vals).map Lists.reopen

/-- `UpdatesBuilder::meld` (updates.rs:618-741), without its debug assertions. -/
def meld [DecidableEq K] [DecidableEq V] (c chunk : ColTrie K V T R) : Option (ColTrie K V T R) :=
  if chunk.len = 0 then some c
  else if c.keys.values.length = 0 then some chunk.reopen
  else
    let keys_match : Bool := c.keys.values.getLast? = chunk.keys.values.head?
    let vals_match : Bool := keys_match && (c.vals.values.getLast? = chunk.vals.values.head? : Bool)
    (chunk.vals.range 0).bind fun first_key_vals =>
    (chunk.times.range 0).bind fun first_val_times =>
    (meldVals keys_match vals_match chunk.keys.values.length first_key_vals c.vals chunk.vals).bind fun vals =>
    (meldTimes vals_match chunk.vals.values.length first_val_times c.times chunk.times).bind fun times =>
    (c.diffs.extendFromSelf chunk.diffs 0 chunk.times.values.length).map fun diffs =>
    ⟨meldKeys keys_match c.keys chunk.keys, vals, times, diffs⟩

end ColTrie

end DD
