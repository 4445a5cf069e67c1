import Verif.Model.Columnar
import Verif.Model.Lattice

/-!
# Model of `columnar/trie_merger.rs`: merging, cutting and parting columnar tries

`none` stands for a panic.
-/

namespace DD

/-- `Report` (trie_merger.rs:478-491). -/
inductive Report where
  | this (lower upper : Nat)
  | that (lower upper : Nat)
  | both (index0 index1 : Nat)
deriving DecidableEq

section
variable {α : Type*}

/-- `gallop` (trie_merger.rs:452-476): the loops are those of the `gallop` of vec.rs:84-100, with `upper` for the length of the input. -/
def gallopIn (input : List α) (lower upper : Nat) (cmp : α → Bool) : Option Nat := gallop (input.take upper) lower cmp

/-- The loop over the matching ranges of `survey` (trie_merger.rs:303-326), and the two pushes after it (trie_merger.rs:327-328); the first argument bounds the rounds. -/
def surveyLoop [LinearOrder α] (values0 values1 : List α) : Nat → Nat → Nat → Nat → Nat → Option (List Report)
  | 0, _, _, _, _ => none
  | n + 1, lower0, upper0, lower1, upper1 =>
    if lower0 < upper0 ∧ lower1 < upper1 then
      match values0[lower0]?, values1[lower1]? with
      | some val0, some val1 =>
        if val0 < val1 then
          (gallopIn values0 (lower0 + 1) upper0 fun x => x < val1).bind fun next =>
          (surveyLoop values0 values1 n next upper0 lower1 upper1).map (.this lower0 next :: ·)
        else if val0 = val1 then (surveyLoop values0 values1 n (lower0 + 1) upper0 (lower1 + 1) upper1).map (.both lower0 lower1 :: ·)
        else
          (gallopIn values1 (lower1 + 1) upper1 fun x => x < val0).bind fun next =>
          (surveyLoop values0 values1 n lower0 upper0 next upper1).map (.that lower1 next :: ·)
      | _, _ => none
    else some ((if lower0 < upper0 then [.this lower0 upper0] else []) ++ (if lower1 < upper1 then [.that lower1 upper1] else []))

/-- The reports for one report of the layer above (trie_merger.rs:289-336). -/
def surveyOne [LinearOrder α] (lists0 lists1 : Lists α) : Report → Option (List Report)
  | .this lower0 upper0 =>
    (lists0.range lower0).bind fun l => (lists0.range (upper0 - 1)).map fun u => [.this l.1 u.2]
  | .that lower1 upper1 =>
    (lists1.range lower1).bind fun l => (lists1.range (upper1 - 1)).map fun u => [.that l.1 u.2]
  | .both index0 index1 =>
    (lists0.range index0).bind fun b0 => (lists1.range index1).bind fun b1 =>
    surveyLoop lists0.values lists1.values (b0.2 + b1.2 + 1) b0.1 b0.2 b1.1 b1.2

/-- `survey` (trie_merger.rs:279-340). -/
def survey [LinearOrder α] (lists0 lists1 : Lists α) (reports : List Report) : Option (List Report) :=
  reports.foldlM (fun output report => (surveyOne lists0 lists1 report).map (output ++ ·)) []

/-- Copying the lists `lo .. hi` under a range report (trie_merger.rs:372-386 and 391-402): item by item bounds if they may be cut, in bulk if not. -/
def copyLists (lists : Lists α) (may_be_pruned : Bool) (lo hi item_lo item_hi : Nat) (output : Lists α) : Option (Lists α) :=
  if may_be_pruned then
    let base := output.values.length
    ((List.range' lo (hi - lo)).mapM fun i => (lists.range i).map fun b => base + min b.2 item_hi - item_lo).map fun bounds =>
    ⟨output.values ++ slice lists.values item_lo item_hi, output.bounds ++ bounds⟩
  else output.extendFromSelf lists lo hi

/-- The loop over the items of a list found in both inputs (trie_merger.rs:408-428): returns the items left. -/
def bothLoop (values0 values1 : List α) (c0 end0 c1 end1 : Nat) : List Report → Lists α → Option (List Report × Lists α)
  | [], output => some ([], output)
  | item :: items, output =>
    if c0 < end0 ∨ c1 < end1 then
      match item with
      | .this lo hi =>
        if lo ≥ end0 then some (item :: items, output)
        else bothLoop values0 values1 hi end0 c1 end1 items { output with values := output.values ++ slice values0 lo hi }
      | .that lo hi =>
        if lo ≥ end1 then some (item :: items, output)
        else bothLoop values0 values1 c0 end0 hi end1 items { output with values := output.values ++ slice values1 lo hi }
      | .both v0 v1 =>
        if v0 ≥ end0 ∧ v1 ≥ end1 then some (item :: items, output)
        else
          match values0[v0]? with
          | none => none
          | some x => bothLoop values0 values1 (v0 + 1) end0 (v1 + 1) end1 items (output.push x)
    else some (item :: items, output)

/-- The body of the loop of `write_layer` (trie_merger.rs:364-431): returns the items left. -/
def writeReport (lists0 lists1 : Lists α) (may_be_pruned : Bool) (items : List Report) (output : Lists α) : Report → Option (List Report × Lists α)
  | .this lo hi =>
    match items with
    | .this item_lo item_hi :: items => (copyLists lists0 may_be_pruned lo hi item_lo item_hi output).map fun output => (items, output)
    | _ => none
  | .that lo hi =>
    match items with
    | .that item_lo item_hi :: items => (copyLists lists1 may_be_pruned lo hi item_lo item_hi output).map fun output => (items, output)
    | _ => none
  | .both i0 i1 =>
    (lists0.range i0).bind fun b0 => (lists1.range i1).bind fun b1 =>
    (bothLoop lists0.values lists1.values b0.1 b0.2 b1.1 b1.2 items output).map fun r => (r.1, r.2.close)

/-- The loop of `write_layer` (trie_merger.rs:364-432); `first` says that no report was seen before. -/
def writeLoop (lists0 lists1 : Lists α) : Bool → List Report → List Report → Lists α → Option (Lists α)
  | _, [], _, output => some output
  | first, report :: reports, items, output =>
    (writeReport lists0 lists1 (first || reports.isEmpty) items output report).bind fun r => writeLoop lists0 lists1 false reports r.1 r.2

/-- `write_layer` (trie_merger.rs:352-433), into an empty output. -/
def writeLayer (lists0 lists1 : Lists α) (list_survey item_survey : List Report) : Option (Lists α) :=
  writeLoop lists0 lists1 true list_survey item_survey .empty

/-- The body of the loop of `write_diffs` (trie_merger.rs:453-471). -/
def writeDiff [Add α] [Zero α] [DecidableEq α] (diffs0 diffs1 : Lists α) (output : Lists α) : Report → Option (Lists α)
  | .this lo hi => output.extendFromSelf diffs0 lo hi
  | .that lo hi => output.extendFromSelf diffs1 lo hi
  | .both t0 t1 =>
    (diffs0.range t0).bind fun d0 => (diffs1.range t1).bind fun d1 =>
    if d0.2 - d0.1 = 1 ∧ d1.2 - d1.1 = 1 then
      match diffs0.values[d0.1]?, diffs1.values[d1.1]? with
      | some x, some y => some (if x + y ≠ 0 then (output.push (x + y)).close else output.close)
      | _, _ => none
    else none

/-- `write_diffs` (trie_merger.rs:443-472), into an empty output. -/
def writeDiffs [Add α] [Zero α] [DecidableEq α] (diffs0 diffs1 : Lists α) (time_survey : List Report) : Option (Lists α) :=
  time_survey.foldlM (writeDiff diffs0 diffs1) .empty

end

/-- Popping the last reports, given from the last on, while they are of the input that goes on (trie_merger.rs:184-189): returns the reports left, in order,
and the lower end of the last report popped, or else `l`. -/
def popThis : List Report → Nat → List Report × Nat
  | .this lower _ :: reports, _ => popThis reports lower
  | reports, l => (reports.reverse, l)

/-- The same for the other input (trie_merger.rs:198-203). -/
def popThat : List Report → Nat → List Report × Nat
  | .that lower _ :: reports, _ => popThat reports lower
  | reports, l => (reports.reverse, l)

/-- `if v == times.len() || times.bounds.bounds(v).0 > t { v -= 1; }` (trie_merger.rs:191-192 and 205-206). -/
def nudge {α : Type*} (lists : Lists α) (i below : Nat) : Option Nat :=
  if i = lists.bounds.length then some (i - 1) else (lists.range i).map fun b => if b.1 > below then i - 1 else i

namespace ColTrie
variable {K V T R : Type*}

section
variable [Add R] [Zero R] [DecidableEq R]

/-- `write_from_surveys` (trie_merger.rs:249-268). -/
def writeFromSurveys (updates0 updates1 : ColTrie K V T R) (root_survey key_survey val_survey time_survey : List Report) : Option (ColTrie K V T R) :=
  (writeLayer updates0.keys updates1.keys root_survey key_survey).bind fun keys =>
  (writeLayer updates0.vals updates1.vals key_survey val_survey).bind fun vals =>
  (writeLayer updates0.times updates1.times val_survey time_survey).bind fun times =>
  (writeDiffs updates0.diffs updates1.diffs time_survey).map fun diffs => ⟨keys, vals, times, diffs⟩

/-- `suffix_chunk` (trie_merger.rs:100-118). -/
def suffixChunk (cursor : Nat × Nat × Nat) (batch : ColTrie K V T R) : Option (ColTrie K V T R) :=
  writeFromSurveys batch empty [.this 0 1] [.this cursor.1 batch.keys.values.length] [.this cursor.2.1 batch.vals.values.length]
    [.this cursor.2.2 batch.times.values.length]

variable [LinearOrder K] [LinearOrder V] [LinearOrder (Lin T)]

/-- The column of times, with times in their linear order. -/
def linTimes (c : ColTrie K V T R) : Lists (Lin T) := ⟨c.times.values.map toLin, c.times.bounds⟩

/-- `merge_pair` (trie_merger.rs:128-241), from the start of both batches: the only caller passes cursors at zero (trace/chunk.rs:352-353), for
which the adjustments to the cursors (trie_merger.rs:164-174) do nothing. Returns the cursors of what is left of either batch and the merged trie. -/
def mergePair (updates0 updates1 : ColTrie K V T R) :
    Option (Option (Nat × Nat × Nat) × Option (Nat × Nat × Nat) × ColTrie K V T R) :=
  (survey updates0.keys updates1.keys [.both 0 0]).bind fun key_survey =>
  (survey updates0.vals updates1.vals key_survey).bind fun val_survey =>
  (survey updates0.linTimes updates1.linTimes val_survey).bind fun time_survey =>
  let write := writeFromSurveys updates0 updates1 [.both 0 0]
  match time_survey.getLast? with
  | none => none
  | some (.both _ _) => (write key_survey val_survey time_survey).map fun out => (none, none, out)
  | some (.this _ _) =>
    let t := popThis time_survey.reverse updates0.times.values.length
    let v := popThis val_survey.reverse updates0.vals.values.length
    let k := popThis key_survey.reverse updates0.keys.values.length
    (nudge updates0.times v.2 t.2).bind fun v' =>
    (nudge updates0.vals k.2 v').bind fun k' =>
    (write k.1 v.1 t.1).map fun out => (some (k', v', t.2), none, out)
  | some (.that _ _) =>
    let t := popThat time_survey.reverse updates1.times.values.length
    let v := popThat val_survey.reverse updates1.vals.values.length
    let k := popThat key_survey.reverse updates1.keys.values.length
    (nudge updates1.times v.2 t.2).bind fun v' =>
    (nudge updates1.vals k.2 v').bind fun k' =>
    (write k.1 v.1 t.1).map fun out => (none, some (k', v', t.2), out)

end

/-- The updates to keep, as a trie (trie_merger.rs:58-74, 78-91, 511-519 and 523-531). -/
def select (c : ColTrie K V T R) (keep : List Bool) : Option (ColTrie K V T R) :=
  (c.retain keep).bind fun r =>
  ((List.range keep.length).filter fun i => keep.getD i false).mapM (fun i => c.diffs.values[i]?) |>.map fun diffs =>
  { r with diffs := .single diffs r.times.values.length }

/-- `split_at` (trie_merger.rs:496-534). -/
def splitAt (c : ColTrie K V T R) (n : Nat) : Option (ColTrie K V T R × ColTrie K V T R) :=
  if n = 0 then some (empty, c)
  else if n ≥ c.len then some (c, empty)
  else
    let bitmap := (List.range c.len).map fun i => decide (i < n)
    (c.select bitmap).bind fun first => (c.select (bitmap.map (!·))).map fun second => (first, second)

/-- `extract` (trie_merger.rs:21-92) for one chunk: returns the frontier, the chunk to ship and the chunk to keep, if any. -/
def extract [PartialOrder T] [DecidableLE T] (c : ColTrie K V T R) (upper frontier : List T) :
    Option (List T × Option (ColTrie K V T R) × Option (ColTrie K V T R)) :=
  let bitmap := c.times.values.map fun t => lessEqual upper t
  let frontier := c.times.values.foldl (fun frontier t => if lessEqual upper t then acInsert frontier t else frontier) frontier
  if bitmap.all (· == true) then some (frontier, none, some c)
  else if bitmap.all (· == false) then some (frontier, some c, none)
  else (c.select bitmap).bind fun kept => (c.select (bitmap.map (!·))).map fun ship => (frontier, some ship, some kept)

end ColTrie

end DD
