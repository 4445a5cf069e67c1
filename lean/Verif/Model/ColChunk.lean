import Verif.Model.TrieMerger

/-!
# Model of `columnar/trace/chunk.rs`: chunks that are columnar tries

A chunk is its trie: `ColChunk::Paged` differs from `ColChunk::Resident` in where the trie is kept, and that, the spiller and `seal_chunk`, are modelled in
`Model/Spill.lean`. Reference counts are not modelled. A deque of chunks is a list with its front first. `none` stands for a panic.
-/

namespace DD

/-! ### Packing -/

section pack
variable {C : Type*} (len : C → Nat) (combine : C → C → Option C) (split : C → Nat → Option (C × C)) (cap : Nat)

/-- The loop of `pack_absorb` (trace/chunk/mod.rs:226-232), for any chunks; the first argument bounds the rounds. Returns the carry and the output. -/
def peelWith : Nat → C → List C → Option (Option C × List C)
  | 0, _, _ => none
  | n + 1, rest, out =>
    (split rest cap).bind fun r =>
    if len r.2 ≥ cap then peelWith n r.2 (out ++ [r.1])
    else some (if len r.2 > 0 then some r.2 else none, out ++ [r.1])

/-- `pack_absorb` (trace/chunk/mod.rs:213-235). -/
def packAbsorbWith (chunk : C) (out : List C) : Option (Option C × List C) :=
  if len chunk = cap then some (none, out ++ [chunk])
  else if len chunk < cap then some (some chunk, out)
  else peelWith len split cap (len chunk) chunk out

/-- The body of the loop of `pack` (trace/chunk/mod.rs:193-207). -/
def packStepWith (s : Option C × List C) (chunk : C) : Option (Option C × List C) :=
  match s.1 with
  | none => packAbsorbWith len split cap chunk s.2
  | some c =>
    if len c + len chunk ≤ cap then
      (combine c chunk).map fun c => if len c = cap then (none, s.2 ++ [c]) else (some c, s.2)
    else packAbsorbWith len split cap chunk (s.2 ++ [c])

/-- `pack` (trace/chunk/mod.rs:184-211), sealing with the identity: returns the input left and the output. -/
def packWith (input : List C) (done : Bool) (out : List C) : Option (List C × List C) :=
  (input.foldlM (packStepWith len combine split cap) (none, out)).map fun s =>
  match s.1 with
  | none => ([], s.2)
  | some c => if done then ([], s.2 ++ [c]) else ([c], s.2)

end pack

namespace ColTrie
variable {K V T R : Type*}

/-- `emit` (trace/chunk.rs:283-285). -/
def emit (updates : ColTrie K V T R) (out : List (ColTrie K V T R)) : List (ColTrie K V T R) := if updates.len > 0 then out ++ [updates] else out

/-- `consolidated` (trace/chunk.rs:291-293). -/
def dropCancelled (merged : ColTrie K V T R) : Option (ColTrie K V T R) :=
  if merged.diffs.values.length = merged.times.values.length then some merged else merged.filterZero

/-- Melding a chunk onto another (trace/chunk.rs:411-413 and 454-456). -/
def melded [DecidableEq K] [DecidableEq V] (c chunk : ColTrie K V T R) : Option (ColTrie K V T R) := (meld (builderFrom c) chunk).map builderDone

section merge
variable [LinearOrder K] [LinearOrder V] [LinearOrder (Lin T)] [AddCommMonoid R] [DecidableEq R]

/-- Pushing what is left of a batch back to the front of its deque (trace/chunk.rs:356-363). -/
def pushBack (cursor : Option (Nat × Nat × Nat)) (batch : ColTrie K V T R) (input : List (ColTrie K V T R)) : Option (List (ColTrie K V T R)) :=
  match cursor with
  | none => some input
  | some cursor => (suffixChunk cursor batch).map fun suffix => if suffix.len > 0 then suffix :: input else input

/-- `ColChunk::merge` (trace/chunk.rs:351-364): returns the inputs left and the output. -/
def chunkMerge (in1 in2 out : List (ColTrie K V T R)) : Option (List (ColTrie K V T R) × List (ColTrie K V T R) × List (ColTrie K V T R)) :=
  match in1, in2 with
  | c1 :: in1, c2 :: in2 =>
    (mergePair c1 c2).bind fun r =>
    (dropCancelled r.2.2).bind fun merged =>
    (pushBack r.1 c1 in1).bind fun in1 =>
    (pushBack r.2.1 c2 in2).map fun in2 => (in1, in2, emit merged out)
  | _, _ => none

end merge

/-- `ColChunk::extract` (trace/chunk.rs:368-383): returns the input left, the residual frontier, what is kept and what is shipped. -/
def chunkExtract [PartialOrder T] [DecidableLE T] (input : List (ColTrie K V T R)) (frontier residual : List T) (keep ship : List (ColTrie K V T R)) :
    Option (List (ColTrie K V T R) × List T × List (ColTrie K V T R) × List (ColTrie K V T R)) :=
  match input with
  | [] => some ([], residual, keep, ship)
  | chunk :: input =>
    (chunk.extract frontier residual).map fun r =>
    (input, r.1, match r.2.2 with | none => keep | some c => emit c keep, match r.2.1 with | none => ship | some c => emit c ship)

section advance
variable [LinearOrder (Lin T)] [AddCommMonoid R] [DecidableEq R]

/-- The loop merging equal times of a sorted run (trace/chunk.rs:514-522). -/
def mergeRun : List (T × R) → List (T × R)
  | [] => []
  | u :: run =>
    let d := (run.takeWhile fun w => toLin w.1 = toLin u.1).foldl (fun d w => d + w.2) u.2
    let rest := mergeRun (run.dropWhile fun w => toLin w.1 = toLin u.1)
    if d ≠ 0 then (u.1, d) :: rest else rest
termination_by run => run.length
decreasing_by
  simp only [List.length_cons]
  exact Nat.lt_succ_of_le (List.dropWhile_sublist _).length_le

variable [Lattice T]

/-- Gathering the advanced times and the differences of a value (trace/chunk.rs:502-511). The default difference is zero. -/
def gather (keep : ColTrie K V T R) (frontier : List T) (val_idx : Nat) : Option (List (T × R)) :=
  (keep.times.range val_idx).bind fun r =>
  (List.range' r.1 (r.2 - r.1)).mapM fun time_idx =>
    (keep.times.values[time_idx]?).bind fun time =>
    (keep.diffs.range time_idx).bind fun d =>
    ((List.range' d.1 (d.2 - d.1)).mapM fun diff_idx => keep.diffs.values[diff_idx]?).map fun diffs => (advanceBy time frontier, diffs.foldl (· + ·) 0)

/-- The loop over the times of a value that has some left (trace/chunk.rs:531-535). -/
def pushRun (run : List (T × R)) (out : ColTrie K V T R) : ColTrie K V T R :=
  run.foldl (fun out u => { out with times := out.times.push u.1, diffs := (out.diffs.push u.2).close }) out

/-- The loop over the values of a key (trace/chunk.rs:500-537); the flag is `key_emitted`. -/
def advanceVal (keep : ColTrie K V T R) (frontier : List T) (key_idx : Nat) (s : ColTrie K V T R × Bool) (val_idx : Nat) : Option (ColTrie K V T R × Bool) :=
  (gather keep frontier val_idx).bind fun run =>
  let run := mergeRun (run.insertionSort fun a b => toLin a.1 ≤ toLin b.1)
  if run.isEmpty then some s
  else
    match keep.keys.values[key_idx]?, keep.vals.values[val_idx]? with
    | some k, some v =>
      let out := if s.2 then s.1 else { s.1 with keys := s.1.keys.push k }
      let out := pushRun run { out with vals := out.vals.push v }
      some ({ out with times := out.times.close }, true)
    | _, _ => none

/-- The loop over the keys (trace/chunk.rs:498-542); the flag is `any_key`. -/
def advanceKey (keep : ColTrie K V T R) (frontier : List T) (s : ColTrie K V T R × Bool) (key_idx : Nat) : Option (ColTrie K V T R × Bool) :=
  (keep.vals.range key_idx).bind fun r =>
  ((List.range' r.1 (r.2 - r.1)).foldlM (advanceVal keep frontier key_idx) (s.1, false)).map fun s' =>
  if s'.2 then ({ s'.1 with vals := s'.1.vals.close }, true) else (s'.1, s.2)

/-- `advance_trie` (trace/chunk.rs:487-545). -/
def advanceTrie (keep : ColTrie K V T R) (frontier : List T) : Option (ColTrie K V T R) :=
  ((List.range keep.keys.values.length).foldlM (advanceKey keep frontier) (empty, false)).map fun s =>
  if s.2 then { s.1 with keys := s.1.keys.close } else s.1

/-- The number of updates of the last key and value (trace/chunk.rs:420-426). -/
def tailLen (c : ColTrie K V T R) : Option Nat :=
  (c.vals.range (c.keys.values.length - 1)).bind fun r =>
  (c.times.range (r.2 - 1)).bind fun times =>
  (c.diffs.range (times.2 - 1)).bind fun hi => (c.diffs.range times.1).map fun lo => hi.2 - lo.1

variable [DecidableEq K] [DecidableEq V]

/-- The body of the loop of `advance` (trace/chunk.rs:405-437): from and to `carry` and the output. -/
def advanceStep (frontier : List T) (s : Option (ColTrie K V T R) × List (ColTrie K V T R)) (chunk : ColTrie K V T R) :
    Option (Option (ColTrie K V T R) × List (ColTrie K V T R)) :=
  (s.1.elim (some chunk) fun c => melded c chunk).bind fun combined =>
  if combined.len = 0 then some (none, s.2)
  else
    combined.tailLen.bind fun tail =>
    if tail = combined.len then some (some combined, s.2)
    else
      (combined.splitAt (combined.len - tail)).bind fun r =>
      (advanceTrie r.1 frontier).map fun c => (some r.2, emit c s.2)

/-- `ColChunk::advance` (trace/chunk.rs:396-443): returns the input left and the output. -/
def chunkAdvance (input : List (ColTrie K V T R)) (frontier : List T) (done : Bool) (out : List (ColTrie K V T R)) :
    Option (List (ColTrie K V T R) × List (ColTrie K V T R)) :=
  (input.foldlM (advanceStep frontier) (none, out)).bind fun s =>
  match s.1 with
  | none => some ([], s.2)
  | some c => if done then (advanceTrie c frontier).map fun c => ([], emit c s.2) else some ([c], s.2)

end advance

/-- `ColChunk::settle` (trace/chunk.rs:450-464). -/
def chunkSettle [DecidableEq K] [DecidableEq V] (cap : Nat) (input : List (ColTrie K V T R)) (done : Bool) (out : List (ColTrie K V T R)) :
    Option (List (ColTrie K V T R) × List (ColTrie K V T R)) :=
  packWith len melded splitAt cap input done out

/-- `NavigableChunk::bounds` (trace/chunk.rs:306-326). -/
def bounds (c : ColTrie K V T R) : Option ((K × V × T) × (K × V × T)) :=
  match c.keys.values.head?, c.vals.values.head?, c.times.values.head?, c.keys.values.getLast?, c.vals.values.getLast?, c.times.values.getLast? with
  | some fk, some fv, some ft, some lk, some lv, some lt => some ((fk, fv, ft), (lk, lv, lt))
  | _, _, _, _, _, _ => none

end ColTrie

end DD
