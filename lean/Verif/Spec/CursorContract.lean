import Verif.Model.Cursor

/-!
# The contract of a cursor

A cursor over a storage presents some contents if it behaves as a position in these contents. `seek_val` is kept apart (`SeeksVals`), because
`CursorList` does not meet it.
-/

namespace DD
variable {C S K V T R : Type*} [LinearOrder K] [LinearOrder V]

/-- A position in `t`: what remains of the keys is a suffix, and what remains of the values of the current key is a suffix. -/
structure Pos.In (t : Contents K V T R) (p : Pos K V T R) : Prop where
  keys : p.keys <:+ t
  vals : ∀ kv ∈ p.keys.head?, p.vals <:+ kv.2

/-- Where `seek_key` starts from: the current position, or the first key for a cursor that also seeks backwards. -/
def Pos.seekBase (t : Contents K V T R) (p : Pos K V T R) : Bool → Pos K V T R
  | false => p
  | true => Pos.start t

/-- The cursors related to positions in `t` by `Rel` behave as those positions. Accessing values requires a valid key. With `back`, `seek_key` also
moves backwards: it moves to the first key at or after its argument, wherever the cursor is. -/
structure Presents (ops : CursorOps C S K V T R) (s : S) (t : Contents K V T R) (Rel : C → Pos K V T R → Prop) (back : Bool := false) : Prop where
  inside : ∀ c p, Rel c p → p.In t
  key_valid : ∀ c p, Rel c p → ops.key_valid s c = some p.key?.isSome
  get_key : ∀ c p, Rel c p → ops.get_key s c = some p.key?
  key : ∀ c p, Rel c p → ops.key s c = p.key?
  val_valid : ∀ c p, Rel c p → p.keys ≠ [] → ops.val_valid s c = some p.val?.isSome
  get_val : ∀ c p, Rel c p → p.keys ≠ [] → ops.get_val s c = some p.val?
  val : ∀ c p, Rel c p → p.keys ≠ [] → p.vals ≠ [] → ops.val s c = p.val?
  map_times : ∀ c p, Rel c p → p.keys ≠ [] → p.vals ≠ [] → ops.map_times s c = p.upds?
  step_key : ∀ c p, Rel c p → ∃ c', ops.step_key s c = some c' ∧ Rel c' p.stepKey
  seek_key : ∀ c p k, Rel c p → ∃ c', ops.seek_key s c k = some c' ∧ Rel c' ((p.seekBase t back).seekKey k)
  step_val : ∀ c p, Rel c p → p.keys ≠ [] → ∃ c', ops.step_val s c = some c' ∧ Rel c' p.stepVal
  rewind_keys : ∀ c p, Rel c p → ∃ c', ops.rewind_keys s c = some c' ∧ Rel c' (Pos.start t)
  rewind_vals : ∀ c p, Rel c p → p.keys ≠ [] → ∃ c', ops.rewind_vals s c = some c' ∧ Rel c' p.rewindVals

/-- The contract of `seek_val`. -/
def SeeksVals (ops : CursorOps C S K V T R) (s : S) (Rel : C → Pos K V T R → Prop) : Prop :=
  ∀ c p v, Rel c p → p.keys ≠ [] → ∃ c', ops.seek_val s c v = some c' ∧ Rel c' (p.seekVal v)

/-! ## Observing a sequence of moves -/

/-- A move of the position in `t`. Moves among values require a current key. -/
def Pos.move (t : Contents K V T R) (p : Pos K V T R) : Move K V → Option (Pos K V T R)
  | .stepKey => some p.stepKey
  | .seekKey k => some (p.seekKey k)
  | .stepVal => if p.keys = [] then none else some p.stepVal
  | .seekVal v => if p.keys = [] then none else some (p.seekVal v)
  | .rewindKeys => some (Pos.start t)
  | .rewindVals => if p.keys = [] then none else some p.rewindVals

/-- A sequence of moves of the position. -/
def Pos.run (t : Contents K V T R) : Pos K V T R → List (Move K V) → Option (Pos K V T R)
  | p, [] => some p
  | p, m :: ms =>
    match Pos.move t p m with
    | none => none
    | some p => Pos.run t p ms

/-- The moves of the position for a cursor that also seeks backwards. -/
def Move.fromStart : Move K V → List (Move K V)
  | .seekKey k => [.rewindKeys, .seekKey k]
  | m => [m]

/-- All seeks to keys go forwards: no key before the position is at or after the key sought. -/
def SeeksForward (t : Contents K V T R) : Pos K V T R → List (Move K V) → Prop
  | _, [] => True
  | p, m :: ms => (∀ k, m = .seekKey k → ∀ kv ∈ t, kv ∉ p.keys → kv.1 < k) ∧ ∀ p', Pos.move t p m = some p' → SeeksForward t p' ms

/-- A sequence of moves of a cursor; `none` if one of them panics. -/
def CursorOps.run (ops : CursorOps C S K V T R) (s : S) : C → List (Move K V) → Option C
  | c, [] => some c
  | c, m :: ms =>
    match ops.move s c m with
    | none => none
    | some c => CursorOps.run ops s c ms

/-- Everything a user can read from the cursor is what the position says: the current key, the current value and its updates. Values are read
only at a valid key, updates only at a valid value. -/
structure Shows (ops : CursorOps C S K V T R) (s : S) (c : C) (p : Pos K V T R) : Prop where
  key_valid : ops.key_valid s c = some p.key?.isSome
  get_key : ops.get_key s c = some p.key?
  key : ops.key s c = p.key?
  val_valid : p.key? ≠ none → ops.val_valid s c = some p.val?.isSome
  get_val : p.key? ≠ none → ops.get_val s c = some p.val?
  val : p.key? ≠ none → p.val? ≠ none → ops.val s c = p.val?
  map_times : p.key? ≠ none → p.val? ≠ none → ops.map_times s c = p.upds?

/-- `u` is the sorted union of `ts`: it has the keys of all of them, under each key the values of all of them, and under each value the updates
of all of them. -/
structure IsUnion (ts : List (Contents K V T R)) (u : Contents K V T R) : Prop where
  sorted : ContentsSorted u
  keys : ∀ k, (∃ vs, (k, vs) ∈ u) ↔ ∃ t ∈ ts, ∃ vs, (k, vs) ∈ t
  vals : ∀ k v, (∃ vs us, (k, vs) ∈ u ∧ (v, us) ∈ vs) ↔ ∃ t ∈ ts, ∃ vs us, (k, vs) ∈ t ∧ (v, us) ∈ vs
  upds : ∀ k v, u.at k v = ts.flatMap fun t => t.at k v

/-- All updates, as a list. -/
def Contents.flatten (t : Contents K V T R) : List ((K × V) × T × R) :=
  t.flatMap fun kv => kv.2.flatMap fun vu => vu.2.map fun u => ((kv.1, vu.1), u.1, u.2)

end DD
