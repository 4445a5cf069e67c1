import Verif.Model.MergeBatcher

/-!
# Cutting an interval of times into output batches

Models `tile_descriptions` (operators/common.rs:151-180), and the same loop written out in `CursorTactic::retire` and `ReferenceTactic::retire`
(operators/reduce.rs:446-477) with the selection of the buffer an update goes to (operators/reduce.rs:760-764).
-/

namespace DD
variable {T : Type*} [PartialOrder T] [DecidableLE T] [DecidableEq T]

/-- The vectors `tile_descs`, `tile_held`, `tile_of` returned by `tile_descriptions` (common.rs:163-165, 179). -/
structure Tiles (T : Type*) where
  descs : List (Description T)
  held : List T
  tileOf : List (Option Nat)

/-- The loop `for index in 0..held.len()` of `tile_descriptions` (common.rs:167-178; reduce.rs:453-471). The list argument is `held[index..]`, so that its tail is
`held[index + 1..]`. The vector `tile_of`, allocated full of `None` in the code, grows by one entry in each round here. -/
def tileLoop [OrderBot T] (upper : List T) : List T → List T → Tiles T → Tiles T
  | _, [], acc => acc
  | outLower, h :: rest, acc =>
    let outUpper := acExtend upper rest
    if acEq outUpper outLower then tileLoop upper outLower rest { acc with tileOf := acc.tileOf ++ [none] }
    else
      tileLoop upper outUpper rest
        { descs := acc.descs ++ [⟨outLower, outUpper, [⊥]⟩], held := acc.held ++ [h], tileOf := acc.tileOf ++ [some acc.descs.length] }

/-- `tile_descriptions` (common.rs:158-180). -/
def tileDescriptions [OrderBot T] (lower upper held : List T) : Tiles T := tileLoop upper lower held ⟨[], [], []⟩

/-- `outputs.iter().rev().position(|(time, _)| time.less_equal(&next_time))` and `outputs.len() - idx - 1` (reduce.rs:763-764; int_proxy/reduce.rs:331-333): the
buffer a produced update is put in, the last one whose held time is at or before the update; `none` is the failed `expect`. -/
def outputIndex (held : List T) (t : T) : Option Nat :=
  (held.reverse.findIdx? fun h => decide (h ≤ t)).map fun i => held.length - i - 1

end DD
