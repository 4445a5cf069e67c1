import Verif.Model.Consolidation
import Mathlib.Algebra.Ring.Int.Defs

/-!
# Model of the operators of `collection.rs` as functions of collections

Programs that use operators, such as those in `algorithms/`, are modelled as functions of the collections at one time. A collection is a list of records with differences (`isize`,
without overflow), in any order, and with any repetitions and cancellations: only `weight` matters. That the operators compute these functions at each time of a dataflow
is the subject of C25 to C32 and C48, and is stated again for the definitions of this file in `Props/Coll.lean`. `iterate` is `iterates` of `Spec/Iterate.lean` (C31).
-/

namespace DD
variable {D D2 K V V2 : Type*}

/-- A collection at one time. -/
abbrev Coll (D : Type*) := List (D × Int)

namespace Coll

/-- `map` (collection.rs:371-379), `map_in_place` (collection.rs:398-405). -/
def map (logic : D → D2) (c : Coll D) : Coll D2 := List.map (fun x => (logic x.1, x.2)) c

/-- `flat_map` (collection.rs:422-431). -/
def flat_map (logic : D → List D2) (c : Coll D) : Coll D2 := c.flatMap fun x => (logic x.1).map fun y => (y, x.2)

/-- `filter` (collection.rs:446-453). -/
def filter (logic : D → Bool) (c : Coll D) : Coll D := List.filter (fun x => logic x.1) c

/-- `concat` (collection.rs:71-76). -/
def concat (c c' : Coll D) : Coll D := c ++ c'

/-- `negate` (collection.rs:187-189). -/
def negate (c : Coll D) : Coll D := List.map (fun x => (x.1, -x.2)) c

/-- `consolidate` (collection.rs:959-978). -/
def consolidate [LinearOrder D] (c : Coll D) : Coll D := (DD.consolidate c).getD []

/-- `join_core` (collection.rs:1245-1258). -/
def join_core [DecidableEq K] (result : K → V → V2 → List D) (c : Coll (K × V)) (c' : Coll (K × V2)) : Coll D :=
  c.flatMap fun x => c'.flatMap fun y => if x.1.1 = y.1.1 then (result x.1.1 x.1.2 y.1.2).map fun d => (d, x.2 * y.2) else []

/-- `join_map` (collection.rs:1155-1160). -/
def join_map [DecidableEq K] (logic : K → V → V2 → D) (c : Coll (K × V)) (c' : Coll (K × V2)) : Coll D := join_core (fun k v v2 => [logic k v v2]) c c'

/-- `semijoin` (collection.rs:1183-1188), with `arrange_by_self` (arrangement.rs:498-505): the second collection's records are keys with the value `()`. -/
def semijoin [DecidableEq K] (c : Coll (K × V)) (c' : Coll K) : Coll (K × V) := join_core (fun k v (_ : Unit) => [(k, v)]) c (c'.map fun k => (k, ()))

/-- `antijoin` (collection.rs:1215-1218). -/
def antijoin [DecidableEq K] (c : Coll (K × V)) (c' : Coll K) : Coll (K × V) := c.concat (c.semijoin c').negate

/-- The values of a key, as `reduce` presents them: sorted, each once, with non-zero differences (C27, `IsSnapshot`). -/
def values [DecidableEq K] [LinearOrder V] (c : Coll (K × V)) (k : K) : List (V × Int) := Coll.consolidate ((List.filter (fun x => x.1.1 = k) c).map fun x => (x.1.2, x.2))

/-- `reduce` (collection.rs:741-758, 784-796): the logic is only called for keys with values. -/
def reduce [DecidableEq K] [LinearOrder V] (logic : K → List (V × Int) → List (V2 × Int)) (c : Coll (K × V)) : Coll (K × V2) :=
  (List.map (fun x => x.1.1) c).dedup.flatMap fun k => if (c.values k).isEmpty then [] else (logic k (c.values k)).map fun y => ((k, y.1), y.2)

/-- `threshold` (collection.rs:872-887). `s[0]` would panic for an empty `s`, but the logic is not called then. -/
def threshold [DecidableEq D] (thresh : D → Int → Int) (c : Coll D) : Coll D :=
  (reduce (fun k (s : List (Unit × Int)) => match s with | [] => [] | x :: _ => [((), thresh k x.2)]) (c.map fun d => (d, ()))).map fun x => x.1

/-- `distinct` (collection.rs:841-852). -/
def distinct [DecidableEq D] (c : Coll D) : Coll D := c.threshold fun _ _ => 1

/-- `count` (collection.rs:912-928). -/
def count [DecidableEq D] (c : Coll D) : Coll (D × Int) :=
  reduce (fun _ (s : List (Unit × Int)) => match s with | [] => [] | x :: _ => [(x.2, 1)]) (c.map fun d => (d, ()))

end Coll
end DD
