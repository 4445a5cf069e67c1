import Verif.Model.HalfJoin

/-!
# Model of `dogsdogsdogs/src/operators/lookup_map.rs` and the operators defined with it

The operator for one worker, with the conventions of `Model/HalfJoin.lean`: capabilities are their times, the stash is an association list visited in an order that each activation gives,
and the cursor is a position in contents that the environment provides.
-/

namespace DD
variable {D K V T R R2 ROut DOut : Type*}

section
variable [LinearOrder K] [LinearOrder V] [PartialOrder T] [DecidableLE T] [DecidableEq T] [Zero R] [DecidableEq R] [AddCommMonoid R2] [DecidableEq R2] [Zero ROut] [DecidableEq ROut]

/-- The loop over the values of a key (lookup_map.rs:97-109): `map_times` accumulates the updates at or before the time of the prefix. -/
def lookupVals (output_func : D → R → V → R2 → DOut × ROut) (pfx : D) (time : T) (diff : R) : List (V × List (T × R2)) → Upds DOut T ROut
  | [] => []
  | (value, edits) :: vals =>
    let count := edits.foldl (fun (count : R2) td => if td.1 ≤ time then count + td.2 else count) 0
    let out := output_func pfx diff value count
    (if count ≠ 0 then if out.2 ≠ 0 then [(out.1, time, out.2)] else [] else []) ++ lookupVals output_func pfx time diff vals

/-- The loop over the prefixes (lookup_map.rs:91-114): the prefixes, with the differences of those looked up set to zero, and what is sent. -/
def lookupPrefixes (key : D → K) (output_func : D → R → V → R2 → DOut × ROut) (frontier2 : List T) :
    Pos K V T R2 → Upds D T R → Upds D T R × Upds DOut T ROut
  | _, [] => ([], [])
  | cursor, (pfx, time, diff) :: prefixes =>
    if !lessEqual frontier2 time then
      let cursor := cursor.seekKey (key pfx)
      if cursor.key? = some (key pfx) then
        let outs := lookupVals output_func pfx time diff cursor.vals
        let r := lookupPrefixes key output_func frontier2 ({ cursor with vals := [] } : Pos K V T R2).rewindVals prefixes
        ((pfx, time, 0) :: r.1, outs ++ r.2)
      else
        let r := lookupPrefixes key output_func frontier2 cursor prefixes
        ((pfx, time, 0) :: r.1, r.2)
    else
      let r := lookupPrefixes key output_func frontier2 cursor prefixes
      ((pfx, time, diff) :: r.1, r.2)

/-- What is done for one capability of the stash (lookup_map.rs:77-118); `sort_by` is stable. -/
def lookupEntry (key : D → K) (output_func : D → R → V → R2 → DOut × ROut) (contents : Contents K V T R2) (frontier2 : List T) (e : T × Upds D T R) :
    (T × Upds D T R) × List (T × DOut × T × ROut) :=
  if !lessEqual frontier2 e.1 then
    let prefixes := e.2.insertionSort fun x y => key x.1 ≤ key y.1
    let r := lookupPrefixes key output_func frontier2 (Pos.start contents) prefixes
    ((e.1, r.1.filter fun ptd => ptd.2.2 ≠ 0), r.2.map fun u => (e.1, u))
  else (e, [])

end

/-- The state of the operator between activations: the stash, whether it still holds the trace, and the frontier last passed to `set_logical_compaction`. -/
structure LookupMap (D T R : Type*) where
  stash : List (T × Upds D T R)
  live : Bool
  logical : List T

/-- One activation: the messages, each with its capability; the frontiers of the inputs; what a cursor over the trace presents; and the order in which the stash is visited. -/
structure LookupAct (D K V T R R2 : Type*) where
  msgs : List (T × Upds D T R)
  frontier1 : List T
  frontier2 : List T
  contents : Contents K V T R2
  order : List (T × Upds D T R) → List (T × Upds D T R)

/-- The operator when it is constructed (lookup_map.rs:43-60). -/
def LookupMap.init [Bot T] : LookupMap D T R := ⟨[], true, [⊥]⟩

section
variable [LinearOrder K] [LinearOrder V] [Lattice T] [DecidableLE T] [DecidableEq T] [Zero R] [DecidableEq R] [AddCommMonoid R2] [DecidableEq R2] [Zero ROut] [DecidableEq ROut]

/-- One activation of the operator (lookup_map.rs:62-138). -/
def LookupMap.activate (key : D → K) (output_func : D → R → V → R2 → DOut × ROut) (st : LookupMap D T R) (act : LookupAct D K V T R R2) :
    LookupMap D T R × List (T × DOut × T × ROut) :=
  let stash := act.order (act.msgs.foldl (fun stash m => stashAppend stash m.1 m.2) st.stash)
  let visited := if st.live then stash.map (lookupEntry key output_func act.contents act.frontier2) else stash.map fun e => (e, [])
  let stash := (visited.map Prod.fst).filter fun e => !e.2.isEmpty
  let frontier := acExtend (acExtend [] act.frontier1) (stash.map Prod.fst)
  (⟨stash, st.live && !(act.frontier1.isEmpty && stash.isEmpty), if st.live then frontier else st.logical⟩, visited.flatMap Prod.snd)

/-- A sequence of activations. -/
def LookupMap.run (key : D → K) (output_func : D → R → V → R2 → DOut × ROut) :
    LookupMap D T R → List (LookupAct D K V T R R2) → LookupMap D T R × List (T × DOut × T × ROut)
  | st, [] => (st, [])
  | st, act :: acts =>
    let r := st.activate key output_func act
    let r' := LookupMap.run key output_func r.1 acts
    (r'.1, r.2 ++ r'.2)

end

/-! ### The operators defined with it -/

/-- The output function of `propose` (propose.rs:38). -/
def proposeOut (mul : R → R2 → ROut) (pfx : D) (diff : R) (value : V) (sum : R2) : (D × V) × ROut := ((pfx, value), mul diff sum)

/-- The output function of `propose_distinct` (propose.rs:76). -/
def proposeDistinctOut (pfx : D) (diff : R) (value : V) (_sum : R2) : (D × V) × R := ((pfx, value), diff)

/-- The output function of `validate` (validate.rs:38). -/
def validateOut (pv : D × V) (diff : R) (_value : Unit) (_sum : R2) : (D × V) × R := (pv, diff)

/-- `s as usize` for `s : isize`, on 64 bits. -/
def asUsize (s : Int) : Nat := (s % 2 ^ 64).toNat

/-- The output function of `count` (count.rs:34-38). -/
def countOut (index : Nat) (pci : D × Nat × Nat) (diff : R) (_value : Unit) (sum : Int) : (D × Nat × Nat) × R :=
  if pci.2.1 < asUsize sum then (pci, diff) else ((pci.1, asUsize sum, index), diff)

end DD
