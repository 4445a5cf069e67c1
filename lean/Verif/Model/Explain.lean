import Verif.Model.Scalar

/-!
# Model of the reverse rules of `interactive`'s explanations: `interactive/src/explain/decouple.rs`, and the rows they are used on, `Val` in `interactive/src/explain/mod.rs`

The rules run on collections given as lists of rows, as with the in-memory dataflow `Mem` (decouple.rs:511-543): `project`, `filter`, `join` and `concat` evaluate terms on each row (C70). A panic is `none`.
-/

namespace DD.Ir.Ex

/-- `Projection` (parse/mod.rs:84-87). -/
structure Projection where
  key : Term
  val : Term

/-! ### Terms (explain/mod.rs:548-559) -/

/-- `f` (mod.rs:548-550): field `i` of slot `s`. -/
def f (s i : Nat) : Term := .proj (.var s) i

/-- `fidx` (mod.rs:552). -/
def fidx (s lo hi : Nat) : List Term := (List.range' lo (hi - lo)).map (f s)

/-- `le` (mod.rs:553). -/
def le (a b : Term) : Term := .binary .le a b

/-- `eq` (mod.rs:554). -/
def eq (a b : Term) : Term := .binary .eq a b

/-- `and_all` (mod.rs:557-559). -/
def andAll : List Term → Option Term
  | [] => none
  | t :: ts => some (ts.foldl (fun a b => .binary .and a b) t)

/-- One field of `expand_value_fields` (mod.rs:569-576). -/
def expandField (arities : List Nat) : Term → List Term
  | .spread (.var r) => fidx r 0 ((arities[r]?).getD 0)
  | t => [t]

/-- `expand_value_fields` (mod.rs:566-579). -/
def expandValueFields (side : Term) (arities : List Nat) : List Term :=
  match side with
  | .tuple fs => fs.flatMap (expandField arities)
  | t => expandField arities t

/-! ### `Val` (mod.rs:581-733) -/

/-- `pack` (mod.rs:585-589). -/
def pack (k v chainLen : Nat) (hasQ : Bool) : Projection where
  key := .tuple (fidx 0 0 k ++ fidx 1 0 v)
  val := .tuple (fidx 1 v (v + (chainLen + hasQ.toNat)))

/-- `project_kv` (mod.rs:590-592). -/
def projectKv (k v : Nat) : Projection where
  key := .tuple (fidx 0 0 k)
  val := .tuple (fidx 1 0 v)

/-- `sp_reassemble` (mod.rs:593-600). -/
def spReassemble (k v userLen outDepth : Nat) : Projection where
  key := .tuple (fidx 0 0 k)
  val := .tuple (fidx 0 k (k + v) ++ fidx 2 0 userLen ++ fidx 1 0 outDepth ++ [f 1 outDepth])

/-- `ky_join` (mod.rs:602-609). -/
def kyJoin (k vIn vOut inLen outLen : Nat) (min : Bool) : Projection where
  key := .tuple (fidx 0 0 k)
  val := .tuple (fidx 2 0 vIn ++ (if min then fidx 1 0 vOut else []) ++ fidx 2 vIn (vIn + inLen) ++ fidx 1 vOut (vOut + outLen) ++ [f 1 (vOut + outLen)])

/-- `ky_data_eq` (mod.rs:610-612). -/
def kyDataEq (vIn : Nat) : Option Term := andAll ((List.range vIn).map fun i => eq (f 1 i) (f 1 (vIn + i)))

/-- `ky_drop_vout` (mod.rs:613-620). -/
def kyDropVout (k vIn vOut inLen outLen : Nat) : Projection where
  key := .tuple (fidx 0 0 k)
  val := .tuple (fidx 1 0 vIn ++ fidx 1 (vIn + vOut) (vIn + vOut + inLen) ++ fidx 1 (vIn + vOut + inLen) (vIn + vOut + inLen + outLen) ++ [f 1 (vIn + vOut + inLen + outLen)])

/-- `lossy_pair` (mod.rs:625-629). -/
def lossyPair (proj : Projection) (kIn vIn inLen : Nat) : Projection where
  key := .tuple (expandValueFields proj.key [kIn, vIn])
  val := .tuple (fidx 0 0 kIn ++ fidx 1 0 (vIn + inLen))

/-- `lossy_reassemble` (mod.rs:630-637). -/
def lossyReassemble (kIn vIn vOut inLen outLen : Nat) : Projection where
  key := .tuple (fidx 2 0 kIn)
  val := .tuple (fidx 2 kIn (kIn + vIn) ++ fidx 2 (kIn + vIn) (kIn + vIn + inLen) ++ fidx 1 vOut (vOut + outLen) ++ [f 1 (vOut + outLen)])

/-- `join_forward` (mod.rs:639-648). -/
def joinForward (proj : Projection) (k vL vR lLen rLen : Nat) : Projection where
  key := .tuple (expandValueFields proj.key [k, vL, vR])
  val := .tuple (fidx 0 0 k ++ fidx 1 0 vL ++ fidx 2 0 vR ++ fidx 1 vL (vL + lLen) ++ fidx 2 vR (vR + rLen) ++ expandValueFields proj.val [k, vL, vR])

/-- `join_combined` (mod.rs:649-665). -/
def joinCombined (k vL vR vOut lLen rLen outLen : Nat) : Projection :=
  let vlS := k
  let vrS := vlS + vL
  let ulS := vrS + vR
  let urS := ulS + lLen
  let voutS := urS + rLen
  { key := .tuple (fidx 2 0 k)
    val := .tuple (fidx 2 vlS (vlS + vL) ++ fidx 2 vrS (vrS + vR) ++ fidx 2 ulS (ulS + lLen) ++ fidx 2 urS (urS + rLen) ++ fidx 1 vOut (vOut + outLen) ++ [f 1 (vOut + outLen)] ++ fidx 1 0 vOut ++ fidx 2 voutS (voutS + vOut)) }

/-- The `time_cond` of `join_filter`, and `time_le` (mod.rs:673-678, 703-710): `inAt` and `outAt` are where the chains start. -/
def timeCond (inAt inLen outAt outLen : Nat) : List Term :=
  let n := min inLen outLen
  (List.range n).map fun i => le (f 1 (inAt + (inLen - n) + i)) (f 1 (outAt + (outLen - n) + i))

/-- `join_filter` (mod.rs:666-682). -/
def joinFilter (vL vR vOut lLen rLen outLen : Nat) : Option Term :=
  let ulJ := vL + vR
  let urJ := ulJ + lLen
  let uoJ := urJ + rLen
  let qJ := uoJ + outLen
  let vdepJ := qJ + 1
  let vpairJ := vdepJ + vOut
  andAll ([andAll (timeCond ulJ lLen uoJ outLen), andAll (timeCond urJ rLen uoJ outLen), andAll ((List.range vOut).map fun i => eq (f 1 (vdepJ + i)) (f 1 (vpairJ + i)))].filterMap id)

/-- `join_split` (mod.rs:683-701). -/
def joinSplit (left : Bool) (k vL vR lLen rLen outLen : Nat) : Projection :=
  let ulJ := vL + vR
  let urJ := ulJ + lLen
  let uoJ := urJ + rLen
  let qJ := uoJ + outLen
  { key := .tuple (fidx 0 0 k)
    val := .tuple (if left then fidx 1 0 vL ++ fidx 1 ulJ (ulJ + lLen) ++ [f 1 qJ] else fidx 1 vL (vL + vR) ++ fidx 1 urJ (urJ + rLen) ++ [f 1 qJ]) }

/-- `time_le` (mod.rs:703-710). -/
def timeLe (v inLen outLen : Nat) : Option Term := andAll (timeCond v inLen (v + inLen) outLen)

/-- `strip` (mod.rs:711-718). -/
def strip (k v inLen outLen keep : Nat) : Projection where
  key := .tuple (fidx 0 0 k)
  val := .tuple (fidx 1 0 v ++ (List.range keep).map (fun i => f 1 (v + (inLen - keep) + i)) ++ [f 1 (v + inLen + outLen)])

/-- `bind_filter` (mod.rs:720-722). -/
def bindFilter (v : Nat) : Term := .binary .gt (f 1 v) (.int 0)

/-- `bind_decrement` (mod.rs:723-729). -/
def bindDecrement (k v userLen : Nat) : Projection where
  key := .tuple (fidx 0 0 k)
  val := .tuple (fidx 1 0 v ++ [.binary .sub (f 1 v) (.int 1)] ++ fidx 1 (v + 1) (v + userLen) ++ [f 1 (v + userLen)])

/-- `distinct_unpack` (mod.rs:730-732). -/
def distinctUnpack (k v : Nat) : Projection where
  key := .tuple (fidx 0 0 k)
  val := .tuple (fidx 0 k (k + v))

/-! ### The dataflow -/

/-- A collection. -/
abbrev RowColl := List (Value × Value)

variable (norm : Overflow)

/-- Key and value of a projection, one after the other on the same environment (vec.rs:59-62, 126-130; decouple.rs:520-521). -/
def evalProj (p : Projection) (env : List Value) : Option (Value × Value) := (eval norm p.key env).bind fun k => (eval norm p.val k.2).map fun v => (k.1, v.1)

/-- `project` (decouple.rs:518-523). -/
def dfProject (c : RowColl) (p : Projection) : Option RowColl := c.mapM fun r => evalProj norm p [r.1, r.2]

/-- `filter` (decouple.rs:524-529). -/
def dfFilter (c : RowColl) (t : Term) : Option RowColl := (c.mapM fun r => (eval norm t [r.1, r.2]).map fun v => if v.1.truthy then [r] else []).map List.flatten

/-- `join` (decouple.rs:530-541). -/
def dfJoin (l r : RowColl) (p : Projection) : Option RowColl :=
  (l.flatMap fun a => r.filterMap fun b => if a.1.cmp b.1 == .eq then some [a.1, a.2, b.2] else none).mapM (evalProj norm p)

/-- `opt_filter` (decouple.rs:164-166). -/
def optFilter (c : RowColl) : Option Term → Option RowColl
  | some t => dfFilter norm c t
  | none => some c

/-! ### The rules -/

/-- `SideInfo` (decouple.rs:169-174), after `concat` of the two halves, which all rules do first. -/
structure SideInfo where
  pair : RowColl
  shape : Nat × Nat
  userLen : Nat

/-- `shape_preserving_lookup` (decouple.rs:177-187). -/
def shapePreservingLookup (dep : RowColl) (side : SideInfo) (outDepth : Nat) : Option RowColl :=
  let k := side.shape.1
  let v := side.shape.2
  let inLen := side.userLen
  (dfProject norm side.pair (pack k v inLen false)).bind fun pairKeyed =>
  (dfProject norm dep (pack k v outDepth true)).bind fun depKeyed =>
  (dfJoin norm depKeyed pairKeyed (spReassemble k v inLen outDepth)).bind fun joined =>
  (optFilter norm joined (timeLe v inLen outDepth)).bind fun filtered =>
  dfProject norm filtered (strip k v inLen outDepth inLen)

/-- `keyed_lookup` (decouple.rs:190-206). -/
def keyedLookup (dep : RowColl) (side : SideInfo) (outputShape : Nat × Nat) (outLen : Nat) (reducerMin : Bool) : Option RowColl :=
  let k := side.shape.1
  let vIn := side.shape.2
  let inLen := side.userLen
  let vOut := outputShape.2
  let min := reducerMin && decide (vIn = vOut) && decide (vIn > 0)
  (dfJoin norm dep side.pair (kyJoin k vIn vOut inLen outLen min)).bind fun joined =>
  (if min then (optFilter norm joined (kyDataEq vIn)).bind fun g => dfProject norm g (kyDropVout k vIn vOut inLen outLen) else some joined).bind fun after =>
  (optFilter norm after (timeLe vIn inLen outLen)).bind fun filtered =>
  dfProject norm filtered (strip k vIn inLen outLen inLen)

/-- `lossy_lookup` (decouple.rs:209-224); `lossy_try_invert` is always `None` (mod.rs:622-624). -/
def lossyLookup (dep : RowColl) (side : SideInfo) (outputShape : Nat × Nat) (outLen : Nat) (proj : Projection) : Option RowColl :=
  let kIn := side.shape.1
  let vIn := side.shape.2
  let inLen := side.userLen
  let vOut := outputShape.2
  (dfProject norm side.pair (lossyPair proj kIn vIn inLen)).bind fun pairKeyed =>
  (dfJoin norm dep pairKeyed (lossyReassemble kIn vIn vOut inLen outLen)).bind fun joined =>
  (optFilter norm joined (timeLe vIn inLen outLen)).bind fun filtered =>
  dfProject norm filtered (strip kIn vIn inLen outLen inLen)

/-- `join_lookup` (decouple.rs:228-243). -/
def joinLookup (dep : RowColl) (left right : SideInfo) (outputShape : Nat × Nat) (outLen : Nat) (proj : Projection) : Option (RowColl × RowColl) :=
  let k := left.shape.1
  let vL := left.shape.2
  let vR := right.shape.2
  let vOut := outputShape.2
  let lLen := left.userLen
  let rLen := right.userLen
  (dfJoin norm left.pair right.pair (joinForward proj k vL vR lLen rLen)).bind fun pair =>
  (dfJoin norm dep pair (joinCombined k vL vR vOut lLen rLen outLen)).bind fun joined =>
  (optFilter norm joined (joinFilter vL vR vOut lLen rLen outLen)).bind fun timed =>
  (dfProject norm timed (joinSplit true k vL vR lLen rLen outLen)).bind fun lc =>
  (dfProject norm timed (joinSplit false k vL vR lLen rLen outLen)).map fun rc => (lc, rc)

/-- The demand for what a variable is bound to (mod.rs:934-938). -/
def bindLookup (dep : RowColl) (k v userLen : Nat) : Option RowColl :=
  (dfFilter norm dep (bindFilter v)).bind fun filtered => dfProject norm filtered (bindDecrement k v userLen)

/-- `flat_map` on rows (vec.rs:84-98). -/
def dfFlatMap (c : RowColl) (list : Term) : Option RowColl :=
  (c.mapM fun r => (eval norm list [r.1, r.2]).bind fun v => match v.1 with
    | .list xs => some ((enumerate xs).map fun e => (r.1, e))
    | _ => none).map List.flatten

/-- `emit_lookup_flatmap` (mod.rs:496-524). -/
def flatMapLookup (dep : RowColl) (side : SideInfo) (outputShape : Nat × Nat) (outUserLen : Nat) (list : Term) : Option RowColl :=
  let vIn := side.shape.2
  let vOut := outputShape.2
  let d := outUserLen
  (dfProject norm side.pair ⟨.tuple [.var 0, .var 1], .var 1⟩).bind fun rekeyed =>
  (dfFlatMap norm rekeyed list).bind fun exploded =>
  (dfProject norm exploded ⟨.tuple [f 0 0, f 1 0, f 1 1], .var 0⟩).bind fun pair =>
  (dfProject norm dep ⟨.tuple [.var 0, f 1 0, f 1 1], .tuple (fidx 1 vOut (vOut + d + 1))⟩).bind fun depKeyed =>
  let wide := (List.range vIn).map (fun c => Term.proj (f 2 1) c) ++ (List.range d).map (fun c => Term.proj (f 2 1) (vIn + c)) ++ fidx 1 0 d ++ [f 1 d]
  (dfJoin norm depKeyed pair ⟨f 2 0, .tuple wide⟩).bind fun joined =>
  (optFilter norm joined (andAll ((List.range d).map fun c => le (f 1 (vIn + c)) (f 1 (vIn + d + c))))).bind fun filtered =>
  dfProject norm filtered ⟨.var 0, .tuple (fidx 1 0 vIn ++ fidx 1 (vIn + d) (vIn + 2 * d) ++ [f 1 (vIn + 2 * d)])⟩

/-- The demand for the input of a filter (mod.rs:996-999). -/
def filterLookup (dep : RowColl) (cond : Term) : Option RowColl := dfFilter norm dep cond

/-- `Distinct` (vec.rs:137) of a collection without retractions, in the order of first occurrences. -/
def dfDistinct : RowColl → RowColl
  | [] => []
  | r :: rs => (r.1, .tuple []) :: (dfDistinct rs).filter fun x => !(x.1.cmp r.1 == .eq)

/-- `distinct_full` (mod.rs:423-427). -/
def distinctFull (c : RowColl) (k v : Nat) : Option RowColl :=
  (dfProject norm c (pack k v 0 false)).bind fun packed => dfProject norm (dfDistinct packed) (distinctUnpack k v)

/-- The demand for a source before the distinct (mod.rs:836-837), with `semijoin_data` (mod.rs:416-418). -/
def sourceLookup (dep source : RowColl) (k v : Nat) : Option RowColl :=
  (dfProject norm dep (projectKv k v)).bind fun stripped => dfJoin norm stripped source (projectKv k v)

end DD.Ir.Ex
