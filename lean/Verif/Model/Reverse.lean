import Verif.Model.Explain
import Verif.Model.Clone

/-!
# Model of how explanations put the reverse rules together: `resolve`, `Reverse` and `explain_with` in `interactive/src/explain/mod.rs`

The code emits operators into a scope `explain` that iterates. The model computes what these operators compute in one round of the iteration, on lists of rows as in C72: `Reverse`'s references are
collections, the variables of the scope have given values and `bind` gives their values in the next round. `none` is a panic.
-/

namespace DD.Ir.Ex

/-- The programs: scope trees with scalar terms. -/
abbrev XScope (N : Type*) := Scope (LinearOp Term) Projection Reducer N

/-- Their operators. -/
abbrev XNode (N : Type*) := Node (LinearOp Term) Projection Reducer N

variable {N : Type*}

/-- `Target` (explain/mod.rs:205-209). -/
inductive Target where
  | site (a : Addr)
  | source (k : Nat)
deriving DecidableEq

/-- `scope_at` (explain/mod.rs:211-218). -/
def scopeAt : XScope N → List Nat → Option (XScope N)
  | s, [] => some s
  | s, i :: path => match s.items[i]? with
    | some (.sub c) => scopeAt c path
    | _ => none

/-- `resolve` (explain/mod.rs:222-244); the first number bounds the calls. -/
def resolveRef (root : XScope N) : Nat → List Nat → Ref → Option Target
  | 0, _, _ => none
  | _ + 1, path, .loc i => some (.site ⟨path, .op i⟩)
  | _ + 1, path, .var v => some (.site ⟨path, .var v⟩)
  | n + 1, path, .imp k =>
    if path.isEmpty then some (.source k)
    else (scopeAt root path).bind fun s => (s.imports[k]?).bind fun i => match i.src with
      | .parent r => resolveRef root n path.dropLast r
      | _ => none
  | n + 1, path, .childExport c j => (scopeAt root (path ++ [c])).bind fun s => (s.exports[j]?).bind fun e => resolveRef root n (path ++ [c]) e.value

/-- What `Reverse` reads (explain/mod.rs:876-886). `pair` is what `wit` and `fwd`, or `ex_src` and `fwd_inputs`, give for a target, concatenated, as all rules do first; `vars` are the values of the demand
variables (explain/mod.rs:797-805). -/
structure RevEnv (N : Type*) where
  norm : Overflow
  root : XScope N
  fuel : Nat
  shapes : Addr → Option (Nat × Nat)
  sourceShapes : List (Nat × Nat)
  pair : Target → RowColl
  vars : Addr → RowColl

/-- What `Reverse` changes (explain/mod.rs:884-885), and the values given to `bind`. -/
structure RevState where
  demand : Addr → Option RowColl
  contribs : List (Target × RowColl)
  binds : Addr → Option RowColl

/-- The contributions to a target: `remove` (explain/mod.rs:831, 957, 972). -/
def RevState.of (st : RevState) (t : Target) : List RowColl := (st.contribs.filter fun p => p.1 = t).map Prod.snd

/-- What `remove` leaves. -/
def RevState.without (st : RevState) (t : Target) : List (Target × RowColl) := st.contribs.filter fun p => p.1 ≠ t

section
variable (env : RevEnv N)

/-- `resolve` (explain/mod.rs:920). -/
def RevEnv.resolve (path : List Nat) (r : Ref) : Option Target := resolveRef env.root env.fuel path r

/-- How deep a target is (explain/mod.rs:910). -/
def Target.len : Target → Nat
  | .site a => a.path.length
  | .source _ => 0

/-- `side` (explain/mod.rs:889-904). -/
def RevEnv.side (t : Target) : Option SideInfo :=
  (match t with
  | .site a => env.shapes a
  | .source k => env.sourceShapes[k]?).map fun shape => ⟨env.pair t, shape, t.len⟩

/-- `route` (explain/mod.rs:909-917). -/
def RevEnv.route (contrib : RowColl) (fromLen : Nat) (t : Target) : Option RowColl :=
  if t.len = fromLen then some contrib else (env.side t).bind fun side => shapePreservingLookup env.norm contrib side fromLen

/-- `push` (explain/mod.rs:919-923): the contribution. -/
def RevEnv.push (path : List Nat) (input : Ref) (contrib : RowColl) (fromLen : Nat) : Option (Target × RowColl) :=
  (env.resolve path input).bind fun t => (env.route contrib fromLen t).map fun c => (t, c)

/-- The contributions of an operator (explain/mod.rs:983-1041), from the demand for its output. -/
def RevEnv.emits (path : List Nat) (shape : Nat × Nat) (dep : RowColl) : XNode N → Option (List (Target × RowColl))
  | .linear input [.project key val] => (env.resolve path input).bind fun t => (env.side t).bind fun side =>
      (lossyLookup env.norm dep side shape path.length ⟨key, val⟩).map fun c => [(t, c)]
  | .linear input [.filter cond] => (filterLookup env.norm dep cond).bind fun c => (env.push path input c path.length).map fun p => [p]
  | .linear input [.negate] => (env.push path input dep path.length).map fun p => [p]
  | .linear input [.enterAt _] => (env.push path input dep path.length).map fun p => [p]
  | .linear input [.flatMap list] => (env.resolve path input).bind fun t => (env.side t).bind fun side =>
      (flatMapLookup env.norm dep side shape path.length list).map fun c => [(t, c)]
  | .linear _ _ => none
  | .concat refs => refs.mapM fun r => (env.resolve path r).bind fun t => (env.side t).bind fun side =>
      (shapePreservingLookup env.norm dep side path.length).map fun c => (t, c)
  | .arrange input => (env.push path input dep path.length).map fun p => [p]
  | .inspect input _ => (env.push path input dep path.length).map fun p => [p]
  | .reduce input reducer => (env.resolve path input).bind fun t => (env.side t).bind fun side =>
      (keyedLookup env.norm dep side shape path.length (decide (reducer = .min))).map fun c => [(t, c)]
  | .join left right projection => (env.resolve path left).bind fun lt => (env.resolve path right).bind fun rt => (env.side lt).bind fun ls => (env.side rt).bind fun rs =>
      (joinLookup env.norm dep ls rs shape path.length projection).map fun c => [(lt, c.1), (rt, c.2)]

/-- `site` (explain/mod.rs:970-1042). -/
def RevEnv.site (path : List Nat) (i : Nat) (node : XNode N) (st : RevState) : Option RevState :=
  let addr : Addr := ⟨path, .op i⟩
  let cs := st.of (.site addr)
  if cs.isEmpty then some st
  else (env.shapes addr).bind fun shape =>
    (distinctFull env.norm cs.flatten shape.1 (shape.2 + path.length + 1)).bind fun dist =>
    (env.emits path shape dist node).map fun new =>
      { st with demand := Function.update st.demand addr (some dist), contribs := st.without (.site addr) ++ new }

/-- The demand for what a variable is bound to (explain/mod.rs:929-940). -/
def RevEnv.bindStep (path : List Nat) (st : RevState) (b : Bind) : Option RevState :=
  let addr : Addr := ⟨path, .var b.var⟩
  (env.shapes addr).bind fun shape =>
  (bindLookup env.norm (env.vars addr) shape.1 shape.2 path.length).bind fun contrib =>
  (env.push path b.value contrib path.length).map fun p => { st with contribs := st.contribs ++ [p] }

/-- The next value of a demand variable (explain/mod.rs:952-967). -/
def RevEnv.closeStep (path : List Nat) (st : RevState) (v : Nat) : Option RevState :=
  let addr : Addr := ⟨path, .var v⟩
  let cs := st.of (.site addr)
  if cs.isEmpty then some { st with binds := Function.update st.binds addr (some (env.vars addr)) }
  else (env.shapes addr).bind fun shape =>
    (distinctFull env.norm cs.flatten shape.1 (shape.2 + path.length + 1)).map fun dist =>
      { st with contribs := st.without (.site addr), binds := Function.update st.binds addr (some dist) }

mutual
/-- `walk` on an item (explain/mod.rs:943-950). -/
def walkItem : Item (LinearOp Term) Projection Reducer N → List Nat → Nat → RevState → Option RevState
  | .op node, path, i, st => env.site path i node st
  | .sub child, path, i, st => walkScope child (path ++ [i]) st
/-- `walk` on the items, the last first (explain/mod.rs:941-951). -/
def walkItems : List (Item (LinearOp Term) Projection Reducer N) → List Nat → Nat → RevState → Option RevState
  | [], _, _, st => some st
  | it :: its, path, i, st => (walkItems its path (i + 1) st).bind fun st => walkItem it path i st
/-- `walk` (explain/mod.rs:925-968). -/
def walkScope : ScopeOf N (Item (LinearOp Term) Projection Reducer N) → List Nat → RevState → Option RevState
  | ⟨_, _, vars, items, binds, _⟩, path, st =>
    (binds.foldlM (env.bindStep path) st).bind fun st => (walkItems items path 0 st).bind fun st => (List.range vars.length).foldlM (env.closeStep path) st
end

/-- The next demand set of a source (explain/mod.rs:829-841). -/
def RevEnv.nextSet (st : RevState) (source dset : RowColl) (k : Nat) : Option RowColl :=
  (env.sourceShapes[k]?).bind fun shape =>
  let cs := st.of (.source k)
  (if cs.isEmpty then some dset else (sourceLookup env.norm cs.flatten source shape.1 shape.2).map fun semi => dset ++ semi).bind fun combined =>
  distinctFull env.norm combined shape.1 shape.2

/-- The seed and the walk (explain/mod.rs:819-824). -/
def RevEnv.reverse (query : RowColl) : Option RevState :=
  (env.root.exports.head?).bind fun first => (env.resolve [] first.value).bind fun t => (env.route query 0 t).bind fun seeded =>
  walkScope env env.root [] ⟨fun _ => none, [(t, seeded)], fun _ => none⟩

/-- A round of the scope `explain` (explain/mod.rs:819-850), from the demand sets of the sources. -/
def RevEnv.round (query : RowColl) (sources dsets : List RowColl) : Option (RevState × List RowColl) :=
  (env.reverse query).bind fun st => ((sources.zip dsets).zipIdx.mapM fun p => env.nextSet st p.1.1 p.1.2 p.2).map fun next => (st, next)

end

end DD.Ir.Ex
