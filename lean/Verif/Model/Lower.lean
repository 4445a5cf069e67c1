import Verif.Spec.Lower
import Mathlib.Data.List.Sort
import Mathlib.Data.List.Dedup

/-!
# Model of lowering, from the syntax of a program to its scope tree (`interactive/src/lower.rs`)

`none` is a panic. A map is a list of keys and values, the last inserted first. A `BTreeSet` is a sorted list without duplicates.
-/

namespace DD.Ir
variable {L P Q N : Type*}

mutual
/-- `expr_free_names` (lower.rs:45-57). -/
def exprFree : Expr L P Q N → List N
  | .input _ => []
  | .imported _ => []
  | .name n => [n]
  | .qualified s _ => [s]
  | .linear e _ => exprFree e
  | .join l r _ => exprFree l ++ exprFree r
  | .reduce e _ => exprFree e
  | .inspect e _ => exprFree e
  | .concat es => exprsFree es
  | .arrange e => exprFree e
/-- `expr_free_names` (lower.rs:55). -/
def exprsFree : List (Expr L P Q N) → List N
  | [] => []
  | e :: es => exprFree e ++ exprsFree es
end

section
variable [DecidableEq N]

mutual
/-- The names in a statement (lower.rs:72-75); in a nested scope without those bound there (lower.rs:63-69, 77). -/
def stmtFree : Stmt L P Q N → List N
  | .letS _ e => exprFree e
  | .varS _ e => exprFree e
  | .exportS _ e => exprFree e
  | .scopeS _ body => (stmtsFree body).filter (· ∉ localNames body)
/-- The names in statements (lower.rs:71-76). -/
def stmtsFree : List (Stmt L P Q N) → List N
  | [] => []
  | s :: ss => stmtFree s ++ stmtsFree ss
end

/-- `collect_body_free_names` (lower.rs:62-78). -/
def bodyFree (body : List (Stmt L P Q N)) : List N := (stmtsFree body).filter (· ∉ localNames body)

mutual
/-- `collect_qualified` (lower.rs:300-310). -/
def collectQualified (scope : N) : Expr L P Q N → List N → List N
  | .qualified s f, out => if s = scope ∧ f ∉ out then out ++ [f] else out
  | .linear e _, out => collectQualified scope e out
  | .reduce e _, out => collectQualified scope e out
  | .inspect e _, out => collectQualified scope e out
  | .arrange e, out => collectQualified scope e out
  | .join l r _, out => collectQualified scope r (collectQualified scope l out)
  | .concat es, out => collectsQualified scope es out
  | .input _, out => out
  | .imported _, out => out
  | .name _, out => out
/-- `collect_qualified` (lower.rs:307). -/
def collectsQualified (scope : N) : List (Expr L P Q N) → List N → List N
  | [], out => out
  | e :: es, out => collectsQualified scope es (collectQualified scope e out)
end

/-- The expression of a statement (lower.rs:293-294). -/
def Stmt.expr? : Stmt L P Q N → Option (Expr L P Q N)
  | .letS _ e => some e
  | .varS _ e => some e
  | .exportS _ e => some e
  | .scopeS _ _ => none

/-- `qualified_fields` (lower.rs:289-298). -/
def qualifiedFields (body : List (Stmt L P Q N)) (scope : N) : List N := collectsQualified scope (body.filterMap Stmt.expr?) []

/-- `ScopeLower` (lower.rs:97-106). Simplified: the maps `input_import` and `trace_import` are looked up in `imports`; `child_idx` and `child_exports` are one map. -/
structure LowerState (L P Q N : Type*) where
  isRoot : Bool
  items : List (Item L P Q N)
  imports : List (Import N)
  env : List (N × Ref)
  children : List (N × Nat × List N)

/-- `push` (lower.rs:109-113). -/
def LowerState.push (st : LowerState L P Q N) (n : Node L P Q N) : LowerState L P Q N × Ref :=
  ({ st with items := st.items ++ [.op n] }, .loc st.items.length)

/-- `input_ref` and `trace_ref` (lower.rs:114-129). -/
def LowerState.external (st : LowerState L P Q N) (name : N) (src : Source N) : Option (LowerState L P Q N × Ref) :=
  if st.isRoot then
    match st.imports.findIdx? (fun i => i.src = src) with
    | some i => some (st, .imp i)
    | none => some ({ st with imports := st.imports ++ [⟨name, src⟩] }, .imp st.imports.length)
  else none

/-- `qualified_ref` (lower.rs:130-135). -/
def LowerState.qualified (st : LowerState L P Q N) (scope field : N) : Option Ref :=
  (st.children.lookup scope).bind fun c => (c.2.idxOf? field).map fun j => .childExport c.1 j

mutual
/-- `lower_expr` (lower.rs:136-165); `inputName` are the names given to inputs (lower.rs:118). -/
def lowerExpr (inputName : Nat → N) : Expr L P Q N → LowerState L P Q N → Option (LowerState L P Q N × Ref)
  | .input n, st => st.external (inputName n) (.input n)
  | .imported name, st => st.external name (.trace name)
  | .name n, st => (st.env.lookup n).map fun r => (st, r)
  | .qualified s f, st => (st.qualified s f).map fun r => (st, r)
  | .linear e op, st => (lowerExpr inputName e st).map fun p => p.1.push (.linear p.2 [op])
  | .arrange e, st => (lowerExpr inputName e st).map fun p => p.1.push (.arrange p.2)
  | .join l r pr, st =>
    (lowerExpr inputName l st).bind fun p =>
    let la := p.1.push (.arrange p.2)
    (lowerExpr inputName r la.1).map fun q =>
    let ra := q.1.push (.arrange q.2)
    ra.1.push (.join la.2 ra.2 pr)
  | .reduce e red, st =>
    (lowerExpr inputName e st).map fun p =>
    let a := p.1.push (.arrange p.2)
    a.1.push (.reduce a.2 red)
  | .inspect e label, st => (lowerExpr inputName e st).map fun p => p.1.push (.inspect p.2 label)
  | .concat es, st => (lowerExprs inputName es st).map fun p => p.1.push (.concat p.2)
/-- `lower_expr` on one expression after the other (lower.rs:163, 264-267, 273-276). -/
def lowerExprs (inputName : Nat → N) : List (Expr L P Q N) → LowerState L P Q N → Option (LowerState L P Q N × List Ref)
  | [], st => some (st, [])
  | e :: es, st => (lowerExpr inputName e st).bind fun p => (lowerExprs inputName es p.1).map fun q => (q.1, p.2 :: q.2)
end

/-- `ItemKind` (lower.rs:16-17). -/
inductive ItemKind where
  | letK
  | scopeK
deriving DecidableEq

/-- The `let`s (lower.rs:210), each inserted in the map. -/
def letsOf (body : List (Stmt L P Q N)) : List (N × Expr L P Q N) := (body.filterMap fun s => match s with
  | .letS n e => some (n, e)
  | _ => none).reverse

/-- The `var`s in order (lower.rs:211). -/
def varsOf (body : List (Stmt L P Q N)) : List (N × Expr L P Q N) := body.filterMap fun s => match s with
  | .varS n e => some (n, e)
  | _ => none

/-- The nested scopes (lower.rs:212), each inserted in the map. -/
def scopesOf (body : List (Stmt L P Q N)) : List (N × List (Stmt L P Q N)) := (body.filterMap fun s => match s with
  | .scopeS n b => some (n, b)
  | _ => none).reverse

/-- What is to be lowered, in order (lower.rs:210, 212). -/
def orderOf (body : List (Stmt L P Q N)) : List (ItemKind × N) := body.filterMap fun s => match s with
  | .letS n _ => some (.letK, n)
  | .scopeS n _ => some (.scopeK, n)
  | _ => none

/-- `expr_deps` and `scope_body_deps` (lower.rs:22-40), from the free names. -/
def depsOf (free defined : List N) (self : N) : List N := free.filter fun n => n ≠ self ∧ n ∈ defined

/-- The dependencies (lower.rs:229-233): those of a scope are inserted after those of a `let`. -/
def allDeps (body : List (Stmt L P Q N)) : List (N × List N) :=
  let defined := (letsOf body).map Prod.fst ++ (scopesOf body).map Prod.fst
  (scopesOf body).map (fun p => (p.1, depsOf (bodyFree p.2) defined p.1)) ++ (letsOf body).map (fun p => (p.1, depsOf (exprFree p.2) defined p.1))

/-- The first of the pending items that has no dependencies left (lower.rs:238-240). -/
def firstReady (deps : List (N × List N)) : List (ItemKind × N) → Option Nat
  | [] => none
  | p :: ps => (deps.lookup p.2).bind fun d => if d.isEmpty then some 0 else (firstReady deps ps).map (· + 1)

/-- The dependencies once an item is taken (lower.rs:242-243). -/
def dropDep (deps : List (N × List N)) (name : N) : List (N × List N) :=
  (deps.filter fun p => p.1 ≠ name).map fun p => (p.1, p.2.filter (· ≠ name))

/-- How a nested scope is lowered, from the environment of its parent and the fields that are wanted: a call of `lower_scope_tree` (lower.rs:168-174). -/
abbrev LowerChild (L P Q N : Type*) := List (N × Ref) → List N → Option (Scope L P Q N)

/-- One item (lower.rs:244-259). -/
def lowerItem (inputName : Nat → N) (body : List (Stmt L P Q N)) (kids : List (N × LowerChild L P Q N)) (p : ItemKind × N) (st : LowerState L P Q N) : Option (LowerState L P Q N) :=
  match p.1 with
  | .letK => ((letsOf body).lookup p.2).bind fun e => (lowerExpr inputName e st).map fun q => { q.1 with env := (p.2, q.2) :: q.1.env }
  | .scopeK =>
    let wanted := qualifiedFields body p.2
    (kids.lookup p.2).bind fun lower => (lower st.env wanted).map fun child =>
      { st with items := st.items ++ [.sub child], children := (p.2, st.items.length, wanted) :: st.children }

/-- The loop (lower.rs:236-260); the first argument bounds the rounds. -/
def lowerItems (inputName : Nat → N) (body : List (Stmt L P Q N)) (kids : List (N × LowerChild L P Q N)) :
    Nat → List (ItemKind × N) → List (N × List N) → LowerState L P Q N → Option (LowerState L P Q N)
  | 0, pending, _, st => if pending.isEmpty then some st else none
  | k + 1, pending, deps, st =>
    if pending.isEmpty then some st
    else
      (firstReady deps pending).bind fun pos => (pending[pos]?).bind fun p =>
      (lowerItem inputName body kids p st).bind fun st => lowerItems inputName body kids k (pending.eraseIdx pos) (dropDep deps p.2) st

/-- The imports of a nested scope (lower.rs:190-200). -/
def parentImports [LinearOrder N] (body : List (Stmt L P Q N)) (parentEnv : List (N × Ref)) : Option (List (Import N)) :=
  (((bodyFree body).dedup).insertionSort (· ≤ ·)).mapM fun n => (parentEnv.lookup n).map fun r => ⟨n, .parent r⟩

/-- The binds (lower.rs:219-225, 263-267). -/
def bindsOf (vars : List N) (values : List Ref) : Option (List Bind) :=
  (vars.zip values).mapM fun p => ((vars.zipIdx.reverse).lookup p.1).map fun i => ⟨i, p.2⟩

/-- `lower_scope_tree` (lower.rs:168-286); `kids` are the calls for nested scopes. -/
def lowerWith [LinearOrder N] (inputName : Nat → N) (name : N) (body : List (Stmt L P Q N)) (kids : List (N × LowerChild L P Q N)) (isRoot : Bool) (parentEnv : List (N × Ref)) (wanted : List N) :
    Option (Scope L P Q N) :=
  (if isRoot then some [] else parentImports body parentEnv).bind fun imports =>
  let vars := (varsOf body).map Prod.fst
  let env := (vars.zipIdx.map fun p => (p.1, Ref.var p.2)).reverse ++ (imports.zipIdx.map fun p => (p.1.name, Ref.imp p.2)).reverse
  (lowerItems inputName body kids (orderOf body).length (orderOf body) (allDeps body) ⟨isRoot, [], imports, env, []⟩).bind fun st =>
  (lowerExprs inputName ((varsOf body).map Prod.snd) st).bind fun p =>
  (bindsOf vars p.2).bind fun binds =>
  if isRoot then
    (lowerExprs inputName ((exportsIn body).map Prod.snd) p.1).map fun q =>
      ⟨name, q.1.imports, vars, q.1.items, binds, ((exportsIn body).map Prod.fst).zipWith Export.mk q.2⟩
  else
    (wanted.mapM fun f => (p.1.env.lookup f).map fun r => ⟨f, r⟩).map fun exports =>
      ⟨name, p.1.imports, vars, p.1.items, binds, exports⟩

end

variable [LinearOrder N]

mutual
/-- `lower_scope_tree` for a nested scope (lower.rs:253). -/
def lowerKid (inputName : Nat → N) : Stmt L P Q N → List (N × LowerChild L P Q N)
  | .scopeS n body => [(n, lowerWith inputName n body (lowerKids inputName body).reverse false)]
  | .letS _ _ => []
  | .varS _ _ => []
  | .exportS _ _ => []
/-- `lower_scope_tree` for all nested scopes (lower.rs:253). -/
def lowerKids (inputName : Nat → N) : List (Stmt L P Q N) → List (N × LowerChild L P Q N)
  | [] => []
  | s :: ss => lowerKid inputName s ++ lowerKids inputName ss
end

/-- `lower_tree` (lower.rs:90-93). -/
def lowerTree (inputName : Nat → N) (rootName : N) (body : List (Stmt L P Q N)) : Option (Scope L P Q N) :=
  lowerWith inputName rootName body (lowerKids inputName body).reverse true [] []

end DD.Ir
