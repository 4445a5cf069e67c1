import Verif.Spec.Basic
import Mathlib.Data.List.Basic

/-!
# Model of the scope tree of the `interactive` crate, of its optimizer and of its rendering (`interactive/src/scope_ir.rs`, `interactive/src/backend/mod.rs`)

`none` is a panic. `L` are the linear operators, `P` the projections, `Q` the reducers and `N` the names.
-/

namespace DD.Ir

/-- `Ref` (scope_ir.rs:51-61). -/
inductive Ref where
  | loc (i : Nat)
  | imp (k : Nat)
  | var (v : Nat)
  | childExport (i j : Nat)
deriving DecidableEq

/-- `Source` (scope_ir.rs:65-73). -/
inductive Source (N : Type*) where
  | parent (r : Ref)
  | input (n : Nat)
  | trace (name : N)
deriving DecidableEq

/-- `Import` (scope_ir.rs:76-80). -/
structure Import (N : Type*) where
  name : N
  src : Source N
deriving DecidableEq

/-- `Export` (scope_ir.rs:83-87). -/
structure Export (N : Type*) where
  name : N
  value : Ref
deriving DecidableEq

/-- `Bind` (scope_ir.rs:99-103). -/
structure Bind where
  var : Nat
  value : Ref
deriving DecidableEq

/-- `Node` (scope_ir.rs:107-115). -/
inductive Node (L P Q N : Type*) where
  | linear (input : Ref) (ops : List L)
  | concat (refs : List Ref)
  | arrange (input : Ref)
  | join (left right : Ref) (projection : P)
  | reduce (input : Ref) (reducer : Q)
  | inspect (input : Ref) (label : N)
deriving DecidableEq

/-- `Scope` (scope_ir.rs:128-139), for any type of items. -/
structure ScopeOf (N I : Type*) where
  name : N
  imports : List (Import N)
  vars : List N
  items : List I
  binds : List Bind
  exports : List (Export N)

/-- `Item` (scope_ir.rs:120-124). -/
inductive Item (L P Q N : Type*) where
  | op (n : Node L P Q N)
  | sub (s : ScopeOf N (Item L P Q N))

abbrev Scope (L P Q N : Type*) := ScopeOf N (Item L P Q N)

variable {L P Q N : Type*}

/-! ### References -/

/-- The item a reference points at. -/
def Ref.item? : Ref → Option Nat
  | .loc i => some i
  | .imp _ => none
  | .var _ => none
  | .childExport i _ => some i

/-- The references of an operator, as visited by `for_each_ref` (scope_ir.rs:202-206). -/
def Node.refs : Node L P Q N → List Ref
  | .linear input _ => [input]
  | .concat refs => refs
  | .arrange input => [input]
  | .join left right _ => [left, right]
  | .reduce input _ => [input]
  | .inspect input _ => [input]

/-- The references of an import. -/
def Source.refs : Source N → List Ref
  | .parent r => [r]
  | .input _ => []
  | .trace _ => []

/-- The references of an item, in its own scope (scope_ir.rs:200-211). -/
def Item.refs : Item L P Q N → List Ref
  | .op n => n.refs
  | .sub child => child.imports.flatMap fun i => i.src.refs

/-- All references of a scope (scope_ir.rs:199-215). -/
def refsOf (s : Scope L P Q N) : List Ref := s.items.flatMap Item.refs ++ s.binds.map Bind.value ++ s.exports.map Export.value

/-- `for_each_ref` on an operator (scope_ir.rs:202-206). -/
def Node.mapRefs (f : Ref → Ref) : Node L P Q N → Node L P Q N
  | .linear input ops => .linear (f input) ops
  | .concat refs => .concat (refs.map f)
  | .arrange input => .arrange (f input)
  | .join left right projection => .join (f left) (f right) projection
  | .reduce input reducer => .reduce (f input) reducer
  | .inspect input label => .inspect (f input) label

/-- `for_each_ref` on an import (scope_ir.rs:209). -/
def Source.mapRefs (f : Ref → Ref) : Source N → Source N
  | .parent r => .parent (f r)
  | .input n => .input n
  | .trace name => .trace name

/-- `for_each_ref` on an item (scope_ir.rs:201-211). -/
def Item.mapRefs (f : Ref → Ref) : Item L P Q N → Item L P Q N
  | .op n => .op (n.mapRefs f)
  | .sub child => .sub { child with imports := child.imports.map fun i => { i with src := i.src.mapRefs f } }

/-- `for_each_ref` (scope_ir.rs:199-215). -/
def mapRefs (f : Ref → Ref) (s : Scope L P Q N) : Scope L P Q N :=
  { s with
    items := s.items.map (Item.mapRefs f)
    binds := s.binds.map fun b => { b with value := f b.value }
    exports := s.exports.map fun e => { e with value := f e.value } }

/-! ### The optimizer -/

/-- The references held by live items, by binds and by exports. -/
def liveRefs (s : Scope L P Q N) (dead : List Bool) : List Ref :=
  ((s.items.zip dead).flatMap fun p => if p.2 then [] else p.1.refs) ++ s.binds.map Bind.value ++ s.exports.map Export.value

/-- `use_counts` (scope_ir.rs:224-248). -/
def useCounts (s : Scope L P Q N) (dead : List Bool) : Option (List Nat) :=
  if ∀ i ∈ (liveRefs s dead).filterMap Ref.item?, i < s.items.length then
    some ((List.range s.items.length).map fun i => ((liveRefs s dead).filterMap Ref.item?).count i)
  else none

/-- `redirect` (scope_ir.rs:251-254). -/
def redirect (source : Nat) (target : Ref) (s : Scope L P Q N) (dead : List Bool) : Scope L P Q N × List Bool :=
  (mapRefs (fun r => if r = .loc source then target else r) s, dead.set source true)

/-- Whether an item is an arrangement (scope_ir.rs:263). -/
def Item.isArrangement : Item L P Q N → Bool
  | .op (.arrange _) => true
  | .op (.reduce _ _) => true
  | _ => false

/-- The scope, the dead items, and whether anything changed. -/
abbrev OptState (L P Q N : Type*) := Scope L P Q N × List Bool × Bool

/-- The input of an `Arrange` of an item (scope_ir.rs:261). -/
def Item.arrangeOf : Item L P Q N → Option Nat
  | .op (.arrange (.loc j)) => some j
  | _ => none

/-- One round of the loop of `collapse_arranges` (scope_ir.rs:259-267). -/
def collapseStep (st : OptState L P Q N) (i : Nat) : Option (OptState L P Q N) :=
  (st.2.1[i]?).bind fun di =>
  if di then some st
  else
    (st.1.items[i]?).bind fun it =>
    it.arrangeOf.elim (some st) fun j =>
      (st.2.1[j]?).bind fun dj => (st.1.items[j]?).bind fun jt =>
      if !dj && jt.isArrangement then
        let r := redirect i (.loc j) st.1 st.2.1
        some (r.1, r.2, true)
      else some st

/-- `collapse_arranges` (scope_ir.rs:257-269). -/
def collapseArranges (s : Scope L P Q N) (dead : List Bool) : Option (OptState L P Q N) := (List.range s.items.length).foldlM collapseStep (s, dead, false)

/-- The input and operators of a `Linear` (scope_ir.rs:277, 280). -/
def Item.linear? : Item L P Q N → Option (Ref × List L)
  | .op (.linear input ops) => some (input, ops)
  | _ => none

/-- The input of a `Linear` of an item, and its operators (scope_ir.rs:277). -/
def Item.linearOf (it : Item L P Q N) : Option (Nat × List L) :=
  it.linear?.bind fun p => match p.1 with
    | .loc j => some (j, p.2)
    | _ => none

/-- One round of the loop of `fuse_linear` (scope_ir.rs:275-288). -/
def fuseStep (counts : List Nat) (st : OptState L P Q N) (i : Nat) : Option (OptState L P Q N) :=
  (st.2.1[i]?).bind fun di =>
  if di then some st
  else
    (st.1.items[i]?).bind fun it =>
    it.linearOf.elim (some st) fun p =>
      (st.2.1[p.1]?).bind fun dj =>
      if dj then some st
      else
        (counts[p.1]?).bind fun count =>
        if count ≠ 1 then some st
        else
          (st.1.items[p.1]?).bind fun jt =>
          jt.linear?.elim (some st) fun inner =>
            some ({ st.1 with items := st.1.items.set i (.op (.linear inner.1 (inner.2 ++ p.2))) }, st.2.1.set p.1 true, true)

/-- `fuse_linear` (scope_ir.rs:272-290). -/
def fuseLinear (s : Scope L P Q N) (dead : List Bool) : Option (OptState L P Q N) :=
  (useCounts s dead).bind fun counts => (List.range s.items.length).foldlM (fuseStep counts) (s, dead, false)

variable [DecidableEq L] [DecidableEq P] [DecidableEq Q] [DecidableEq N]

/-- One round of the first loop of `dedup` (scope_ir.rs:298-306): the operators seen, and the redirects. Operators are compared by their debugging text, here by themselves. -/
def dedupStep (s : Scope L P Q N) (dead : List Bool) (st : List (Node L P Q N × Nat) × List (Nat × Nat)) (i : Nat) : Option (List (Node L P Q N × Nat) × List (Nat × Nat)) :=
  (dead[i]?).bind fun di =>
  if di then some st
  else
    (s.items[i]?).map fun it => match it with
      | .sub _ => st
      | .op node => match st.1.lookup node with
        | some first => (st.1, st.2 ++ [(i, first)])
        | none => ((node, i) :: st.1, st.2)

/-- `dedup` (scope_ir.rs:294-313). -/
def dedup (s : Scope L P Q N) (dead : List Bool) : Option (OptState L P Q N) :=
  ((List.range s.items.length).foldlM (dedupStep s dead) ([], [])).map fun st =>
  let r := st.2.foldl (fun r p => redirect p.1 (.loc p.2) r.1 r.2) (s, dead)
  (r.1, r.2, !st.2.isEmpty)

/-- The loop of `optimize` (scope_ir.rs:188-193); the first argument bounds the rounds. -/
def optLoop : Nat → Scope L P Q N → List Bool → Option (Scope L P Q N × List Bool)
  | 0, _, _ => none
  | n + 1, s, dead =>
    (collapseArranges s dead).bind fun a =>
    (fuseLinear a.1 a.2.1).bind fun b =>
    (dedup b.1 b.2.1).bind fun c =>
    if a.2.2 || b.2.2 || c.2.2 then optLoop n c.1 c.2.1 else some (c.1, c.2.1)

/-- The new positions of the items (scope_ir.rs:319-323); `none` is `usize::MAX`. -/
def remap : List Bool → Nat → List (Option Nat)
  | [], _ => []
  | true :: dead, next => none :: remap dead next
  | false :: dead, next => some next :: remap dead (next + 1)

/-- The new reference (scope_ir.rs:326-331). -/
def Ref.remap (m : List (Option Nat)) : Ref → Ref
  | .loc i => .loc (((m[i]?).join).getD i)
  | .childExport i j => .childExport (((m[i]?).join).getD i) j
  | r => r

/-- `compact` (scope_ir.rs:318-333). -/
def compact (s : Scope L P Q N) (dead : List Bool) : Option (Scope L P Q N) :=
  let m := remap dead 0
  let s' := { s with items := (s.items.zip dead).filterMap fun p => if p.2 then none else some p.1 }
  if ∀ i ∈ (refsOf s').filterMap Ref.item?, ((m[i]?).join).isSome then some (mapRefs (Ref.remap m) s') else none

/-- `optimize` after the children are (scope_ir.rs:187-194). -/
def optLocal (s : Scope L P Q N) : Option (Scope L P Q N) :=
  (optLoop (s.items.length + 1) s (List.replicate s.items.length false)).bind fun r => compact r.1 r.2

mutual
/-- `optimize` of a child (scope_ir.rs:184-186). -/
def optItem : Item L P Q N → Option (Item L P Q N)
  | .op n => some (.op n)
  | .sub s => (optScope s).map .sub
/-- `optimize` of all children (scope_ir.rs:184-186). -/
def optItems : List (Item L P Q N) → Option (List (Item L P Q N))
  | [] => some []
  | it :: its => (optItem it).bind fun it => (optItems its).map fun its => it :: its
/-- `Scope::optimize` (scope_ir.rs:183-195). -/
def optScope : ScopeOf N (Item L P Q N) → Option (ScopeOf N (Item L P Q N))
  | ⟨name, imports, vars, items, binds, exports⟩ => (optItems items).bind fun items => optLocal ⟨name, imports, vars, items, binds, exports⟩
end

/-! ### Rendering

A scope is rendered to a dataflow. What a dataflow computes is given by its equations: the streams of its operators, children and variables are such that each is what
its operator makes of its inputs. -/

/-- What the operators compute: `trait Backend` (backend/mod.rs:36-53), regions, and feedback with the summary of a level (backend/mod.rs:116-121); `never` is the
collection of a variable that is not set. `Col` are collections, `Arr` arrangements. -/
structure Sem (L P Q N Col Arr : Type*) where
  linear : Nat → List L → Col → Col
  concat : Col → Col → Col
  arrange : Col → Arr
  asCollection : Arr → Col
  join : Arr → Arr → P → Col
  reduce : Arr → Q → Arr
  inspect : N → Col → Col
  enter : Col → Col
  leave : Col → Col
  leaveDynamic : Nat → Col → Col
  feedback : Nat → Col → Col
  never : Col

/-- `Rendered` (backend/mod.rs:56-59). -/
inductive Rendered (Col Arr : Type*) where
  | coll (c : Col)
  | arr (a : Arr)
deriving DecidableEq

/-- `RItem` (backend/mod.rs:78-81). -/
inductive RItem (Col Arr : Type*) where
  | op (r : Rendered Col Arr)
  | sub (exports : List Col)
deriving DecidableEq

section render
omit [DecidableEq L] [DecidableEq P] [DecidableEq Q] [DecidableEq N]
variable {Col Arr : Type*} (sem : Sem L P Q N Col Arr)

/-- `Rendered::collection` (backend/mod.rs:62-67). -/
def Rendered.collection : Rendered Col Arr → Col
  | .coll c => c
  | .arr a => sem.asCollection a

/-- `Rendered::arrange` (backend/mod.rs:68-73). -/
def Rendered.arrange : Rendered Col Arr → Arr
  | .coll c => sem.arrange c
  | .arr a => a

/-- `resolve` (backend/mod.rs:83-102). -/
def resolve (items : Nat → Option (RItem Col Arr)) (imports vars : List Col) : Ref → Option (Rendered Col Arr)
  | .loc i => (items i).bind fun v => match v with
    | .op r => some r
    | .sub _ => none
  | .imp i => (imports[i]?).map .coll
  | .var i => (vars[i]?).map .coll
  | .childExport i j => (items i).bind fun v => match v with
    | .sub exports => (exports[j]?).map .coll
    | .op _ => none

/-- The operators of `render_tree` (backend/mod.rs:124-152); `res` resolves references. -/
def renderNode (depth : Nat) (res : Ref → Option (Rendered Col Arr)) : Node L P Q N → Option (Rendered Col Arr)
  | .linear input ops => (res input).map fun r => .coll (sem.linear depth ops (r.collection sem))
  | .concat [] => none
  | .concat (r :: rs) => ((res r).bind fun c => rs.foldlM (fun c r => (res r).map fun c' => sem.concat c (c'.collection sem)) (c.collection sem)).map .coll
  | .arrange r => (res r).map fun c => .arr (c.arrange sem)
  | .join left right projection => (res left).bind fun l => (res right).map fun r => .coll (sem.join (l.arrange sem) (r.arrange sem) projection)
  | .reduce input reducer => (res input).map fun a => .arr (sem.reduce (a.arrange sem) reducer)
  | .inspect input label => (res input).map fun c => .coll (sem.inspect label (c.collection sem))

/-- The imports of a child (backend/mod.rs:155-158). -/
def childImport (res : Ref → Option (Rendered Col Arr)) (i : Import N) : Option Col := match i.src with
  | .parent r => (res r).map fun c => c.collection sem
  | .input _ => none
  | .trace _ => none

/-- The variables are what the binds feed back to them (backend/mod.rs:114-121, 173-176). -/
def VarsOk (depth : Nat) (res : Ref → Option (Rendered Col Arr)) (binds : List Bind) (vars : List Col) : Prop :=
  (binds.map Bind.var).Nodup ∧ (∀ b ∈ binds, ∃ c, res b.value = some c ∧ vars[b.var]? = some (sem.feedback depth (c.collection sem))) ∧
    ∀ v, v < vars.length → v ∉ binds.map Bind.var → vars[v]? = some sem.never

/-- The exports (backend/mod.rs:178). -/
def exportsOf (res : Ref → Option (Rendered Col Arr)) (exports : List (Export N)) : Option (List Col) :=
  exports.mapM fun e => (res e.value).map fun c => c.collection sem

mutual
/-- An item is rendered to `v` (backend/mod.rs:125-170). -/
def ItemSem : Item L P Q N → Nat → (Ref → Option (Rendered Col Arr)) → RItem Col Arr → Prop
  | .op n, depth, res, v => ∃ r, renderNode sem depth res n = some r ∧ v = .op r
  | .sub child, depth, res, v => ∃ entering outs, child.imports.mapM (childImport sem res) = some entering ∧ ScopeSem child (depth + 1) (entering.map sem.enter) outs ∧
      v = .sub (outs.map fun c => sem.leaveDynamic (depth + 1) (sem.leave c))
/-- Items are rendered one after the other, each seeing those before it (backend/mod.rs:123-171). -/
def ItemsSem : List (Item L P Q N) → Nat → List Col → List Col → List (RItem Col Arr) → List (RItem Col Arr) → Prop
  | [], _, _, _, before, vals => vals = before
  | it :: its, depth, imports, vars, before, vals =>
    ∃ v, ItemSem it depth (resolve (before[·]?) imports vars) v ∧ ItemsSem its depth imports vars (before ++ [v]) vals
/-- `render_tree` (backend/mod.rs:108-179): the streams satisfy the equations of the dataflow, and `outs` are the exports. -/
def ScopeSem : ScopeOf N (Item L P Q N) → Nat → List Col → List Col → Prop
  | ⟨_, _, names, items, binds, exports⟩, depth, imports, outs =>
    ∃ vars vals, vars.length = names.length ∧ ItemsSem items depth imports vars [] vals ∧ VarsOk sem depth (resolve (vals[·]?) imports vars) binds vars ∧
      exportsOf sem (resolve (vals[·]?) imports vars) exports = some outs
end

end render

end DD.Ir
