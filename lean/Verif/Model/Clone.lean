import Verif.Model.ScopeIr

/-!
# Model of the clones that explanations are built from (`interactive/src/explain/mod.rs:26-177`)

A clone is a copy of a program, spliced into another scope, in which the collections of nested scopes are exported upward. `none` is a panic. `lift` is the linear operator
`LinearOp::LiftIter`, and `host` makes the names `$host:…`.
-/

namespace DD.Ir
variable {L P Q N : Type*}

/-- `Site` (explain/mod.rs:37-41). -/
inductive Site where
  | op (i : Nat)
  | var (v : Nat)
deriving DecidableEq

/-- `Addr` (explain/mod.rs:31-35). -/
structure Addr where
  path : List Nat
  site : Site
deriving DecidableEq

/-- `map_ref` (explain/mod.rs:68-75). -/
def mapRef (locals : List (Option Ref)) (subs : List (Option Nat)) (importMap : List Ref) (varBase : Nat) : Ref → Option Ref
  | .loc i => (locals[i]?).join
  | .imp k => importMap[k]?
  | .var v => some (.var (varBase + v))
  | .childExport i j => ((subs[i]?).join).map fun s => .childExport s j

/-- `clone_node` (explain/mod.rs:77-86). -/
def cloneNode (m : Ref → Option Ref) : Node L P Q N → Option (Node L P Q N)
  | .linear input ops => (m input).map fun input => .linear input ops
  | .concat refs => (refs.mapM m).map .concat
  | .arrange r => (m r).map .arrange
  | .join left right projection => (m left).bind fun left => (m right).map fun right => .join left right projection
  | .reduce input reducer => (m input).map fun input => .reduce input reducer
  | .inspect input label => (m input).map fun input => .inspect input label

/-- The import of a cloned child (explain/mod.rs:122-128). -/
def cloneImport (m : Ref → Option Ref) (i : Import N) : Option (Import N) := match i.src with
  | .parent r => (m r).map fun r => { i with src := .parent r }
  | .input _ => none
  | .trace _ => none

/-- What `clone_rec` has made so far (explain/mod.rs:88-101). -/
structure CloneState (L P Q N : Type*) where
  out : Scope L P Q N
  locals : List (Option Ref)
  subs : List (Option Nat)
  visible : List (Addr × Ref)

/-- Lifting and exporting the sites of a child (explain/mod.rs:145-154): the child, and the references to its sites from its parent. -/
def liftSites (lift : L) (host : Nat → N) (subIdx : Nat) (st : Scope L P Q N × List (Addr × Ref)) (a : Addr × Ref) : Scope L P Q N × List (Addr × Ref) :=
  let liftIdx := st.1.items.length
  let exportIdx := st.1.exports.length
  ({ st.1 with items := st.1.items ++ [.op (.linear a.2 [lift])], exports := st.1.exports ++ [⟨host exportIdx, .loc liftIdx⟩] },
    st.2 ++ [(a.1, .childExport subIdx exportIdx)])

mutual
/-- The clone of an item (explain/mod.rs:104-160). -/
def cloneItem (lift : L) (host : Nat → N) : Item L P Q N → List Ref → Nat → List Nat → Nat → CloneState L P Q N → Option (CloneState L P Q N)
  | .op node, importMap, varBase, path, i, st =>
    (cloneNode (mapRef st.locals st.subs importMap varBase) node).bind fun cloned =>
    let outIdx := st.out.items.length
    let locals := st.locals.set i (some (.loc outIdx))
    let vis := match node with
      | .arrange input => mapRef locals st.subs importMap varBase input
      | _ => some (.loc outIdx)
    vis.map fun vis =>
      { out := { st.out with items := st.out.items ++ [.op cloned] }, locals := locals, subs := st.subs, visible := st.visible ++ [(⟨path, .op i⟩, vis)] }
  | .sub child, importMap, varBase, path, i, st =>
    (child.imports.mapM (cloneImport (mapRef st.locals st.subs importMap varBase))).bind fun imports =>
    (cloneRec lift host child ⟨child.name, imports, [], [], [], []⟩ ((List.range child.imports.length).map .imp) (path ++ [i])).map fun r =>
      let subIdx := st.out.items.length
      let l := r.2.foldl (liftSites lift host subIdx) (r.1, [])
      { out := { st.out with items := st.out.items ++ [.sub l.1] }, locals := st.locals, subs := st.subs.set i (some subIdx), visible := st.visible ++ l.2 }
/-- The clones of all items (explain/mod.rs:103-161). -/
def cloneItems (lift : L) (host : Nat → N) : List (Item L P Q N) → List Ref → Nat → List Nat → Nat → CloneState L P Q N → Option (CloneState L P Q N)
  | [], _, _, _, _, st => some st
  | it :: its, importMap, varBase, path, i, st =>
    (cloneItem lift host it importMap varBase path i st).bind fun st => cloneItems lift host its importMap varBase path (i + 1) st
/-- `clone_rec` (explain/mod.rs:88-177). -/
def cloneRec (lift : L) (host : Nat → N) : ScopeOf N (Item L P Q N) → Scope L P Q N → List Ref → List Nat → Option (Scope L P Q N × List (Addr × Ref))
  | ⟨_, _, vars, items, binds, exports⟩, out, importMap, path =>
    let varBase := out.vars.length
    (cloneItems lift host items importMap varBase path 0
      { out := { out with vars := out.vars ++ vars }
        locals := List.replicate items.length none
        subs := List.replicate items.length none
        visible := (List.range vars.length).map fun v => (⟨path, .var v⟩, .var (varBase + v)) }).bind fun st =>
    (binds.mapM fun b => (mapRef st.locals st.subs importMap varBase b.value).map fun r => (⟨varBase + b.var, r⟩ : Bind)).bind fun bs =>
    (exports.mapM fun e => (mapRef st.locals st.subs importMap varBase e.value).map fun r => (⟨e.name, r⟩ : Export N)).map fun es =>
      ({ st.out with binds := st.out.binds ++ bs, exports := st.out.exports ++ es }, st.visible)
end

/-- `clone_into` (explain/mod.rs:50-52). -/
def cloneInto (lift : L) (host : Nat → N) (orig out : Scope L P Q N) (importMap : List Ref) : Option (Scope L P Q N × List (Addr × Ref)) := cloneRec lift host orig out importMap []

/-- `clone_identity` (explain/mod.rs:57-66). -/
def cloneIdentity (lift : L) (host : Nat → N) (p : Scope L P Q N) : Option (Scope L P Q N) :=
  (cloneInto lift host p ⟨p.name, p.imports, [], [], [], []⟩ ((List.range p.imports.length).map .imp)).map Prod.fst

end DD.Ir
