import Verif.Model.Reverse

/-!
# Model of how explanations infer the shapes of collections: `site_shapes` in `interactive/src/explain/mod.rs`

A shape is the number of fields of the keys and of the values. The map of shapes is a list of its entries. `none` is a panic.
-/

namespace DD.Ir.Ex
variable {N : Type*}

/-- `field_width` (explain/mod.rs:254-262). -/
def fieldWidth (rows : List Nat) : Term → Nat
  | .spread (.var r) => (rows[r]?).getD 0
  | _ => 1

/-- `proj_arity` (explain/mod.rs:263-265). -/
def projArity (rows : List Nat) : Term → Nat
  | .tuple fields => (fields.map (fieldWidth rows)).sum
  | _ => 1

/-- One operator of `apply_ops_arity` (explain/mod.rs:268-273). -/
def opArity (shape : Nat × Nat) : LinearOp Term → Nat × Nat
  | .project key val => (projArity [shape.1, shape.2] key, projArity [shape.1, shape.2] val)
  | .liftIter => (shape.1, shape.2 + 1)
  | .flatMap _ => (shape.1, 2)
  | _ => shape

/-- `apply_ops_arity` (explain/mod.rs:266-276). -/
def applyOpsArity (shape : Nat × Nat) (ops : List (LinearOp Term)) : Nat × Nat := ops.foldl opArity shape

/-- The shapes that are known. -/
abbrev Shapes := List (Addr × (Nat × Nat))

section
variable (root : XScope N) (fuel : Nat) (src : List (Nat × Nat))

/-- `shape_of_ref` (explain/mod.rs:293-304). -/
def shapeOfRef (path : List Nat) (r : Ref) (shapes : Shapes) : Option (Option (Nat × Nat)) :=
  (resolveRef root fuel path r).bind fun t => match t with
    | .source k => (src[k]?).map some
    | .site a => some (shapes.lookup a)

/-- `find_map` (explain/mod.rs:327). -/
def findShape (path : List Nat) (shapes : Shapes) : List Ref → Option (Option (Nat × Nat))
  | [] => some none
  | r :: rs => (shapeOfRef root fuel src path r shapes).bind fun sh => match sh with
    | some sh => some (some sh)
    | none => findShape path shapes rs

/-- The shape of an operator's output (explain/mod.rs:324-342). -/
def nodeShape (path : List Nat) (shapes : Shapes) : XNode N → Option (Option (Nat × Nat))
  | .linear input ops => (shapeOfRef root fuel src path input shapes).map fun sh => sh.map fun s => applyOpsArity s ops
  | .concat refs => findShape root fuel src path shapes refs
  | .arrange r => shapeOfRef root fuel src path r shapes
  | .inspect r _ => shapeOfRef root fuel src path r shapes
  | .join left right projection => (shapeOfRef root fuel src path left shapes).bind fun l => (shapeOfRef root fuel src path right shapes).map fun r => match l, r with
    | some l, some r => some (projArity [l.1, l.2, r.2] projection.key, projArity [l.1, l.2, r.2] projection.val)
    | _, _ => none
  | .reduce input reducer => (shapeOfRef root fuel src path input shapes).map fun sh => sh.map fun s => match reducer with
    | .distinct => (s.1, 0)
    | .min => s
    | .count => (s.1, 1)
    | .collect => (s.1, 1)

/-- A shape is added if there is none for the address (explain/mod.rs:314-318, 322, 343). -/
def addShape (shapes : Shapes) (a : Addr) (sh : Option (Option (Nat × Nat))) : Option Shapes :=
  if (shapes.lookup a).isSome then some shapes
  else sh.map fun sh => match sh with
    | some sh => (a, sh) :: shapes
    | none => shapes

mutual
/-- `walk_shapes` on an item (explain/mod.rs:320-350). -/
def shapesItem : Item (LinearOp Term) Projection Reducer N → List Nat → Nat → Shapes → Option Shapes
  | .op node, path, i, shapes => addShape shapes ⟨path, .op i⟩ (nodeShape root fuel src path shapes node)
  | .sub child, path, i, shapes => shapesScope child (path ++ [i]) shapes
/-- `walk_shapes` on the items (explain/mod.rs:319-351). -/
def shapesItems : List (Item (LinearOp Term) Projection Reducer N) → List Nat → Nat → Shapes → Option Shapes
  | [], _, _, shapes => some shapes
  | it :: its, path, i, shapes => (shapesItem it path i shapes).bind fun shapes => shapesItems its path (i + 1) shapes
/-- `walk_shapes` (explain/mod.rs:305-352). -/
def shapesScope : ScopeOf N (Item (LinearOp Term) Projection Reducer N) → List Nat → Shapes → Option Shapes
  | ⟨_, _, _, items, binds, _⟩, path, shapes =>
    (binds.foldlM (fun shapes b => addShape shapes ⟨path, .var b.var⟩ (shapeOfRef root fuel src path b.value shapes)) shapes).bind fun shapes => shapesItems items path 0 shapes
end

/-- The loop of `site_shapes` (explain/mod.rs:284-288); the number bounds its rounds. -/
def shapesLoop : Nat → Shapes → Option Shapes
  | 0, _ => none
  | n + 1, shapes => (shapesScope root fuel src root [] shapes).bind fun shapes' => if shapes'.length = shapes.length then some shapes' else shapesLoop n shapes'

/-- `site_shapes` (explain/mod.rs:278-290). -/
def siteShapes (rounds : Nat) : Option Shapes := shapesLoop root fuel src rounds []

/-- `export_shape` (explain/mod.rs:739-746). -/
def exportShape (rounds : Nat) : Option (Nat × Nat) :=
  (siteShapes root fuel src rounds).bind fun shapes => (root.exports.head?).bind fun first => (resolveRef root fuel [] first.value).bind fun t => match t with
    | .site a => shapes.lookup a
    | .source k => src[k]?

end

end DD.Ir.Ex
