import Verif.Model.Reverse
import Verif.Spec.Clone

/-!
# What explanations ask for

The demand for a collection comes from the operators that read it, from the variables bound to it, and, for the first export, from the query. Which collection a reference names is given by the scopes:
an import names what its parent gives it, and an export of a child names what the child exports.
-/

namespace DD.Ir.Ex
variable {N : Type*}

/-- The reference, in the scope at `path`, names the target. -/
inductive Names (root : XScope N) : List Nat → Ref → Target → Prop
  | loc (path i) : Names root path (.loc i) (.site ⟨path, .op i⟩)
  | var (path v) : Names root path (.var v) (.site ⟨path, .var v⟩)
  | source (k) : Names root [] (.imp k) (.source k)
  | imp (path c k s name r t) : scopeAt root (path ++ [c]) = some s → s.imports[k]? = some ⟨name, .parent r⟩ → Names root path r t → Names root (path ++ [c]) (.imp k) t
  | childExport (path c j s name r t) : scopeAt root (path ++ [c]) = some s → s.exports[j]? = some ⟨name, r⟩ → Names root (path ++ [c]) r t → Names root path (.childExport c j) t

section
variable (env : RevEnv N)

/-- How deep the scope of a target is. -/
def Target.depth : Target → Nat
  | .site a => a.path.length
  | .source _ => 0

/-- The shape of a target's records. -/
def RevEnv.shapeOf : Target → Option (Nat × Nat)
  | .site a => env.shapes a
  | .source k => env.sourceShapes[k]?

/-- What the rules look demands up in: the records of a target in the two copies of the program. -/
def Input (t : Target) (side : SideInfo) : Prop := side.pair = env.pair t ∧ env.shapeOf t = some side.shape ∧ side.userLen = t.depth

/-- A demand, for a collection in a scope of depth `len`, is brought to the depth of `t`. -/
def Routed (t : Target) (len : Nat) (c c' : RowColl) : Prop :=
  (t.depth = len ∧ c' = c) ∨ (t.depth ≠ len ∧ ∃ side, Input env t side ∧ shapePreservingLookup env.norm c side len = some c')

/-- The demand for the output of an operator, which has the shape `shape` and is in the scope at `path`, is traced to `c`, of the input `r`, by the rule of the operator (C72). -/
inductive Traces (path : List Nat) (shape : Nat × Nat) (dep : RowColl) : XNode N → Ref → Target → RowColl → Prop
  | project (r t side key val c) : Input env t side → lossyLookup env.norm dep side shape path.length ⟨key, val⟩ = some c → Traces path shape dep (.linear r [.project key val]) r t c
  | filter (r t cond c c') : filterLookup env.norm dep cond = some c → Routed env t path.length c c' → Traces path shape dep (.linear r [.filter cond]) r t c'
  | negate (r t c) : Routed env t path.length dep c → Traces path shape dep (.linear r [.negate]) r t c
  | enterAt (r t field c) : Routed env t path.length dep c → Traces path shape dep (.linear r [.enterAt field]) r t c
  | flatMap (r t side list c) : Input env t side → flatMapLookup env.norm dep side shape path.length list = some c → Traces path shape dep (.linear r [.flatMap list]) r t c
  | concat (refs r t side c) : r ∈ refs → Input env t side → shapePreservingLookup env.norm dep side path.length = some c → Traces path shape dep (.concat refs) r t c
  | arrange (r t c) : Routed env t path.length dep c → Traces path shape dep (.arrange r) r t c
  | inspect (r t label c) : Routed env t path.length dep c → Traces path shape dep (.inspect r label) r t c
  | reduce (r t side reducer c) : Input env t side → keyedLookup env.norm dep side shape path.length (decide (reducer = .min)) = some c → Traces path shape dep (.reduce r reducer) r t c
  | left (l r lt rt ls rs projection c) : Input env lt ls → Names env.root path r rt → Input env rt rs → joinLookup env.norm dep ls rs shape path.length projection = some c →
      Traces path shape dep (.join l r projection) l lt c.1
  | right (l r lt rt ls rs projection c) : Input env lt ls → Names env.root path l lt → Input env rt rs → joinLookup env.norm dep ls rs shape path.length projection = some c →
      Traces path shape dep (.join l r projection) r rt c.2

/-- What is asked of the target `t`, if `D` is what is asked of the operators. -/
inductive AskedOf (query : RowColl) (D : Addr → Option RowColl) (t : Target) : RowColl → Prop
  | query (first c) : env.root.exports.head? = some first → Names env.root [] first.value t → Routed env t 0 query c → AskedOf query D t c
  | bind (path s b shape c c') : scopeAt env.root path = some s → b ∈ s.binds → Names env.root path b.value t → env.shapes ⟨path, .var b.var⟩ = some shape →
      bindLookup env.norm (env.vars ⟨path, .var b.var⟩) shape.1 shape.2 path.length = some c → Routed env t path.length c c' → AskedOf query D t c'
  | op (path s i node r shape dep c) : scopeAt env.root path = some s → s.items[i]? = some (.op node) → Names env.root path r t → D ⟨path, .op i⟩ = some dep →
      env.shapes ⟨path, .op i⟩ = some shape → Traces env path shape dep node r t c → AskedOf query D t c

end

end DD.Ir.Ex
