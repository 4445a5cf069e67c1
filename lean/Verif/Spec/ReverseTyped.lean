import Verif.Spec.Reverse
import Verif.Spec.Explain

/-!
# Programs whose explanations do not panic

The rows of each collection have a shape and iteration numbers. `good` says what is known about the fields of a collection's records, such as their types, so that terms that are evaluated on them have values.
-/

namespace DD.Ir.Ex
variable {N : Type*} (env : RevEnv N) (good : Target → List Value → List Value → Prop)

/-- Iteration numbers. -/
def Counted (chain : List Value) : Prop := ∀ x ∈ chain, ∃ i : Int, x = .int i ∧ i < 2 ^ 63

/-- The rows are demands for records of the shape, in a scope of depth `n`, with what `ok` says. -/
def DemandRows (k v n : Nat) (ok : List Value → List Value → Prop) (c : RowColl) : Prop :=
  ∀ r ∈ c, ∃ d : Demand, r = d.row ∧ d.Shaped k v n ∧ Counted d.chain ∧ ok d.key d.val

/-- The rows are records. -/
def RecordRows (k v n : Nat) (ok : List Value → List Value → Prop) (c : RowColl) : Prop :=
  ∀ r ∈ c, ∃ d : Record, r = d.row ∧ d.Shaped k v n ∧ Counted d.chain ∧ ok d.key d.val

/-- The rows are demands for records of the target. -/
def Asks (t : Target) (c : RowColl) : Prop := ∃ k v, env.shapeOf t = some (k, v) ∧ DemandRows k v t.depth (good t) c

/-- The reference is to a collection of the same shape, and what is known of the output is known of it. -/
def Same (path : List Nat) (i : Nat) (shape : Nat × Nat) (r : Ref) : Prop :=
  ∀ t, Names env.root path r t → env.shapeOf t = some shape ∧ ∀ a b, good (.site ⟨path, .op i⟩) a b → good t a b

/-- What the rule of an operator needs. -/
def OpTyped (path : List Nat) (i : Nat) (shape : Nat × Nat) : XNode N → Prop
  | .linear r [.project key _] => ∀ t k v, Names env.root path r t → env.shapeOf t = some (k, v) → Plain [k, v] key ∧ ∀ a b, good t a b → (denote env.norm [.tuple a, .tuple b] key []).isSome
  | .linear r [.filter cond] => Same env good path i shape r ∧ Columns [shape.1, shape.2] cond 0 ∧ ∀ a b, good (.site ⟨path, .op i⟩) a b → (denote env.norm [.tuple a, .tuple b] cond []).isSome
  | .linear r [.negate] => Same env good path i shape r
  | .linear r [.enterAt _] => Same env good path i shape r
  | .linear r [.flatMap list] => shape.2 = 2 ∧ ∀ t k v, Names env.root path r t → env.shapeOf t = some (k, v) → t.depth = path.length ∧ Columns [0, v] list 0 ∧
      ∀ a b, good t a b → ∃ xs, denote env.norm [.tuple a, .tuple b] list [] = some (.list xs)
  | .linear _ _ => False
  | .concat refs => ∀ r ∈ refs, ∀ t, Names env.root path r t → env.shapeOf t = some shape
  | .arrange r => Same env good path i shape r
  | .inspect r _ => Same env good path i shape r
  | .reduce _ _ => True
  | .join l r proj => ∀ lt rt k v k' w, Names env.root path l lt → Names env.root path r rt → env.shapeOf lt = some (k, v) → env.shapeOf rt = some (k', w) →
      k' = k ∧ Plain [k, v, w] proj.key ∧ Plain [k, v, w] proj.val ∧ ∀ a b c, good lt a b → good rt a c → (denote env.norm [.tuple a, .tuple b, .tuple c] proj.key []).isSome ∧
        ∃ vs, denote env.norm [.tuple a, .tuple b, .tuple c] proj.val [] = some (.tuple vs) ∧ vs.length = shape.2

/-- The program, its shapes and the records of its copies fit. -/
structure Typed : Prop where
  norm : ∀ i : Int, 0 ≤ i → i < 2 ^ 63 → env.norm i = some i
  rootVars : env.root.vars = []
  shapes : ∀ path s r t, scopeAt env.root path = some s → r ∈ refsOf s → Names env.root path r t → ∃ shape, env.shapeOf t = some shape
  pairs : ∀ t k v, env.shapeOf t = some (k, v) → RecordRows k v t.depth (good t) (env.pair t)
  vars : ∀ path s v, scopeAt env.root path = some s → v < s.vars.length → Asks env good (.site ⟨path, .var v⟩) (env.vars ⟨path, .var v⟩)
  binds : ∀ path s b t, scopeAt env.root path = some s → b ∈ s.binds → Names env.root path b.value t →
    env.shapeOf t = env.shapes ⟨path, .var b.var⟩ ∧ ∀ x y, good (.site ⟨path, .var b.var⟩) x y → good t x y
  ops : ∀ path s i node, scopeAt env.root path = some s → s.items[i]? = some (.op node) → ∃ shape, env.shapes ⟨path, .op i⟩ = some shape ∧ OpTyped env good path i shape node

end DD.Ir.Ex
