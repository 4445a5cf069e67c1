import Verif.Spec.Reverse
import Verif.Spec.Scalar
import Verif.Model.Shapes

/-!
# The records collections can have, and flat programs

`CanHold` gives each collection all records that its operator makes of records that its inputs can have, whatever the iterations, the times and the counts. So it has all records that a run has at some time.
-/

namespace DD.Ir.Ex
variable {N : Type*}

/-- The record is a key of `k` fields and a value of `v` fields. -/
def HasShape (k v : Nat) (r : Value × Value) : Prop := ∃ ks vs, r = (.tuple ks, .tuple vs) ∧ ks.length = k ∧ vs.length = v

/-- What a step of a linear operator makes of a record. -/
def OpGives (norm : Overflow) : LinearOp Term → Value × Value → Value × Value → Prop
  | .project key val, r, r' => denote norm [r.1, r.2] key [] = some r'.1 ∧ denote norm [r.1, r.2] val [] = some r'.2
  | .filter cond, r, r' => r' = r ∧ ∃ x, denote norm [r.1, r.2] cond [] = some x ∧ x.truthy = true
  | .negate, r, r' => r' = r
  | .enterAt _, r, r' => r' = r
  | .liftIter, r, r' => r'.1 = r.1 ∧ ∃ i : Int, (∃ xs, r.2 = .tuple xs ∧ r'.2 = .tuple (xs ++ [.int i])) ∨ ((∀ xs, r.2 ≠ .tuple xs) ∧ r'.2 = .tuple [r.2, .int i])
  | .flatMap list, r, r' => ∃ xs i e, denote norm [r.1, r.2] list [] = some (.list xs) ∧ xs[i]? = some e ∧ r' = (r.1, .tuple [.int (i : Nat), e])

/-- What a linear operator makes of a record. -/
def OpsGive (norm : Overflow) : List (LinearOp Term) → Value × Value → Value × Value → Prop
  | [], r, r' => r' = r
  | op :: ops, r, r' => ∃ m, OpGives norm op r m ∧ OpsGive norm ops m r'

/-- The records that collections can have, if the sources can have `sources`. -/
inductive CanHold (norm : Overflow) (root : XScope N) (sources : Nat → Value × Value → Prop) : Target → Value × Value → Prop
  | source (k r) : sources k r → CanHold norm root sources (.source k) r
  | var (path s b t r) : scopeAt root path = some s → b ∈ s.binds → Names root path b.value t → CanHold norm root sources t r → CanHold norm root sources (.site ⟨path, .var b.var⟩) r
  | linear (path s i input ops t r r') : scopeAt root path = some s → s.items[i]? = some (.op (.linear input ops)) → Names root path input t → CanHold norm root sources t r → OpsGive norm ops r r' →
      CanHold norm root sources (.site ⟨path, .op i⟩) r'
  | concat (path s i refs input t r) : scopeAt root path = some s → s.items[i]? = some (.op (.concat refs)) → input ∈ refs → Names root path input t → CanHold norm root sources t r →
      CanHold norm root sources (.site ⟨path, .op i⟩) r
  | arrange (path s i input t r) : scopeAt root path = some s → s.items[i]? = some (.op (.arrange input)) → Names root path input t → CanHold norm root sources t r →
      CanHold norm root sources (.site ⟨path, .op i⟩) r
  | inspect (path s i input label t r) : scopeAt root path = some s → s.items[i]? = some (.op (.inspect input label)) → Names root path input t → CanHold norm root sources t r →
      CanHold norm root sources (.site ⟨path, .op i⟩) r
  | join (path s i left right projection lt rt key a b r) : scopeAt root path = some s → s.items[i]? = some (.op (.join left right projection)) → Names root path left lt → Names root path right rt →
      CanHold norm root sources lt (key, a) → CanHold norm root sources rt (key, b) → denote norm [key, a, b] projection.key [] = some r.1 → denote norm [key, a, b] projection.val [] = some r.2 →
      CanHold norm root sources (.site ⟨path, .op i⟩) r
  | reduce (path s i input red t key vals out) : scopeAt root path = some s → s.items[i]? = some (.op (.reduce input red)) → Names root path input t → vals ≠ [] →
      (∀ p ∈ vals, CanHold norm root sources t (key, p.1)) → out ∈ reducer red vals → CanHold norm root sources (.site ⟨path, .op i⟩) (key, out.1)

/-- The term makes a tuple of fields, each a single value or all the fields of one of the first `n` rows. -/
def Flat (n : Nat) (t : Term) : Prop := ∃ fields, t = .tuple fields ∧ ∀ x ∈ fields, (∃ r, r < n ∧ x = .spread (.var r)) ∨ ∀ u, x ≠ .spread u

/-- The operator does not collect lists, and its projections are flat. -/
def FlatNode : XNode N → Prop
  | .linear _ ops => ∀ key val, LinearOp.project key val ∈ ops → Flat 2 key ∧ Flat 2 val
  | .join _ _ projection => Flat 3 projection.key ∧ Flat 3 projection.val
  | .reduce _ red => red ≠ .collect
  | _ => True

/-- The shape of a collection. -/
def shapeIn (src : List (Nat × Nat)) (shapes : Shapes) : Target → Option (Nat × Nat)
  | .site a => shapes.lookup a
  | .source k => src[k]?

/-- What is concatenated has the same shape. -/
def ConcatsAgree (root : XScope N) (shape : Target → Option (Nat × Nat)) : Prop :=
  ∀ path s (i : Nat) refs r r' t t' sh sh', scopeAt root path = some s → s.items[i]? = some (.op (.concat refs)) → r ∈ refs → r' ∈ refs → Names root path r t → Names root path r' t' →
    shape t = some sh → shape t' = some sh' → sh = sh'

end DD.Ir.Ex
