import Verif.Model.ScopeIr
import Verif.Model.Dynamic

/-!
# Model of linear operators on vectors of `interactive`: `render_linear` in `interactive/src/backend/vec.rs`

Terms are of a type `E` with an evaluation on a key and a value, `none` where evaluation panics. A collection is the list of its updates, `none` if an operator panicked.
-/

namespace DD.Ir

/-- `Value` (ir.rs:19-25). -/
inductive Value where
  | int (n : Int)
  | tuple (xs : List Value)
  | variant (tag : Nat) (v : Value)
  | list (xs : List Value)

/-- `Value::truthy` (ir.rs:31). -/
def Value.truthy : Value → Bool
  | .int n => n ≠ 0
  | _ => false

/-- `Value::as_int` (ir.rs:33). -/
def Value.asInt : Value → Option Int
  | .int n => some n
  | _ => none

/-- `LinearOp` (ir.rs:38-54); a projection is a term for the key and one for the value. -/
inductive LinearOp (E : Type*) where
  | project (key val : E)
  | filter (cond : E)
  | negate
  | enterAt (field : E)
  | liftIter
  | flatMap (list : E)
deriving DecidableEq

/-- `Time` (ir.rs:9). -/
abbrev VTime := Nat × PS Nat

/-- `Time::minimum()`. -/
def tmin : VTime := (0, ⟨PointStamp.minimum, norm_new _⟩)

/-- A record with its time and difference. -/
abbrev VRec := (Value × Value) × VTime × Int

/-- `64 - raw.leading_zeros()` for the 64 bits of an `i64` (vec.rs:74-75). -/
def bits64 (n : Int) : Nat := if n < 0 then 64 else if n = 0 then 0 else Nat.log2 n.toNat + 1

/-- `append_iter` (vec.rs:33-38). -/
def appendIter (v : Value) (iter : Nat) : Value := match v with
  | .tuple xs => .tuple (xs ++ [.int iter])
  | other => .tuple [other, .int iter]

/-- `iter_at_level` (vec.rs:49-52). -/
def iterAtLevel (level : Nat) (t : VTime) : Nat := match level with
  | 0 => 0
  | idx + 1 => (t.2.1.vector[idx]?).getD 0

/-- The time made by `EnterAt` (vec.rs:77-80). -/
def enterAtTime (level delay : Nat) : VTime := (0, ⟨PointStamp.new (List.replicate (level - 1) 0 ++ [delay]), norm_new _⟩)

variable {E : Type*} (ev : E → Value → Value → Option Value)

/-- The elements of a list with their positions (vec.rs:95-97). -/
def enumerate (xs : List Value) : List Value := xs.zipIdx.map fun p => .tuple [.int p.2, p.1]

/-- One operator on one intermediate result (vec.rs:57-99). -/
def linearOp (level iter : Nat) (op : LinearOp E) (r : VRec) : Option (List VRec) :=
  match op with
  | .project key val => (ev key r.1.1 r.1.2).bind fun nk => (ev val r.1.1 r.1.2).map fun nv => [((nk, nv), r.2.1, r.2.2)]
  | .filter cond => (ev cond r.1.1 r.1.2).map fun keep => if keep.truthy then [(r.1, r.2.1, r.2.2)] else []
  | .negate => some [(r.1, r.2.1, -r.2.2)]
  | .enterAt field => (ev field r.1.1 r.1.2).bind fun raw => raw.asInt.map fun n => [(r.1, enterAtTime level (256 * bits64 n), r.2.2)]
  | .liftIter => some [((r.1.1, appendIter r.1.2 iter), r.2.1, r.2.2)]
  | .flatMap list => (ev list r.1.1 r.1.2).bind fun v => match v with
    | .list xs => some ((enumerate xs).map fun e => ((r.1.1, e), r.2.1, r.2.2))
    | _ => none

/-- `flat_map` with an operator that may panic. -/
def flatMapM {A B : Type*} (f : A → Option (List B)) (l : List A) : Option (List B) := (l.mapM f).map List.flatten

/-- The loop over operators (vec.rs:54-101). -/
def linearOps (level iter : Nat) : List (LinearOp E) → List VRec → Option (List VRec)
  | [], results => some results
  | op :: ops, results => (flatMapM (linearOp ev level iter op) results).bind (linearOps level iter ops)

/-- The closure of `render_linear` on one update (vec.rs:47-102). -/
def linearOne (level : Nat) (ops : List (LinearOp E)) (r : VRec) : Option (List VRec) :=
  (linearOps ev level (iterAtLevel level r.2.1) ops [(r.1, tmin, 1)]).map (List.map fun x => (x.1, r.2.1 ⊔ x.2.1, r.2.2 * x.2.2))

/-- `render_linear` (vec.rs:43-104). -/
def renderLinear (level : Nat) (ops : List (LinearOp E)) (c : Option (List VRec)) : Option (List VRec) := c.bind (flatMapM (linearOne ev level ops))

end DD.Ir
