import Verif.Spec.Iterate
import Verif.Model.Coll

/-!
# What streams come to hold

A stream that grows is the sequence of its updates so far, by moments. Programs are described by how their streams come to hold collections.
-/

namespace DD
variable {D D1 D2 T : Type*}

/-- The collection of a stream at a time. -/
def collectionAt [LE T] [DecidableLE T] (us : Upds D T Int) (q : T) : Coll D := (upTo q us).map fun u => (u.1, u.2.2)

/-- Sooner or later the stream has all its updates at times at or before `q`, and they accumulate to the collection `c`. -/
def Holds [DecidableEq D] [LE T] [DecidableLE T] (s : Nat → Upds D T Int) (q : T) (c : Coll D) : Prop := ∃ n, Settled s n q ∧ ∀ d, accum (s n) d q = weight c d

/-- An operator that computes the function `f` of collections, at each time for itself. -/
def Op1 [DecidableEq D1] [DecidableEq D] [LE T] [DecidableLE T] (f : Coll D1 → Coll D) (input : Nat → Upds D1 T Int) (output : Nat → Upds D T Int) : Prop :=
  ∀ q c, Holds input q c → Holds output q (f c)

/-- An operator with two inputs. -/
def Op2 [DecidableEq D1] [DecidableEq D2] [DecidableEq D] [LE T] [DecidableLE T] (f : Coll D1 → Coll D2 → Coll D) (input1 : Nat → Upds D1 T Int) (input2 : Nat → Upds D2 T Int)
    (output : Nat → Upds D T Int) : Prop := ∀ q c1 c2, Holds input1 q c1 → Holds input2 q c2 → Holds output q (f c1 c2)

/-- A stream brought into an iterative scope: it is there from the first round. -/
def Enters [DecidableEq D] [LE T] [DecidableLE T] (outer : Nat → Upds D T Int) (inner : Nat → Upds D (T × Nat) Int) : Prop :=
  ∀ t i c, Holds outer t c → Holds inner (t, i) c

/-- A stream brought into an iterative scope with a first round for each record. -/
def EntersAt [DecidableEq D] [LE T] [DecidableLE T] (initial : D → Nat) (outer : Nat → Upds D T Int) (inner : Nat → Upds D (T × Nat) Int) : Prop :=
  ∀ t i c, Holds outer t c → Holds inner (t, i) (c.filter fun d => initial d ≤ i)

/-- Once a stream is complete for a time, no updates cancel. -/
def Tidy [DecidableEq D] [DecidableEq T] [LE T] [DecidableLE T] (s : Nat → Upds D T Int) : Prop :=
  ∀ n q, Settled s n q → ∃ n', Settled s n' q ∧ ∀ u ∈ s n', u.2.1 ≤ q → total (s n') u.1 u.2.1 ≠ 0

end DD
