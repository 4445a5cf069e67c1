import Verif.Spec.HalfJoin
import Verif.Spec.JoinOp
import Verif.Model.Calculus
import Verif.Proofs.Lattice
import Mathlib.Algebra.BigOperators.Ring.Finset
import Mathlib.Data.Fintype.Pi
import Mathlib.Data.Fintype.BigOperators
import Mathlib.Data.Finset.Lattice.Fold

/-!
# Delta queries

A query joins relations indexed by `ι`. A delta query has one path for each relation: it starts with the changes to that relation and looks up the other relations in some order, so that
a partial assignment of records to relations grows. This file fixes what the query means, and what the paths compute in terms of what half joins and joins mean.
-/

namespace DD
variable {ι K D T R O : Type*} [DecidableEq ι]

/-- Partial assignments of records to relations. -/
abbrev Assign (ι D : Type*) := ι → Option D

/-- A combination of updates, one of each relation. -/
abbrev Combo (rels : ι → Upds D T R) := ∀ i, Fin (rels i).length

/-- The update of a combination for one relation. -/
def Combo.upd {rels : ι → Upds D T R} (c : Combo rels) (i : ι) : D × T × R := (rels i)[c i]

/-- The difference of the record `o` at time `t` in the query's answer: the sum, over all combinations of updates the join of whose times is `t`, of the product of their differences,
times the number of times the combination produces `o`. -/
def queryTotal [Fintype ι] [DecidableEq O] [Lattice T] [OrderBot T] [DecidableEq T] [CommSemiring R] (rels : ι → Upds D T R) (out : Assign ι D → List O) (o : O) (t : T) : R :=
  ∑ c : Combo rels, if (Finset.univ.sup fun i => (c.upd i).2.1) = t then (out fun i => some (c.upd i).1).count o • ∏ i, (c.upd i).2.2 else 0

/-- How the path of a relation looks up another relation: the key in terms of the assignment so far, and the key by which the relation is arranged. -/
structure Lookup (ι K D : Type*) where
  rel : ι
  keyOf : Assign ι D → K
  arrKey : D → K

/-- The path of a relation: the lookups in order. -/
abbrev Path (ι K D : Type*) := List (Lookup ι K D)

/-- Each path visits the other relations, each once. -/
def VisitsOthers [Fintype ι] (paths : ι → Path ι K D) : Prop := ∀ i, ((i :: (paths i).map Lookup.rel).Nodup ∧ ∀ j, j ∈ i :: (paths i).map Lookup.rel)

/-- The keys agree along a path, when all records are given. -/
def KeysAgree (d : ι → D) : Assign ι D → Path ι K D → Prop
  | _, [] => True
  | pre, l :: ls => l.keyOf pre = l.arrKey (d l.rel) ∧ KeysAgree d (Function.update pre l.rel (some (d l.rel))) ls

/-- No record assigned but one. -/
def Assign.only (i : ι) (d : D) : Assign ι D := Function.update (fun _ => none) i (some d)

/-- The lookups of all paths are right for the query: combinations on whose keys they disagree contribute nothing. -/
def KeysRight (paths : ι → Path ι K D) (out : Assign ι D → List O) : Prop :=
  ∀ i (d : ι → D), ¬ KeysAgree d (Assign.only i (d i)) (paths i) → out (fun j => some (d j)) = []

/-! ### Paths of half joins -/

section
variable [DecidableEq K] [Max T] [Mul R]

/-- The changes to a relation, each with its time as payload, as in the example `delta_query2.rs`. -/
def changesOf (i : ι) (us : Upds D T R) : Upds (Assign ι D × T) T R := us.map fun u => ((Assign.only i u.1, u.2.1), u.2.1, u.2.2)

/-- One half join: the assignments are keyed, and extended by the records of the relation, arranged by key, whose times compare before the initial time. -/
def deltaStep (comparison : T → T → Bool) (rels : ι → Upds D T R) (l : Lookup ι K D) (us : Upds (Assign ι D × T) T R) : Upds (Assign ι D × T) T R :=
  halfMatches comparison (fun _ pre d => Function.update pre l.rel (some d)) (· * ·) (us.map fun u => (toLex (l.keyOf u.1.1, toLex (u.1.1, toLin u.1.2)), u.2.1, u.2.2))
    ((rels l.rel).map fun u => ((l.arrKey u.1, u.1), u.2))

/-- A path of half joins, of the changes to relation `i`. -/
def deltaPath (comparison : ι → ι → T → T → Bool) (rels : ι → Upds D T R) (i : ι) (path : Path ι K D) : Upds (Assign ι D × T) T R :=
  path.foldl (fun us l => deltaStep (comparison i l.rel) rels l us) (changesOf i (rels i))

/-- The answer: the outputs of all paths, delayed to the time in their payload, each complete assignment mapped to the records it produces. -/
def deltaQuery [Fintype ι] (comparison : ι → ι → T → T → Bool) (rels : ι → Upds D T R) (paths : ι → Path ι K D) (out : Assign ι D → List O) (order : List ι) : Upds O T R :=
  order.flatMap fun i => (deltaPath comparison rels i (paths i)).flatMap fun u => (out u.1.1).map fun o => (o, u.1.2, u.2.2)

end

/-- A chain of half joins that starts with `us` and ends with `ws`: what each of them sends adds up to what it owes for what it received. -/
def DeltaChain [DecidableEq K] [DecidableEq D] [Fintype ι] [Lattice T] [DecidableEq T] [CommSemiring R] (comparison : ι → T → T → Bool) (rels : ι → Upds D T R) :
    Path ι K D → Upds (Assign ι D × T) T R → Upds (Assign ι D × T) T R → Prop
  | [], us, ws => ∀ x i, total ws x i = total us x i
  | l :: ls, us, ws => ∃ mid, (∀ x i, total mid x i = total (deltaStep (comparison l.rel) rels l us) x i) ∧ DeltaChain comparison rels ls mid ws

/-- The collection that outputs with payload times stand for: each update at its payload time. -/
def atPayload (us : Upds (O × T) T R) : Upds O T R := us.map fun u => (u.1.1, u.1.2, u.2.2)

/-- The changes to a collection, as proposals, each with its time as payload. -/
def proposalsOf {V : Type*} (us : Upds (K × V) T R) : Upds (PropData K V T) T R := us.map fun u => (toLex (u.1.1, toLex (u.1.2, toLin u.2.1)), u.2.1, u.2.2)

/-- Compare strictly with earlier relations and weakly with later ones, in the total order of times. -/
def strictEarlier [LinearOrder (Lin T)] [LT ι] [DecidableRel (α := ι) (· < ·)] (i j : ι) (s t : T) : Bool := if j < i then toLin s < toLin t else toLin s ≤ toLin t

/-! ### Paths of joins in Alt/Neu times -/

section
variable [DecidableEq K] [Lattice T] [DecidableEq T] [Mul R] [Neg R]

/-- One join: the relation, arranged by key, enters at alt times or at neu times. -/
def altNeuStep (neu : Bool) (rels : ι → Upds D T R) (l : Lookup ι K D) (us : Upds (Assign ι D) (AltNeu T) R) : Upds (Assign ι D) (AltNeu T) R :=
  nestedJoin (fun _ pre d => [Function.update pre l.rel (some d)]) (· * ·) (us.map fun u => ((l.keyOf u.1, u.1), u.2))
    ((rels l.rel).map fun u => ((l.arrKey u.1, u.1), ⟨u.2.1, neu⟩, u.2.2))

/-- A path of joins, of the differentiated relation `i`. -/
def altNeuPath (neu : ι → ι → Bool) (rels : ι → Upds D T R) (i : ι) (path : Path ι K D) : Upds (Assign ι D) (AltNeu T) R :=
  path.foldl (fun us l => altNeuStep (neu i l.rel) rels l us) (differentiate ((rels i).map fun u => (Assign.only i u.1, u.2)))

/-- The answer: the outputs of all paths, each complete assignment mapped to the records it produces, integrated. -/
def altNeuQuery (neu : ι → ι → Bool) (rels : ι → Upds D T R) (paths : ι → Path ι K D) (out : Assign ι D → List O) (order : List ι) : Upds O T R :=
  integrate (order.flatMap fun i => (altNeuPath neu rels i (paths i)).flatMap fun u => (out u.1).map fun o => (o, u.2))

end

end DD
