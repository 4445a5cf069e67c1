import Verif.Model.Explain
import Verif.Spec.Scalar
import Mathlib.Data.List.ProdSigma

/-!
# What explanations demand

A record of a collection in a scope has a key, a value and a chain of iteration numbers, innermost first. A demand is for a record, on behalf of a query `q`. An operator's demands are traced to the records of its input that can have produced them: those whose iterations are no later, compared from the outermost loop inwards as far as both chains go.
-/

namespace DD.Ir.Ex

/-- A record with the iterations it is in. -/
structure Record where
  key : List Value
  val : List Value
  chain : List Value

/-- A record that is asked for. -/
structure Demand extends Record where
  q : Value

/-- The row of a record. -/
def Record.row (r : Record) : Value × Value := (.tuple r.key, .tuple (r.val ++ r.chain))

/-- The row of a demand. -/
def Demand.row (d : Demand) : Value × Value := (.tuple d.key, .tuple (d.val ++ d.chain ++ [d.q]))

/-- The shape of a record: how many fields the key and the value have, and how deep its scope is. -/
def Record.Shaped (r : Record) (k v n : Nat) : Prop := r.key.length = k ∧ r.val.length = v ∧ r.chain.length = n

/-- No later, from the outermost loop inwards as far as both chains go. -/
def OuterLe (a b : List Value) : Prop := ∀ (i : Nat) (x y : Value), a.reverse[i]? = some x → b.reverse[i]? = some y → x.Less y ∨ x = y

open Classical in
/-- The records that are demanded, each on behalf of the query of the demand. -/
noncomputable def traced (deps : List Demand) (recs : List Record) (produces : Record → Demand → Prop) : List Demand :=
  ((deps ×ˢ recs).filter fun x => produces x.2 x.1 ∧ OuterLe x.2.chain x.1.chain).map fun x => ⟨x.2, x.1.q⟩

open Classical in
/-- The pairs of records that are demanded of a join. -/
noncomputable def tracedJoin (deps : List Demand) (lefts rights : List Record) (produces : Record → Record → Demand → Prop) : List (Demand × Demand) :=
  ((deps ×ˢ (lefts ×ˢ rights)).filter fun x => x.2.1.key = x.2.2.key ∧ produces x.2.1 x.2.2 x.1 ∧ OuterLe x.2.1.chain x.1.chain ∧ OuterLe x.2.2.chain x.1.chain).map
    fun x => (⟨x.2.1, x.1.q⟩, ⟨x.2.2, x.1.q⟩)

/-- The demand at the iteration before, for what a variable was bound to there. -/
def Demand.before (d : Demand) : Option Demand :=
  match d.chain with
  | .int i :: outer => if 0 < i then some ⟨⟨d.key, d.val, .int (i - 1) :: outer⟩, d.q⟩ else none
  | _ => none

mutual
/-- A term that reads rows only as `$r[c]`, for `c` below the row's number of fields, and at most `b` bound values. -/
def Columns (arities : List Nat) : Term → Nat → Prop
  | .var _, _ => False
  | .bound k, b => k < b
  | .int _, _ => True
  | .tuple fields, b => AllColumns arities fields b
  | .list fields, b => AllColumns arities fields b
  | .spread t, b => Columns arities t b
  | .proj (.var r) c, _ => c < (arities[r]?).getD 0
  | .proj t _, b => Columns arities t b
  | .inject tag t, b => Columns arities tag b ∧ Columns arities t b
  | .case scrutinee arms default, b => Columns arities scrutinee b ∧ AllColumns arities arms (b + 1) ∧ OptionColumns arities default b
  | .fold list init step, b => Columns arities list b ∧ Columns arities init b ∧ Columns arities step (b + 2)
  | .ite cond thn els, b => Columns arities cond b ∧ Columns arities thn b ∧ Columns arities els b
  | .unary _ t, b => Columns arities t b
  | .binary _ l r, b => Columns arities l b ∧ Columns arities r b
  | .hash args, b => AllColumns arities args b
/-- All terms are. -/
def AllColumns (arities : List Nat) : List Term → Nat → Prop
  | [], _ => True
  | t :: ts, b => Columns arities t b ∧ AllColumns arities ts b
/-- An optional term is. -/
def OptionColumns (arities : List Nat) : Option Term → Nat → Prop
  | none, _ => True
  | some t, b => Columns arities t b
end

/-- A side of a projection: a tuple whose fields are whole rows `...$r`, or read columns only. -/
def Plain (arities : List Nat) (t : Term) : Prop :=
  ∃ fields, t = .tuple fields ∧ ∀ x ∈ fields, (∃ r, r < arities.length ∧ x = .spread (.var r)) ∨ Columns arities x 0

end DD.Ir.Ex
