import Verif.Model.Linear
import Mathlib.Order.Nat

/-!
# Model of `operators/iterate.rs`

A `Variable` connects streams, so each of its methods is a function of streams, and the loop is the equation that these functions make of the stream that the loop's body produces.
Times are pairs of an outer time and a round, a `u64` in the code. `step` is `Product::new(Default::default(), 1)`, whose outer part keeps times.
-/

namespace DD
variable {D T R : Type*}

/-- The greatest round, `u64::MAX`. -/
def maxRound : Nat := 2 ^ 64 - 1

/-- `results_in` of the summary `Product::new(Default::default(), 1)` (iterate.rs:94, 115): the round is added to by `checked_add`. -/
def nextRound (t : T × Nat) : Option (T × Nat) := if t.2 < maxRound then some (t.1, t.2 + 1) else none

/-- timely's feedback operator: messages are passed on at their capability's time advanced by the step, and dropped if it gives nothing. -/
def Msgs.feedback (step : T → Option T) (ms : Msgs D T R) : Msgs D T R := List.filterMap (fun m => (step m.1).map fun t => (t, m.2)) ms

/-- `Variable` (iterate.rs:192-200). The feedback handle is a connection, made by `set`. -/
structure Variable (D T R : Type*) where
  source : Option (Msgs D T R)
  step : T → Option T

/-- `Variable::new` (iterate.rs:221-225). The feedback's stream is an argument. -/
def Variable.new (step : T → Option T) (updates : Msgs D T R) : Variable D T R × Msgs D T R := (⟨none, step⟩, updates)

/-- `Variable::new_from` (iterate.rs:252-256). -/
def Variable.new_from [Neg R] (source : Msgs D T R) (step : T → Option T) (updates : Msgs D T R) : Variable D T R × Msgs D T R :=
  let collection := updates.concat source
  (⟨some source.negate, step⟩, collection)

/-- `Variable::set` (iterate.rs:262-270): the feedback's stream. -/
def Variable.set (v : Variable D T R) (result : Msgs D T R) : Msgs D T R :=
  let result := match v.source with
    | some source => result.concat source
    | none => result
  (result.results_in v.step).feedback v.step

/-- What the closure of `iterate` on a collection receives (iterate.rs:82-99), once `result` is what it has returned: the loop is closed by this equation. -/
def iterateReceives [Neg R] (source : Msgs D T R) (result : Msgs D (T × Nat) R) : Msgs D (T × Nat) R :=
  let updates := Variable.set (Variable.new_from source.enter nextRound []).1 result
  (Variable.new_from source.enter nextRound updates).2

/-- What the closure of `iterate` on a scope receives (iterate.rs:103-121). -/
def iterateScopeReceives (result : Msgs D (T × Nat) R) : Msgs D (T × Nat) R :=
  let updates := Variable.set (Variable.new nextRound []).1 result
  (Variable.new nextRound updates).2

/-- What `iterate` returns (iterate.rs:97, 118). -/
def iterateReturns (result : Msgs D (T × Nat) R) : Msgs D T R := result.leave

end DD
