import Verif.Model.Iterate
import Verif.Proofs.PointStamp

/-!
# Model of the operators in `dynamic/mod.rs`, and of a loop made with them

Times are `Product<TOuter, PointStamp<u64>>`: pairs of an outer time and a point stamp with no trailing minima (`PS`), the only ones a program can make. Coordinates are natural numbers, with
the summaries of `u64`. `Default::default()` as the summary of the outer time keeps it.
-/

namespace DD
variable {D T R : Type*}

/-- timely's summaries for `u64`: `checked_add`, so `None` when the sum does not fit. Adding zero to a `u64` fits. -/
structure U64Step where
  by_ : Nat
deriving DecidableEq

instance : PathSummary U64Step Nat where
  results_in a t := if a.by_ = 0 ∨ t + a.by_ ≤ maxRound then some (t + a.by_) else none
  followed_by a b := if a.by_ + b.by_ ≤ maxRound then some ⟨a.by_ + b.by_⟩ else none

/-- `results_in` of `Product { outer: Default::default(), inner: s }` at a time. The inner time is normal because `PointStampSummary::results_in` ends with `PointStamp::new`. -/
def dynResultsIn (s : PointStampSummary U64Step) (t : T × PS Nat) : Option (T × PS Nat) :=
  match h : s.results_in t.2.1 with
  | none => none
  | some p => some (t.1, ⟨p, PointStampSummary.results_in_norm h⟩)

/-- `enter_dynamic` (dynamic/mod.rs:36-38). -/
def Msgs.enter_dynamic (_level : Nat) (ms : Msgs D (T × PS Nat) R) : Msgs D (T × PS Nat) R := ms

/-- What `leave_dynamic` does to a time (dynamic/mod.rs:50-53, 56-58): `truncate(level - 1)`, then `PointStamp::new`. -/
def leaveTime (level : Nat) (t : T × PS Nat) : T × PS Nat := (t.1, ⟨leaveDynamic level t.2.1, norm_new _⟩)

/-- `leave_dynamic` (dynamic/mod.rs:40-65): each message for itself. `cap.delayed(&new_time, 0)` panics unless the connection declared when the operator was built, applied to the capability's
time, gives a time at or before `new_time`; here the whole run is then `none`. -/
def Msgs.leave_dynamic [LE T] [DecidableLE T] (level : Nat) : Msgs D (T × PS Nat) R → Option (Msgs D (T × PS Nat) R)
  | [] => some []
  | (cap, data) :: ms =>
    let new_time := leaveTime level cap
    match dynResultsIn (leaveSummary level) cap with
    | none => none
    | some s =>
      if s ≤ new_time then
        (leave_dynamic level ms).map fun out => (new_time, data.map fun (d, t, r) => (d, leaveTime level t, r)) :: out
      else none

/-- `Product { outer: Default::default(), inner: feedback_summary(level, 1) }` (dynamic/mod.rs:69-77), as the step of a `Variable`. `Default::default()` for a coordinate is `0`. -/
def dynStep (level : Nat) : T × PS Nat → Option (T × PS Nat) := dynResultsIn (feedbackSummary ⟨0⟩ level ⟨1⟩)

/-- What the variable of a loop at `level` holds, once `result` is what the loop's body has produced: `Variable::new_from(source.enter_dynamic(level), step)` and `set(result)`
(iterate.rs:252-270; the example in dynamic.rs makes its loop so). -/
def dynReceives [Neg R] (level : Nat) (source result : Msgs D (T × PS Nat) R) : Msgs D (T × PS Nat) R :=
  let source := source.enter_dynamic level
  let updates := Variable.set (Variable.new_from source (dynStep level) []).1 result
  (Variable.new_from source (dynStep level) updates).2

end DD
