import Verif.Spec.Cursor
import Mathlib.Order.Bounds.Basic

/-!
# What replaying a history in time order means

A history is a list of updates (value, time, difference). It is walked from its least time (in the total order) on: the
updates already visited, and those not yet visited.
-/

namespace DD

/-- The updates of values that are listed with their updates. -/
def valUpds {V T R : Type*} (vals : List (V × List (T × R))) : Upds V T R :=
  vals.flatMap fun vu => vu.2.map fun u => (vu.1, u.1, u.2)

/-- A walk: what has been visited, what has not. -/
structure HistWalk (V T R : Type*) where
  stepped : Upds V T R
  rest : Upds V T R

/-- What can be done with a history: visit the next update, all next updates at a time, all next updates through a time in
the total order, or advance the buffer of visited updates by a time. -/
inductive HistOp (T : Type*)
  | step
  | whileTimeIs (t : T)
  | through (t : T)
  | advance (m : T)

namespace HistWalk
variable {V T R : Type*}

/-- Visit the next updates as long as they satisfy `p`. -/
def goWhile (w : HistWalk V T R) (p : V × T × R → Bool) : HistWalk V T R :=
  { stepped := w.stepped ++ w.rest.takeWhile p, rest := w.rest.dropWhile p }

/-- The effect of an operation on what has been visited. Visiting the next update of a finished walk is not allowed.
Advancing the buffer visits nothing. -/
def apply [DecidableEq T] [LinearOrder (Lin T)] (w : HistWalk V T R) : HistOp T → Option (HistWalk V T R)
  | .step =>
    match w.rest with
    | [] => none
    | u :: us => some { stepped := w.stepped ++ [u], rest := us }
  | .whileTimeIs t => some (w.goWhile fun u => decide (u.2.1 = t))
  | .through t => some (w.goWhile fun u => decide (toLin u.2.1 ≤ toLin t))
  | .advance _ => some w

/-- A sequence of operations. -/
def run [DecidableEq T] [LinearOrder (Lin T)] (w : HistWalk V T R) : List (HistOp T) → Option (HistWalk V T R)
  | [] => some w
  | op :: ops =>
    match w.apply op with
    | none => none
    | some w' => w'.run ops

end HistWalk

/-- Whenever the buffer is advanced, it is by a lower bound of the times still to be visited (such as their meet). -/
def HistWalk.AdvancesBelow {V T R : Type*} [LE T] [DecidableEq T] [LinearOrder (Lin T)] (w : HistWalk V T R) :
    List (HistOp T) → Prop
  | [] => True
  | op :: ops =>
    (∀ m, op = HistOp.advance m → ∀ u ∈ w.rest, m ≤ u.2.1) ∧ ∀ w', w.apply op = some w' → w'.AdvancesBelow ops

/-- The updates a cursor's contents hold for a key. -/
def keyUpds {K V T R : Type*} [DecidableEq K] (t : Contents K V T R) (k : K) : Upds V T R :=
  t.flatMap fun kv => if kv.1 = k then valUpds kv.2 else []

/-- The times buffers are advanced by. -/
def HistOp.advances {T : Type*} (ops : List (HistOp T)) : List T :=
  ops.filterMap fun
    | .advance m => some m
    | _ => none

/-- The accumulation, at time `q`, of the products of the differences of the joined outputs for a pair of values. An output
is (value, value, time, difference, difference); `mul` is the product of differences. -/
def joinAccum {V1 V2 T R1 R2 M : Type*} [DecidableEq V1] [DecidableEq V2] [LE T] [DecidableLE T] [AddCommMonoid M]
    (mul : R1 → R2 → M) (out : List (V1 × V2 × T × R1 × R2)) (v1 : V1) (v2 : V2) (q : T) : M :=
  (out.map fun o => if o.1 = v1 ∧ o.2.1 = v2 ∧ o.2.2.1 ≤ q then mul o.2.2.2.1 o.2.2.2.2 else 0).sum

/-- The sum, over all pairs of an update of `v1` and an update of `v2` whose joined time is at or before `q`, of the product of
their differences. -/
def pairAccum {V1 V2 T R1 R2 M : Type*} [DecidableEq V1] [DecidableEq V2] [Lattice T] [DecidableLE T] [AddCommMonoid M]
    (mul : R1 → R2 → M) (us1 : Upds V1 T R1) (us2 : Upds V2 T R2) (v1 : V1) (v2 : V2) (q : T) : M :=
  ((us1.product us2).map fun p =>
    if p.1.1 = v1 ∧ p.2.1 = v2 ∧ p.1.2.1 ⊔ p.2.2.1 ≤ q then mul p.1.2.2 p.2.2.2 else 0).sum

/-- A walk over times only. -/
structure TimeWalk (T : Type*) where
  stepped : List T
  rest : List T

/-- What can be done with a history of times. -/
inductive TimeOp (T : Type*)
  | whileTimeIs (t : T)
  | advance (m : T)

/-- The effect of a sequence of operations on what has been visited. -/
def TimeWalk.run {T : Type*} [DecidableEq T] (w : TimeWalk T) : List (TimeOp T) → TimeWalk T
  | [] => w
  | .whileTimeIs t :: ops =>
    TimeWalk.run { stepped := w.stepped ++ w.rest.takeWhile (fun x => decide (x = t)),
                   rest := w.rest.dropWhile (fun x => decide (x = t)) } ops
  | .advance _ :: ops => TimeWalk.run w ops

/-- The times buffers are advanced by. -/
def TimeOp.advances {T : Type*} (ops : List (TimeOp T)) : List T :=
  ops.filterMap fun
    | .advance m => some m
    | _ => none

end DD
