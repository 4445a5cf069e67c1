import Verif.Spec.Basic
import Mathlib.Order.BoundedOrder.Basic
import Verif.Spec.Cursor

/-!
# Model of the record-at-a-time operators in `collection.rs` and `operators/arrange/arrangement.rs`

A stream is the list of its messages, each the time of the capability it is sent with and its updates. The timely operators `map`, `flat_map`,
`filter`, `enter`, `leave` and `delay_batch` handle each message for itself. `Multiply::multiply` is a function `mul`. Closures are pure.
-/

namespace DD
variable {D D2 T T2 R R2 R3 : Type*}

/-- The messages of a stream. -/
abbrev Msgs (D T R : Type*) := List (T × Upds D T R)

/-- All updates of a stream. -/
def Msgs.upds (ms : Msgs D T R) : Upds D T R := ms.flatMap Prod.snd

namespace Msgs

/-- Each message's updates transformed, at the same time. -/
def eachMsg (f : Upds D T R → Upds D2 T R2) (ms : Msgs D T R) : Msgs D2 T R2 := ms.map fun m => (m.1, f m.2)

/-- `map` (collection.rs:371-379), `map_in_place` (collection.rs:398-405). -/
def map (logic : D → D2) (ms : Msgs D T R) : Msgs D2 T R := ms.eachMsg fun us => us.map fun (data, time, delta) => (logic data, time, delta)

/-- `flat_map` (collection.rs:422-431). -/
def flat_map (logic : D → List D2) (ms : Msgs D T R) : Msgs D2 T R :=
  ms.eachMsg fun us => us.flatMap fun (data, time, delta) => (logic data).map fun x => (x, time, delta)

/-- `filter` (collection.rs:446-453). -/
def filter (logic : D → Bool) (ms : Msgs D T R) : Msgs D T R := ms.eachMsg fun us => us.filter fun (data, _, _) => logic data

/-- `explode` (collection.rs:474-484). -/
def explode (mul : R2 → R → R3) (logic : D → List (D2 × R2)) (ms : Msgs D T R) : Msgs D2 T R3 :=
  ms.eachMsg fun us => us.flatMap fun (x, t, d) => (logic x).map fun (x, d2) => (x, t, mul d2 d)

/-- `join_function` (collection.rs:508-519). -/
def join_function [Lattice T] (mul : R2 → R → R3) (logic : D → List (D2 × T × R2)) (ms : Msgs D T R) : Msgs D2 T R3 :=
  ms.eachMsg fun us => us.flatMap fun (x, t, d) => (logic x).map fun (x, t2, d2) => (x, t ⊔ t2, mul d2 d)

/-- `concat` (collection.rs:71-76): the messages of both, in some order; the model puts those of `self` first. -/
def concat (ms ms' : Msgs D T R) : Msgs D T R := ms ++ ms'

/-- `negate` (collection.rs:187-189, 1350-1355). -/
def negate [Neg R] (ms : Msgs D T R) : Msgs D T R := ms.eachMsg fun us => us.map fun (d, t, r) => (d, t, -r)

/-- `enter` (collection.rs:217-227, 1357-1362) into an iterative scope: `to_inner` adds the least inner time. The message's capability enters too. -/
def enter [LE T2] [OrderBot T2] (ms : Msgs D T R) : Msgs D (T × T2) R := List.map (fun m => ((m.1, ⊥), m.2.map fun (d, t, r) => (d, (t, ⊥), r))) ms

/-- `enter_at` (collection.rs:544-556). -/
def enter_at [LE T2] [OrderBot T2] (initial : D → T2) (ms : Msgs D T R) : Msgs D (T × T2) R :=
  List.map (fun m => ((m.1, ⊥), m.2.map fun (d, t, r) => (d, (t, initial d), r))) ms

/-- `leave` (collection.rs:290-300, 1364-1369): `to_outer` drops the inner time. -/
def leave (ms : Msgs D (T × T2) R) : Msgs D T R := List.map (fun m => (m.1.1, m.2.map fun (d, t, r) => (d, t.1, r))) ms

/-- `delay` (collection.rs:565-577): `delay_batch` moves the message's capability, then the times are replaced. -/
def delay (func : T → T) (ms : Msgs D T R) : Msgs D T R := List.map (fun m => (func m.1, m.2.map fun (d, t, r) => (d, func t, r))) ms

/-- `results_in` (collection.rs:251-261, 1371-1376): the step is applied to the updates' times, and updates for which it gives nothing are dropped.
The message's capability stays. -/
def results_in (step : T → Option T) (ms : Msgs D T R) : Msgs D T R :=
  ms.eachMsg fun us => us.filterMap fun (d, t, r) => (step t).map fun t => (d, t, r)

/-- `antijoin` (collection.rs:1215-1218): `semi` is the result of `self.semijoin(other)`. -/
def antijoin [Neg R] (self semi : Msgs D T R) : Msgs D T R := self.concat semi.negate

/-- `flat_map_batches` (arrangement.rs:192-220), and `as_collection` and `flat_map_ref` by it: batches walked by their cursors, that is, the keys in order,
the values in order, the updates in order (C18). -/
def flat_map_batches {K V : Type*} (logic : K → V → List D2) (ms : List (T × List (Contents K V T R))) : Msgs D2 T R :=
  ms.map fun m => (m.1, m.2.flatMap fun batch => batch.flatMap fun kv => kv.2.flatMap fun vu => (logic kv.1 vu.1).flatMap fun datum => vu.2.map fun u => (datum, u.1, u.2))

end Msgs
end DD
