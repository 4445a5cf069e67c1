import Verif.Spec.PointStamp
import Mathlib.Order.Lattice
import Mathlib.Data.List.DropRight

/-!
# Model of `differential-dataflow/src/dynamic/{pointstamp.rs, mod.rs}`

`T: Timestamp + Lattice` becomes `[Lattice T] [OrderBot T]` (`T::minimum()` is `⊥`). `SmallVec`/`Vec` are lists.
-/

namespace DD

/-- `PointStamp` (pointstamp.rs:24-27). The invariant that the vector does not end with `T::minimum()` is `Norm`. -/
@[ext] structure PointStamp (T : Type*) where
  vector : List T
deriving DecidableEq

namespace PointStamp
variable {T : Type*}

section
variable [LE T] [OrderBot T] [DecidableEq T]

/-- `while vector.last() == Some(&T::minimum()) { vector.pop(); }` (pointstamp.rs:66-68). -/
def popMin (v : List T) : List T := v.rdropWhile (fun t => decide (t = ⊥))

/-- `PointStamp::new` (pointstamp.rs:65-70). -/
def new (v : List T) : PointStamp T := ⟨popMin v⟩

/-- The documented guarantee (pointstamp.rs:21): the vector does not end with `T::minimum()`. -/
def Norm (p : PointStamp T) : Prop := p.vector.getLast? ≠ some ⊥

end

/-- `self.iter().zip(other.iter().chain(std::iter::repeat(&T::minimum())))` (pointstamp.rs:31-32, 47-48, 96-98). -/
def zipMin [LE T] [OrderBot T] : List T → List T → List (T × T)
  | [], _ => []
  | a :: as, [] => (a, ⊥) :: zipMin as []
  | a :: as, b :: bs => (a, b) :: zipMin as bs

/-- `PartialOrder::less_equal` for two `PointStamp`s (pointstamp.rs:91-100). -/
def less_equal [LE T] [OrderBot T] [DecidableLE T] (a b : PointStamp T) : Bool :=
  (zipMin a.vector b.vector).all (fun p => decide (p.1 ≤ p.2))

/-- `PartialOrder<[T]> for PointStamp<T>` (pointstamp.rs:45-51). -/
def less_equal_slice [LE T] [OrderBot T] [DecidableLE T] (a : PointStamp T) (b : List T) : Bool :=
  (zipMin a.vector b).all (fun p => decide (p.1 ≤ p.2))

/-- `PartialEq<[T]> for PointStamp<T>` (pointstamp.rs:29-35). -/
def eq_slice [LE T] [OrderBot T] [DecidableEq T] (a : PointStamp T) (b : List T) : Bool :=
  (zipMin a.vector b).all (fun p => decide (p.1 = p.2))

/-- `PartialEq<PointStamp<T>> for [T]` (pointstamp.rs:37-43). -/
def slice_eq [LE T] [OrderBot T] [DecidableEq T] (a : List T) (b : PointStamp T) : Bool :=
  (zipMin a b.vector).all (fun p => decide (p.1 = p.2))

section
variable [Lattice T] [OrderBot T] [DecidableEq T]

/-- `Lattice::join` (pointstamp.rs:229-245). -/
def join (a b : PointStamp T) : PointStamp T :=
  let min_len := min a.vector.length b.vector.length
  new (List.zipWith (· ⊔ ·) a.vector b.vector ++ a.vector.drop min_len ++ b.vector.drop min_len)

/-- `Lattice::join_assign` (pointstamp.rs:247-257); note that it does not re-normalize. -/
def join_assign (a b : PointStamp T) : PointStamp T :=
  let my_len := a.vector.length
  let other_len := b.vector.length
  let min_len := min my_len other_len
  ⟨List.zipWith (· ⊔ ·) a.vector b.vector ++ a.vector.drop min_len ++
    (if other_len > my_len then b.vector.drop my_len else [])⟩

/-- `Lattice::meet` (pointstamp.rs:259-268). -/
def meet (a b : PointStamp T) : PointStamp T := new (List.zipWith (· ⊓ ·) a.vector b.vector)

/-- `Lattice::meet_assign` (pointstamp.rs:270-277): truncate, meet pointwise, pop trailing minima. -/
def meet_assign (a b : PointStamp T) : PointStamp T :=
  let min_len := min a.vector.length b.vector.length
  ⟨popMin (List.zipWith (· ⊓ ·) (a.vector.take min_len) b.vector)⟩

/-- `Timestamp::minimum` (pointstamp.rs:218-220). -/
def minimum : PointStamp T := new []

end
end PointStamp

/-- timely's `PathSummary` (external trait): how a path through the dataflow acts on times; `None` on overflow. -/
class PathSummary (TS T : Type*) where
  results_in : TS → T → Option T
  followed_by : TS → TS → Option TS

/-- The laws of the coordinate's own summary type (for unsigned integers: addition, `None` on overflow):
composition is sequencing, actions are monotone in time, and inflationary. -/
class LawfulSummary (TS T : Type*) [PartialOrder T] [PathSummary TS T] : Prop where
  comp : ∀ (a b : TS) (t u w : T), PathSummary.results_in a t = some u → PathSummary.results_in b u = some w →
    ∃ c, PathSummary.followed_by T a b = some c ∧ PathSummary.results_in c t = some w
  comp' : ∀ (a b c : TS) (t u : T), PathSummary.followed_by T a b = some c → PathSummary.results_in a t = some u →
    PathSummary.results_in b u = PathSummary.results_in c t
  mono : ∀ (a : TS) (t t' u u' : T), t ≤ t' → PathSummary.results_in a t = some u →
    PathSummary.results_in a t' = some u' → u ≤ u'
  infl : ∀ (a : TS) (t u : T), PathSummary.results_in a t = some u → t ≤ u

/-- Collect a list of optional results, failing if any fails: the effect of `?` in a loop that pushes. -/
def collect {α : Type*} : List (Option α) → Option (List α)
  | [] => some []
  | none :: _ => none
  | some a :: l => (collect l).map (a :: ·)

/-- `PointStampSummary` (pointstamp.rs:121-132). -/
structure PointStampSummary (TS : Type*) where
  retain : Option Nat
  actions : List TS
deriving DecidableEq

namespace PointStampSummary
variable {T TS : Type*} [LE T] [OrderBot T] [DecidableEq T] [PathSummary TS T]

/-- `&v[..retain]` if `retain < v.len()`, else `&v[..]` (pointstamp.rs:137-145 and 174-182). -/
def retained {α : Type*} (retain : Option Nat) (v : List α) : List α :=
  match retain with
  | some r => if r < v.length then v.take r else v
  | none => v

/-- `PathSummary::results_in` (pointstamp.rs:135-163). -/
def results_in (s : PointStampSummary TS) (t : PointStamp T) : Option (PointStamp T) :=
  let timestamps := retained s.retain t.vector
  let min_len := min timestamps.length s.actions.length
  match collect (List.zipWith PathSummary.results_in s.actions timestamps) with
  | none => none
  | some both =>
    match collect ((s.actions.drop min_len).map (fun a => PathSummary.results_in a (⊥ : T))) with
    | none => none
    | some rest => some (PointStamp.new (both ++ timestamps.drop min_len ++ rest))

variable (T) in
/-- `PathSummary::followed_by` (pointstamp.rs:164-196). -/
def followed_by (s o : PointStampSummary TS) : Option (PointStampSummary TS) :=
  let retain := match s.retain, o.retain with
    | some x, some y => some (min x y)
    | some x, none => some x
    | none, some y => some y
    | none, none => none
  let self_actions := retained o.retain s.actions
  let min_len := min self_actions.length o.actions.length
  match collect (List.zipWith (PathSummary.followed_by T) self_actions o.actions) with
  | none => none
  | some both => some ⟨retain, both ++ self_actions.drop min_len ++ o.actions.drop min_len⟩

/-- `PartialOrder for PointStampSummary` (pointstamp.rs:199-213). -/
def less_equal [LE TS] [DecidableLE TS] (s o : PointStampSummary TS) : Bool :=
  decide (s.retain = o.retain) && decide (s.actions.length ≤ o.actions.length) &&
    (List.zip s.actions o.actions).all (fun p => decide (p.1 ≤ p.2))

end PointStampSummary

/-- The action of `leave_dynamic(level)` on the `PointStamp` coordinate of a time (dynamic/mod.rs:51-53 and 56-58). -/
def leaveDynamic {T : Type*} [LE T] [OrderBot T] [DecidableEq T] (level : Nat) (t : PointStamp T) : PointStamp T :=
  PointStamp.new (t.vector.take (level - 1))

/-- The summary `leave_dynamic(level)` declares to timely (dynamic/mod.rs:45). -/
def leaveSummary {TS : Type*} (level : Nat) : PointStampSummary TS := ⟨some (level - 1), []⟩

/-- `feedback_summary` (dynamic/mod.rs:69-77). `default` is `Default::default()` of the coordinate's summary. -/
def feedbackSummary {TS : Type*} (default : TS) (level : Nat) (summary : TS) : PointStampSummary TS :=
  ⟨none, List.replicate (level - 1) default ++ [summary]⟩

end DD
