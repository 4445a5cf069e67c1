import Verif.Spec.Basic
import Mathlib.Order.Bounds.Basic

/-!
# Model of `differential-dataflow/src/lattice.rs`, and of timely's `Antichain`

`PartialOrder`/`Lattice` bounds of the Rust code become Mathlib's `Lattice`; that the concrete
implementations satisfy the laws is property C01.
-/

namespace DD

section Advance
variable {T : Type*} [Lattice T]

/-- `Lattice::advance_by` (lattice.rs:138-148): the three cases of the frontier slice. -/
def advanceBy (t : T) : List T → T
  | [] => t
  | [first] => t ⊔ first
  | first :: rest => rest.foldl (fun result f => result ⊓ (t ⊔ f)) (t ⊔ first)

end Advance

/-! ### Antichains (timely `progress::frontier::Antichain`, an external dependency, modelled from its documented source:
`insert` pushes the element unless an existing element is less or equal to it, and then first removes
every element greater or equal to it). -/
section Antichain
variable {T : Type*} [LE T] [DecidableLE T]

/-- `Antichain::less_equal` (timely): is some element of the antichain less or equal to `t`? -/
def lessEqual (F : List T) (t : T) : Bool := F.any (fun f => decide (f ≤ t))

/-- `Antichain::insert` (timely). The boolean result is not modelled. -/
def acInsert (F : List T) (t : T) : List T :=
  if F.any (fun f => decide (f ≤ t)) then F
  else F.filter (fun f => !decide (t ≤ f)) ++ [t]

/-- `Antichain::extend` / `from_iter` (timely): insert one by one. -/
def acExtend (F : List T) (ts : List T) : List T := ts.foldl acInsert F

/-- `Antichain` equality (timely): same length and each element of one found in the other, i.e. equality as sets for antichains. -/
def acEq [DecidableEq T] (F G : List T) : Bool := F.length == G.length && F.all (fun t => G.contains t)

/-- timely `PartialOrder for Antichain`: `F.less_equal(G)` iff every element of `G` is beyond `F`. -/
def acLe (F G : List T) : Bool := G.all (fun g => lessEqual F g)

end Antichain

section AntichainLattice
variable {T : Type*} [Lattice T] [DecidableLE T]

/-- `antichain_join` / `antichain_join_into` (lattice.rs:278-317), and `Lattice::join for Antichain` (lattice.rs:352-360):
insert all pairwise joins, in nested-loop order, into a cleared antichain. -/
def acJoin (one other : List T) : List T :=
  acExtend [] (one.flatMap (fun t1 => other.map (fun t2 => t1 ⊔ t2)))

/-- `antichain_meet` (lattice.rs:340-349), and `Lattice::meet for Antichain` (lattice.rs:361-370): insert all
elements of the first, then of the second. -/
def acMeet (one other : List T) : List T := acExtend (acExtend [] one) other

end AntichainLattice

/-! ### Concrete timestamps -/

/-- timely `order::Product` (external), the timestamp of nested scopes. -/
@[ext] structure ProductT (T1 T2 : Type*) where
  outer : T1
  inner : T2
deriving DecidableEq

namespace ProductT
variable {T1 T2 : Type*}

/-- timely `PartialOrder for Product`: componentwise. -/
def less_equal [LE T1] [LE T2] (a b : ProductT T1 T2) : Prop := a.outer ≤ b.outer ∧ a.inner ≤ b.inner

/-- `Lattice::join for Product` (lattice.rs:155-160). -/
def join [Max T1] [Max T2] (a b : ProductT T1 T2) : ProductT T1 T2 :=
  { outer := a.outer ⊔ b.outer, inner := a.inner ⊔ b.inner }

/-- `Lattice::meet for Product` (lattice.rs:167-172). -/
def meet [Min T1] [Min T2] (a b : ProductT T1 T2) : ProductT T1 T2 :=
  { outer := a.outer ⊓ b.outer, inner := a.inner ⊓ b.inner }

end ProductT

/-- A pair of times used as a timestamp, ordered lexicographically (timely `PartialOrder for (T1,T2)`). -/
@[ext] structure LexT (T1 T2 : Type*) where
  fst : T1
  snd : T2
deriving DecidableEq

namespace LexT
variable {T1 T2 : Type*}

/-- timely `PartialOrder for (T1, T2)`: lexicographic. -/
def less_equal [LT T1] [LE T2] (a b : LexT T1 T2) : Prop := a.fst < b.fst ∨ (a.fst = b.fst ∧ a.snd ≤ b.snd)

/-- `Lattice::join for (T1, T2)` (lattice.rs:206-216). `⊥` is `T2::minimum()`. -/
def join [Lattice T1] [DecidableEq T1] [DecidableLT T1] [Lattice T2] [BoundedOrder T2] (a b : LexT T1 T2) : LexT T1 T2 :=
  if a.fst = b.fst then ⟨a.fst, a.snd ⊔ b.snd⟩
  else if a.fst < b.fst then b
  else if b.fst < a.fst then a
  else ⟨a.fst ⊔ b.fst, ⊥⟩

/-- `Lattice::meet for (T1, T2)` (lattice.rs:218-228). `⊤` is `Maximum::maximum()`. -/
def meet [Lattice T1] [DecidableEq T1] [DecidableLT T1] [Lattice T2] [BoundedOrder T2] (a b : LexT T1 T2) : LexT T1 T2 :=
  if a.fst = b.fst then ⟨a.fst, a.snd ⊓ b.snd⟩
  else if a.fst < b.fst then a
  else if b.fst < a.fst then b
  else ⟨a.fst ⊓ b.fst, ⊤⟩

end LexT

/-- `AltNeu` (dogsdogsdogs/src/altneu.rs:17-26). -/
@[ext] structure AltNeu (T : Type*) where
  time : T
  neu : Bool
deriving DecidableEq

namespace AltNeu
variable {T : Type*}

/-- `PartialOrder for AltNeu` (altneu.rs:30-39). -/
def less_equal [LE T] (a b : AltNeu T) : Prop :=
  (a.time = b.time ∧ a.neu ≤ b.neu) ∨ (a.time ≠ b.time ∧ a.time ≤ b.time)

/-- `Lattice::join for AltNeu` (altneu.rs:78-88). -/
def join [Lattice T] [DecidableEq T] (a b : AltNeu T) : AltNeu T :=
  let time := a.time ⊔ b.time
  let neu := false
  let neu := if time = a.time then neu || a.neu else neu
  let neu := if time = b.time then neu || b.neu else neu
  ⟨time, neu⟩

/-- `Lattice::meet for AltNeu` (altneu.rs:89-99). -/
def meet [Lattice T] [DecidableEq T] (a b : AltNeu T) : AltNeu T :=
  let time := a.time ⊓ b.time
  let neu := true
  let neu := if time = a.time then neu && a.neu else neu
  let neu := if time = b.time then neu && b.neu else neu
  ⟨time, neu⟩

end AltNeu

/-! ### Integer-like times

`implement_lattice!` (lattice.rs:231-255) for `u8 … i128`, `usize`, `isize`, `Duration`, `()`: `join = max`, `meet = min`
(`std::cmp::{max,min}`: `max` returns its second argument when equal, `min` its first) on a total order. -/

/-- `std::cmp::max(a, b)` as used by lattice.rs:234. -/
def cmpMax {T : Type*} [LT T] [DecidableLT T] (a b : T) : T := if b < a then a else b

/-- `std::cmp::min(a, b)` as used by lattice.rs:235. -/
def cmpMin {T : Type*} [LT T] [DecidableLT T] (a b : T) : T := if b < a then b else a

end DD
