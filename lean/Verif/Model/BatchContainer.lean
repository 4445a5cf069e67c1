import Mathlib.Data.List.Basic

/-!
# Model of the containers in `trace/implementations/mod.rs`: `OffsetList`, `BatchContainer::advance`, `SliceContainer`
-/

namespace DD

/-- `OffsetList` (mod.rs:166-174). -/
structure OffsetList where
  zero_prefix : Nat
  smol : List (BitVec 32)
  chonk : List (BitVec 64)
deriving DecidableEq, Repr

namespace OffsetList

/-- `with_capacity` (mod.rs:184-190). -/
def init : OffsetList := ⟨0, [], []⟩

/-- `usize::try_into::<uN>()`. -/
def tryInto (n : Nat) (offset : Nat) : Option (BitVec n) := if offset < 2 ^ n then some (BitVec.ofNat n offset) else none

/-- `push` (mod.rs:192-206): `none` if a conversion to `u64` fails. -/
def push (o : OffsetList) (offset : Nat) : Option OffsetList :=
  if o.smol.isEmpty && o.chonk.isEmpty && offset == 0 then
    some { o with zero_prefix := o.zero_prefix + 1 }
  else if o.chonk.isEmpty then
    match tryInto 32 offset with
    | some s => some { o with smol := o.smol ++ [s] }
    | none => (tryInto 64 offset).map fun c => { o with chonk := o.chonk ++ [c] }
  else (tryInto 64 offset).map fun c => { o with chonk := o.chonk ++ [c] }

/-- `index` (mod.rs:209-219): `none` if out of bounds. Conversions back to `usize` cannot fail on 64-bit platforms. -/
def index (o : OffsetList) (i : Nat) : Option Nat :=
  if i < o.zero_prefix then some 0
  else if i - o.zero_prefix < o.smol.length then o.smol[i - o.zero_prefix]?.map BitVec.toNat
  else o.chonk[i - o.zero_prefix - o.smol.length]?.map BitVec.toNat

/-- `len` (mod.rs:221-223). -/
def len (o : OffsetList) : Nat := o.zero_prefix + o.smol.length + o.chonk.length

/-- A sequence of pushes. -/
def pushAll (o : OffsetList) (xs : List Nat) : Option OffsetList := xs.foldlM push o

/-- The iterator (mod.rs:241-253), run to its end; the argument `index` is its position. -/
def iterFrom (o : OffsetList) : Nat → Nat → Option (List Nat)
  | 0, _ => some []
  | fuel + 1, i =>
    if i < o.len then
      match o.index i, iterFrom o fuel (i + 1) with
      | some x, some xs => some (x :: xs)
      | _, _ => none
    else some []

end OffsetList

/-! ## Galloping search: `BatchContainer::advance` (mod.rs:440-476)

`read i` is `function(self.index(i))`, `none` standing for an access that panics. -/

section advance
variable (read : Nat → Option Bool)

/-- `start + k < end && function(self.index(start + k))`. -/
def probe (start «end» k : Nat) : Option Bool := if start + k < «end» then read (start + k) else some false

/-- The growing loop (mod.rs:453-456): returns `(index, step)`. -/
def growLoop (start «end» : Nat) : Nat → Nat → Nat → Option (Nat × Nat)
  | 0, index, step => some (index, step)
  | fuel + 1, index, step =>
    match probe read start «end» (index + step) with
    | none => none
    | some true => growLoop start «end» fuel (index + step) (step <<< 1)
    | some false => some (index, step)

/-- The shrinking loop (mod.rs:460-465): returns `index`. -/
def shrinkLoop (start «end» : Nat) : Nat → Nat → Nat → Option Nat
  | 0, index, _ => some index
  | fuel + 1, index, step =>
    if step > 0 then
      match probe read start «end» (index + step) with
      | none => none
      | some b => shrinkLoop start «end» fuel (if b then index + step else index) (step >>> 1)
    else some index

/-- `(start .. limit).filter(|x| function(self.index(*x))).count()` (mod.rs:473-474). -/
def countTo (start limit : Nat) : Option Nat :=
  (List.range' start (limit - start)).foldlM (fun n x => (read x).map fun b => if b then n + 1 else n) 0

/-- `advance` (mod.rs:440-476); that of columnar containers (columnar/layout.rs:111-149) has the same text. -/
def advance (start «end» : Nat) : Option Nat :=
  let small_limit := 8
  match (if «end» > start + small_limit then read (start + small_limit) else some false) with
  | none => none
  | some true =>
    let index := small_limit + 1
    match probe read start «end» index with
    | none => none
    | some true =>
      match growLoop read start «end» («end» - start) index 1 with
      | none => none
      | some (index, step) =>
        match shrinkLoop read start «end» («end» - start) index (step >>> 1) with
        | none => none
        | some index => some (index + 1)
    | some false => some index
  | some false => countTo read start (min «end» (start + small_limit))

end advance

/-! ## `SliceContainer` (mod.rs:513-594) -/

/-- `SliceContainer`. -/
structure SliceContainer (B : Type*) where
  offsets : List Nat
  inner : List B

namespace SliceContainer
variable {B : Type*}

/-- `default` (mod.rs:586-594), `with_capacity` (mod.rs:559-566), `clear` (mod.rs:553-558). -/
def init : SliceContainer B := ⟨[0], []⟩

/-- `push_into` a slice (mod.rs:524-530). -/
def push (c : SliceContainer B) (item : List B) : SliceContainer B :=
  let inner := c.inner ++ item
  ⟨c.offsets ++ [inner.length], inner⟩

/-- `index` (mod.rs:575-579): `none` if out of bounds or if the bounds are reversed. -/
def index (c : SliceContainer B) (i : Nat) : Option (List B) :=
  match c.offsets[i]?, c.offsets[i + 1]? with
  | some lower, some upper => if lower ≤ upper ∧ upper ≤ c.inner.length then some ((c.inner.take upper).drop lower) else none
  | _, _ => none

/-- `len` (mod.rs:580-582). -/
def len (c : SliceContainer B) : Nat := c.offsets.length - 1

/-- `clone_onto` (mod.rs:546): `Vec::clone_from_slice`, which panics unless the lengths are equal. -/
def cloneOnto (item other : List B) : Option (List B) := if item.length = other.length then some item else none

end SliceContainer

end DD
