import Mathlib.Algebra.Ring.Defs

/-!
# Model of `differential-dataflow/src/difference.rs`

The traits `IsZero`, `Semigroup`, `Monoid`, `Abelian`, `Multiply` as Lean classes without laws, with the instances of the
file. Integers are unbounded (`Int`, `Nat`): overflow is not modelled.
-/

namespace DD.Diff

/-- `IsZero` (difference.rs:14-24). -/
class IsZero (R : Type*) where is_zero : R → Bool
/-- `Semigroup` (difference.rs:37-40); `plus_equals` returns the updated `self`. -/
class Semi (R : Type*) extends IsZero R where plus_equals : R → R → R
/-- `Monoid` (difference.rs:50-53). -/
class Mon (R : Type*) extends Semi R where zero : R
/-- `Abelian` (difference.rs:60-63). -/
class Abel (R : Type*) extends Mon R where negate : R → R
/-- `Multiply` (difference.rs:66-71). -/
class Mult (R S : Type*) (O : outParam Type*) where multiply : R → S → O

export IsZero (is_zero)
export Semi (plus_equals)
export Mon (zero)
export Abel (negate)
export Mult (multiply)

/-- Built-in signed integers (difference.rs:74-100). -/
instance : Abel Int where
  is_zero a := a == 0
  plus_equals a b := a + b
  zero := 0
  negate a := -a
instance : Mult Int Int Int where multiply a b := a * b

/-- Built-in unsigned integers (difference.rs:74-92, 108-113): no negation. -/
instance : Mon Nat where
  is_zero a := a == 0
  plus_equals a b := a + b
  zero := 0
instance : Mult Nat Nat Nat where multiply a b := a * b

/-- Wrapping integers `Wrapping<i8> … Wrapping<isize>` (difference.rs:123-152), of any bit width. -/
instance (n : Nat) : Abel (BitVec n) where
  is_zero a := a == 0#n
  plus_equals a b := a + b
  zero := 0#n
  negate a := -a
instance (n : Nat) : Mult (BitVec n) (BitVec n) (BitVec n) where multiply a b := a * b

/-- `Present` (difference.rs:168-183): never zero, idempotent addition. -/
inductive Present | present
deriving DecidableEq
instance : Semi Present where
  is_zero _ := false
  plus_equals a _ := a
/-- `Multiply<T> for Present` (difference.rs:170-175). -/
instance {T : Type*} : Mult Present T T where multiply _ t := t

/-- Pairs (difference.rs:196-243, the two-element case of the macro). -/
instance {A B : Type*} [IsZero A] [IsZero B] : IsZero (A × B) where
  is_zero p := true && is_zero p.1 && is_zero p.2
instance {A B : Type*} [Semi A] [Semi B] : Semi (A × B) where
  plus_equals p q := (plus_equals p.1 q.1, plus_equals p.2 q.2)
instance {A B : Type*} [Mon A] [Mon B] : Mon (A × B) where
  zero := (zero, zero)
instance {A B : Type*} [Abel A] [Abel B] : Abel (A × B) where
  negate p := (negate p.1, negate p.2)
instance {A B S O P : Type*} [Mult A S O] [Mult B S P] : Mult (A × B) S (O × P) where
  multiply p s := (multiply p.1 s, multiply p.2 s)

/-- First loop of `Semigroup<[R]> for Vec<R>` (difference.rs:273-275): add into the existing elements;
second loop (difference.rs:278-281): clone the leftover of `rhs`. -/
def vecPlus {R : Type*} [Semi R] (self rhs : List R) : List R :=
  let added := List.zipWith plus_equals self (rhs.take self.length) ++ self.drop rhs.length
  added ++ rhs.drop added.length

/-- Vectors (difference.rs:258-318). -/
instance {R : Type*} [IsZero R] : IsZero (List R) where is_zero v := v.all is_zero
instance {R : Type*} [Semi R] : Semi (List R) where plus_equals := vecPlus
instance {R : Type*} [Mon R] : Mon (List R) where zero := []
instance {R : Type*} [Abel R] : Abel (List R) where negate v := v.map negate
instance {R S O : Type*} [Mult R S O] : Mult (List R) S (List O) where multiply v s := v.map (fun x => multiply x s)

end DD.Diff
