import Mathlib.Order.BoundedOrder.Basic

/-! # What a point stamp means

A vector of times stands for the infinite sequence obtained by extending it with minimal elements. -/

namespace DD

/-- Coordinate `i` of a vector, extended indefinitely by the minimum. -/
def coord {T : Type*} [LE T] [OrderBot T] (v : List T) (i : Nat) : T := v.getD i ⊥

end DD
