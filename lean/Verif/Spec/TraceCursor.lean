import Verif.Spec.CursorContract

/-! # Reading contents through a cursor -/

namespace DD
variable {C S K V T R : Type*} [LinearOrder K] [LinearOrder V]

/-- The count of a key and value at a time: the sum of the updates at times at or before it. -/
def Contents.count [LE T] [DecidableLE T] [AddCommMonoid R] (u : Contents K V T R) (k : K) (v : V) (q : T) : R :=
  ((u.at k v).map fun x => if x.1 ≤ q then x.2 else 0).sum

/-- A user who navigates with `c` and the storage `s` visits the sorted contents `u`: after any valid moves (other than seeks among values, and with
seeks to keys that go forwards) they see what is at that position of `u`, and collecting everything yields `u`. -/
def Reads (ops : CursorOps C S K V T R) (s : S) (c : C) (u : Contents K V T R) : Prop :=
  ContentsSorted u ∧
  ∀ (ms : List (Move K V)) (p : Pos K V T R), (∀ m ∈ ms, ∀ v, m ≠ .seekVal v) → SeeksForward u (Pos.start u) ms →
    Pos.run u (Pos.start u) ms = some p →
    ∃ c', ops.run s c ms = some c' ∧ Shows ops s c' p ∧
      ∀ fuel, u.length < fuel → (∀ kv ∈ u, kv.2.length < fuel) → ops.toVec s fuel c' = some u

end DD
