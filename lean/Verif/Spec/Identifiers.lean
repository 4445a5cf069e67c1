import Mathlib.Order.Basic
import Mathlib.Data.Finset.Card

/-!
# Specification of identifiers

Each record proposes an identifier, the hash of the record and a number, initially zero. Of records that propose the same identifier the one with the least number, then the least record, stays, and
the others increase their numbers.
-/

namespace DD
variable {D : Type*} [LinearOrder D]

/-- With the numbers `k`, the two records propose the same identifier, and `r'` has precedence over `r`. -/
def Beats (hash : Nat → D → Nat) (k : D → Nat) (r' r : D) : Prop := hash (k r') r' = hash (k r) r ∧ (k r' < k r ∨ k r' = k r ∧ r' < r)

open Classical in
/-- The numbers after some rounds, with the given records. -/
noncomputable def proposal (hash : Nat → D → Nat) (present : D → Prop) : Nat → D → Nat
  | 0, _ => 0
  | i + 1, r => if ∃ r', present r' ∧ Beats hash (proposal hash present i) r' r then proposal hash present i r + 1 else proposal hash present i r

/-- The hash function is good enough for the records in `S`: the hashes of each of them, with the numbers up to `m`, have at least as many values as there are records. -/
def Spreads (hash : Nat → D → Nat) (S : Finset D) (m : Nat) : Prop := ∀ r ∈ S, S.card ≤ ((Finset.range (m + 1)).image fun k => hash k r).card

end DD
