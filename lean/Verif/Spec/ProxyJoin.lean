import Verif.Spec.Basic

/-!
# What is asked of a backend that interprets identifiers

A record is a pair of a hash and an identifier. A backend is called with the two records of each match, the time, and the difference of the match, in four lists.
-/

namespace DD

/-- The arguments of a call of the backend's `cross` (int_proxy/join.rs:51). -/
structure CrossCall (T M : Type*) where
  left : List (Nat × Nat)
  right : List (Nat × Nat)
  times : List T
  diffs : List M

/-- The matches of a call, as updates of pairs of records. -/
def CrossCall.upds {T M : Type*} (c : CrossCall T M) : Upds ((Nat × Nat) × (Nat × Nat)) T M := (c.left.zip c.right).zip (c.times.zip c.diffs)

/-- The four lists describe the same matches. -/
def CrossCall.Aligned {T M : Type*} (c : CrossCall T M) : Prop :=
  c.right.length = c.left.length ∧ c.times.length = c.left.length ∧ c.diffs.length = c.left.length

/-- `present`, which may be handed a list of hashes to restrict itself to, presents the collection `all` for a unit of work at `meet`: in the order of hashes, and with the collection's
accumulations for the hashes asked for at all times at or beyond `meet`. -/
structure ProxyPresents {T R : Type*} [LE T] [DecidableLE T] [AddCommMonoid R] (present : Option (List Nat) → Upds (Nat × Nat) T R) (all : Upds (Nat × Nat) T R) (meet : T) : Prop where
  sorted : ∀ filter, (present filter).Pairwise fun a b => a.1.1 ≤ b.1.1
  whole : ∀ id q, meet ≤ q → accum (present none) id q = accum all id q
  restricted : ∀ keys : List Nat, ∀ id : Nat × Nat, id.1 ∈ keys → ∀ q, meet ≤ q → accum (present (some keys)) id q = accum all id q

end DD
