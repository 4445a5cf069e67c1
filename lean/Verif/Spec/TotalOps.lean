import Verif.Model.TotalOps
import Verif.Spec.CursorContract

/-!
# What the environment of `count_total` and `threshold_total` guarantees

Batches arrive in order of time, each holds the updates of a key in order of time, and the trace through the frontier reached before holds, for
each key, the updates received before, up to compaction: their sum is right, and no key is made up.
-/

namespace DD
variable {K T R : Type*} [LinearOrder K]

/-- The updates of a batch without values. -/
def Contents.keyUpds (t : Contents K Unit T R) : Upds K T R := t.flatten.map fun u => (u.1.1, u.2)

/-- The updates received in an activation. -/
def TotalRound.input (r : TotalRound K T R) : Upds K T R := r.batches.flatMap Contents.keyUpds

/-- All updates received. -/
def roundsInput (rounds : List (TotalRound K T R)) : Upds K T R := rounds.flatMap TotalRound.input

/-- The trace holds the updates in `prev`, up to compaction. -/
structure TraceOf [AddCommMonoid R] (t : Contents K Unit T R) (prev : Upds K T R) : Prop where
  sorted : ContentsSorted t
  sums : ∀ k, ((t.at k ()).map Prod.snd).sum = weight (prev.map fun u => (u.1, u.2.2)) k
  keys : ∀ kv ∈ t, ∃ u ∈ prev, u.1 = kv.1

/-- The activation after `prev` has been received. -/
structure TotalRound.Ok [AddCommMonoid R] [LT T] (prev : Upds K T R) (r : TotalRound K T R) : Prop where
  sorted : ∀ b ∈ r.batches, ContentsSorted b
  times : ∀ b ∈ r.batches, ∀ k, (b.at k ()).Pairwise fun u v => u.1 < v.1
  order : r.batches.Pairwise fun b b' => ∀ u ∈ b.keyUpds, ∀ v ∈ b'.keyUpds, u.2.1 < v.2.1
  after : ∀ u ∈ prev, ∀ v ∈ r.input, u.2.1 < v.2.1
  batch : IsUnion r.batches r.batch
  trace : TraceOf r.trace prev

/-- Activations one after the other. -/
def LegalRounds [AddCommMonoid R] [LT T] : Upds K T R → List (TotalRound K T R) → Prop
  | _, [] => True
  | prev, r :: rs => r.Ok prev ∧ LegalRounds (prev ++ r.input) rs

end DD
