import Verif.Spec.Columnar

/-!
# Specification of containers of columnar updates

A container holds a trie of updates, a number of records it accounts for, and a flag which says that its updates are consolidated.
-/

namespace DD
variable {K V T R : Type*}

/-- `RecordedUpdates` (columnar/collection/container.rs:16-24). -/
structure RecUpd (K V T R : Type*) where
  updates : ColTrie K V T R
  records : Nat
  consolidated : Bool
deriving DecidableEq

/-- No list of a forest is empty. -/
structure Forest.NoEmpty (f : Forest K V T R) : Prop where
  groups : ∀ g ∈ f, g ≠ []
  keys : ∀ k ∈ f.flatten, k.2 ≠ []
  vals : ∀ v ∈ f.flatten.flatMap Prod.snd, v.2 ≠ []
  times : ∀ t ∈ (f.flatten.flatMap Prod.snd).flatMap Prod.snd, t.2 ≠ []

/-- The container carries the updates `us`, in this order: its trie is the layout of them, in lists none of which is empty; and if it is flagged as consolidated then
the trie is the canonical one, and the updates are consolidated. -/
structure RecUpd.Carries [LT K] [LT V] [LT (Lin T)] [Zero R] (c : RecUpd K V T R) (us : Upds (K ×ₗ V) T R) : Prop where
  layout : ∃ f : Forest K V T R, f.NoEmpty ∧ c.updates = f.layout ∧ f.upds = us
  canonical : c.consolidated = true → c.updates.Holds us ∧ Consolidated us

/-- The container was formed from the updates `us`: it carries updates, consolidated, with the same totals, none to a datum or time not among `us`, and accounts
for all of `us`. -/
def RecUpd.Forms [LT K] [LT V] [DecidableEq K] [DecidableEq V] [DecidableEq T] [LT (Lin T)] [AddCommMonoid R] (c : RecUpd K V T R) (us : Upds (K ×ₗ V) T R) : Prop :=
  c.consolidated = true ∧ c.records = us.length ∧ ∃ ws, c.Carries ws ∧ (∀ d q, total ws d q = total us d q) ∧ ∀ w ∈ ws, ∃ u ∈ us, u.1 = w.1 ∧ u.2.1 = w.2.1

/-- The messages, all sent at `time`, were formed from the updates `us`, cut into pieces none of which is empty. -/
def SendsAt [LT K] [LT V] [DecidableEq K] [DecidableEq V] [DecidableEq T] [LT (Lin T)] [AddCommMonoid R] (time : T) (out : List (T × RecUpd K V T R)) (us : Upds (K ×ₗ V) T R) : Prop :=
  (∀ m ∈ out, m.1 = time) ∧ ∃ pieces, List.Forall₂ RecUpd.Forms (out.map Prod.snd) pieces ∧ pieces.flatten = us ∧ ∀ p ∈ pieces, p ≠ []

end DD
