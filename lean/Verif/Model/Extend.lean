import Verif.Spec.LookupMap

/-!
# Model of `dogsdogsdogs/src/lib.rs`: extending prefixes with several relations

Collections are the updates that they consist of. The operators are given by what they compute when they are complete: this is C45 for the lookups.
-/

namespace DD
variable {P K V T R : Type*}

/-- `PrefixExtender` (lib.rs:22-33). -/
structure Extender (P V T R : Type*) where
  count : Nat → Upds (P × Nat × Nat) T R → Upds (P × Nat × Nat) T R
  propose : Upds P T R → Upds (P × V) T R
  validate : Upds (P × V) T R → Upds (P × V) T R

/-- `CollectionIndex` (lib.rs:102-116): the updates of the traces. -/
structure CollectionIndex (K V T R : Type*) where
  count_trace : Upds (K × Unit) T Int
  propose_trace : Upds (K × V) T R
  validate_trace : Upds ((K × V) × Unit) T R

/-- `CollectionIndex::index` (lib.rs:143-164). The trace of counts is computed by `distinct`, an operator with state: here it is any list of updates, to be constrained in the
specification. -/
def CollectionIndex.index (collection : Upds (K × V) T R) (counts : Upds (K × Unit) T Int) : CollectionIndex K V T R where
  count_trace := counts
  propose_trace := collection
  validate_trace := collection.map fun u => ((u.1, ()), u.2)

section
variable [DecidableEq K] [DecidableEq V] [LE T] [DecidableLE T] [AddCommMonoid R] [DecidableEq R]

/-- `PrefixExtender for CollectionExtender` (lib.rs:187-217). -/
def CollectionIndex.extendUsing (idx : CollectionIndex K V T R) (key_selector : P → K) (mul : R → R → R) : Extender P V T R where
  count index prefixes := lookups (fun p => key_selector p.1) (countOut index) idx.count_trace prefixes
  propose prefixes := lookups key_selector (proposeOut mul) idx.propose_trace prefixes
  validate extensions := lookups (fun pv => (key_selector pv.1, pv.2)) validateOut idx.validate_trace extensions

end

/-- `extend` (lib.rs:56-83). -/
def extend (self : Upds P T R) (extenders : List (Extender P V T R)) : Upds (P × V) T R :=
  match extenders with
  | [extender] => extender.propose self
  | _ =>
    let counts := extenders.zipIdx.foldl (fun counts e => e.1.count e.2 counts) (self.map fun u => ((u.1, 2 ^ 31, 0), u.2))
    let part := fun index => (counts.filter fun u => u.1.2.2 = index).map fun u => (u.1.1, u.2)
    extenders.zipIdx.flatMap fun e =>
      (extenders.zipIdx.filter fun other => other.2 ≠ e.2).foldl (fun extensions other => other.1.validate extensions) (e.1.propose (part e.2))

end DD
