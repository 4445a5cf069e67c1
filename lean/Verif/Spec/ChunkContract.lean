import Verif.Model.ChunkHarness
import Verif.Model.Consolidation
import Verif.Spec.Chunk

/-!
# Specification of the operations of a type of chunks

The documentation of the trait `Chunk` (trace/chunk/mod.rs:66-147): a chunk is a non-empty, consolidated, sorted sequence of updates (`view`); `valid` says which
values of the type stand for one.
-/

namespace DD
variable {C D T R : Type*} [LinearOrder D] [LinearOrder (Lin T)] [AddCommMonoid R] [DecidableEq R] [Lattice T] [DecidableLE T] [DecidableEq T]

/-- What the operations do, in terms of the sequences of updates. `rest input out` says that `settle` may be called again with `input` and more chunks. -/
structure ChunkContract (ops : ChunkOps C T) (view : C → Upds D T R) (valid : C → Prop) (cap : Nat) (rest : List C → List C → Prop) : Prop where
  /-- Chunks are not empty, and `len` is the number of updates. -/
  len : ∀ c, valid c → ops.len c = (view c).length ∧ view c ≠ []
  /-- `merge` uses up chunks; it appends `more`; and whatever the chunks to come, the consolidation of all inputs is what is appended followed by the consolidation
  of what is left. -/
  merge : ∀ in1 in2 out, (∀ c ∈ in1, valid c) → (∀ c ∈ in2, valid c) → (∀ c ∈ out, valid c) → in1 ≠ [] → in2 ≠ [] → Consolidated (in1.flatMap view) → Consolidated (in2.flatMap view) →
    ∃ in1' in2' more, ops.merge in1 in2 out = some (in1', in2', out ++ more) ∧ (∀ c ∈ in1', valid c) ∧ (∀ c ∈ in2', valid c) ∧ (∀ c ∈ more, valid c) ∧
      in1'.length + in2'.length < in1.length + in2.length ∧ in1'.flatMap view <:+ in1.flatMap view ∧ in2'.flatMap view <:+ in2.flatMap view ∧
      (more.flatMap view).length + (in1'.flatMap view).length + (in2'.flatMap view).length ≤ (in1.flatMap view).length + (in2.flatMap view).length ∧
      ∀ rest1 rest2, Consolidated (in1.flatMap view ++ rest1) → Consolidated (in2.flatMap view ++ rest2) →
        ∃ w, consolidateUpdates ((in1'.flatMap view ++ rest1) ++ (in2'.flatMap view ++ rest2)) = some w ∧
          consolidateUpdates ((in1.flatMap view ++ rest1) ++ (in2.flatMap view ++ rest2)) = some (more.flatMap view ++ w)
  /-- `extract` takes the first chunk, keeps the updates beyond the frontier and ships the others. -/
  extract : ∀ c input frontier residual keep ship, valid c → (∀ c ∈ keep, valid c) → (∀ c ∈ ship, valid c) →
    ∃ residual' k s, ops.extract (c :: input) frontier residual keep ship = some (input, residual', keep ++ k, ship ++ s) ∧ (∀ c ∈ k, valid c) ∧ (∀ c ∈ s, valid c) ∧
      k.flatMap view = (view c).filter (fun u => Beyond frontier u.2.1) ∧ s.flatMap view = (view c).filter (fun u => ¬ Beyond frontier u.2.1) ∧
      (∀ q, Beyond residual' q ↔ Beyond residual q ∨ ∃ u ∈ view c, Beyond frontier u.2.1 ∧ u.2.1 ≤ q) ∧ (IsAntichainList residual → IsAntichainList residual')
  /-- `advance` appends the consolidation of an initial part of its input, with times advanced, and leaves the rest, which has none of the data of that part. -/
  advance : ∀ input frontier done out, (∀ c ∈ input, valid c) → (∀ c ∈ out, valid c) → (input.flatMap view).Pairwise (fun u v => u.1 ≤ v.1) →
    ∃ left more a, ops.advance input frontier done out = some (left, out ++ more) ∧ (∀ c ∈ left, valid c) ∧ (∀ c ∈ more, valid c) ∧
      input.flatMap view = a ++ left.flatMap view ∧ consolidateUpdates (retimed (fun t => advanceBy t frontier) a) = some (more.flatMap view) ∧
      (∀ u ∈ a, ∀ v ∈ left.flatMap view, u.1 < v.1) ∧ (done = true → left = []) ∧ (done = false → left = [] → input = [])
  /-- `settle` keeps the sequence of updates. -/
  settle : ∀ input more done out, rest input out → (∀ c ∈ input, valid c) → (∀ c ∈ more, valid c) → (∀ c ∈ out, valid c) →
    ((input ++ more).flatMap view).Pairwise (fun u v => u.1 ≤ v.1) →
    ∃ input' out', ops.settle (input ++ more) done out = some (input', out') ∧ (∀ c ∈ input', valid c) ∧ (∀ c ∈ out', valid c) ∧
      out'.flatMap view ++ input'.flatMap view = out.flatMap view ++ input.flatMap view ++ more.flatMap view ∧
      (done = true → input' = [] ∧ Graded cap (out'.map view)) ∧ (done = false → rest input' out')
  /-- What has been settled is graded; `settle` starts with nothing. -/
  rest_nil : rest [] []
  rest_graded : ∀ input out, rest input out → Graded cap (out.map view)

end DD
