import Verif.Model.Spine

/-!
# The contract between a spine and its batch type

What the documentation of `trait Batch` and `trait Merger` promises, with ghost observations `acc` (the accumulation of a batch for some data
at a time) and `since` (the frontier up to which the batch may have been compacted). `Proofs/OrdValSpine`, `Proofs/OrdKeySpine` and
`Proofs/ChunkSpine` show that `OrdValBatch`, `OrdKeyBatch` and `ChunkBatch` meet it.
-/

namespace DD

/-- `F` is before `G`: whatever is beyond `G` is beyond `F`. -/
def FrontierLe {T : Type*} [LE T] (F G : List T) : Prop := ∀ q, Beyond G q → Beyond F q

structure BatchLaws {B M T : Type*} [LE T] [DecidableLE T] [DecidableEq T] (ops : BatchOps B M T) (D R : Type*) [AddCommMonoid R] where
  /-- The batches a program can hold. -/
  Ok : B → Prop
  /-- The mergers a program can hold, for these batches and compaction frontier, having spent this much fuel so far. -/
  MOk : List T → B → B → M → Nat → Prop
  acc : B → D → T → R
  since : B → List T
  lower_antichain : ∀ b, Ok b → IsAntichainList (ops.lower b)
  upper_antichain : ∀ b, Ok b → IsAntichainList (ops.upper b)
  /-- An empty batch contributes nothing. -/
  acc_of_len : ∀ b, Ok b → ops.len b = 0 → ∀ d q, acc b d q = 0
  begin_ok : ∀ F b1 b2, Ok b1 → Ok b2 → acEq (ops.upper b1) (ops.lower b2) = true →
    ∃ m, ops.beginMerge b1 b2 F = some m ∧ MOk F b1 b2 m 0
  /-- No merge consumes more fuel than there are updates. -/
  spent_le : ∀ F b1 b2 m c, MOk F b1 b2 m c → c ≤ ops.len b1 + ops.len b2
  /-- `work` does not fail; fuel is left only if the merge is complete, and then the result is the merge of the inputs. -/
  work_ok : ∀ F b1 b2 m c (fuel : Int), MOk F b1 b2 m c → ∃ m' left c', ops.work m b1 b2 fuel = some (m', left) ∧ MOk F b1 b2 m' c' ∧
    c ≤ c' ∧ left = fuel - ((c' : Int) - c) ∧
    (0 < left →
      Ok (ops.done m') ∧ (ops.lower (ops.done m')).Perm (ops.lower b1) ∧ (ops.upper (ops.done m')).Perm (ops.upper b2) ∧
      ops.len (ops.done m') ≤ ops.len b1 + ops.len b2 ∧
      ∀ q, Beyond (since b1) q → Beyond (since b2) q → Beyond F q →
        Beyond (since (ops.done m')) q ∧ ∀ d, acc (ops.done m') d q = acc b1 d q + acc b2 d q)
  empty_ok : ∀ lower upper, IsAntichainList lower → IsAntichainList upper → FrontierLe lower upper → Ok (ops.empty lower upper)
  empty_len : ∀ lower upper, ops.len (ops.empty lower upper) = 0
  empty_lower : ∀ lower upper, ops.lower (ops.empty lower upper) = lower
  empty_upper : ∀ lower upper, ops.upper (ops.empty lower upper) = upper

end DD
