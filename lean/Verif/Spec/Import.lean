import Verif.Model.Import
import Verif.Spec.Batch

/-!
# What importing a trace promises
-/

namespace DD
variable {D T R : Type*} [PartialOrder T] [OrderBot T]

/-- The batches tile the interval of frontiers from `lo` to `hi`. -/
def ShownTiles : List T → List (ArrBatch D T R) → List T → Prop
  | lo, [], hi => lo.Perm hi
  | lo, b :: bs, hi => lo.Perm b.desc.lower ∧ FrontierLe b.desc.lower b.desc.upper ∧ IsAntichainList b.desc.upper ∧ ShownTiles b.desc.upper bs hi

/-- What the users of the writer guarantee (`arrange` and `upsert` do: C22, C23), when the writer's upper frontier is `u`: an inserted batch starts there and ends later, holds
updates in its interval only, and comes with a capability in advance of its lower frontier that precedes its updates, or without one and without updates. What the trace
guarantees (C15): it shows batches that tile time up to the upper frontier. -/
def LegalSharing : List T → List (ShareOp D T R) → Prop
  | _, [] => True
  | u, .insert b hint :: os =>
    (b.desc.lower.Perm u ∧ FrontierLe b.desc.lower b.desc.upper ∧ ¬ b.desc.lower.Perm b.desc.upper ∧ IsAntichainList b.desc.upper ∧
      (∀ x ∈ b.upds, Beyond b.desc.lower x.2.1 ∧ ¬ Beyond b.desc.upper x.2.1) ∧
      (match hint with | none => b.upds = [] | some c => Beyond b.desc.lower c ∧ ∀ x ∈ b.upds, c ≤ x.2.1)) ∧ LegalSharing b.desc.upper os
  | u, .close v :: os => (FrontierLe u v ∧ IsAntichainList v) ∧ (v.Perm u → LegalSharing u os) ∧ (¬ v.Perm u → LegalSharing v os)
  | u, .listen _ shown :: os => ShownTiles [⊥] shown u ∧ LegalSharing u os
  | u, .activate _ :: os => LegalSharing u os
  | u, .press _ :: os => LegalSharing u os

open Classical in
/-- For each import, in order: the batches shown when it started, followed by all batches inserted since (a seal that advances the upper frontier inserts an
empty batch). -/
noncomputable def feeds : List T → List (List (ArrBatch D T R)) → List (ShareOp D T R) → List (List (ArrBatch D T R))
  | _, fs, [] => fs
  | _, fs, .insert b _ :: os => feeds b.desc.upper (fs.map (· ++ [b])) os
  | u, fs, .close v :: os => if v.Perm u then feeds u fs os else feeds v (fs.map (· ++ [⟨⟨u, v, [⊥]⟩, []⟩])) os
  | u, fs, .listen _ shown :: os => feeds u (fs ++ [shown]) os
  | u, fs, .activate _ :: os => feeds u fs os
  | u, fs, .press _ :: os => feeds u fs os

/-- The batches sent, in order. -/
def sentBatches (log : List (ImportEvent D T R)) : List (ArrBatch D T R) :=
  log.filterMap fun | .sent _ b => some b | .frontier _ => none

/-- The frontier last announced. -/
def announced : List T → List (ImportEvent D T R) → List T
  | F, [] => F
  | F, .sent _ _ :: l => announced F l
  | _, .frontier G :: l => announced G l

/-- The operator respects timely's rules, having announced `F`: it sends batches at times beyond what it announced, no later than the updates in them; it announces
advancing frontiers. -/
def LogSound : List T → List (ImportEvent D T R) → Prop
  | _, [] => True
  | F, .sent c b :: l => Beyond F c ∧ (∀ x ∈ b.upds, c ≤ x.2.1) ∧ LogSound F l
  | F, .frontier G :: l => FrontierLe F G ∧ LogSound G l

/-- The batches `fed` were consumed in part. First come those of which the ones with updates were sent, in order, once each; then those that were skipped, whose updates are all beyond
the upper end of the import's window (there are none if there is no window); and what remains only holds updates beyond the frontier announced or the window. -/
def DeliversUpTo (window : Option (List T)) (fed : List (ArrBatch D T R)) (log : List (ImportEvent D T R)) : Prop :=
  ∃ used skipped rest, fed = used ++ skipped ++ rest ∧ sentBatches log = used.filter (fun b => !b.upds.isEmpty) ∧
    (∀ b ∈ skipped, ∀ x ∈ b.upds, Beyond (window.getD []) x.2.1) ∧
    ∀ b ∈ rest, ∀ x ∈ b.upds, Beyond (window.getD []) x.2.1 ∨ Beyond (announced [⊥] log) x.2.1

/-- The upper frontier of the trace. -/
def sharedUpper : List T → List (ShareOp D T R) → List T
  | u, [] => u
  | _, .insert b _ :: os => sharedUpper b.desc.upper os
  | _, .close v :: os => sharedUpper v os
  | u, _ :: os => sharedUpper u os

end DD
