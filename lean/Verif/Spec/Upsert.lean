import Verif.Model.Upsert
import Verif.Spec.CursorContract

/-!
# What upserts mean, and what the environment of the operator guarantees
-/

namespace DD
variable {K V T : Type*} [LinearOrder K] [LinearOrder V] [LinearOrder T]

/-- At time `q` the key `k` has value `o` (`none`: no value): `o` was offered by an upsert no later than `q`, and all other upserts for the key no later than
`q` were earlier, or at the same time and offered nothing greater (a removal counts as least); or there was no upsert. -/
def UpsertValue (ups : List (Ups K V T)) (k : K) (q : T) (o : Option V) : Prop :=
  (∃ t, t ≤ q ∧ (k, o, t) ∈ ups ∧
    ∀ o' t', (k, o', t') ∈ ups → t' ≤ q → t' < t ∨ t' = t ∧ (o' = none ∨ ∃ a b, o' = some a ∧ o = some b ∧ a ≤ b)) ∨
  (o = none ∧ ∀ o' t', (k, o', t') ∈ ups → ¬ t' ≤ q)

/-- All upserts received. -/
def upsertsOf (acts : List (UpsertAct K V T)) : List (Ups K V T) := acts.flatMap fun a => a.msgs.flatMap Prod.snd

/-- What timely and the sender guarantee after the frontier `F` was seen: messages carry capabilities beyond `F`, and upserts at or after the time of
their message; the next frontier is an antichain and does not go back. -/
def LegalUpserts : List T → List (UpsertAct K V T) → Prop
  | _, [] => True
  | F, act :: acts =>
    (∀ m ∈ act.msgs, Beyond F m.1 ∧ ∀ u ∈ m.2, m.1 ≤ u.2.2) ∧ IsAntichainList act.frontier ∧ (∀ f ∈ act.frontier, Beyond F f) ∧
      LegalUpserts act.frontier acts

/-- The frontier last seen. -/
def lastFrontier : List T → List (UpsertAct K V T) → List T
  | F, [] => F
  | _, act :: acts => lastFrontier act.frontier acts

/-- What a trace guarantees: the cursor presents sorted contents that accumulate, at all times beyond the compaction frontier, to what was inserted. -/
def HonestView (trace : TraceView K V T) : Prop :=
  ∀ n since us, ContentsSorted (trace n since us) ∧ ∀ d q, Beyond since q → accum (trace n since us).flatten d q = accum us d q

/-- The batches tile the interval of frontiers from `lo` to `hi`, contain only updates in their interval, and are sorted and consolidated. -/
def UpsertTiles : List T → List (ArrBatch (K × V) T Int) → List T → Prop
  | lo, [], hi => lo = hi
  | lo, b :: bs, hi => b.desc.lower = lo ∧ (∀ u ∈ b.upds, Beyond lo u.2.1 ∧ ¬ Beyond b.desc.upper u.2.1) ∧
    b.upds.Pairwise (fun u v => toLex u.1 < toLex v.1 ∨ u.1 = v.1 ∧ u.2.1 < v.2.1) ∧ (∀ u ∈ b.upds, u.2.2 ≠ 0) ∧ UpsertTiles b.desc.upper bs hi

end DD
