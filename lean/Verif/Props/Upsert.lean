import Verif.Proofs.UpsertRun
import Verif.Proofs.CursorRun
import Verif.Proofs.TimeOrd
import Mathlib.Order.Nat

/-!
# Property C23: arrangements of upserts
-/

namespace DD
variable {K V T : Type*} [LinearOrder K] [LinearOrder V] [LinearOrder T]

/-- C23. However messages and frontiers arrive, and however the trace is compacted behind the compaction frontier, the operator does not panic, and at every
completed time the batches it sent hold for each key exactly the value of the latest upsert, once, or nothing. -/
theorem C23_upsert (minimum : T) (trace : TraceView K V T) (htrace : HonestView trace) (acts : List (UpsertAct K V T)) (hl : LegalUpserts [minimum] acts) :
    ∃ st, upsertRun minimum trace (UpsertState.start minimum) acts = some st ∧
      ∀ k q, ¬ Beyond (lastFrontier [minimum] acts) q →
        ∃ o, UpsertValue (upsertsOf acts) k q o ∧ (∀ o', UpsertValue (upsertsOf acts) k q o' → o' = o) ∧
          ∀ v, accum (st.sent.flatMap fun s => s.2.upds) (k, v) q = if o = some v then 1 else 0 := by
  obtain ⟨st, h1, h2⟩ := upsertRun_inv htrace acts (upsertInv_start minimum) hl
  refine ⟨st, h1, fun k q hq => ?_⟩
  rw [List.nil_append] at h2
  obtain ⟨done, d1, d2, d3⟩ := h2.done
  obtain ⟨o, o1, o2⟩ := d3 k q
  have hv : UpsertValue (upsertsOf acts) k q o := by
    refine (upsertValue_congr ?_).mp o1
    intro o' t
    rw [← d1.mem_iff, List.map_append, List.mem_append]
    constructor
    · rintro ⟨a, b⟩; exact ⟨Or.inr a, b⟩
    · rintro ⟨a | a, b⟩
      · exfalso
        rw [List.mem_map] at a
        obtain ⟨x, hx, e⟩ := a
        have ht : x.1 = t := by rw [asUps] at e; simp only [Prod.mk.injEq] at e; exact e.2.2
        exact hq (beyond_mono (beyond_of_caps h2.capsF (h2.queue x hx)) (ht ▸ b))
      · exact ⟨a, b⟩
  exact ⟨o, hv, fun o' h' => h'.unique hv, fun v => by rw [h2.sentUpds]; exact o2 v⟩

/-- C23: the trace is given batches that tile time up to the frontier, each sorted, consolidated and within its interval. Those that are not sent are empty. Each
batch sent is sent with a capability that is beyond its lower frontier and no later than any of its updates. -/
theorem C23_batches (minimum : T) (trace : TraceView K V T) (htrace : HonestView trace) (acts : List (UpsertAct K V T)) (hl : LegalUpserts [minimum] acts) :
    ∃ st, upsertRun minimum trace (UpsertState.start minimum) acts = some st ∧
      UpsertTiles [minimum] st.writer.trace (lastFrontier [minimum] acts) ∧
      (st.sent.map Prod.snd).Sublist st.writer.trace ∧ (st.sent.flatMap fun s => s.2.upds) = (st.writer.trace.flatMap fun b => b.upds) ∧
      ∀ s ∈ st.sent, Beyond s.2.desc.lower s.1 ∧ ∀ u ∈ s.2.upds, s.1 ≤ u.2.1 := by
  obtain ⟨st, h1, h2⟩ := upsertRun_inv htrace acts (upsertInv_start minimum) hl
  exact ⟨st, h1, h2.tiles, h2.sentSub, h2.sentUpds, h2.sentCaps⟩

/-! ### Non-vacuity -/

/-- A trace that advances all times by the compaction frontier. -/
def compactingView : TraceView K V T := fun _ since us => unionContents (us.map fun u => [(u.1.1, [(u.1.2, [(advanceBy u.2.1 since, u.2.2)])])])

example : HonestView (compactingView : TraceView K V T) := by
  intro n since us
  refine ⟨unionContents_sorted _ ?_, fun d q hq => ?_⟩
  · intro t ht
    rw [List.mem_map] at ht
    obtain ⟨u, _, rfl⟩ := ht
    exact ⟨List.pairwise_singleton _ _, by simp⟩
  · rw [compactingView, accum_perm (flatten_unionContents _)]
    induction us with
    | nil => rfl
    | cons u us ih =>
      rw [List.map_cons, List.flatMap_cons, accum_append, ih, accum_cons]
      congr 1
      simp [Contents.flatten, accum, advanceBy_le_iff _ _ _ hq]

private def demo : List (UpsertAct Nat Nat Nat) :=
  [⟨[(0, [(7, some 1, 0), (7, some 3, 2), (8, some 5, 1), (7, some 2, 2)])], [2]⟩, ⟨[(2, [(7, none, 3), (8, none, 2)])], [3]⟩, ⟨[], []⟩]

example : LegalUpserts [0] demo := by
  simp [demo, LegalUpserts, IsAntichainList, Beyond]
  rintro a b c (⟨_, _, rfl⟩ | ⟨_, _, rfl⟩) <;> omega

/-- Key 7 has value 1 at time 0, then the greatest of the values offered at time 2, then is removed. -/
example : ((upsertRun 0 compactingView (UpsertState.start 0) demo).map fun st => st.sent.flatMap fun s => s.2.upds) =
    some [((7, 1), 0, 1), ((8, 5), 1, 1), ((7, 1), 2, -1), ((7, 3), 2, 1), ((8, 5), 2, -1), ((7, 3), 3, -1)] := by
  decide +kernel

example : UpsertValue (upsertsOf demo) 7 2 (some 3) :=
  Or.inl ⟨2, by decide, by decide, by
    intro o' t' h hle
    simp only [upsertsOf, demo, List.flatMap_cons, List.flatMap_nil, List.append_nil, List.mem_append, List.mem_cons, List.not_mem_nil, Prod.mk.injEq] at h
    simp at h
    rcases h with (⟨rfl, rfl⟩ | ⟨rfl, rfl⟩ | ⟨rfl, rfl⟩) | ⟨rfl, rfl⟩ <;> simp at hle ⊢⟩

end DD
