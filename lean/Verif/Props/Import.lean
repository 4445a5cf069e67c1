import Verif.Proofs.Import
import Verif.Proofs.Arrange
import Mathlib.Order.Nat

/-!
# Property C21: importing a trace
-/

namespace DD
variable {D T R : Type*} [PartialOrder T] [OrderBot T] [DecidableLE T] [DecidableEq T]

/-- A trace without batches and without imports. -/
def Sharing.start : Sharing D T R := { writer := TraceWriter.new ⊥, importers := [] }

private theorem start_inv : SharingInv (Sharing.start : Sharing D T R) [] [⊥] :=
  ⟨rfl, List.pairwise_singleton _ _, rfl, rfl, fun i imp q fed hi => by simp [Sharing.start] at hi⟩

private theorem importer_inv {ops : List (ShareOp D T R)} (hl : LegalSharing [⊥] ops) {s : Sharing D T R} (hs : Sharing.start.run ops = some s) {i : Nat}
    {imp : Importer D T R} (hi : s.importers[i]? = some imp) :
    ∃ fed q u, (feeds [⊥] [] ops)[i]? = some fed ∧ s.writer.queues[i]? = some q ∧ ImportInv imp q fed u ∧ s.writer.upper = u := by
  obtain ⟨s', u, h1, h2⟩ := start_inv.run hl
  rw [hs] at h1; cases h1
  have hlt : i < s.importers.length := by
    by_contra hge; rw [List.getElem?_eq_none (by omega)] at hi; cases hi
  have hq := List.getElem?_eq_getElem (l := s.writer.queues) (i := i) (by rw [h2.lenQ]; exact hlt)
  have hf := List.getElem?_eq_getElem (l := feeds [⊥] [] ops) (i := i) (by rw [h2.lenF]; exact hlt)
  exact ⟨_, _, u, hf, hq, h2.each i imp _ _ hi hq hf, h2.upper⟩

/-- C21. However insertions, seals, imports, activations and shutdowns interleave, nothing panics. -/
theorem C21_no_panic (ops : List (ShareOp D T R)) (hl : LegalSharing [⊥] ops) : ∃ s, Sharing.start.run ops = some s := by
  obtain ⟨s, u, h1, -⟩ := start_inv.run hl
  exact ⟨s, h1⟩

/-- C21. Each importing operator sends, in order and once each, the batches with updates among those shown when it started and those inserted since, up to some point. It does so with
capabilities it still has and that precede the updates; and the frontier it announced does not pass any update not delivered yet, save those beyond the window. -/
theorem C21_delivery (ops : List (ShareOp D T R)) (hl : LegalSharing [⊥] ops) (s : Sharing D T R) (hs : Sharing.start.run ops = some s) (i : Nat)
    (imp : Importer D T R) (hi : s.importers[i]? = some imp) :
    ∃ fed, (feeds [⊥] [] ops)[i]? = some fed ∧ DeliversUpTo imp.window fed imp.log ∧ LogSound [⊥] imp.log := by
  obtain ⟨fed, q, u, h1, -, h3, -⟩ := importer_inv hl hs hi
  refine ⟨fed, h1, ?_, h3.sound⟩
  obtain ⟨used, skipped, bs, F, e1, e2, e3, e4, e5⟩ := h3.parts
  refine ⟨used, skipped, bs, e1, e3, e4, fun b hb x hx => ?_⟩
  rw [h3.caps]
  have := e2.rest b hb x hx
  rcases e5 with ⟨a, -⟩ | ⟨-, -, a⟩
  · rw [a]; exact Or.inr this
  · exact Or.inl (a _ this)

/-- C21. When an operator that imports without a window has been activated, it has sent all batches with updates, and announced the trace's upper frontier. -/
theorem C21_caught_up (ops : List (ShareOp D T R)) (hl : LegalSharing [⊥] ops) (s : Sharing D T R) (i : Nat)
    (hs : Sharing.start.run (ops ++ [.activate i]) = some s) (imp : Importer D T R) (hi : s.importers[i]? = some imp) (hlive : imp.live = true)
    (hw : imp.window = none) :
    ∃ fed, (feeds [⊥] [] ops)[i]? = some fed ∧ sentBatches imp.log = fed.filter (fun b => !b.upds.isEmpty) ∧
      (announced [⊥] imp.log).Perm s.writer.upper := by
  obtain ⟨s0, u, h1, h2⟩ := start_inv.run hl
  have hrun : ∀ (l : List (ShareOp D T R)) (a : Sharing D T R), a.run (l ++ [.activate i]) = (a.run l).bind fun b => b.step (.activate i) := by
    intro l
    induction l with
    | nil => intro a; simp only [List.nil_append, Sharing.run, Option.bind_some]; cases a.step (.activate i) <;> rfl
    | cons o l ih =>
      intro a
      simp only [List.cons_append, Sharing.run]
      cases a.step o with
      | none => rfl
      | some b => exact ih b
  rw [hrun, h1, Option.bind_some] at hs
  have hlen : s.importers.length = s0.importers.length := by
    simp only [Sharing.step] at hs
    cases h0 : s0.importers[i]? with
    | none => rw [h0] at hs; cases hs; rfl
    | some a =>
      rw [h0] at hs
      simp only at hs
      split_ifs at hs with hl
      · cases hc : a.consumeAll (s0.writer.queues.getD i []) with
        | none => rw [hc] at hs; cases hs
        | some b => rw [hc] at hs; cases hs; simp
      · cases hs; rfl
  have hlt : i < s0.importers.length := by
    rw [← hlen]; by_contra hge; rw [List.getElem?_eq_none (by omega)] at hi; cases hi
  have h0 : s0.importers[i]? = some s0.importers[i] := List.getElem?_eq_getElem hlt
  have hq : s0.writer.queues[i]? = some (s0.writer.queues.getD i []) := by
    rw [List.getD_eq_getElem?_getD, List.getElem?_eq_getElem (by rw [h2.lenQ]; exact hlt)]; rfl
  have hf := List.getElem?_eq_getElem (l := feeds [⊥] [] ops) (i := i) (by rw [h2.lenF]; exact hlt)
  refine ⟨_, hf, ?_⟩
  obtain ⟨imp', c1, c2, c3, c4⟩ := (h2.each i _ _ _ h0 hq hf).consumeAll
  simp only [Sharing.step, h0, c1] at hs
  have hl0 : s0.importers[i].live = true := by
    by_contra hnl
    rw [if_neg hnl] at hs; cases hs
    rw [h0] at hi; cases hi; exact hnl hlive
  rw [if_pos hl0] at hs
  cases hs
  simp only [List.getElem?_set_self hlt, Option.some.injEq] at hi
  subst hi
  obtain ⟨used, skipped, bs, F, e1, e2, e3, e4, e5⟩ := c4.parts
  obtain ⟨rfl, hp⟩ := e2
  obtain ⟨a1, rfl⟩ : imp'.capabilities = F ∧ skipped = [] := by
    rcases e5 with a | ⟨a, -⟩
    · exact a
    · rw [hw] at a; cases a
  refine ⟨by rw [e1, e3]; simp, ?_⟩
  rw [c4.caps, a1]
  simp only [h2.upper]
  exact hp

/-! ### Non-vacuity: an import that starts between two insertions, and one with a window -/

private def b1 : ArrBatch Nat Nat Int := ⟨⟨[0], [2], [0]⟩, [(7, 0, 1), (8, 1, 1)]⟩
private def b2 : ArrBatch Nat Nat Int := ⟨⟨[2], [5], [0]⟩, [(7, 3, -1)]⟩
private def demo : List (ShareOp Nat Nat Int) :=
  [.insert b1 (some 0), .listen none [b1], .listen (some [3]) [b1], .insert b2 (some 3), .activate 0, .close [6], .activate 1, .activate 0]

example : LegalSharing [⊥] demo := by
  simp [demo, LegalSharing, b1, b2, ShownTiles, IsAntichainList, Beyond, FrontierLe]
  exact ⟨by intros; omega, by intros; omega⟩

/-- The batches each of the two operators sent, by their updates. -/
example : (Sharing.start.run demo).map (fun s => s.importers.map fun i => (sentBatches i.log).flatMap fun b => b.upds) =
    some [[(7, 0, 1), (8, 1, 1), (7, 3, -1)], [(7, 0, 1), (8, 1, 1), (7, 3, -1)]] := by decide +kernel
example : (Sharing.start.run demo).map (fun s => s.importers.map fun i => announced [⊥] i.log) = some [[6], []] := by decide +kernel

end DD
