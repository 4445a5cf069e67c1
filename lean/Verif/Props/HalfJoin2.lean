import Verif.Proofs.HalfJoin2
import Verif.Props.HalfJoin

/-!
# C47: the second half join delivers each match exactly once
-/

namespace DD
variable {K V V2 T R R2 M DOut : Type*} [LinearOrder K] [LinearOrder V] [LinearOrder V2] [Lattice T] [OrderBot T] [DecidableLE T] [DecidableEq T] [TimeOrd T]
  [AddCommMonoid R] [DecidableEq R] [AddCommMonoid R2] [DecidableEq R2] [AddCommMonoid M] [DecidableEq DOut]
variable {comparison : T → T → Bool} {frontier_func : T → List T} {logic : K → V → V2 → DOut} {mul : R →+ R2 →+ M} {trace : Upds (K × V2) T R2}

/-- C47: however activations are scheduled and whenever the operator yields, it does not panic, and what it has sent, together with what the whole arrangement (past and future) owes to
the proposals that it still holds, is what the whole arrangement owes to all proposals received. It sends updates at or after the time of the capability. Each capability that it keeps is
at the initial time of a proposal that it holds, and each proposal that it holds is at or after a capability that it keeps. -/
theorem C47_exactly_once (hf : HalfJoin2Fns comparison frontier_func) (acts : List (HalfJoinAct K V V2 T R R2))
    (hl : LegalHalf2Run comparison frontier_func logic (fun a b => mul a b) trace [⊥] [⊥] HalfJoin2.init acts) :
    ∃ st outs, HalfJoin2.init.run comparison frontier_func logic (fun a b => mul a b) acts = some (st, outs) ∧
      (∀ x i, total (outs.map Prod.snd) x i + total (halfMatches comparison logic (fun a b => mul a b) st.held trace) x i
        = total (halfMatches comparison logic (fun a b => mul a b) (acts.flatMap fun a => a.msgs.flatMap Prod.snd) trace) x i) ∧
      (∀ o ∈ outs, o.1 ≤ o.2.2.1) ∧
      (∀ b ∈ st.blobs, ∀ c ∈ b.caps, ∃ p ∈ st.held, p.2.1 = c) ∧ (∀ p ∈ st.held, ∃ b ∈ st.blobs, ∃ c ∈ b.caps, c ≤ p.2.1) := by
  obtain ⟨st, outs, F1, F2, h1, h2, -, -, h3, h4, -⟩ := half2_run_ok logic mul hf acts [⊥] [⊥] HalfJoin2.init (half2Inv_init frontier_func [⊥]) hl
  refine ⟨st, outs, h1, fun x i => ?_, h4, ?_, ?_⟩
  · have := h3 x i
    rw [blobsOwed_eq, blobsOwed_eq, ← total_halfMatches] at this
    rw [this]
    simp [HalfJoin2.held, HalfJoin2.init, halfMatches, total_nil]
  · intro b hb c hc
    obtain ⟨-, rdy, stk, k1, -, -⟩ := h2.ok b hb
    obtain ⟨e, he, rfl⟩ := List.mem_map.1 (k1.tight c hc)
    exact ⟨_, List.mem_flatMap.2 ⟨b, hb, List.mem_map.2 ⟨e, he, rfl⟩⟩, rfl⟩
  · intro p hp
    obtain ⟨b, hb, hp⟩ := List.mem_flatMap.1 hp
    obtain ⟨e, he, rfl⟩ := List.mem_map.1 hp
    obtain ⟨-, rdy, stk, k1, -, -⟩ := h2.ok b hb
    obtain ⟨c, hc, hle⟩ := (k1.caps (ofLin e.1)).2 ⟨_, List.mem_map.2 ⟨e, he, rfl⟩, le_refl _⟩
    exact ⟨b, hb, c, hc, hle⟩

/-- C47: an activation in which the yield function never asks to yield, of an operator that had not asked to be activated again, leaves only proposals that must wait: an element of the
frontier of the arrangement, at which updates may yet arrive, compares before their initial time. What is missing: an operator that had asked to be activated again may leave others, and
not ask again (`C47_progress_defect`). -/
theorem C47_progress_partial (hf : HalfJoin2Fns comparison frontier_func) (acts : List (HalfJoinAct K V V2 T R R2)) (act : HalfJoinAct K V V2 T R R2) (hy : act.yields = none)
    (hl : LegalHalf2Run comparison frontier_func logic (fun a b => mul a b) trace [⊥] [⊥] HalfJoin2.init (acts ++ [act]))
    (hw : ∀ st outs, HalfJoin2.init.run comparison frontier_func logic (fun a b => mul a b) acts = some (st, outs) → st.wake = false) :
    ∃ st outs, HalfJoin2.init.run comparison frontier_func logic (fun a b => mul a b) (acts ++ [act]) = some (st, outs) ∧ st.wake = false ∧
      ∀ p ∈ st.held, ∃ f ∈ act.frontier2, comparison f p.2.1 = true := by
  obtain ⟨-, st1, outs1, F1, F2, h1, h2, h3, -⟩ := legalHalf2Run_append logic mul hf acts [act] [⊥] [⊥] HalfJoin2.init (half2Inv_init frontier_func [⊥]) hl
  obtain ⟨st', outs, k1, -, -, -, k5, -⟩ := half2_activate_ok logic mul hf h2 h3.1 h3.2.1
  obtain ⟨k6, k7⟩ := k5 hy (hw st1 outs1 h1)
  refine ⟨st', outs1 ++ outs, ?_, k6, ?_⟩
  · rw [half2_run_append logic, h1]
    simp [HalfJoin2.run, k1]
  · intro p hp
    have := k7 p hp
    unfold NoneBefore at this
    push Not at this
    exact this

/-- C47: if the yield function never asks to yield, as in `half_join`, then every activation leaves only proposals that must wait. -/
theorem C47_progress_without_yields (hf : HalfJoin2Fns comparison frontier_func) (acts : List (HalfJoinAct K V V2 T R R2)) (act : HalfJoinAct K V V2 T R R2)
    (hy : ∀ a ∈ acts ++ [act], a.yields = none)
    (hl : LegalHalf2Run comparison frontier_func logic (fun a b => mul a b) trace [⊥] [⊥] HalfJoin2.init (acts ++ [act])) :
    ∃ st outs, HalfJoin2.init.run comparison frontier_func logic (fun a b => mul a b) (acts ++ [act]) = some (st, outs) ∧ st.wake = false ∧
      ∀ p ∈ st.held, ∃ f ∈ act.frontier2, comparison f p.2.1 = true := by
  refine C47_progress_partial hf acts act (hy act (by simp)) hl ?_
  intro st outs h
  obtain ⟨-, st1, outs1, F1, F2, h1, -, -, h4⟩ := legalHalf2Run_append logic mul hf acts [act] [⊥] [⊥] HalfJoin2.init (half2Inv_init frontier_func [⊥]) hl
  rw [h1, Option.some.injEq, Prod.mk.injEq] at h
  obtain ⟨rfl, rfl⟩ := h
  exact h4 (fun a ha => hy a (by simp [ha])) rfl

/-- C47: if the yield function never asks to yield, then once the arrangement is complete every match of every proposal has been sent exactly once. -/
theorem C47_complete (hf : HalfJoin2Fns comparison frontier_func) (acts : List (HalfJoinAct K V V2 T R R2)) (act : HalfJoinAct K V V2 T R R2)
    (hy : ∀ a ∈ acts ++ [act], a.yields = none) (hdone : act.frontier2 = [])
    (hl : LegalHalf2Run comparison frontier_func logic (fun a b => mul a b) trace [⊥] [⊥] HalfJoin2.init (acts ++ [act])) :
    ∃ st outs, HalfJoin2.init.run comparison frontier_func logic (fun a b => mul a b) (acts ++ [act]) = some (st, outs) ∧ st.held = [] ∧ (∀ b ∈ st.blobs, b.caps = []) ∧
      ∀ x i, total (outs.map Prod.snd) x i
        = total (halfMatches comparison logic (fun a b => mul a b) ((acts ++ [act]).flatMap fun a => a.msgs.flatMap Prod.snd) trace) x i := by
  obtain ⟨st, outs, h1, h2, -, h4, -⟩ := C47_exactly_once hf _ hl
  obtain ⟨st', outs', k1, -, k3⟩ := C47_progress_without_yields hf acts act hy hl
  rw [h1, Option.some.injEq, Prod.mk.injEq] at k1
  obtain ⟨rfl, rfl⟩ := k1
  have hs : st.held = [] := by
    apply List.eq_nil_iff_forall_not_mem.2
    intro p hp
    obtain ⟨f, hf', -⟩ := k3 p hp
    rw [hdone] at hf'; simp at hf'
  refine ⟨st, outs, h1, hs, ?_, fun x i => ?_⟩
  · intro b hb
    apply List.eq_nil_iff_forall_not_mem.2
    intro c hc
    obtain ⟨p, hp, -⟩ := h4 b hb c hc
    rw [hs] at hp; simp at hp
  · rw [← h2 x i, hs]
    simp [halfMatches, total_nil]

/-- C47: the operator lets the arrangement be compacted to ever later frontiers (if the frontiers derived from later times are later), but never past what it may still look up. -/
theorem C47_compaction (hf : HalfJoin2Fns comparison frontier_func) (acts : List (HalfJoinAct K V V2 T R R2)) (act : HalfJoinAct K V V2 T R R2)
    (hl : LegalHalf2Run comparison frontier_func logic (fun a b => mul a b) trace [⊥] [⊥] HalfJoin2.init (acts ++ [act])) :
    ∃ st outs st' outs', HalfJoin2.init.run comparison frontier_func logic (fun a b => mul a b) acts = some (st, outs) ∧
      st.activate comparison frontier_func logic (fun a b => mul a b) act = some (st', outs') ∧
      ((∀ h h', h ≤ h' → FrontierLe (frontier_func h) (frontier_func h')) → FrontierLe st.logical st'.logical) ∧
      (st'.live = true → ∀ h, (h ∈ act.frontier1 ∨ ∃ b ∈ st'.blobs, h ∈ b.caps) → FrontierLe st'.logical (frontier_func h)) ∧
      (st'.live = false → act.frontier1 = [] ∧ st'.blobs = []) := by
  obtain ⟨-, st1, outs1, F1, F2, h1, h2, h3, -⟩ := legalHalf2Run_append logic mul hf acts [act] [⊥] [⊥] HalfJoin2.init (half2Inv_init frontier_func [⊥]) hl
  obtain ⟨st', outs, k1, k2, -, -, -, k6⟩ := half2_activate_ok logic mul hf h2 h3.1 h3.2.1
  exact ⟨st1, outs1, st', outs, h1, k1, k6, fun hlive h hh q hq => k2.cover hlive h hh q hq, k2.dead⟩

/-! ### Comparisons -/

/-- Strict comparison, and compaction to the preceding time, meet the contract for numbers. -/
theorem halfJoin2Fns_strict : HalfJoin2Fns (fun s t : Nat => decide (s < t)) (fun h => [h - 1]) where
  toHalfJoinFns := halfJoinFns_strict
  left := by intro s t i h1 h2; simp only [decide_eq_true_eq] at *; exact lt_of_le_of_lt h1 h2
  right := by intro t i i' h1 h2; simp only [decide_eq_true_eq] at *; exact lt_of_lt_of_le h2 h1

/-- Comparison by the total order, strict or not, meets the contract for all times if the arrangement is not compacted. -/
theorem halfJoin2Fns_total {T : Type*} [PartialOrder T] [OrderBot T] [TimeOrd T] :
    HalfJoin2Fns (fun s t : T => decide (toLin s ≤ toLin t)) (fun _ => [⊥]) ∧ HalfJoin2Fns (fun s t : T => decide (toLin s < toLin t)) (fun _ => [⊥]) := by
  have same : ∀ s t : T, SameBeyond [⊥] s t → s = t := fun s t h =>
    le_antisymm ((h t ⟨⊥, by simp, bot_le⟩).2 (le_refl _)) ((h s ⟨⊥, by simp, bot_le⟩).1 (le_refl _))
  refine ⟨⟨⟨?_, ?_, ?_⟩, ?_, ?_⟩, ⟨⟨?_, ?_, ?_⟩, ?_, ?_⟩⟩
  · intro s t i h1 h2; simp only [decide_eq_true_eq] at *; exact (TimeOrd.mono h1).trans h2
  · intro h i _; exact ⟨⊥, by simp, bot_le⟩
  · intro h i s t _ hst; rw [same s t hst]
  · intro s t i h1 h2; simp only [decide_eq_true_eq] at *; exact h1.trans h2
  · intro t i i' h1 h2; simp only [decide_eq_true_eq] at *; exact h2.trans h1
  · intro s t i h1 h2; simp only [decide_eq_true_eq] at *; exact lt_of_le_of_lt (TimeOrd.mono h1) h2
  · intro h i _; exact ⟨⊥, by simp, bot_le⟩
  · intro h i s t _ hst; rw [same s t hst]
  · intro s t i h1 h2; simp only [decide_eq_true_eq] at *; exact lt_of_le_of_lt h1 h2
  · intro t i i' h1 h2; simp only [decide_eq_true_eq] at *; exact lt_of_lt_of_le h2 h1

/-! ### A run -/

instance : DecidableEq (Blob Nat Nat Nat Int) := fun a b =>
  decidable_of_iff (a.caps = b.caps ∧ a.lower = b.lower ∧ a.data = b.data ∧ a.stuck_count = b.stuck_count) (by cases a; cases b; simp)

instance : DecidableEq (HalfJoin2 Nat Nat Nat Int) := fun a b =>
  decidable_of_iff (a.blobs = b.blobs ∧ a.live = b.live ∧ a.logical = b.logical ∧ a.wake = b.wake) (by cases a; cases b; simp)

set_option synthInstance.maxSize 2000 in
/-- The activations of the first half join: the same are legal for the second, which answers the first two proposals already in the first activation or the second, and the last in the
third. -/
theorem half2Acts_legal : LegalHalf2Run (fun s t : Nat => decide (s < t)) (fun h => [h - 1]) (fun k v v2 => (k, v, v2)) (fun a b => intMul a b) halfTrace [⊥] [⊥] HalfJoin2.init halfActs := by
  refine ⟨⟨by decide, by decide, ⟨by decide, by decide⟩, ⟨[((1, 10), 0, 1)], [((1, 10), 2, -1), ((2, 7), 1, 1), ((1, 20), 3, 1)], by decide, by decide,
    ⟨[((1, 10), 0, 1)], by simp [SameBeyond], fun d t => rfl⟩⟩, fun l => List.Perm.refl _⟩, by decide, ?_⟩
  intro st outs h
  have h1 : (HalfJoin2.init : HalfJoin2 Nat Nat Nat Int).activate (fun s t : Nat => decide (s < t)) (fun h => [h - 1]) (fun (k v v2 : Nat) => (k, v, v2)) (fun a b => intMul a b)
      (⟨[(2, [(aProposal 1 100 2, 2, 1), (aProposal 2 200 3, 3, 1), (aProposal 1 300 6, 5, 2)])], [3], [1], [(1, [(10, [(0, 1)])])], none, id⟩ : HalfJoinAct Nat Nat Nat Nat Int Int)
      = some (⟨[⟨[2], [2, 3, 5], [(toLin 2, aProposal 1 100 2, 1), (toLin 3, aProposal 2 200 3, 1), (toLin 5, aProposal 1 300 6, 2)], 3⟩], true, [1], false⟩, []) := by decide +kernel
  rw [h1, Option.some.injEq, Prod.mk.injEq] at h
  obtain ⟨rfl, rfl⟩ := h
  refine ⟨⟨by decide, by decide, ⟨by decide, by decide⟩, ⟨[((1, 10), 0, 1), ((1, 10), 2, -1), ((2, 7), 1, 1)], [((1, 20), 3, 1)], by decide, by decide,
    ⟨[((1, 10), 1, 1), ((1, 10), 2, -1), ((2, 7), 1, 1)], ?_, fun d t => rfl⟩⟩, fun l => List.Perm.refl _⟩, by decide, ?_⟩
  · refine .cons ⟨rfl, rfl, ?_⟩ (.cons ⟨rfl, rfl, fun _ _ => Iff.rfl⟩ (.cons ⟨rfl, rfl, fun _ _ => Iff.rfl⟩ .nil))
    rintro q ⟨f, hf, hle⟩
    simp only [List.mem_singleton] at hf
    subst hf
    exact ⟨fun _ => hle, fun _ => Nat.zero_le _⟩
  intro st outs h
  have h2 : (⟨[⟨[2], [2, 3, 5], [(toLin 2, aProposal 1 100 2, 1), (toLin 3, aProposal 2 200 3, 1), (toLin 5, aProposal 1 300 6, 2)], 3⟩], true, [1], false⟩
      : HalfJoin2 Nat Nat Nat Int).activate (fun s t : Nat => decide (s < t)) (fun h => [h - 1]) (fun (k v v2 : Nat) => (k, v, v2)) (fun a b => intMul a b)
      (⟨[], [4], [3], [(1, [(10, [(1, 1), (2, -1)])]), (2, [(7, [(1, 1)])])], none, id⟩ : HalfJoinAct Nat Nat Nat Nat Int Int)
      = some (⟨[⟨[5], [5], [(toLin 5, aProposal 1 300 6, 2)], 1⟩], true, [3], false⟩, [(2, ((1, 100, 10), 2), 2, 1), (2, ((2, 200, 7), 3), 3, 1)]) := by decide +kernel
  rw [h2, Option.some.injEq, Prod.mk.injEq] at h
  obtain ⟨rfl, rfl⟩ := h
  refine ⟨⟨by decide, by decide, ⟨by decide, by decide⟩, ⟨halfTrace, [], by simp, by simp,
    ⟨[((1, 10), 1, 1), ((1, 10), 2, -1), ((2, 7), 1, 1), ((1, 20), 3, 1)], ?_, ?_⟩⟩, fun l => List.reverse_perm l⟩, by decide, fun _ _ _ => trivial⟩
  · refine .cons ⟨rfl, rfl, ?_⟩ (.cons ⟨rfl, rfl, fun _ _ => Iff.rfl⟩ (.cons ⟨rfl, rfl, fun _ _ => Iff.rfl⟩ (.cons ⟨rfl, rfl, fun _ _ => Iff.rfl⟩ .nil)))
    rintro q ⟨f, hf, hle⟩
    simp only [List.mem_singleton] at hf
    subst hf
    exact ⟨fun _ => le_trans (by decide) hle, fun _ => Nat.zero_le _⟩
  · intro d t
    exact total_perm (by decide) d t

/-- In that run every match is delivered. -/
example : ∃ st outs, HalfJoin2.init.run (fun s t : Nat => decide (s < t)) (fun h => [h - 1]) (fun k v v2 => (k, v, v2)) (fun a b => intMul a b) halfActs = some (st, outs) ∧ st.held = [] ∧
    ∀ x i, total (outs.map Prod.snd) x i
      = total [(((1, 100, 10), 2), 2, 1), (((1, 300, 10), 6), 5, 2), (((1, 300, 10), 6), 5, -2), (((2, 200, 7), 3), 3, 1), (((1, 300, 20), 6), 5, 2)] x i := by
  obtain ⟨st, outs, h1, h2, -, h3⟩ := C47_complete (comparison := fun s t : Nat => decide (s < t)) (frontier_func := fun h => [h - 1]) (logic := fun k v v2 => (k, v, v2))
    (mul := intMul) halfJoin2Fns_strict halfActs.dropLast _ (by decide) rfl half2Acts_legal
  refine ⟨st, outs, h1, h2, fun x i => (h3 x i).trans (total_perm ?_ x i)⟩
  decide +kernel

/-! ### What can go wrong -/

/-- Two proposals arrive; the first can be answered, but the operator yields before. When it is activated again, the arrangement and the proposals are complete. -/
def stallActs : List (HalfJoinAct Nat Nat Nat Nat Int Int) :=
  [⟨[(1, [(aProposal 1 100 1, 1, 1), (aProposal 1 200 5, 5, 1)])], [], [2], [(1, [(10, [(0, 1)])])], some 0, id⟩, ⟨[], [], [], [(1, [(10, [(0, 1)])])], none, id⟩]

set_option synthInstance.maxSize 2000 in
/-- C47: an operator that yields while it has answers to give can stall. After the two activations of this legal run nothing more will arrive at either input, the operator has not asked
to be activated again, and yet it holds a proposal that it could answer, with its capability. The loop that promotes stuck records leaves out a blob with ready records, and once those are
consumed it is not repeated. -/
theorem C47_progress_defect :
    LegalHalf2Run (fun s t : Nat => decide (s < t)) (fun h => [h - 1]) (fun k v v2 => (k, v, v2)) (fun a b => intMul a b) [((1, 10), 0, 1)] [⊥] [⊥] HalfJoin2.init stallActs ∧
    ∃ st outs, HalfJoin2.init.run (fun s t : Nat => decide (s < t)) (fun h => [h - 1]) (fun k v v2 => (k, v, v2)) (fun a b => intMul a b) stallActs = some (st, outs) ∧
      (∃ last, stallActs.getLast? = some last ∧ last.frontier1 = [] ∧ last.frontier2 = []) ∧ st.wake = false ∧ st.held = [(aProposal 1 200 5, 5, 1)] := by
  refine ⟨⟨⟨by decide, by decide, ⟨by decide, by decide⟩, ⟨[((1, 10), 0, 1)], [], by decide, by decide, ⟨[((1, 10), 0, 1)], by simp [SameBeyond], fun d t => rfl⟩⟩,
    fun l => List.Perm.refl _⟩, by decide, ?_⟩, ?_⟩
  · intro st outs h
    refine ⟨⟨by simp, by simp, ⟨by decide, by decide⟩, ⟨[((1, 10), 0, 1)], [], by decide, by decide, ⟨[((1, 10), 0, 1)], by simp [SameBeyond], fun d t => rfl⟩⟩,
      fun l => List.Perm.refl _⟩, by simp, fun _ _ _ => trivial⟩
  · refine ⟨⟨[⟨[5], [5], [(toLin 5, aProposal 1 200 5, 1)], 1⟩], true, [4], false⟩, [(1, ((1, 100, 10), 1), 1, 1)], ?_, ⟨_, rfl, rfl, rfl⟩, rfl, rfl⟩
    decide +kernel

/-- The total order is needed: compared by the partial order, the proposal at `(1, 0)` has to wait for the element `(1, 0)` of the frontier, but only the least element in the total order,
`(0, 1)`, is considered, and the proposal is answered before the match arrives. -/
example : eligible (fun s t : Nat × Nat => decide (s ≤ t)) [(0, 1), (1, 0)] (1, 0) = true ∧ decide ((1, 0) ≤ ((1, 0) : Nat × Nat)) = true := by decide

end DD
