import Verif.Proofs.HalfJoin
import Verif.Proofs.TimeOrd
import Mathlib.Order.Nat
import Mathlib.Order.Lattice.Nat
import Mathlib.Algebra.Ring.Int.Defs

/-!
# C35: half joins deliver each match exactly once
-/

namespace DD
variable {K V V2 T R R2 M DOut : Type*} [LinearOrder K] [LinearOrder V] [LinearOrder V2] [Lattice T] [OrderBot T] [DecidableLE T] [DecidableEq T] [LinearOrder (Lin T)]
  [AddCommMonoid R] [DecidableEq R] [AddCommMonoid R2] [DecidableEq R2] [AddCommMonoid M] [DecidableEq DOut]
variable {comparison : T → T → Bool} {frontier_func : T → List T} {logic : K → V → V2 → DOut} {mul : R →+ R2 →+ M} {trace : Upds (K × V2) T R2}

/-- C35: however activations are scheduled, the operator does not panic, and what it has sent, together with what the whole arrangement (past and future) owes to the proposals that it
still holds, is what the whole arrangement owes to all proposals received. It sends updates at or after the time of the capability. -/
theorem C35_exactly_once (hf : HalfJoinFns comparison frontier_func) (acts : List (HalfJoinAct K V V2 T R R2))
    (hl : LegalHalfRun comparison frontier_func logic (fun a b => mul a b) trace [⊥] HalfJoin.init acts) :
    ∃ st outs, HalfJoin.init.run comparison frontier_func logic (fun a b => mul a b) acts = some (st, outs) ∧
      (∀ x i, total (outs.map Prod.snd) x i + total (halfMatches comparison logic (fun a b => mul a b) (st.stash.flatMap Prod.snd) trace) x i
        = total (halfMatches comparison logic (fun a b => mul a b) (acts.flatMap fun a => a.msgs.flatMap Prod.snd) trace) x i) ∧
      ∀ o ∈ outs, o.1 ≤ o.2.2.1 := by
  obtain ⟨st, outs, h1, -, h3, h4⟩ := run_ok comparison logic mul hf acts [⊥] HalfJoin.init (halfInv_init frontier_func) hl
  refine ⟨st, outs, h1, fun x i => ?_, h4⟩
  rw [total_halfMatches, total_halfMatches]
  have := h3 x i
  rw [show stashOwed comparison logic mul x i trace (HalfJoin.init : HalfJoin K V T R).stash = 0 from rfl, zero_add] at this
  exact this

/-- C35: an activation in which the yield function never asks to yield leaves only proposals that must wait: their capability is beyond the frontier of the arrangement, or an element of
that frontier, at which updates may yet arrive, compares before their initial time. No capability is held without proposals. -/
theorem C35_progress (hf : HalfJoinFns comparison frontier_func) (acts : List (HalfJoinAct K V V2 T R R2)) (act : HalfJoinAct K V V2 T R R2) (hy : act.yields = none)
    (hl : LegalHalfRun comparison frontier_func logic (fun a b => mul a b) trace [⊥] HalfJoin.init (acts ++ [act])) :
    ∃ st outs, HalfJoin.init.run comparison frontier_func logic (fun a b => mul a b) (acts ++ [act]) = some (st, outs) ∧
      ∀ e ∈ st.stash, e.2 ≠ [] ∧ ∀ p ∈ e.2, Beyond act.frontier2 e.1 ∨ ∃ f ∈ act.frontier2, comparison f p.2.1 = true := by
  obtain ⟨hl1, hl2⟩ := legalHalfRun_append comparison logic mul acts [act] [⊥] HalfJoin.init hl
  obtain ⟨st1, outs1, h1, h2, -, -⟩ := run_ok comparison logic mul hf acts [⊥] HalfJoin.init (halfInv_init frontier_func) hl1
  obtain ⟨st', outs, k1, k2, -, -, -, k6, -⟩ := activate_ok comparison logic mul hf h2 (hl2 st1 outs1 h1).1
  refine ⟨st', outs1 ++ outs, ?_, fun e he => ⟨k2.ne e he, k6 hy e he⟩⟩
  rw [run_append' comparison logic (fun a b => mul a b) acts [act], h1]
  simp [HalfJoin.run, k1]

/-- C35: once the arrangement is complete, an activation that does not yield has sent every match of every proposal exactly once. -/
theorem C35_complete (hf : HalfJoinFns comparison frontier_func) (acts : List (HalfJoinAct K V V2 T R R2)) (act : HalfJoinAct K V V2 T R R2) (hy : act.yields = none)
    (hdone : act.frontier2 = [])
    (hl : LegalHalfRun comparison frontier_func logic (fun a b => mul a b) trace [⊥] HalfJoin.init (acts ++ [act])) :
    ∃ st outs, HalfJoin.init.run comparison frontier_func logic (fun a b => mul a b) (acts ++ [act]) = some (st, outs) ∧ st.stash = [] ∧
      ∀ x i, total (outs.map Prod.snd) x i
        = total (halfMatches comparison logic (fun a b => mul a b) ((acts ++ [act]).flatMap fun a => a.msgs.flatMap Prod.snd) trace) x i := by
  obtain ⟨st, outs, h1, h2, -⟩ := C35_exactly_once hf _ hl
  obtain ⟨st', outs', k1, k2⟩ := C35_progress hf acts act hy hl
  rw [h1, Option.some.injEq, Prod.mk.injEq] at k1
  obtain ⟨rfl, rfl⟩ := k1
  have hs : st.stash = [] := by
    apply List.eq_nil_iff_forall_not_mem.2
    intro e he
    obtain ⟨k3, k4⟩ := k2 e he
    obtain ⟨p, hp⟩ := List.exists_mem_of_ne_nil _ k3
    rcases k4 p hp with ⟨f, hf', -⟩ | ⟨f, hf', -⟩ <;> (rw [hdone] at hf'; simp at hf')
  refine ⟨st, outs, h1, hs, fun x i => ?_⟩
  rw [← h2 x i, hs]
  simp [halfMatches, total_nil]

/-- C35: the operator lets the arrangement be compacted to ever later frontiers (if the frontiers derived from later times are later), but never past what it may still look up. -/
theorem C35_compaction (hf : HalfJoinFns comparison frontier_func) (acts : List (HalfJoinAct K V V2 T R R2)) (act : HalfJoinAct K V V2 T R R2)
    (hl : LegalHalfRun comparison frontier_func logic (fun a b => mul a b) trace [⊥] HalfJoin.init (acts ++ [act])) :
    ∃ st outs st' outs', HalfJoin.init.run comparison frontier_func logic (fun a b => mul a b) acts = some (st, outs) ∧
      st.activate comparison frontier_func logic (fun a b => mul a b) act = some (st', outs') ∧
      ((∀ h h', h ≤ h' → FrontierLe (frontier_func h) (frontier_func h')) → FrontierLe st.logical st'.logical) ∧
      (st'.live = true → ∀ h, (h ∈ act.frontier1 ∨ ∃ e ∈ st'.stash, e.1 = h) → FrontierLe st'.logical (frontier_func h)) ∧
      (st'.live = false → act.frontier1 = [] ∧ st'.stash = []) := by
  obtain ⟨hl1, hl2⟩ := legalHalfRun_append comparison logic mul acts [act] [⊥] HalfJoin.init hl
  obtain ⟨st1, outs1, h1, h2, -, -⟩ := run_ok comparison logic mul hf acts [⊥] HalfJoin.init (halfInv_init frontier_func) hl1
  obtain ⟨st', outs, k1, k2, -, -, -, -, k7⟩ := activate_ok comparison logic mul hf h2 (hl2 st1 outs1 h1).1
  exact ⟨st1, outs1, st', outs, h1, k1, k7, fun hlive h hh q hq => k2.cover hlive h hh q hq, k2.dead⟩

/-! ### A run -/

/-- Strict comparison, and compaction to the preceding time, meet the contract for numbers. -/
theorem halfJoinFns_strict : HalfJoinFns (fun s t : Nat => decide (s < t)) (fun h => [h - 1]) where
  down := by intro s t i h1 h2; simp only [decide_eq_true_eq] at *; omega
  beyond := by intro h i hi; exact ⟨h - 1, by simp, by omega⟩
  stable := by
    intro h i s t hi hst
    rcases Nat.eq_zero_or_pos i with rfl | hpos
    · simp
    · have := hst (i - 1) ⟨h - 1, by simp, by omega⟩
      simp only [decide_eq_decide]
      omega

/-- Weak comparison and no adjustment meet the contract for all times. -/
theorem halfJoinFns_weak {T : Type*} [PartialOrder T] [DecidableLE T] : HalfJoinFns (fun s t : T => decide (s ≤ t)) (fun h => [h]) where
  down := by intro s t i h1 h2; simp only [decide_eq_true_eq] at *; exact h1.trans h2
  beyond := by intro h i hi; exact ⟨h, by simp, hi⟩
  stable := by
    intro h i s t hi hst
    have := hst i ⟨h, by simp, hi⟩
    simpa only [decide_eq_decide] using this

/-- A proposal. -/
def aProposal (k v t : Nat) : PropData Nat Nat Nat := toLex (k, toLex (v, toLin t))

/-- All updates that the arrangement ever holds. -/
def halfTrace : Upds (Nat × Nat) Nat Int := [((1, 10), 0, 1), ((1, 10), 2, -1), ((2, 7), 1, 1), ((1, 20), 3, 1)]

/-- Three activations: proposals wait, two are answered and one is put back for later, from a compacted arrangement; then all is complete. -/
def halfActs : List (HalfJoinAct Nat Nat Nat Nat Int Int) :=
  [⟨[(2, [(aProposal 1 100 2, 2, 1), (aProposal 2 200 3, 3, 1), (aProposal 1 300 6, 5, 2)])], [3], [1], [(1, [(10, [(0, 1)])])], none, id⟩,
   ⟨[], [4], [3], [(1, [(10, [(1, 1), (2, -1)])]), (2, [(7, [(1, 1)])])], none, id⟩,
   ⟨[], [], [], [(1, [(10, [(1, 1), (2, -1)]), (20, [(3, 1)])]), (2, [(7, [(1, 1)])])], none, List.reverse⟩]

instance : DecidableEq (PropData Nat Nat Nat) := inferInstanceAs (DecidableEq (Nat × Nat × Nat))

instance : DecidableEq (HalfJoin Nat Nat Nat Int) := fun a b =>
  decidable_of_iff (a.stash = b.stash ∧ a.live = b.live ∧ a.logical = b.logical) (by cases a; cases b; simp)

/-- The product of differences. -/
abbrev intMul : Int →+ Int →+ Int := AddMonoidHom.mul

set_option synthInstance.maxSize 2000 in
theorem halfActs_legal : LegalHalfRun (fun s t : Nat => decide (s < t)) (fun h => [h - 1]) (fun k v v2 => (k, v, v2)) (fun a b => intMul a b) halfTrace [⊥] HalfJoin.init halfActs := by
  refine ⟨⟨by decide, by decide, ⟨by decide, by decide⟩, ⟨[((1, 10), 0, 1)], [((1, 10), 2, -1), ((2, 7), 1, 1), ((1, 20), 3, 1)], by decide, by decide,
    ⟨[((1, 10), 0, 1)], by simp [SameBeyond], fun d t => rfl⟩⟩, fun l => List.Perm.refl _⟩, ?_⟩
  intro st outs h
  have h1 : (HalfJoin.init : HalfJoin Nat Nat Nat Int).activate (fun s t : Nat => decide (s < t)) (fun h => [h - 1]) (fun (k v v2 : Nat) => (k, v, v2)) (fun a b => intMul a b)
      (⟨[(2, [(aProposal 1 100 2, 2, 1), (aProposal 2 200 3, 3, 1), (aProposal 1 300 6, 5, 2)])], [3], [1], [(1, [(10, [(0, 1)])])], none, id⟩ : HalfJoinAct Nat Nat Nat Nat Int Int)
      = some (⟨[(2, [(aProposal 1 100 2, 2, 1), (aProposal 2 200 3, 3, 1), (aProposal 1 300 6, 5, 2)])], true, [1]⟩, []) := by decide +kernel
  rw [h1, Option.some.injEq, Prod.mk.injEq] at h
  obtain ⟨rfl, rfl⟩ := h
  refine ⟨⟨by decide, by decide, ⟨by decide, by decide⟩, ⟨[((1, 10), 0, 1), ((1, 10), 2, -1), ((2, 7), 1, 1)], [((1, 20), 3, 1)], by decide, by decide,
    ⟨[((1, 10), 1, 1), ((1, 10), 2, -1), ((2, 7), 1, 1)], ?_, fun d t => rfl⟩⟩, fun l => List.Perm.refl _⟩, ?_⟩
  · refine .cons ⟨rfl, rfl, ?_⟩ (.cons ⟨rfl, rfl, fun _ _ => Iff.rfl⟩ (.cons ⟨rfl, rfl, fun _ _ => Iff.rfl⟩ .nil))
    rintro q ⟨f, hf, hle⟩
    simp only [List.mem_singleton] at hf
    subst hf
    exact ⟨fun _ => hle, fun _ => Nat.zero_le _⟩
  intro st outs h
  have h2 : (⟨[(2, [(aProposal 1 100 2, 2, 1), (aProposal 2 200 3, 3, 1), (aProposal 1 300 6, 5, 2)])], true, [1]⟩ : HalfJoin Nat Nat Nat Int).activate
      (fun s t : Nat => decide (s < t)) (fun h => [h - 1]) (fun (k v v2 : Nat) => (k, v, v2)) (fun a b => intMul a b)
      (⟨[], [4], [3], [(1, [(10, [(1, 1), (2, -1)])]), (2, [(7, [(1, 1)])])], none, id⟩ : HalfJoinAct Nat Nat Nat Nat Int Int)
      = some (⟨[(5, [(aProposal 1 300 6, 5, 2)])], true, [3]⟩, [(2, ((1, 100, 10), 2), 2, 1), (2, ((2, 200, 7), 3), 3, 1)]) := by decide +kernel
  rw [h2, Option.some.injEq, Prod.mk.injEq] at h
  obtain ⟨rfl, rfl⟩ := h
  refine ⟨⟨by decide, by decide, ⟨by decide, by decide⟩, ⟨halfTrace, [], by simp, by simp,
    ⟨[((1, 10), 1, 1), ((1, 10), 2, -1), ((2, 7), 1, 1), ((1, 20), 3, 1)], ?_, ?_⟩⟩, fun l => List.reverse_perm l⟩, fun _ _ _ => trivial⟩
  · refine .cons ⟨rfl, rfl, ?_⟩ (.cons ⟨rfl, rfl, fun _ _ => Iff.rfl⟩ (.cons ⟨rfl, rfl, fun _ _ => Iff.rfl⟩ (.cons ⟨rfl, rfl, fun _ _ => Iff.rfl⟩ .nil)))
    rintro q ⟨f, hf, hle⟩
    simp only [List.mem_singleton] at hf
    subst hf
    exact ⟨fun _ => le_trans (by decide) hle, fun _ => Nat.zero_le _⟩
  · intro d t
    exact total_perm (by decide) d t

/-- In that run every match is delivered: each only at the end, when nothing is held any more. -/
example : ∃ st outs, HalfJoin.init.run (fun s t : Nat => decide (s < t)) (fun h => [h - 1]) (fun k v v2 => (k, v, v2)) (fun a b => intMul a b) halfActs = some (st, outs) ∧ st.stash = [] ∧
    ∀ x i, total (outs.map Prod.snd) x i
      = total [(((1, 100, 10), 2), 2, 1), (((1, 300, 10), 6), 5, 2), (((1, 300, 10), 6), 5, -2), (((2, 200, 7), 3), 3, 1), (((1, 300, 20), 6), 5, 2)] x i := by
  obtain ⟨st, outs, h1, h2, h3⟩ := C35_complete (comparison := fun s t : Nat => decide (s < t)) (frontier_func := fun h => [h - 1]) (logic := fun k v v2 => (k, v, v2))
    (mul := intMul) halfJoinFns_strict halfActs.dropLast _ rfl rfl halfActs_legal
  refine ⟨st, outs, h1, h2, fun x i => (h3 x i).trans (total_perm ?_ x i)⟩
  decide +kernel

end DD
