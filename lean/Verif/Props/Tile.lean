import Verif.Proofs.Tile
import Mathlib.Order.Nat
import Mathlib.Order.BoundedOrder.Basic

/-!
# C29: output intervals are cut so that every update is in exactly one batch, which can be sent at a held time

The hypotheses are those of the caller: frontiers are antichains, `lower` is before `upper`, and the held times are at or beyond `lower`. They need not form an
antichain or be sorted.
-/

namespace DD
variable {T : Type*} [PartialOrder T] [OrderBot T] [DecidableLE T] [DecidableEq T]

/-- C29: with at least one held time, the descriptions follow one another from `lower` to `upper` without gap or overlap, none of them is an empty interval, each
comes with a held time, and none claims to be compacted. -/
theorem C29_contiguous (lower upper held : List T) (hl : IsAntichainList lower) (hu : IsAntichainList upper) (hle : FrontierLe lower upper)
    (hh : ∀ h ∈ held, Beyond lower h) (hne : held ≠ []) :
    DescsTile lower (tileDescriptions lower upper held).descs upper ∧
      (tileDescriptions lower upper held).held.length = (tileDescriptions lower upper held).descs.length ∧
      (tileDescriptions lower upper held).tileOf.length = held.length ∧
      ∀ d ∈ (tileDescriptions lower upper held).descs, d.since = [⊥] := by
  obtain ⟨ds, hs, os, e, h1, h2, h3, h4, -⟩ := tileLoop_spec upper hu held lower ⟨[], [], []⟩ hl hle hh (fun h => absurd h hne)
  unfold tileDescriptions
  rw [e]
  exact ⟨by simpa using h1, by simpa using h3, by simpa using h2, by simpa using h4⟩

/-- C29: a time of the interval that is beyond some held time is covered by exactly one description, and the held time of that description is at or before it. Times
outside of the interval are not covered. -/
theorem C29_exactly_one (lower upper held : List T) (hl : IsAntichainList lower) (hu : IsAntichainList upper) (hle : FrontierLe lower upper)
    (hh : ∀ h ∈ held, Beyond lower h) (t : T) :
    (Beyond lower t → ¬ Beyond upper t → Beyond held t →
      ∃ (i : Nat) (d : Description T) (h : T), (tileDescriptions lower upper held).descs[i]? = some d ∧ d.Covers t ∧
        (tileDescriptions lower upper held).held[i]? = some h ∧ h ∈ held ∧ h ≤ t ∧
        ∀ (j : Nat) (e : Description T), (tileDescriptions lower upper held).descs[j]? = some e → e.Covers t → j = i) ∧
    (∀ d ∈ (tileDescriptions lower upper held).descs, d.Covers t → Beyond lower t ∧ ¬ Beyond upper t) := by
  by_cases hne : held = []
  · subst hne
    exact ⟨fun _ _ h => by simp [Beyond] at h, by simp [tileDescriptions, tileLoop]⟩
  obtain ⟨ds, hs, os, e, h1, -, -, -, h5⟩ := tileLoop_spec upper hu held lower ⟨[], [], []⟩ hl hle hh (fun h => absurd h hne)
  unfold tileDescriptions
  rw [e]
  simp only [List.nil_append]
  constructor
  · intro b1 b2 b3
    cases ho : outputIndex held t with
    | none => exact absurd b3 (outputIndex_eq_none.1 ho)
    | some k =>
      obtain ⟨i, d, h, -, a2, a3, a4, a5, a6⟩ := h5 t k b1 b2 ho
      exact ⟨i, d, h, a2, a6, a3, List.mem_of_getElem? a4, a5, fun j e' hj he => h1.unique j i e' d t hj a2 he a6⟩
  · intro d hd hc
    obtain ⟨i, hi, rfl⟩ := List.getElem_of_mem hd
    exact h1.inside.2 i _ t (List.getElem?_eq_getElem hi) hc

/-- C29: the batch an update is filed under by `reduce`, as it is produced at a time of the interval beyond some held time, exists, is not skipped, and its
description covers the time. -/
theorem C29_filed (lower upper held : List T) (hl : IsAntichainList lower) (hu : IsAntichainList upper) (hle : FrontierLe lower upper)
    (hh : ∀ h ∈ held, Beyond lower h) (t : T) (h1 : Beyond lower t) (h2 : ¬ Beyond upper t) (h3 : Beyond held t) :
    ∃ (k i : Nat) (d : Description T) (h : T), outputIndex held t = some k ∧ held[k]? = some h ∧ h ≤ t ∧
      (tileDescriptions lower upper held).tileOf[k]? = some (some i) ∧
      (tileDescriptions lower upper held).held[i]? = some h ∧ (tileDescriptions lower upper held).descs[i]? = some d ∧ d.Covers t := by
  have hne : held ≠ [] := by rintro rfl; simp [Beyond] at h3
  obtain ⟨ds, hs, os, e, -, -, -, -, h5⟩ := tileLoop_spec upper hu held lower ⟨[], [], []⟩ hl hle hh (fun h => absurd h hne)
  cases ho : outputIndex held t with
  | none => exact absurd h3 (outputIndex_eq_none.1 ho)
  | some k =>
    obtain ⟨i, d, h, a1, a2, a3, a4, a5, a6⟩ := h5 t k h1 h2 ho
    refine ⟨k, i, d, h, rfl, a4, a5, ?_⟩
    unfold tileDescriptions
    rw [e]
    exact ⟨by simpa using a1, by simpa using a3, by simpa using a2, a6⟩

/-! Two incomparable held times, one of them repeated beyond the other: three held times make two descriptions. -/

example : (tileDescriptions [((0, 0) : Nat × Nat)] [(2, 2)] [(0, 1), (1, 0), (1, 0)]).descs.map (fun d => (d.lower, d.upper)) =
    [([(0, 0)], [(1, 0)]), ([(1, 0)], [(2, 2)])] := by decide +kernel

example : (tileDescriptions [((0, 0) : Nat × Nat)] [(2, 2)] [(0, 1), (1, 0), (1, 0)]).tileOf = [some 0, none, some 1] := by decide +kernel

example : (∀ h ∈ [((0, 1) : Nat × Nat), (1, 0), (1, 0)], Beyond [((0, 0) : Nat × Nat)] h) ∧ FrontierLe [((0, 0) : Nat × Nat)] [(2, 2)] ∧
    Beyond [((0, 1) : Nat × Nat), (1, 0), (1, 0)] (1, 1) ∧ ¬ Beyond [((2, 2) : Nat × Nat)] (1, 1) := by
  refine ⟨?_, ?_, ⟨(0, 1), by simp, by decide⟩, ?_⟩
  · simp [Beyond]
  · intro q _
    exact ⟨(0, 0), by simp, Prod.mk_le_mk.2 ⟨Nat.zero_le _, Nat.zero_le _⟩⟩
  · simp [Beyond]

end DD
