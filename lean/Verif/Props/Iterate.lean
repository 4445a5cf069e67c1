import Verif.Proofs.Iterate
import Verif.Props.Linear

/-!
# C31: iteration computes the iterates of its body
-/

namespace DD
variable {D T R : Type*} [PartialOrder T] [DecidableLE T] [DecidableEq D] [AddCommGroup R]

section
variable {source : Nat → Msgs D T R} {result : Nat → Msgs D (T × Nat) R} {recv : Nat → Upds D (T × Nat) R} {body : T × Nat → (D → R) → D → R}

theorem passes_iterate (hw : ∀ n, WellTimed (source n)) (h : LoopRun (fun n => iterateReceives (source n)) result recv) :
    Passes (fun n => iterateReceives (source n)) result (fun n => (source n).upds) (fun n => ((source n).upds.map fun u => (u.1, ((u.2.1, ⊥) : T × Nat), u.2.2)).map fun u => (u.1, u.2.1, -u.2.2)) := by
  refine ⟨fun n => ?_⟩
  have ht : ∀ m ∈ (result n).concat ((source n).enter (T2 := Nat)).negate, ∀ u ∈ m.2, m.1 ≤ u.2.1 := by
    intro m hm
    rcases List.mem_append.1 hm with hm | hm
    · exact h.timed n m hm
    · simp only [Msgs.negate, Msgs.eachMsg, Msgs.enter, List.mem_map] at hm
      obtain ⟨m1, ⟨m2, hm2, rfl⟩, rfl⟩ := hm
      intro u hu
      simp only [List.map_map, List.mem_map, Function.comp_apply] at hu
      obtain ⟨v, hv, rfl⟩ := hu
      exact Prod.mk_le_mk.2 ⟨hw n m2 hm2 v hv, le_rfl⟩
  simp only [iterateReceives, Variable.new_from, Variable.set]
  rw [upds_concat, upds_feedback _ ht, upds_results_in, upds_concat, upds_negate, upds_enter]
  rfl

omit [DecidableEq D] in
theorem sub_settled {n0 : Nat} {t t' : T} {i : Nat} (ht : t' ≤ t) (hs : Settled (fun n => (source n).upds) n0 t) :
    Settled (fun n => ((source n).upds.map fun u => (u.1, ((u.2.1, ⊥) : T × Nat), u.2.2)).map fun u => (u.1, u.2.1, -u.2.2)) n0 (t', i) := by
  have e : ∀ us : Upds D (T × Nat) R, upTo (t', i) (us.map fun u => (u.1, u.2.1, -u.2.2)) = (upTo (t', i) us).map fun u => (u.1, u.2.1, -u.2.2) := by
    intro us
    unfold upTo
    rw [List.filter_map]
    rfl
  intro m hm
  simp only [e, upTo_enter]
  exact (((hs.mono le_rfl ht) m hm).map _).map _

theorem sub_neg (n : Nat) (d : D) (t : T) (i : Nat) :
    accum (((source n).upds.map fun u => (u.1, ((u.2.1, ⊥) : T × Nat), u.2.2)).map fun u => (u.1, u.2.1, -u.2.2)) d (t, i) = -accum (source n).upds d t := by
  rw [accum_neg, accum_enter]

/-- C31: however updates circulate, for each outer time `t` whose source is complete and each round `i` the loop's variable comes to hold, for good, the `i`-th iterate of the body from the
source at `t`. The body then produces the next iterate. -/
theorem C31_rounds (hw : ∀ n, WellTimed (source n)) (h : LoopRun (fun n => iterateReceives (source n)) result recv) (hc : Computes body recv fun n => (result n).upds)
    {n0 : Nat} {t : T} (hs : Settled (fun n => (source n).upds) n0 t) (i : Nat) (hi : i ≤ maxRound) :
    ∃ n, Settled recv n (t, i) ∧ (∀ d, accum (recv n) d (t, i) = iterates (fun d => accum (source n0).upds d t) (fun j => body (t, j)) i d) ∧
      ∃ n', Settled (fun n => (result n).upds) n' (t, i) ∧ ∀ d, accum (result n').upds d (t, i) = iterates (fun d => accum (source n0).upds d t) (fun j => body (t, j)) (i + 1) d :=
  rounds_ok h (passes_iterate hw h) hc hs (fun _ => sub_settled le_rfl hs) (fun n d i => sub_neg n d t i) i hi

/-- C31: if the iterates at `t` reach a fixed point in round `m`, then for all `k` at or after `m`, what leaves the scope, up to round `k`, comes to be the fixed point. -/
theorem C31_fixed_point (hw : ∀ n, WellTimed (source n)) (h : LoopRun (fun n => iterateReceives (source n)) result recv) (hc : Computes body recv fun n => (result n).upds)
    {n0 : Nat} {t : T} (hs : Settled (fun n => (source n).upds) n0 t) {m : Nat} {X : D → R} (hm : iterates (fun d => accum (source n0).upds d t) (fun j => body (t, j)) m = X)
    (hX : ∀ i, m ≤ i → body (t, i) X = X) (k : Nat) (hk : m ≤ k) (hkm : k ≤ maxRound) :
    ∃ n, ∀ n', n ≤ n' → ∀ d, accum (iterateReturns (throughRound k (result n'))).upds d t = X d := by
  obtain ⟨-, -, -, n, k1, k2⟩ := C31_rounds hw h hc hs k hkm
  refine ⟨n, fun n' hn' d => ?_⟩
  rw [iterateReturns, upds_leave, upds_throughRound, accum_leave_through, (k1.mono hn' le_rfl).accum_eq k1 d, k2 d, iterates_fix hm hX _ (by omega)]

/-- C31: once no more leaves the scope for `t`, and nothing did at rounds after `m`, what left is a fixed point: the `i`-th iterate for all `i` after `m`. -/
theorem C31_quiet (hw : ∀ n, WellTimed (source n)) (h : LoopRun (fun n => iterateReceives (source n)) result recv) (hc : Computes body recv fun n => (result n).upds)
    {n0 : Nat} {t : T} (hs : Settled (fun n => (source n).upds) n0 t) {m n : Nat} (hq : Settled (fun n => (iterateReturns (result n)).upds) n t)
    (hr : ∀ u ∈ (result n).upds, u.2.1.1 ≤ t → u.2.1.2 ≤ m) (i : Nat) (hm : m < i) (hi : i ≤ maxRound) (d : D) :
    accum (iterateReturns (result n)).upds d t = iterates (fun d => accum (source n0).upds d t) (fun j => body (t, j)) i d := by
  obtain ⟨j, rfl⟩ : ∃ j, i = j + 1 := ⟨i - 1, by omega⟩
  exact quiet_ok h (passes_iterate hw h) hc hs (fun t' i ht => sub_settled ht hs) (fun n d t i => sub_neg n d t i) hq hr j (by omega) (by omega) d

/-- C31: if the body consolidates, and at `t` and all times before it the iterates reach a fixed point in round `m`, then nothing circulates for these times after round `m`, and what
leaves the scope comes to be complete, and the fixed point. -/
theorem C31_terminates [DecidableEq T] (hw : ∀ n, WellTimed (source n)) (h : LoopRun (fun n => iterateReceives (source n)) result recv) (hc : Computes body recv fun n => (result n).upds)
    (hf : Frugal recv fun n => (result n).upds) {n0 : Nat} {t : T} (hs : Settled (fun n => (source n).upds) n0 t) {m : Nat} (hm : m ≤ maxRound) {X : T → D → R}
    (hX : ∀ t', t' ≤ t → iterates (fun d => accum (source n0).upds d t') (fun j => body (t', j)) m = X t' ∧ ∀ i, m ≤ i → body (t', i) (X t') = X t') :
    (∀ n, ∀ u ∈ (result n).upds, u.2.1.1 ≤ t → u.2.1.2 ≤ m) ∧
    ∃ n, Settled (fun n => (iterateReturns (result n)).upds) n t ∧ ∀ d, accum (iterateReturns (result n)).upds d t = X t d :=
  terminates_ok h (passes_iterate hw h) hc hs (fun t' i ht => sub_settled ht hs) (fun n d t i => sub_neg n d t i) hf hm hX

end

/-! ### A loop that starts empty -/

section
variable {result : Nat → Msgs D (T × Nat) R} {recv : Nat → Upds D (T × Nat) R} {body : T × Nat → (D → R) → D → R}

theorem passes_scope (h : LoopRun (fun _ => iterateScopeReceives) result recv) : Passes (fun _ => iterateScopeReceives) result (fun _ => ([] : Upds D T R)) (fun _ => []) := by
  refine ⟨fun n => ?_⟩
  simp only [iterateScopeReceives, Variable.new, Variable.set]
  rw [upds_feedback _ (h.timed n), upds_results_in]
  simp only [List.append_nil, List.map_nil]
  rfl

/-- C31: `iterate` on a scope: the iterates from the empty collection. -/
theorem C31_scope_rounds (h : LoopRun (fun _ => iterateScopeReceives) result recv) (hc : Computes body recv fun n => (result n).upds) (t : T) (i : Nat) (hi : i ≤ maxRound) :
    ∃ n, Settled recv n (t, i) ∧ (∀ d, accum (recv n) d (t, i) = iterates (fun _ => 0) (fun j => body (t, j)) i d) ∧
      ∃ n', Settled (fun n => (result n).upds) n' (t, i) ∧ ∀ d, accum (result n').upds d (t, i) = iterates (fun _ => 0) (fun j => body (t, j)) (i + 1) d :=
  rounds_ok (src := fun _ => []) (sub := fun _ => []) (n0 := 0) h (passes_scope h) hc (fun _ _ => List.Perm.refl _) (fun _ _ _ => List.Perm.refl _) (fun n d i => by simp [accum]) i hi

/-- C31: and it too comes to an end with the fixed point. -/
theorem C31_scope_terminates [DecidableEq T] (h : LoopRun (fun _ => iterateScopeReceives) result recv) (hc : Computes body recv fun n => (result n).upds)
    (hf : Frugal recv fun n => (result n).upds) {t : T} {m : Nat} (hm : m ≤ maxRound) {X : T → D → R}
    (hX : ∀ t', t' ≤ t → iterates (fun _ => 0) (fun j => body (t', j)) m = X t' ∧ ∀ i, m ≤ i → body (t', i) (X t') = X t') :
    (∀ n, ∀ u ∈ (result n).upds, u.2.1.1 ≤ t → u.2.1.2 ≤ m) ∧
    ∃ n, Settled (fun n => (iterateReturns (result n)).upds) n t ∧ ∀ d, accum (iterateReturns (result n)).upds d t = X t d :=
  terminates_ok (src := fun _ => []) (sub := fun _ => []) (n0 := 0) h (passes_scope h) hc (fun _ _ => List.Perm.refl _) (fun _ _ _ _ _ => List.Perm.refl _) (fun n d t i => by simp [accum]) hf hm hX

end

/-! ### The example of the documentation: numbers are halved while they are even -/

/-- The body's function on collections: the numbers that go to `e` are `2 * e`, and `e` itself if it is odd. -/
def halve (_ : Nat × Nat) (X : Nat → Int) (e : Nat) : Int := X (2 * e) + if e % 2 = 1 then X e else 0

def halveSource : Msgs Nat Nat Int := [(0, [(4, 0, 1)])]

/-- What the body produces: first one message for round 0, then one for round 1. -/
def halveResult (n : Nat) : Msgs Nat (Nat × Nat) Int := List.take n [((0, 0), [(2, (0, 0), 1)]), ((0, 1), [(1, (0, 1), 1), (2, (0, 1), -1)])]

def halveRecv (n : Nat) : Upds Nat (Nat × Nat) Int := (iterateReceives halveSource (halveResult n)).upds

theorem halveResult_late (n : Nat) (hn : 2 ≤ n) : halveResult n = halveResult 2 := by
  unfold halveResult
  rw [List.take_of_length_le (by simpa using hn), List.take_of_length_le (by simp)]

theorem halve_run : LoopRun (fun _ => iterateReceives halveSource) halveResult halveRecv where
  produces n := List.take_prefix_take_left (Nat.le_succ n)
  timed n m hm u hu := by
    have hm := List.mem_of_mem_take hm
    have : ∀ m ∈ halveResult 2, ∀ u ∈ m.2, m.1 ≤ u.2.1 := by decide
    exact this m hm u hu
  rounds n u hu := by
    obtain ⟨m, hm, hu⟩ := List.mem_flatMap.1 hu
    have hm := List.mem_of_mem_take hm
    have : ∀ m ∈ halveResult 2, ∀ u ∈ m.2, u.2.1.2 ≤ maxRound := by decide
    exact this m hm u hu
  receives n := by
    rcases n with _ | _ | n
    · decide +kernel
    · decide +kernel
    · have e : ∀ n, halveRecv (n + 2) = halveRecv 2 := by intro n; unfold halveRecv; rw [halveResult_late _ (by omega)]
      rw [e, show n + 1 + 1 + 1 = (n + 1) + 2 by omega, e]
      exact List.Subperm.refl _
  sound n := List.Subperm.refl _
  delivers n := ⟨n, List.Subperm.refl _⟩

theorem halve_computes : Computes halve halveRecv fun n => (halveResult n).upds := by
  intro n q hs
  refine ⟨2, fun m hm => by simp only [halveResult_late m hm, List.Perm.refl], fun d => ?_⟩
  have hr : ∀ d, accum (halveRecv n) d q = accum (halveRecv 2) d q := by
    intro d
    rw [(hs.mono (Nat.le_max_left n 2) le_rfl).accum_eq hs d |>.symm]
    unfold halveRecv
    rw [halveResult_late _ (Nat.le_max_right n 2)]
  simp only [hr]
  have e : halveRecv 2 = [(2, (0, 1), 1), (1, (0, 2), 1), (2, (0, 2), -1), (4, (0, 1), -1), (4, (0, 0), 1)] := by decide +kernel
  have e2 : (halveResult 2).upds = [(2, (0, 0), 1), (1, (0, 1), 1), (2, (0, 1), -1)] := by decide +kernel
  rw [e, e2]
  obtain ⟨t, i⟩ := q
  have o : ∀ j, ((0, j) : Nat × Nat) ≤ (t, i) ↔ j ≤ i := fun j => by simp [Prod.mk_le_mk]
  simp only [accum, halve, List.map_cons, List.map_nil, List.sum_cons, List.sum_nil, o]
  by_cases h1 : d = 1
  · subst h1
    by_cases i1 : 1 ≤ i <;> by_cases i2 : 2 ≤ i <;> simp [i1, i2] <;> omega
  · by_cases h2 : d = 2
    · subst h2
      by_cases i1 : 1 ≤ i <;> by_cases i2 : 2 ≤ i <;> simp [i1, i2]
    · have a1 : ¬ 1 = d := fun h => h1 h.symm
      have a2 : ¬ 2 = d := fun h => h2 h.symm
      have a3 : ¬ 2 = 2 * d := by omega
      have a4 : ¬ 4 = 2 * d := by omega
      have a5 : ¬ 1 = 2 * d := by omega
      by_cases ho : d % 2 = 1
      · have a6 : ¬ 4 = d := by omega
        simp [a1, a2, a3, a4, a5, a6]
      · simp [a1, a2, a3, a4, a5, ho]

theorem halve_frugal : Frugal halveRecv fun n => (halveResult n).upds := by
  intro n q _
  refine ⟨2, fun m hm => by simp only [halveResult_late m hm, List.Perm.refl], fun u hu _ => ?_⟩
  have : ∀ u ∈ (halveResult 2).upds, total (halveResult 2).upds u.1 u.2.1 ≠ 0 := by decide +kernel
  exact this u hu

/-- The theorem about termination applies to it: four becomes two, and then one. -/
example : (∀ n, ∀ u ∈ (halveResult n).upds, u.2.1.1 ≤ 0 → u.2.1.2 ≤ 2) ∧
    ∃ n, Settled (fun n => (iterateReturns (halveResult n)).upds) n 0 ∧ ∀ d, accum (iterateReturns (halveResult n)).upds d 0 = if d = 1 then 1 else 0 := by
  refine C31_terminates (source := fun _ => halveSource) (n0 := 0) (t := 0) (m := 2) (X := fun _ d => if d = 1 then 1 else 0) ?_ halve_run halve_computes halve_frugal
    (fun _ _ => List.Perm.refl _) (by decide) ?_
  · intro _ m hm
    revert m
    decide
  · intro t ht
    obtain rfl : t = 0 := by omega
    refine ⟨?_, fun i _ => ?_⟩
    · funext d
      simp only [iterates, halve, halveSource, Msgs.upds, accum, List.flatMap_cons, List.flatMap_nil, List.append_nil, List.map_cons, List.map_nil, List.sum_cons, List.sum_nil, le_refl, and_true]
      split_ifs <;> omega
    · funext d
      simp only [halve]
      split_ifs <;> omega

/-- And this is what leaves. -/
example : (iterateReturns (halveResult 2)).upds = [(2, 0, 1), (1, 0, 1), (2, 0, -1)] := by decide +kernel

end DD
