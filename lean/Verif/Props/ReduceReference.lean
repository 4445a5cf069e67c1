import Verif.Proofs.ReferenceKey
import Verif.Props.Reduce

/-!
# C60: the reference implementation of `reduce` computes the same output

`reduce_trace_reference` first determines the times at which the output of a key may change, then computes the output at those. The conventions are those of C27.
-/

namespace DD

section
variable {K V1 V2 T R1 R2 : Type*} [Lattice T] [DecidableLE T] [DecidableEq T] [TimeOrd T] [LinearOrder K] [LinearOrder V1] [LinearOrder V2]
  [AddCommMonoid R1] [DecidableEq R1] [AddCancelCommMonoid R2] [DecidableEq R2]

/-- C60: for one key and an interval from `lower` to `upper`, the computation ends without failing, and:
at every time of the interval the accumulated output, old and new, is the user's function of the accumulated input;
every new output is at a time of the interval, and put with a held time it is at or beyond;
and the new pending times are at or beyond `upper`. -/
theorem C60_interval {f : List (V1 × R1) → List (V2 × R2)} {logic : List (V1 × R1) → List (V2 × R2) → List (V2 × R2)}
    (hl : ReducesBy f logic) (key : K) (source : Contents K V1 T R1) (output : Contents K V2 T R2) (batch : Contents K V1 T R1) (times later lower upper held : List T)
    (hsrc : source.Pairwise fun x y => x.1 < y.1) (hout : output.Pairwise fun x y => x.1 < y.1) (hbat : ContentsSorted batch)
    (htimes : times.Pairwise fun a b => toLin a ≤ toLin b) (hlater : ∀ p ∈ later, Beyond upper p)
    (hseeds : ∀ s ∈ (keyUpds batch key).map (·.2.1) ++ times, Beyond lower s ∧ ¬ Beyond upper s ∧ Beyond held s)
    (hstart : ∀ q, Beyond lower q → (∀ p ∈ times ++ later, ¬ p ≤ q) → ReducedAt f (keyUpds source key) (keyUpds output key) q) :
    ∃ outs pend N, (∀ fuel, N ≤ fuel → referenceKey fuel key source output batch times logic upper held = some (outs, pend)) ∧
      (∀ t, Beyond lower t → ¬ Beyond upper t →
        ReducedAt f (keyUpds source key ++ keyUpds batch key) (keyUpds output key ++ outs.flatMap (·.2)) t) ∧
      outs.map (·.1) = held ∧
      (∀ (i : Nat) (o : T × Upds V2 T R2), outs[i]? = some o → ∀ u ∈ o.2,
        Beyond lower u.2.1 ∧ ¬ Beyond upper u.2.1 ∧ o.1 ≤ u.2.1 ∧ outputIndex held u.2.1 = some i) ∧
      ∀ p ∈ pend, Beyond upper p ∧ Beyond held p := by
  obtain ⟨outs, pend, N, h1, h2, h3, h5, h6⟩ :=
    referenceKey_spec hl key source output batch times later lower upper held hsrc hout hbat htimes hseeds hstart
  refine ⟨outs, pend, N, h1, ?_, h2, ?_, ?_⟩
  · intro t ht hu
    refine h6 t ht ?_ fun w _ hle hb => absurd (beyond_mono hb hle) hu
    intro p hp hle
    rcases List.mem_append.1 hp with hp | hp
    · exact hu (beyond_mono (h5 p hp).1 hle)
    · exact hu (beyond_mono (hlater p hp) hle)
  · intro i o hio u hu
    obtain ⟨a1, a2, s, a3, a4⟩ := h3 i o hio u hu
    refine ⟨beyond_mono (hseeds s a3).1 a4, a2, ?_, a1⟩
    obtain ⟨h, b1, b2⟩ := outputIndex_le a1
    rw [← h2, List.getElem?_map, hio, Option.map_some, Option.some.injEq] at b1
    rw [b1]; exact b2
  · intro p hp
    obtain ⟨a1, s, a3, a4⟩ := h5 p hp
    exact ⟨a1, beyond_mono (hseeds s a3).2.2 a4⟩

/-- C60, agreement: over the interval, the new outputs of the reference implementation and those of the implementation of `reduce` add up to the same. -/
theorem C60_agrees {f : List (V1 × R1) → List (V2 × R2)} {logic : List (V1 × R1) → List (V2 × R2) → List (V2 × R2)}
    (hl : ReducesBy f logic) (key : K) (source : Contents K V1 T R1) (output : Contents K V2 T R2) (batch : Contents K V1 T R1) (times later lower upper held : List T)
    (hsrc : source.Pairwise fun x y => x.1 < y.1) (hout : output.Pairwise fun x y => x.1 < y.1) (hbat : ContentsSorted batch)
    (htimes : times.Pairwise fun a b => toLin a ≤ toLin b) (hlater : ∀ p ∈ later, Beyond upper p)
    (hseeds : ∀ s ∈ (keyUpds batch key).map (·.2.1) ++ times, Beyond lower s ∧ ¬ Beyond upper s ∧ Beyond held s)
    (hstart : ∀ q, Beyond lower q → (∀ p ∈ times ++ later, ¬ p ≤ q) → ReducedAt f (keyUpds source key) (keyUpds output key) q) :
    ∃ outs pend outs' pend' N, (∀ fuel, N ≤ fuel → referenceKey fuel key source output batch times logic upper held = some (outs, pend) ∧
        reduceKey fuel key source output batch times logic upper held = some (outs', pend')) ∧
      ∀ t, ¬ Beyond upper t → ∀ v, accum (outs.flatMap (·.2)) v t = accum (outs'.flatMap (·.2)) v t := by
  obtain ⟨outs, pend, N, h1, h2, -, h3, -⟩ := C60_interval hl key source output batch times later lower upper held hsrc hout hbat htimes hlater hseeds hstart
  obtain ⟨outs', pend', N', h1', h2', -, h3', -, -⟩ := C27_interval hl key source output batch times later lower upper held hsrc hout hbat htimes hlater hseeds hstart
  refine ⟨outs, pend, outs', pend', max N N', fun fuel hf => ⟨h1 fuel (le_trans (le_max_left _ _) hf), h1' fuel (le_trans (le_max_right _ _) hf)⟩, ?_⟩
  intro t htu v
  by_cases htl : Beyond lower t
  · have := reducedAt_unique (fun _ => rfl) (h2 t htl htu) (h2' t htl htu) v
    rw [accum_append, accum_append] at this
    exact add_left_cancel this
  · have hz : ∀ {os : List (T × Upds V2 T R2)}, (∀ (i : Nat) (o : T × Upds V2 T R2), os[i]? = some o → ∀ u ∈ o.2,
        Beyond lower u.2.1 ∧ ¬ Beyond upper u.2.1 ∧ o.1 ≤ u.2.1 ∧ outputIndex held u.2.1 = some i) → accum (os.flatMap (·.2)) v t = 0 := by
      intro os hos
      refine accum_zero_of_not_le (fun u hu hle => ?_) v
      obtain ⟨o, ho, hu⟩ := List.mem_flatMap.1 hu
      obtain ⟨i, hi⟩ := List.mem_iff_getElem?.1 ho
      exact htl (beyond_mono (hos i o hi u hu).1 hle)
    rw [hz h3, hz h3']

/-- C60, pending times: if no time of the history that is at or beyond `upper` is without a pending time or a time of the new updates before it, the output is right also at every time
at or beyond `upper` that is not at or beyond a pending time. The times are in any partial order.

Missing: that hypothesis. It is met by histories whose times are all before `upper`, as those of updates that have not been advanced (`C60_pending_past`); without it the claim
is false of the code (`C60_pending_defect`). -/
theorem C60_pending_partial {f : List (V1 × R1) → List (V2 × R2)} {logic : List (V1 × R1) → List (V2 × R2) → List (V2 × R2)}
    (hl : ReducesBy f logic) (key : K) (source : Contents K V1 T R1) (output : Contents K V2 T R2) (batch : Contents K V1 T R1) (times later lower upper held : List T)
    (hsrc : source.Pairwise fun x y => x.1 < y.1) (hout : output.Pairwise fun x y => x.1 < y.1) (hbat : ContentsSorted batch)
    (htimes : times.Pairwise fun a b => toLin a ≤ toLin b)
    (hseeds : ∀ s ∈ (keyUpds batch key).map (·.2.1) ++ times, Beyond lower s ∧ ¬ Beyond upper s ∧ Beyond held s)
    (hstart : ∀ q, Beyond lower q → (∀ p ∈ times ++ later, ¬ p ≤ q) → ReducedAt f (keyUpds source key) (keyUpds output key) q)
    (hhist : ∀ w ∈ (keyUpds source key).map (·.2.1) ++ (keyUpds output key).map (·.2.1), Beyond upper w →
      (∃ p ∈ times, p ≤ w) ∨ ∃ v s, total (keyUpds batch key) v s ≠ 0 ∧ s ≤ w) :
    ∃ outs pend N, (∀ fuel, N ≤ fuel → referenceKey fuel key source output batch times logic upper held = some (outs, pend)) ∧
      ∀ t, Beyond lower t → (∀ p ∈ pend ++ later, ¬ p ≤ t) →
        ReducedAt f (keyUpds source key ++ keyUpds batch key) (keyUpds output key ++ outs.flatMap (·.2)) t := by
  obtain ⟨outs, pend, N, h1, h2, h3, h5, h6⟩ :=
    referenceKey_spec hl key source output batch times later lower upper held hsrc hout hbat htimes hseeds hstart
  exact ⟨outs, pend, N, h1, fun t ht hp => h6 t ht hp fun w hw _ hb => hhist w hw hb⟩

/-- C60, pending times, for a history whose times are before `upper`. -/
theorem C60_pending_past {f : List (V1 × R1) → List (V2 × R2)} {logic : List (V1 × R1) → List (V2 × R2) → List (V2 × R2)}
    (hl : ReducesBy f logic) (key : K) (source : Contents K V1 T R1) (output : Contents K V2 T R2) (batch : Contents K V1 T R1) (times later lower upper held : List T)
    (hsrc : source.Pairwise fun x y => x.1 < y.1) (hout : output.Pairwise fun x y => x.1 < y.1) (hbat : ContentsSorted batch)
    (htimes : times.Pairwise fun a b => toLin a ≤ toLin b)
    (hseeds : ∀ s ∈ (keyUpds batch key).map (·.2.1) ++ times, Beyond lower s ∧ ¬ Beyond upper s ∧ Beyond held s)
    (hstart : ∀ q, Beyond lower q → (∀ p ∈ times ++ later, ¬ p ≤ q) → ReducedAt f (keyUpds source key) (keyUpds output key) q)
    (hpast : ∀ w ∈ (keyUpds source key).map (·.2.1) ++ (keyUpds output key).map (·.2.1), ¬ Beyond upper w) :
    ∃ outs pend N, (∀ fuel, N ≤ fuel → referenceKey fuel key source output batch times logic upper held = some (outs, pend)) ∧
      ∀ t, Beyond lower t → (∀ p ∈ pend ++ later, ¬ p ≤ t) →
        ReducedAt f (keyUpds source key ++ keyUpds batch key) (keyUpds output key ++ outs.flatMap (·.2)) t :=
  C60_pending_partial hl key source output batch times later lower upper held hsrc hout hbat htimes hseeds hstart fun w hw hb => absurd hb (hpast w hw)

end

/-! ### Examples -/

set_option synthInstance.maxSize 2000

/-- Records from (0,0), (1,0) and (0,1), the last two new: the join is reported as pending. -/
example : referenceKey 10 0 [(0, [(7, [((0, 0), (1 : Int))])])] [(0, [((1 : Int), [((0, 0), (1 : Int))])])]
      [(0, [(8, [((1, 0), (1 : Int))]), (9, [((0, 1), 1)])])] ([] : List (Nat × Nat)) (abelianLogic countLogic) [(0, 2), (1, 1), (2, 0)] [(0, 1), (1, 0)]
    = some ([((0, 1), [(1, (0, 1), -1), (2, (0, 1), 1)]), ((1, 0), [(1, (1, 0), -1), (2, (1, 0), 1)])], [(1, 1)]) := by decide +kernel

/-- The pending time of the last interval, in the next. -/
example : referenceKey 10 0 [(0, [(7, [((0, 0), (1 : Int))]), (8, [((1, 0), 1)]), (9, [((0, 1), 1)])])]
        [(0, [((1 : Int), [((0, 0), (1 : Int)), ((0, 1), -1), ((1, 0), -1)]), (2, [((0, 1), 1), ((1, 0), 1)])])]
        [] [((1, 1) : Nat × Nat)] (abelianLogic countLogic) [(2, 2)] [(1, 1)]
      = some ([((1, 1), [(1, (1, 1), 1), (2, (1, 1), -2), (3, (1, 1), 1)])], []) := by decide +kernel

/-- The input on which the implementation of `reduce` loses a pending time (`C27_pending_defect`) meets the hypotheses of `C60_pending_past`: the reference does not. -/
example : ∃ outs pend N, (∀ fuel, N ≤ fuel → referenceKey fuel 0 [(0, [(7, [((2, 0), (1 : Int))])])] [(0, [((1 : Int), [((2, 0), (1 : Int))])])]
      [(0, [(1, [((0, 1), (1 : Int)), ((1, 1), -1)]), (2, [((0, 3), 1)])])] ([] : List (Nat × Nat)) (abelianLogic countLogic) [(0, 4), (2, 1)] [(0, 1)] = some (outs, pend)) ∧
      ∀ t, Beyond [(0, 1)] t → (∀ p ∈ pend ++ [], ¬ p ≤ t) →
        ReducedAt countFn [(7, (2, 0), 1), (1, (0, 1), 1), (1, (1, 1), -1), (2, (0, 3), 1)] ([(1, (2, 0), 1)] ++ outs.flatMap (·.2)) t := by
  refine C60_pending_past countFn_reduces 0 _ _ _ _ [] [(0, 1)] _ _ (by simp) (by simp) ⟨by simp, by simp⟩ (by simp) ?_ ?_ ?_
  · unfold Beyond; decide +kernel
  · intro q _ _
    exact reducedAt_one 7 (2, 0) q
  · unfold Beyond; decide +kernel

/-- It reports the times (2,1) and (2,3), of which the implementation of `reduce` reports none. -/
example : (referenceKey 20 0 [(0, [(7, [((2, 0), (1 : Int))])])] [(0, [((1 : Int), [((2, 0), (1 : Int))])])]
      [(0, [(1, [((0, 1), (1 : Int)), ((1, 1), -1)]), (2, [((0, 3), 1)])])] ([] : List (Nat × Nat)) (abelianLogic countLogic) [(0, 4), (2, 1)] [(0, 1)]).map (fun r => sortDedup r.2) =
    some [(2, 1), (2, 3)] := by decide +kernel

/-- Over that interval the two agree. -/
example : ∃ outs pend outs' pend' N, (∀ fuel, N ≤ fuel →
      referenceKey fuel 0 [(0, [(7, [((2, 0), (1 : Int))])])] [(0, [((1 : Int), [((2, 0), (1 : Int))])])]
        [(0, [(1, [((0, 1), (1 : Int)), ((1, 1), -1)]), (2, [((0, 3), 1)])])] ([] : List (Nat × Nat)) (abelianLogic countLogic) [(0, 4), (2, 1)] [(0, 1)] = some (outs, pend) ∧
      reduceKey fuel 0 [(0, [(7, [((2, 0), (1 : Int))])])] [(0, [((1 : Int), [((2, 0), (1 : Int))])])]
        [(0, [(1, [((0, 1), (1 : Int)), ((1, 1), -1)]), (2, [((0, 3), 1)])])] ([] : List (Nat × Nat)) (abelianLogic countLogic) [(0, 4), (2, 1)] [(0, 1)] = some (outs', pend')) ∧
      ∀ t, ¬ Beyond [(0, 4), (2, 1)] t → ∀ v, accum (outs.flatMap (·.2)) v t = accum (outs'.flatMap (·.2)) v t := by
  refine C60_agrees countFn_reduces 0 _ _ _ _ [] [(0, 1)] _ _ (by simp) (by simp) ⟨by simp, by simp⟩ (by simp) (by simp) ?_ ?_
  · unfold Beyond; decide +kernel
  · intro q _ _
    exact reducedAt_one 7 (2, 0) q

/-- C60, the defect: a record from time (2,0), counted, both advanced to (2,1) by compaction to (0,1), and an interval from there in which another record comes at (0,3). The
hypotheses of `C60_interval` are met and no time is reported as pending, but at time (2,3), beyond `upper`, the output is wrong: there are two records, while the output says twice that
there is one. The time (2,1) is at or beyond `upper` and skipped without joining it with (0,3). The implementation of `reduce`, which advances the history by the new times when
loading it, reports (2,3). -/
theorem C60_pending_defect :
    let source : Contents Nat Nat (Nat × Nat) Int := [(0, [(7, [((2, 1), 1)])])]
    let output : Contents Nat Int (Nat × Nat) Int := [(0, [(1, [((2, 1), 1)])])]
    let batch : Contents Nat Nat (Nat × Nat) Int := [(0, [(2, [((0, 3), 1)])])]
    let lower : List (Nat × Nat) := [(0, 1)]
    let upper : List (Nat × Nat) := [(0, 4), (2, 1)]
    let held : List (Nat × Nat) := [(0, 1)]
    ReducesBy countFn (abelianLogic countLogic) ∧
    (∀ s ∈ (keyUpds batch 0).map (·.2.1), Beyond lower s ∧ ¬ Beyond upper s ∧ Beyond held s) ∧
    (∀ q, ReducedAt countFn (keyUpds source 0) (keyUpds output 0) q) ∧
    (∃ outs, referenceKey 20 0 source output batch [] (abelianLogic countLogic) upper held = some (outs, []) ∧
      Beyond lower (2, 3) ∧ ¬ ReducedAt countFn (keyUpds source 0 ++ keyUpds batch 0) (keyUpds output 0 ++ outs.flatMap (·.2)) (2, 3)) ∧
    ∃ outs, reduceKey 20 0 source output batch [] (abelianLogic countLogic) upper held = some (outs, [(2, 3)]) := by
  refine ⟨countFn_reduces, by unfold Beyond; decide +kernel, fun q => reducedAt_one 7 (2, 1) q,
    ⟨[((0, 1), [(1, (0, 3), 1)])], ?_, by unfold Beyond; decide +kernel, ?_⟩, [((0, 1), [(1, (0, 3), 1)])], ?_⟩
  · decide +kernel
  · rintro ⟨l, ⟨h1, h2⟩, h3⟩
    have hl : l = [(2, 1), (7, 1)] := by
      refine consolidatedPairs_unique h1 ⟨by simp, by simp⟩ fun v => ?_
      rw [h2]
      by_cases e2 : v = 2
      · subst e2; decide +kernel
      · by_cases e3 : v = 7
        · subst e3; decide +kernel
        · simp [keyUpds, valUpds, accum, weight, Ne.symm e2, Ne.symm e3]
    subst hl
    exact absurd (h3 2) (by decide +kernel)
  · decide +kernel

end DD
