import Verif.Proofs.ReduceLoop
import Mathlib.Order.Lattice.Nat
import Mathlib.Algebra.Ring.Int.Defs
import Mathlib.Algebra.Ring.Nat

/-!
# C27: `reduce` recomputes the output of a key at every time at which it may change

The function of the user is `f`, the closure passed to the operator is `logic`, and `ReducesBy f logic` relates the two. It holds of the closure of `reduce_abelian`.

The updates of the key before `lower` are `keyUpds source key` and `keyUpds output key`, the new ones `keyUpds batch key`. `times` are the pending times of the key that are not
at or beyond `upper`, `later` the others. At the start the output is right at every time at or beyond `lower` that is not at or beyond a pending time.

The history may be compacted: its times may have been advanced, the accumulations at times at or beyond `lower` are all that matters.
-/

namespace DD

section
variable {K V1 V2 T R1 R2 : Type*} [Lattice T] [DecidableLE T] [DecidableEq T] [TimeOrd T] [LinearOrder K] [LinearOrder V1] [LinearOrder V2]
  [AddCommMonoid R1] [DecidableEq R1]

/-- C27: the closure of `reduce_abelian` brings the output in line with the user's logic, and retracts it for absent keys. -/
theorem C27_abelian [AddCommGroup R2] [DecidableEq R2] (logic : List (V1 × R1) → List (V2 × R2)) :
    ReducesBy (fun l => if l.isEmpty then [] else logic l) (abelianLogic logic) := by
  refine ⟨rfl, fun input output _ hc v => ?_⟩
  clear hc
  simp only [abelianLogic]
  rw [consolidate_eq, Option.getD_some, weight_consolidated, weight_append]
  have : weight (output.map fun o => (o.1, -o.2)) v = - weight output v := by
    induction output with
    | nil => simp [weight]
    | cons o os ih =>
      simp only [List.map_cons, weight_cons, ih]
      split_ifs <;> simp [ih, add_comm]
  rw [this]
  simp

variable [AddCancelCommMonoid R2] [DecidableEq R2]

/-- C27: for one key and an interval from `lower` to `upper`, the computation ends without failing, and:
at every time of the interval the accumulated output, old and new, is the user's function of the accumulated input;
every new output is at a time of the interval, and put with a held time it is at or beyond;
and the new pending times are at or beyond `upper`, in order. -/
theorem C27_interval {f : List (V1 × R1) → List (V2 × R2)} {logic : List (V1 × R1) → List (V2 × R2) → List (V2 × R2)}
    (hl : ReducesBy f logic) (key : K) (source : Contents K V1 T R1) (output : Contents K V2 T R2) (batch : Contents K V1 T R1) (times later lower upper held : List T)
    (hsrc : source.Pairwise fun x y => x.1 < y.1) (hout : output.Pairwise fun x y => x.1 < y.1) (hbat : ContentsSorted batch)
    (htimes : times.Pairwise fun a b => toLin a ≤ toLin b) (hlater : ∀ p ∈ later, Beyond upper p)
    (hseeds : ∀ s ∈ (keyUpds batch key).map (·.2.1) ++ times, Beyond lower s ∧ ¬ Beyond upper s ∧ Beyond held s)
    (hstart : ∀ q, Beyond lower q → (∀ p ∈ times ++ later, ¬ p ≤ q) → ReducedAt f (keyUpds source key) (keyUpds output key) q) :
    ∃ outs pend N, (∀ fuel, N ≤ fuel → reduceKey fuel key source output batch times logic upper held = some (outs, pend)) ∧
      (∀ t, Beyond lower t → ¬ Beyond upper t →
        ReducedAt f (keyUpds source key ++ keyUpds batch key) (keyUpds output key ++ outs.flatMap (·.2)) t) ∧
      outs.map (·.1) = held ∧
      (∀ (i : Nat) (o : T × Upds V2 T R2), outs[i]? = some o → ∀ u ∈ o.2,
        Beyond lower u.2.1 ∧ ¬ Beyond upper u.2.1 ∧ o.1 ≤ u.2.1 ∧ outputIndex held u.2.1 = some i) ∧
      (pend.Pairwise fun a b => toLin a < toLin b) ∧
      ∀ p ∈ pend, Beyond upper p ∧ Beyond held p := by
  obtain ⟨outs, pend, N, h1, h2, h3, h4, h5, h6⟩ :=
    reduceKey_spec hl key source output batch times later lower upper held hsrc hout hbat htimes hseeds hstart
  refine ⟨outs, pend, N, h1, ?_, h2, ?_, h4, ?_⟩
  · intro t ht hu
    refine h6 t ht ?_ fun w _ m _ hle hb => absurd (beyond_mono hb hle) hu
    intro p hp hle
    rcases List.mem_append.1 hp with hp | hp
    · exact hu (beyond_mono (h5 p hp).1 hle)
    · exact hu (beyond_mono (hlater p hp) hle)
  · intro i o hio u hu
    obtain ⟨a1, a2, s, a3, a4⟩ := h3 i o hio u hu
    refine ⟨beyond_mono (hseeds s a3).1 a4, a2, ?_, a1⟩
    obtain ⟨h, b1, b2⟩ := outputIndex_le a1
    rw [← h2, List.getElem?_map, hio, Option.map_some, Option.some.injEq] at b1
    rw [b1]; exact b2
  · intro p hp
    obtain ⟨a1, s, a3, a4⟩ := h5 p hp
    exact ⟨a1, beyond_mono (hseeds s a3).2.2 a4⟩

/-- C27, pending times: after the computation the output is right also at every time at or beyond `upper` that is not at or beyond a pending time. This is what the next interval
starts from.

Missing: the hypothesis `HistoryHeeded`, that each time of the history, advanced by the meet of the new times, is before `upper`, or at or beyond a pending time, or one at which the
new updates change the input. Without it the claim is false of the code (`C27_pending_defect`). It holds for totally ordered times (`C27_pending_total`), for intervals with a single
time of interest, as in rounds of an iteration (`C27_pending_single`), and when joins do not lead from before `upper` to beyond it, as when an outer time advances
(`C27_pending_directed`). -/
theorem C27_pending_partial {f : List (V1 × R1) → List (V2 × R2)} {logic : List (V1 × R1) → List (V2 × R2) → List (V2 × R2)}
    (hl : ReducesBy f logic) (key : K) (source : Contents K V1 T R1) (output : Contents K V2 T R2) (batch : Contents K V1 T R1) (times later lower upper held : List T)
    (hsrc : source.Pairwise fun x y => x.1 < y.1) (hout : output.Pairwise fun x y => x.1 < y.1) (hbat : ContentsSorted batch)
    (htimes : times.Pairwise fun a b => toLin a ≤ toLin b)
    (hseeds : ∀ s ∈ (keyUpds batch key).map (·.2.1) ++ times, Beyond lower s ∧ ¬ Beyond upper s ∧ Beyond held s)
    (hstart : ∀ q, Beyond lower q → (∀ p ∈ times ++ later, ¬ p ≤ q) → ReducedAt f (keyUpds source key) (keyUpds output key) q)
    (hhist : HistoryHeeded upper (keyUpds batch key) times ((keyUpds source key).map (·.2.1) ++ (keyUpds output key).map (·.2.1))) :
    ∃ outs pend N, (∀ fuel, N ≤ fuel → reduceKey fuel key source output batch times logic upper held = some (outs, pend)) ∧
      ∀ t, Beyond lower t → (∀ p ∈ pend ++ later, ¬ p ≤ t) →
        ReducedAt f (keyUpds source key ++ keyUpds batch key) (keyUpds output key ++ outs.flatMap (·.2)) t := by
  obtain ⟨outs, pend, N, h1, h2, h3, h4, h5, h6⟩ :=
    reduceKey_spec hl key source output batch times later lower upper held hsrc hout hbat htimes hseeds hstart
  exact ⟨outs, pend, N, h1, fun t ht hp => h6 t ht hp fun w hw m hm _ => hhist w hw m hm⟩

/-- C27, pending times, when all new updates of the key and its pending times are at one time: likewise, without that hypothesis. In the rounds of an iteration, from the frontier of
`(e, i)` and `(e + 1, 0)` to that of `(e, i + 1)` and `(e + 1, 0)`, that time is `(e, i)`. -/
theorem C27_pending_single {f : List (V1 × R1) → List (V2 × R2)} {logic : List (V1 × R1) → List (V2 × R2) → List (V2 × R2)}
    (hl : ReducesBy f logic) (key : K) (source : Contents K V1 T R1) (output : Contents K V2 T R2) (batch : Contents K V1 T R1) (times later lower upper held : List T)
    (hsrc : source.Pairwise fun x y => x.1 < y.1) (hout : output.Pairwise fun x y => x.1 < y.1) (hbat : ContentsSorted batch)
    (htimes : times.Pairwise fun a b => toLin a ≤ toLin b)
    (hseeds : ∀ s ∈ (keyUpds batch key).map (·.2.1) ++ times, Beyond lower s ∧ ¬ Beyond upper s ∧ Beyond held s)
    (hstart : ∀ q, Beyond lower q → (∀ p ∈ times ++ later, ¬ p ≤ q) → ReducedAt f (keyUpds source key) (keyUpds output key) q)
    (s0 : T) (hsingle : ∀ s ∈ (keyUpds batch key).map (·.2.1) ++ times, s = s0) :
    ∃ outs pend N, (∀ fuel, N ≤ fuel → reduceKey fuel key source output batch times logic upper held = some (outs, pend)) ∧
      ∀ t, Beyond lower t → (∀ p ∈ pend ++ later, ¬ p ≤ t) →
        ReducedAt f (keyUpds source key ++ keyUpds batch key) (keyUpds output key ++ outs.flatMap (·.2)) t := by
  obtain ⟨outs, pend, N, h1, h2, h3, h4, h5, h6⟩ :=
    reduceKey_spec hl key source output batch times later lower upper held hsrc hout hbat htimes hseeds hstart
  refine ⟨outs, pend, N, h1, fun t ht hp => h6 t ht hp fun w hw m hm _ _ => ?_⟩
  have hle : s0 ≤ w ⊔ m := (hm.greatest s0 fun s hs => (hsingle s hs).ge).trans le_sup_right
  rcases hm.some with ⟨v, s, hvs⟩ | hne
  · right
    refine ⟨v, fun hz => hvs ?_⟩
    obtain ⟨r, hr⟩ := total_ne_zero_mem hvs
    have hs : s = s0 := hsingle s (List.mem_append_left _ (List.mem_map.2 ⟨_, hr, rfl⟩))
    rw [← hz]
    unfold total accum
    congr 1
    apply List.map_congr_left
    intro u hu
    have : u.2.1 = s0 := hsingle u.2.1 (List.mem_append_left _ (List.mem_map.2 ⟨u, hu, rfl⟩))
    simp [this, hs, hle]
  · left
    obtain ⟨p, hp⟩ := List.exists_mem_of_ne_nil _ hne
    exact ⟨p, hp, (hsingle p (List.mem_append_right _ hp)).le.trans hle⟩

/-- C27, pending times, when the join of two times before `upper` is before `upper`: likewise. This is so of a frontier `(e, 0)` in a product order whose second component starts at 0. -/
theorem C27_pending_directed {f : List (V1 × R1) → List (V2 × R2)} {logic : List (V1 × R1) → List (V2 × R2) → List (V2 × R2)}
    (hl : ReducesBy f logic) (key : K) (source : Contents K V1 T R1) (output : Contents K V2 T R2) (batch : Contents K V1 T R1) (times later lower upper held : List T)
    (hsrc : source.Pairwise fun x y => x.1 < y.1) (hout : output.Pairwise fun x y => x.1 < y.1) (hbat : ContentsSorted batch)
    (htimes : times.Pairwise fun a b => toLin a ≤ toLin b)
    (hseeds : ∀ s ∈ (keyUpds batch key).map (·.2.1) ++ times, Beyond lower s ∧ ¬ Beyond upper s ∧ Beyond held s)
    (hstart : ∀ q, Beyond lower q → (∀ p ∈ times ++ later, ¬ p ≤ q) → ReducedAt f (keyUpds source key) (keyUpds output key) q)
    (hdirected : ∀ a b, ¬ Beyond upper a → ¬ Beyond upper b → ¬ Beyond upper (a ⊔ b))
    (hpast : ∀ w ∈ (keyUpds source key).map (·.2.1) ++ (keyUpds output key).map (·.2.1), ¬ Beyond upper w) :
    ∃ outs pend N, (∀ fuel, N ≤ fuel → reduceKey fuel key source output batch times logic upper held = some (outs, pend)) ∧
      ∀ t, Beyond lower t → (∀ p ∈ pend ++ later, ¬ p ≤ t) →
        ReducedAt f (keyUpds source key ++ keyUpds batch key) (keyUpds output key ++ outs.flatMap (·.2)) t := by
  refine C27_pending_partial hl key source output batch times later lower upper held hsrc hout hbat htimes hseeds hstart ?_
  intro w hw m hm hb
  obtain ⟨s, hs, hms⟩ := hm.exists_le
  exact absurd hb (hdirected w m (hpast w hw) fun h => (hseeds s hs).2.1 (beyond_mono h hms))

/-- C27, pending times, for totally ordered times: likewise, without that hypothesis. The history is in the past of `lower`. -/
theorem C27_pending_total (htotal : ∀ a b : T, a ≤ b ∨ b ≤ a)
    {f : List (V1 × R1) → List (V2 × R2)} {logic : List (V1 × R1) → List (V2 × R2) → List (V2 × R2)}
    (hl : ReducesBy f logic) (key : K) (source : Contents K V1 T R1) (output : Contents K V2 T R2) (batch : Contents K V1 T R1) (times later lower upper held : List T)
    (hsrc : source.Pairwise fun x y => x.1 < y.1) (hout : output.Pairwise fun x y => x.1 < y.1) (hbat : ContentsSorted batch)
    (htimes : times.Pairwise fun a b => toLin a ≤ toLin b)
    (hseeds : ∀ s ∈ (keyUpds batch key).map (·.2.1) ++ times, Beyond lower s ∧ ¬ Beyond upper s ∧ Beyond held s)
    (hstart : ∀ q, Beyond lower q → (∀ p ∈ times ++ later, ¬ p ≤ q) → ReducedAt f (keyUpds source key) (keyUpds output key) q)
    (hpast : ∀ w ∈ (keyUpds source key).map (·.2.1) ++ (keyUpds output key).map (·.2.1), ∀ l ∈ lower, ¬ l < w) :
    ∃ outs pend N, (∀ fuel, N ≤ fuel → reduceKey fuel key source output batch times logic upper held = some (outs, pend)) ∧
      ∀ t, Beyond lower t → (∀ p ∈ pend ++ later, ¬ p ≤ t) →
        ReducedAt f (keyUpds source key ++ keyUpds batch key) (keyUpds output key ++ outs.flatMap (·.2)) t := by
  refine C27_pending_partial hl key source output batch times later lower upper held hsrc hout hbat htimes hseeds hstart ?_
  intro w hw m hm hb
  obtain ⟨s, hs, hms⟩ := hm.exists_le
  obtain ⟨⟨l, hl1, hl2⟩, h2, -⟩ := hseeds s hs
  have hws : w ≤ s := by
    rcases htotal w l with h | h
    · exact h.trans hl2
    · rcases h.lt_or_eq with h | h
      · exact absurd h (hpast w hw l hl1)
      · rw [← h]; exact hl2
  exact absurd (beyond_mono hb (sup_le hws hms)) h2

end


/-! ### Examples -/

set_option synthInstance.maxSize 2000

/-- The number of records, at most one of which is kept per distinct number: the logic of `count`. -/
def countLogic (l : List (Nat × Int)) : List (Int × Int) := [((l.map (·.2)).sum, 1)]

/-- The function of the user for `count`. -/
def countFn (l : List (Nat × Int)) : List (Int × Int) := if l.isEmpty then [] else countLogic l

theorem countFn_reduces : ReducesBy countFn (abelianLogic countLogic) := C27_abelian countLogic

/-- One record, of count one. -/
theorem reducedAt_one (v : Nat) (a q : Nat × Nat) : ReducedAt countFn [(v, a, (1 : Int))] [((1 : Int), a, (1 : Int))] q := by
  by_cases h : a ≤ q
  · refine ⟨[(v, 1)], ⟨⟨by simp, by simp⟩, fun x => ?_⟩, fun x => ?_⟩
    · simp [weight, accum, h]
    · simp [weight, accum, h, countFn, countLogic]
  · refine ⟨[], ⟨⟨by simp, by simp⟩, fun x => ?_⟩, fun x => ?_⟩
    · simp [weight, accum, h]
    · simp [weight, accum, h, countFn]

/-- A record from time (0,0), counted; new records at (1,0) and (0,1), whose join (1,1) is reported as pending. -/
example : ∃ outs pend, reduceKey 10 0 [(0, [(7, [((0, 0), (1 : Int))])])] [(0, [((1 : Int), [((0, 0), (1 : Int))])])]
      [(0, [(8, [((1, 0), (1 : Int))]), (9, [((0, 1), 1)])])] ([] : List (Nat × Nat)) (abelianLogic countLogic) [(0, 2), (1, 1), (2, 0)] [(0, 1), (1, 0)]
        = some (outs, pend) ∧
      outs = [((0, 1), [(1, (0, 1), -1), (2, (0, 1), 1)]), ((1, 0), [(1, (1, 0), -1), (2, (1, 0), 1)])] ∧ pend = [(1, 1)] := by
  refine ⟨_, _, ?_, rfl, rfl⟩
  decide +kernel

/-- It meets the hypotheses of the theorems. -/
example : ∃ outs pend N, (∀ fuel, N ≤ fuel → reduceKey fuel 0 [(0, [(7, [((0, 0), (1 : Int))])])] [(0, [((1 : Int), [((0, 0), (1 : Int))])])]
      [(0, [(8, [((1, 0), (1 : Int))]), (9, [((0, 1), 1)])])] ([] : List (Nat × Nat)) (abelianLogic countLogic) [(0, 2), (1, 1), (2, 0)] [(0, 1), (1, 0)]
        = some (outs, pend)) ∧ ∀ t, Beyond [(0, 1), (1, 0)] t → (∀ p ∈ pend ++ [], ¬ p ≤ t) →
        ReducedAt countFn [(7, (0, 0), 1), (8, (1, 0), 1), (9, (0, 1), 1)] ([(1, (0, 0), 1)] ++ outs.flatMap (·.2)) t := by
  refine C27_pending_partial countFn_reduces 0 _ _ _ _ [] [(0, 1), (1, 0)] _ _ (by simp) (by simp) ⟨by simp, by simp⟩ (by simp) ?_ ?_ ?_
  · unfold Beyond; decide +kernel
  · intro q _ _
    exact reducedAt_one 7 (0, 0) q
  · rintro w hw ⟨m1, m2⟩ hm hb
    have hw : w = (0, 0) := by simpa [keyUpds, valUpds] using hw
    subst hw
    have h1 := hm.1 8 (1, 0) (by decide +kernel)
    have h2 := hm.1 9 (0, 1) (by decide +kernel)
    rw [Prod.mk_le_mk] at h1 h2
    have e1 : m1 = 0 := by omega
    have e2 : m2 = 0 := by omega
    subst e1; subst e2
    exfalso
    revert hb
    unfold Beyond; decide +kernel

/-- The next interval, in which there are no new records: the pending time (1,1) is evaluated, and the count there, four times one by then, corrected to three. -/
example : ∃ outs pend N, (∀ fuel, N ≤ fuel → reduceKey fuel 0 [(0, [(7, [((0, 0), (1 : Int))]), (8, [((1, 0), 1)]), (9, [((0, 1), 1)])])]
        [(0, [((1 : Int), [((0, 0), (1 : Int)), ((0, 1), -1), ((1, 0), -1)]), (2, [((0, 1), 1), ((1, 0), 1)])])]
        [] [((1, 1) : Nat × Nat)] (abelianLogic countLogic) [(2, 2)] [(1, 1)] = some (outs, pend)) ∧
      (∀ t, Beyond [(0, 2), (1, 1), (2, 0)] t → ¬ Beyond [(2, 2)] t →
        ReducedAt countFn [(7, (0, 0), 1), (8, (1, 0), 1), (9, (0, 1), 1)]
          ([(1, (0, 0), 1), (1, (0, 1), -1), (1, (1, 0), -1), (2, (0, 1), 1), (2, (1, 0), 1)] ++ outs.flatMap (·.2)) t) := by
  obtain ⟨outs, pend, N, h1, h2, -⟩ := C27_interval countFn_reduces 0 [(0, [(7, [((0, 0), (1 : Int))]), (8, [((1, 0), 1)]), (9, [((0, 1), 1)])])]
    [(0, [((1 : Int), [((0, 0), (1 : Int)), ((0, 1), -1), ((1, 0), -1)]), (2, [((0, 1), 1), ((1, 0), 1)])])] [] [((1, 1) : Nat × Nat)] []
    [(0, 2), (1, 1), (2, 0)] [(2, 2)] [(1, 1)] (by simp) (by simp) ⟨by simp, by simp⟩ (by simp) (by simp) (by unfold Beyond; decide +kernel) (by
      rintro ⟨a, b⟩ _ hp
      have hp : ¬ ((1, 1) : Nat × Nat) ≤ (a, b) := hp (1, 1) (by simp)
      rw [Prod.mk_le_mk] at hp
      by_cases ha : 1 ≤ a
      · have hb : b = 0 := by omega
        subst hb
        refine ⟨[(7, 1), (8, 1)], ⟨⟨by simp, by simp⟩, fun v => ?_⟩, fun v => ?_⟩
        · simp [keyUpds, valUpds, accum, weight, Prod.mk_le_mk, ha]
        · by_cases e1 : (1 : Int) = v
          · subst e1; simp [keyUpds, valUpds, accum, weight, Prod.mk_le_mk, ha, countFn, countLogic]
          · simp [keyUpds, valUpds, accum, weight, Prod.mk_le_mk, ha, countFn, countLogic, e1]
      · have ha : a = 0 := by omega
        subst ha
        by_cases hb : 1 ≤ b
        · refine ⟨[(7, 1), (9, 1)], ⟨⟨by simp, by simp⟩, fun v => ?_⟩, fun v => ?_⟩
          · simp [keyUpds, valUpds, accum, weight, Prod.mk_le_mk, hb]
          · by_cases e1 : (1 : Int) = v
            · subst e1; simp [keyUpds, valUpds, accum, weight, Prod.mk_le_mk, hb, countFn, countLogic]
            · simp [keyUpds, valUpds, accum, weight, Prod.mk_le_mk, hb, countFn, countLogic, e1]
        · have hb : b = 0 := by omega
          subst hb
          refine ⟨[(7, 1)], ⟨⟨by simp, by simp⟩, fun v => ?_⟩, fun v => ?_⟩
          · simp [keyUpds, valUpds, accum, weight, Prod.mk_le_mk]
          · simp [keyUpds, valUpds, accum, weight, Prod.mk_le_mk, countFn, countLogic])
  exact ⟨outs, pend, N, h1, h2⟩

/-- Its outputs. -/
example : reduceKey 10 0 [(0, [(7, [((0, 0), (1 : Int))]), (8, [((1, 0), 1)]), (9, [((0, 1), 1)])])]
        [(0, [((1 : Int), [((0, 0), (1 : Int)), ((0, 1), -1), ((1, 0), -1)]), (2, [((0, 1), 1), ((1, 0), 1)])])]
        [] [((1, 1) : Nat × Nat)] (abelianLogic countLogic) [(2, 2)] [(1, 1)]
      = some ([((1, 1), [(1, (1, 1), 1), (2, (1, 1), -2), (3, (1, 1), 1)])], []) := by decide +kernel

/-- A round of an iteration, with a history from an earlier epoch that goes on for more rounds: the record that came in round 3 of epoch 0 is to be counted again in round 3 of
epoch 1. -/
example : ∃ outs pend N, (∀ fuel, N ≤ fuel → reduceKey fuel 0 [(0, [(7, [((0, 3), (1 : Int))])])] [(0, [((1 : Int), [((0, 3), (1 : Int))])])]
      [(0, [(8, [((1, 1), (1 : Int))])])] ([] : List (Nat × Nat)) (abelianLogic countLogic) [(1, 2), (2, 0)] [(1, 1)] = some (outs, pend)) ∧
      ∀ t, Beyond [(1, 1), (2, 0)] t → (∀ p ∈ pend ++ [], ¬ p ≤ t) →
        ReducedAt countFn [(7, (0, 3), 1), (8, (1, 1), 1)] ([(1, (0, 3), 1)] ++ outs.flatMap (·.2)) t := by
  refine C27_pending_single countFn_reduces 0 _ _ _ _ [] [(1, 1), (2, 0)] _ _ (by simp) (by simp) ⟨by simp, by simp⟩ (by simp) ?_ ?_ (1, 1) ?_
  · unfold Beyond; decide +kernel
  · intro q _ _
    exact reducedAt_one 7 (0, 3) q
  · decide +kernel

example : reduceKey 10 0 [(0, [(7, [((0, 3), (1 : Int))])])] [(0, [((1 : Int), [((0, 3), (1 : Int))])])]
      [(0, [(8, [((1, 1), (1 : Int))])])] ([] : List (Nat × Nat)) (abelianLogic countLogic) [(1, 2), (2, 0)] [(1, 1)] =
    some ([((1, 1), [(1, (1, 1), 1)])], [(1, 3)]) := by decide +kernel

/-- An epoch, with records of several rounds. -/
example : ∃ outs pend N, (∀ fuel, N ≤ fuel → reduceKey fuel 0 [(0, [(7, [((0, 3), (1 : Int))])])] [(0, [((1 : Int), [((0, 3), (1 : Int))])])]
      [(0, [(8, [((1, 1), (1 : Int)), ((1, 2), -1)]), (9, [((1, 4), 1)])])] ([] : List (Nat × Nat)) (abelianLogic countLogic) [(2, 0)] [(1, 1)] = some (outs, pend)) ∧
      ∀ t, Beyond [(1, 0)] t → (∀ p ∈ pend ++ [], ¬ p ≤ t) →
        ReducedAt countFn [(7, (0, 3), 1), (8, (1, 1), 1), (8, (1, 2), -1), (9, (1, 4), 1)] ([(1, (0, 3), 1)] ++ outs.flatMap (·.2)) t := by
  refine C27_pending_directed countFn_reduces 0 _ _ _ _ [] [(1, 0)] _ _ (by simp) (by simp) ⟨by simp, by simp⟩ (by simp) ?_ ?_ ?_ ?_
  · unfold Beyond; decide +kernel
  · intro q _ _
    exact reducedAt_one 7 (0, 3) q
  · rintro ⟨a, a'⟩ ⟨b, b'⟩
    simp only [Beyond, List.mem_singleton, exists_eq_left, Prod.mk_sup_mk, Prod.mk_le_mk, Nat.zero_le, and_true, le_sup_iff]
    omega
  · unfold Beyond; decide +kernel

/-- With totally ordered times. -/
example : ∃ outs pend N, (∀ fuel, N ≤ fuel → reduceKey fuel 0 [(0, [(7, [(0, (1 : Int))])])] [(0, [((1 : Int), [(0, (1 : Int))])])]
      [(0, [(8, [(2, (1 : Int))]), (9, [(3, -1)])])] ([] : List Nat) (abelianLogic countLogic) [5] [2] = some (outs, pend)) ∧
      ∀ t, Beyond [2] t → (∀ p ∈ pend ++ [], ¬ p ≤ t) →
        ReducedAt countFn [(7, 0, 1), (8, 2, 1), (9, 3, -1)] ([(1, 0, 1)] ++ outs.flatMap (·.2)) t := by
  refine C27_pending_total Nat.le_total countFn_reduces 0 _ _ _ _ [] [2] _ _ (by simp) (by simp) ⟨by simp, by simp⟩ (by simp) ?_ ?_ ?_
  · unfold Beyond; decide +kernel
  · intro q _ _
    refine ⟨[(7, 1)], ⟨⟨by simp, by simp⟩, fun x => ?_⟩, fun x => ?_⟩
    · simp [keyUpds, valUpds, weight, accum]
    · simp [keyUpds, valUpds, weight, accum, countFn, countLogic]
  · decide +kernel

/-- C27, the defect: a record from time (2,0), counted, and an interval in which another record comes at (0,1), goes at (1,1), and a third comes at (0,3). The hypotheses of
`C27_interval` are met and no time is reported as pending, but at time (2,3), beyond `upper`, the output is wrong: there are two records, while the output says twice that there is
one. The time (2,0), advanced to (2,1) when loaded, is at or beyond `upper` and skipped without joining it with the new record's (0,3). -/
theorem C27_pending_defect :
    let source : Contents Nat Nat (Nat × Nat) Int := [(0, [(7, [((2, 0), 1)])])]
    let output : Contents Nat Int (Nat × Nat) Int := [(0, [(1, [((2, 0), 1)])])]
    let batch : Contents Nat Nat (Nat × Nat) Int := [(0, [(1, [((0, 1), 1), ((1, 1), -1)]), (2, [((0, 3), 1)])])]
    let lower : List (Nat × Nat) := [(0, 1)]
    let upper : List (Nat × Nat) := [(0, 4), (2, 1)]
    let held : List (Nat × Nat) := [(0, 1)]
    ReducesBy countFn (abelianLogic countLogic) ∧
    (∀ s ∈ (keyUpds batch 0).map (·.2.1), Beyond lower s ∧ ¬ Beyond upper s ∧ Beyond held s) ∧
    (∀ q, ReducedAt countFn (keyUpds source 0) (keyUpds output 0) q) ∧
    ∃ outs, reduceKey 20 0 source output batch [] (abelianLogic countLogic) upper held = some (outs, []) ∧
      Beyond lower (2, 3) ∧ ¬ ReducedAt countFn (keyUpds source 0 ++ keyUpds batch 0) (keyUpds output 0 ++ outs.flatMap (·.2)) (2, 3) := by
  refine ⟨countFn_reduces, by unfold Beyond; decide +kernel, fun q => reducedAt_one 7 (2, 0) q,
    [((0, 1), [(1, (0, 1), 1), (1, (0, 3), -1), (2, (0, 3), 1), (1, (1, 1), -1), (1, (1, 3), 2), (2, (1, 3), -1)])], ?_, by unfold Beyond; decide +kernel, ?_⟩
  · decide +kernel
  · rintro ⟨l, ⟨h1, h2⟩, h3⟩
    have hl : l = [(2, 1), (7, 1)] := by
      refine consolidatedPairs_unique h1 ⟨by simp, by simp⟩ fun v => ?_
      rw [h2]
      by_cases e1 : v = 1
      · subst e1; decide +kernel
      · by_cases e2 : v = 2
        · subst e2; decide +kernel
        · by_cases e3 : v = 7
          · subst e3; decide +kernel
          · simp [keyUpds, valUpds, accum, weight, Ne.symm e1, Ne.symm e2, Ne.symm e3]
    subst hl
    exact absurd (h3 2) (by decide +kernel)

end DD
