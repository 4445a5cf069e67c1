import Verif.Proofs.ReduceRun
import Verif.Props.Reduce

/-!
# C28: over any sequence of intervals, the output of `reduce` is the function of its input

The operator starts afresh and is activated again and again, with messages of input batches, the batches of its source trace, and the input frontier; `LegalRun` says what it may
rely on. Its traces may be compacted, up to its previous upper frontier.

After the run `st.upper` is the frontier it has completed: the upper frontier of the last batch (or of empty ones after it), joined with the last input frontier.
-/

namespace DD

section
variable {K V1 V2 T R1 R2 : Type*} [Lattice T] [OrderBot T] [DecidableLE T] [DecidableEq T] [TimeOrd T] [LinearOrder K] [LinearOrder V1] [LinearOrder V2]
  [AddCommMonoid R1] [DecidableEq R1] [AddCancelCommMonoid R2] [DecidableEq R2]

/-- What a run leaves. -/
structure ReduceRight (f : K → List (V1 × R1) → List (V2 × R2)) (as : List (ReduceAct K V1 V2 T R1 R2)) (st : ReduceOp K V2 T R2) : Prop where
  /-- At every time that is completed, the accumulated output of each key is the function of its accumulated input. -/
  right : ∀ k q, ¬ Beyond st.upper q → ReducedAt (f k) (ofKey (inputsOf as) k) (ofKey st.sentUpds k) q
  /-- The completed frontier is the one of the last activation. -/
  upper : ∀ a ∈ as.getLast?, ∃ lower, st.upper = a.nextUpper lower
  /-- The batches of the output trace tile the times completed, and hold the updates sent, each in the batch that covers it. -/
  tiles : ∃ hi, hi.Perm st.upper ∧ DescsTile [⊥] (st.writer.trace.map (·.desc)) hi
  trace : st.writer.trace.flatMap (·.upds) = st.sentUpds
  covers : ∀ b ∈ st.writer.trace, ∀ u ∈ b.upds, b.desc.Covers u.2.1
  /-- Each update is sent with a capability for a time no later than it. -/
  sent : ∀ x ∈ st.sent, ∀ u ∈ x.2.upds, x.1 ≤ u.2.1
  /-- The capabilities that are held on to are beyond the completed frontier. -/
  caps : ∀ c ∈ st.caps, Beyond st.upper c

theorem RunInv.reduceRight {f : K → List (V1 × R1) → List (V2 × R2)} {as : List (ReduceAct K V1 V2 T R1 R2)} {st : ReduceOp K V2 T R2} (h : RunInv f st (inputsOf as) [])
    (hu : ∀ a ∈ as.getLast?, ∃ lower, st.upper = a.nextUpper lower) : ReduceRight f as st :=
  ⟨fun k q hq => h.right k q fun _ hp hle => hq (beyond_mono (h.pend _ hp).1 hle), hu, ⟨_, h.writer, h.tiles⟩, h.trace, fun b hb => (h.covers b hb).2,
    fun x hx => (h.sent x hx).2, h.caps⟩

/-- C28, when the history of each key is heeded, in each interval: the run ends without failing and leaves the output right. What is missing is that there are runs, as
`C28_defect` shows, in which an interval leaves a pending time out because a time of the history is not heeded. -/
theorem C28_reduce_partial {f : K → List (V1 × R1) → List (V2 × R2)} {logic : K → List (V1 × R1) → List (V2 × R2) → List (V2 × R2)} (hl : ∀ k, ReducesBy (f k) (logic k))
    (as : List (ReduceAct K V1 V2 T R1 R2)) (h : LegalRun logic Heeded (ReduceOp.start ⊥) [] as) :
    ∃ N st, (∀ fuel, N ≤ fuel → ReduceOp.run fuel logic (ReduceOp.start ⊥) as = some st) ∧ ReduceRight f as st := by
  obtain ⟨N, st, h1, h2, h3⟩ := run_spec hl (fun _ _ _ _ _ _ h => h) as _ _ (runInv_start (fun k => (hl k).1) _) h
  exact ⟨N, st, h2, RunInv.reduceRight (by simpa using h1) h3⟩

/-- C28, when in each interval, for each key, the new updates and the pending times that are due are at one time: likewise. In the rounds of an iteration, from the frontier of
`(e, i)` and `(e + 1, 0)` to that of `(e, i + 1)` and `(e + 1, 0)`, that time is `(e, i)`. -/
theorem C28_rounds {f : K → List (V1 × R1) → List (V2 × R2)} {logic : K → List (V1 × R1) → List (V2 × R2) → List (V2 × R2)} (hl : ∀ k, ReducesBy (f k) (logic k))
    (as : List (ReduceAct K V1 V2 T R1 R2))
    (h : LegalRun logic (fun st a => ∀ k, ∃ s0, ∀ s, (s ∈ (keyUpds a.fresh k).map (·.2.1) ∨ (k, s) ∈ st.pending ∧ ¬ Beyond (a.nextUpper st.upper) s) → s = s0) (ReduceOp.start ⊥) [] as) :
    ∃ N st, (∀ fuel, N ≤ fuel → ReduceOp.run fuel logic (ReduceOp.start ⊥) as = some st) ∧ ReduceRight f as st := by
  suffices hx : _ by
    obtain ⟨N, st, h1, h2, h3⟩ := run_spec hl hx as _ _ (runInv_start (fun k => (hl k).1) _) h
    exact ⟨N, st, h2, RunInv.reduceRight (by simpa using h1) h3⟩
  intro st inputs later a _ _ hx k
  obtain ⟨s0, hs0⟩ := hx k
  refine heeded_of_single s0 fun s hs => hs0 s ?_
  rcases List.mem_append.1 hs with hs | hs
  · exact Or.inl hs
  · obtain ⟨p, hp, e⟩ := List.mem_filterMap.1 hs
    split_ifs at e with hc
    obtain rfl := Option.some.inj e
    refine Or.inr ⟨by rw [← hc.1]; exact hp, fun hb => ?_⟩
    rw [← lessEqual_iff, hc.2] at hb
    cases hb

/-- C28, when each upper frontier is that of an epoch, in that with two times the join of the two is also before it, and compaction is up to the previous upper frontier: likewise. -/
theorem C28_directed {f : K → List (V1 × R1) → List (V2 × R2)} {logic : K → List (V1 × R1) → List (V2 × R2) → List (V2 × R2)} (hl : ∀ k, ReducesBy (f k) (logic k))
    (as : List (ReduceAct K V1 V2 T R1 R2))
    (h : LegalRun logic (fun st a => InThePast st a ∧ ∀ x y, ¬ Beyond (a.nextUpper st.upper) x → ¬ Beyond (a.nextUpper st.upper) y → ¬ Beyond (a.nextUpper st.upper) (x ⊔ y))
      (ReduceOp.start ⊥) [] as) :
    ∃ N st, (∀ fuel, N ≤ fuel → ReduceOp.run fuel logic (ReduceOp.start ⊥) as = some st) ∧ ReduceRight f as st := by
  suffices hx : _ by
    obtain ⟨N, st, h1, h2, h3⟩ := run_spec hl hx as _ _ (runInv_start (fun k => (hl k).1) _) h
    exact ⟨N, st, h2, RunInv.reduceRight (by simpa using h1) h3⟩
  rintro st inputs later a hi ha ⟨hpast, hdir⟩ k w hw m hm hb
  exfalso
  obtain ⟨s, hs, hms⟩ := hm.exists_le
  obtain ⟨⟨l, hl1, hl2⟩, hsu⟩ := seed_inside hi ha k s hs
  obtain ⟨w', hw', hww⟩ := hpast k w hw l hl1
  have h1 : ¬ Beyond (a.nextUpper st.upper) w' := fun hb => hw' ((nextUpper_spec ha).le _ hb)
  have h2 : ¬ Beyond (a.nextUpper st.upper) l := fun hb => hsu (beyond_mono hb hl2)
  have h3 : ¬ Beyond (a.nextUpper st.upper) m := fun hb => hsu (beyond_mono hb hms)
  exact hdir _ _ (hdir _ _ h1 h2) h3 (beyond_mono hb (sup_le_sup hww (le_refl m)))

/-- C28 for totally ordered times: likewise. -/
theorem C28_total (htotal : ∀ a b : T, a ≤ b ∨ b ≤ a) {f : K → List (V1 × R1) → List (V2 × R2)} {logic : K → List (V1 × R1) → List (V2 × R2) → List (V2 × R2)}
    (hl : ∀ k, ReducesBy (f k) (logic k)) (as : List (ReduceAct K V1 V2 T R1 R2)) (h : LegalRun logic InThePast (ReduceOp.start ⊥) [] as) :
    ∃ N st, (∀ fuel, N ≤ fuel → ReduceOp.run fuel logic (ReduceOp.start ⊥) as = some st) ∧ ReduceRight f as st := by
  refine C28_directed hl as (h.imp fun st a hp => ⟨hp, fun x y hx hy => ?_⟩)
  rcases htotal x y with hxy | hxy
  · rw [sup_eq_right.2 hxy]; exact hy
  · rw [sup_eq_left.2 hxy]; exact hx

/-- C28: when the input is closed, that is at all times. -/
theorem C28_closed {f : K → List (V1 × R1) → List (V2 × R2)} {as : List (ReduceAct K V1 V2 T R1 R2)} {st : ReduceOp K V2 T R2} (h : ReduceRight f as st)
    (hlast : ∃ a ∈ as.getLast?, a.frontier = []) (k : K) (q : T) : ReducedAt (f k) (ofKey (inputsOf as) k) (ofKey st.sentUpds k) q := by
  obtain ⟨a, ha, hf⟩ := hlast
  obtain ⟨lower, hu⟩ := h.upper a ha
  refine h.right k q ?_
  rw [hu, ReduceAct.nextUpper, hf, beyond_acJoin]
  rintro ⟨_, x, hx, _⟩
  simp at hx

end

/-! ### Examples -/

set_option synthInstance.maxSize 2000

deriving instance DecidableEq for ArrBatch, Replay, TraceWriter, ReduceOp

/-- The first interval of `C28_defect`. -/
def defectAct1 : ReduceAct Nat Nat Int (Nat × Nat) Int Int :=
  { msgs := [((0, 0), [⟨⟨[(0, 0)], [(0, 1)], [(0, 0)]⟩, [((0, 7), (2, 0), 1)]⟩])], shown := [], frontier := [(0, 1)], source := [], output := [], fresh := [(0, [(7, [((2, 0), 1)])])] }

/-- The second. -/
def defectAct2 : ReduceAct Nat Nat Int (Nat × Nat) Int Int :=
  { msgs := [((0, 1), [⟨⟨[(0, 1)], [(0, 4), (2, 1)], [(0, 0)]⟩, [((0, 1), (0, 1), 1), ((0, 1), (1, 1), -1), ((0, 2), (0, 3), 1)]⟩])], shown := [], frontier := [(0, 4), (2, 1)],
    source := [(0, [(7, [((2, 0), 1)])])], output := [(0, [(1, [((2, 0), 1)])])], fresh := [(0, [(1, [((0, 1), 1), ((1, 1), -1)]), (2, [((0, 3), 1)])])] }

/-- The third: the input is closed. -/
def defectAct3 : ReduceAct Nat Nat Int (Nat × Nat) Int Int :=
  { msgs := [], shown := [(⟨[(0, 4), (2, 1)], [], [(0, 0)]⟩, true)], frontier := [],
    source := [(0, [(1, [((0, 1), 1), ((1, 1), -1)]), (2, [((0, 3), 1)]), (7, [((2, 0), 1)])])],
    output := [(0, [(1, [((0, 1), 1), ((0, 3), -1), ((1, 1), -1), ((1, 3), 2), ((2, 0), 1)]), (2, [((0, 3), 1), ((1, 3), -1)])])], fresh := [] }

/-- The closure of `count`, for every key. -/
abbrev countEach : Nat → List (Nat × Int) → List (Int × Int) → List (Int × Int) := fun _ => abelianLogic countLogic

/-- The state after the first interval, and after the second. -/
def defectState1 : ReduceOp Nat Int (Nat × Nat) Int := ((ReduceOp.start ⊥).act 20 countEach defectAct1).getD (ReduceOp.start ⊥)
@[inherit_doc defectState1] def defectState2 : ReduceOp Nat Int (Nat × Nat) Int := (defectState1.act 20 countEach defectAct2).getD (ReduceOp.start ⊥)

theorem defectLegal1 : LegalAct (ReduceOp.start ⊥) [] [((0, 1) : Nat × Nat)] defectAct1 where
  updates := by unfold Beyond; decide +kernel
  inOrder := by simp [defectAct1]
  notBefore := by
    intro b _ q _
    exact ⟨⊥, by simp [ReduceOp.start], bot_le⟩
  laterBatches := by unfold Beyond; decide +kernel
  intervals := by simp [defectAct1]
  laterShown := by simp [defectAct1]
  laterFrontier := by unfold Beyond; decide +kernel
  source := ⟨⟨by simp [defectAct1], by simp [defectAct1]⟩, by simp [defectAct1, keyUpds, accum]⟩
  output := ⟨⟨by simp [defectAct1], by simp [defectAct1]⟩, by simp [defectAct1, keyUpds, accum, ReduceOp.sentUpds, ReduceOp.start]⟩
  fresh := by
    refine ⟨⟨by simp [defectAct1], by simp [defectAct1]⟩, fun k v q => ?_, fun k s => ?_⟩
    · by_cases hk : 0 = k
      · subst hk; simp [defectAct1, ReduceAct.upds, keyUpds, valUpds, accum]
      · simp [defectAct1, ReduceAct.upds, keyUpds, valUpds, accum, hk]
    · by_cases hk : 0 = k
      · subst hk
        simp only [defectAct1, ReduceAct.upds, keyUpds, valUpds]
        simp
        exact Eq.symm
      · simp [defectAct1, ReduceAct.upds, keyUpds, valUpds, hk]

theorem defectLegal2 : LegalAct defectState1 [((0, 7), (2, 0), (1 : Int))] ([] : List (Nat × Nat)) defectAct2 := by
  have hu : defectState1.upper = [(0, 1)] := by decide +kernel
  have hs : defectState1.sentUpds = [((0, 1), (2, 0), 1)] := by decide +kernel
  refine ⟨by unfold Beyond; decide +kernel, by simp [defectAct2], ?_, by simp, by simp [defectAct2], by simp, by simp, ?_, ?_, ?_⟩
  · rw [hu]
    intro b hb
    have hb : b.desc.upper = [(0, 4), (2, 1)] := by
      simp only [defectAct2, List.flatMap_cons, List.flatMap_nil, List.append_nil, List.mem_singleton] at hb
      rw [hb]
    rw [hb]
    rintro ⟨x, y⟩
    simp [Beyond, Prod.mk_le_mk]
    omega
  · refine ⟨⟨by simp [defectAct2], by simp [defectAct2]⟩, fun k v q _ => ?_⟩
    by_cases hk : 0 = k
    · subst hk; simp [defectAct2, keyUpds, valUpds, accum]
    · simp [defectAct2, keyUpds, valUpds, accum, hk]
  · rw [hs]
    refine ⟨⟨by simp [defectAct2], by simp [defectAct2]⟩, fun k v q _ => ?_⟩
    by_cases hk : 0 = k
    · subst hk; simp [defectAct2, keyUpds, valUpds, accum]
    · simp [defectAct2, keyUpds, valUpds, accum, hk]
  · refine ⟨⟨by simp [defectAct2], by simp [defectAct2]⟩, fun k v q => ?_, fun k s => ?_⟩
    · by_cases hk : 0 = k
      · subst hk; simp [defectAct2, ReduceAct.upds, keyUpds, valUpds, accum]
      · simp [defectAct2, ReduceAct.upds, keyUpds, valUpds, accum, hk]
    · by_cases hk : 0 = k
      · subst hk
        simp [defectAct2, ReduceAct.upds, keyUpds, valUpds]
        rintro (rfl | rfl | rfl) <;> simp
      · simp [defectAct2, ReduceAct.upds, keyUpds, valUpds, hk]

theorem defectLegal3 : LegalAct defectState2 [((0, 7), (2, 0), (1 : Int)), ((0, 1), (0, 1), 1), ((0, 1), (1, 1), -1), ((0, 2), (0, 3), 1)] ([] : List (Nat × Nat)) defectAct3 := by
  have hs : defectState2.sentUpds = [((0, 1), (2, 0), 1), ((0, 1), (0, 1), 1), ((0, 1), (0, 3), -1), ((0, 1), (1, 1), -1), ((0, 1), (1, 3), 2), ((0, 2), (0, 3), 1), ((0, 2), (1, 3), -1)] := by
    decide +kernel
  refine ⟨by simp [defectAct3], by simp [defectAct3], by simp [defectAct3], by simp, ?_, by simp, by simp, ?_, ?_, ?_⟩
  · intro d hd
    have hd : d = (⟨[(0, 4), (2, 1)], [], [(0, 0)]⟩, true) := by simpa [defectAct3] using hd
    subst hd
    refine ⟨by simp [IsAntichainList, Prod.mk_le_mk], fun q hq => ?_⟩
    simp [Beyond] at hq
  · refine ⟨⟨by simp [defectAct3], by simp [defectAct3]⟩, fun k v q _ => ?_⟩
    by_cases hk : 0 = k
    · subst hk; simp [defectAct3, keyUpds, valUpds, accum]; abel
    · simp [defectAct3, keyUpds, valUpds, accum, hk]
  · rw [hs]
    refine ⟨⟨by simp [defectAct3], by simp [defectAct3]⟩, fun k v q _ => ?_⟩
    by_cases hk : 0 = k
    · subst hk; simp [defectAct3, keyUpds, valUpds, accum]; abel
    · simp [defectAct3, keyUpds, valUpds, accum, hk]
  · refine ⟨⟨by simp [defectAct3], by simp [defectAct3]⟩, fun k v q => ?_, fun k s => ?_⟩
    · simp [defectAct3, ReduceAct.upds, keyUpds, accum]
    · simp [defectAct3, keyUpds]

/-- C28, the defect, from start to end: three activations of an operator that counts, all of them legal. A record comes that is present from time (2,0) on; another comes at (0,1) and goes at
(1,1), and a third comes at (0,3); then the input is closed. The operator is done and holds no capability, but at time (2,3), when there are two records, the output says twice that
there is one. -/
theorem C28_defect :
    (∀ k : Nat, ReducesBy countFn (countEach k)) ∧
    LegalRun countEach (fun st a => InThePast st a) (ReduceOp.start ⊥) [] [defectAct1, defectAct2, defectAct3] ∧
    ∃ st, (∀ fuel, 20 ≤ fuel → ReduceOp.run fuel countEach (ReduceOp.start ⊥) [defectAct1, defectAct2, defectAct3] = some st) ∧ st.upper = [] ∧ st.pending = [] ∧ st.caps = [] ∧
      ¬ ReducedAt countFn (ofKey (inputsOf [defectAct1, defectAct2, defectAct3]) 0) (ofKey st.sentUpds 0) (2, 3) := by
  have e1 : (ReduceOp.start ⊥).act 20 countEach defectAct1 = some defectState1 := by decide +kernel
  have e2 : defectState1.act 20 countEach defectAct2 = some defectState2 := by decide +kernel
  have e3 : ∃ st, defectState2.act 20 countEach defectAct3 = some st ∧ st.upper = [] ∧ st.pending = [] ∧ st.caps = [] ∧ st.sentUpds = defectState2.sentUpds :=
    ⟨(defectState2.act 20 countEach defectAct3).getD (ReduceOp.start ⊥), by decide +kernel, by decide +kernel, by decide +kernel, by decide +kernel, by decide +kernel⟩
  have u1 : defectState1.upper = [(0, 1)] := by decide +kernel
  have u2 : defectState2.upper = [(0, 4), (2, 1)] := by decide +kernel
  have hs : defectState2.sentUpds = [((0, 1), (2, 0), 1), ((0, 1), (0, 1), 1), ((0, 1), (0, 3), -1), ((0, 1), (1, 1), -1), ((0, 1), (1, 3), 2), ((0, 2), (0, 3), 1), ((0, 2), (1, 3), -1)] := by
    decide +kernel
  obtain ⟨st3, e3, v1, v2, v3, v4⟩ := e3
  refine ⟨fun _ => countFn_reduces, ⟨defectLegal1, ?_, fun fuel st h => ?_⟩, st3, fun fuel hf => ?_, v1, v2, v3, ?_⟩
  · intro k w hw
    simp [defectAct1, keyUpds] at hw
  · obtain rfl := act_unique h e1
    refine ⟨defectLegal2, ?_, fun fuel st h => ?_⟩
    · intro k w hw l _
      refine ⟨(2, 0), by rw [u1]; unfold Beyond; decide +kernel, ?_⟩
      have : w = (2, 0) := by
        by_cases hk : 0 = k
        · subst hk; simpa [defectAct2, keyUpds, valUpds] using hw
        · simp [defectAct2, keyUpds, hk] at hw
      rw [this]
      exact le_sup_left
    · obtain rfl := act_unique h e2
      refine ⟨defectLegal3, ?_, fun fuel st h => trivial⟩
      intro k w hw l _
      refine ⟨w, ?_, le_sup_left⟩
      rw [u2]
      by_cases hk : 0 = k
      · subst hk
        revert w
        unfold Beyond; decide +kernel
      · simp [defectAct3, keyUpds, hk] at hw
  · rw [ReduceOp.run, act_mono hf e1]
    simp only
    rw [ReduceOp.run, act_mono hf e2]
    simp only
    rw [ReduceOp.run, act_mono hf e3]
    rfl
  · rw [v4, hs]
    rintro ⟨l, ⟨h1, h2⟩, h3⟩
    have hl : l = [(2, 1), (7, 1)] := by
      refine consolidatedPairs_unique h1 ⟨by simp, by simp⟩ fun v => ?_
      rw [h2]
      by_cases e1 : v = 1
      · subst e1; decide +kernel
      · by_cases e2 : v = 2
        · subst e2; decide +kernel
        · by_cases e3 : v = 7
          · subst e3; decide +kernel
          · simp [inputsOf, ReduceAct.upds, defectAct1, defectAct2, defectAct3, ofKey, accum, weight, Ne.symm e1, Ne.symm e2, Ne.symm e3]
    subst hl
    exact absurd (h3 2) (by decide +kernel)

/-! ### Runs that meet the hypotheses -/

/-- Records at (0,0), (1,0) and (0,1). -/
def joinRunAct1 : ReduceAct Nat Nat Int (Nat × Nat) Int Int :=
  { msgs := [((0, 0), [⟨⟨[(0, 0)], [(0, 2), (1, 1), (2, 0)], [(0, 0)]⟩, [((0, 7), (0, 0), 1), ((0, 8), (1, 0), 1), ((0, 9), (0, 1), 1)]⟩])], shown := [], frontier := [(0, 2), (1, 1), (2, 0)],
    source := [],
    output := [],
    fresh := [(0, [(7, [((0, 0), 1)]), (8, [((1, 0), 1)]), (9, [((0, 1), 1)])])] }

/-- The input is closed; the pending time (1,1) is due. -/
def joinRunAct2 : ReduceAct Nat Nat Int (Nat × Nat) Int Int :=
  { msgs := [], shown := [(⟨[(0, 2), (1, 1), (2, 0)], [], [(0, 0)]⟩, true)], frontier := [],
    source := [(0, [(7, [((0, 0), 1)]), (8, [((1, 0), 1)]), (9, [((0, 1), 1)])])],
    output := [(0, [(1, [((0, 0), 1), ((0, 1), -1), ((1, 0), -1)]), (2, [((0, 1), 1), ((1, 0), 1)])])],
    fresh := [] }

/-- The state after it. -/
def joinRunState1 : ReduceOp Nat Int (Nat × Nat) Int := ((ReduceOp.start ⊥ : ReduceOp Nat Int (Nat × Nat) Int).act 20 countEach joinRunAct1).getD (ReduceOp.start ⊥)

theorem joinRunLegal1 : LegalAct (ReduceOp.start ⊥ : ReduceOp Nat Int (Nat × Nat) Int) [] ([] : List (Nat × Nat)) joinRunAct1 := by
  have hu : (ReduceOp.start ⊥ : ReduceOp Nat Int (Nat × Nat) Int).upper = ([(0, 0)] : List (Nat × Nat)) := by decide +kernel
  have hs : (ReduceOp.start ⊥ : ReduceOp Nat Int (Nat × Nat) Int).sentUpds = ([] : Upds (Nat × Int) (Nat × Nat) Int) := by decide +kernel
  refine ⟨by unfold Beyond; decide +kernel, by simp [joinRunAct1], ?_, by unfold Beyond; decide +kernel, ?_, by unfold Beyond; decide +kernel, by unfold Beyond; decide +kernel, ?_, ?_, ?_⟩
  · rw [hu]
    intro b hb q
    simp only [joinRunAct1, List.flatMap_cons, List.flatMap_nil, List.append_nil, List.mem_singleton] at hb
    subst hb
    simp [Beyond, Prod.le_def]
  · simp [joinRunAct1]
  · refine ⟨⟨by simp [joinRunAct1], by simp [joinRunAct1]⟩, fun k v q hq0 => ?_⟩
    by_cases hk : 0 = k
    · subst hk; simp [joinRunAct1, keyUpds, valUpds, accum] <;> abel
    · simp [joinRunAct1, keyUpds, valUpds, accum, hk]
  · rw [hs]
    refine ⟨⟨by simp [joinRunAct1], by simp [joinRunAct1]⟩, fun k v q hq0 => ?_⟩
    by_cases hk : 0 = k
    · subst hk; simp [joinRunAct1, keyUpds, valUpds, accum] <;> abel
    · simp [joinRunAct1, keyUpds, valUpds, accum, hk]
  · refine ⟨⟨by simp [joinRunAct1], by simp [joinRunAct1]⟩, fun k v q => ?_, fun k s => ?_⟩
    · by_cases hk : 0 = k
      · subst hk; simp [joinRunAct1, ReduceAct.upds, keyUpds, valUpds, accum] <;> abel
      · simp [joinRunAct1, ReduceAct.upds, keyUpds, valUpds, accum, hk]
    · by_cases hk : 0 = k
      · subst hk
        simp only [joinRunAct1, ReduceAct.upds, keyUpds, valUpds]
        simp [eq_comm]
      · simp [joinRunAct1, ReduceAct.upds, keyUpds, valUpds, hk]

theorem joinRunLegal2 : LegalAct joinRunState1 [((0, 7), (0, 0), 1), ((0, 8), (1, 0), 1), ((0, 9), (0, 1), 1)] ([] : List (Nat × Nat)) joinRunAct2 := by
  have hu : joinRunState1.upper = ([(0, 2), (1, 1), (2, 0)] : List (Nat × Nat)) := by decide +kernel
  have hs : joinRunState1.sentUpds = ([((0, 1), (0, 0), 1), ((0, 1), (0, 1), -1), ((0, 1), (1, 0), -1), ((0, 2), (0, 1), 1), ((0, 2), (1, 0), 1)] : Upds (Nat × Int) (Nat × Nat) Int) := by decide +kernel
  refine ⟨by unfold Beyond; decide +kernel, by simp [joinRunAct2], ?_, by unfold Beyond; decide +kernel, ?_, by unfold Beyond; decide +kernel, by unfold Beyond; decide +kernel, ?_, ?_, ?_⟩
  · simp [joinRunAct2]
  · intro d hd
    simp only [joinRunAct2, List.mem_singleton] at hd
    subst hd
    refine ⟨by simp [IsAntichainList, Prod.mk_le_mk], fun q hq => ?_⟩
    simp [Beyond] at hq
  · refine ⟨⟨by simp [joinRunAct2], by simp [joinRunAct2]⟩, fun k v q hq0 => ?_⟩
    by_cases hk : 0 = k
    · subst hk; simp [joinRunAct2, keyUpds, valUpds, accum] <;> abel
    · simp [joinRunAct2, keyUpds, valUpds, accum, hk]
  · rw [hs]
    refine ⟨⟨by simp [joinRunAct2], by simp [joinRunAct2]⟩, fun k v q hq0 => ?_⟩
    by_cases hk : 0 = k
    · subst hk; simp [joinRunAct2, keyUpds, valUpds, accum] <;> abel
    · simp [joinRunAct2, keyUpds, valUpds, accum, hk]
  · refine ⟨⟨by simp [joinRunAct2], by simp [joinRunAct2]⟩, fun k v q => ?_, fun k s => ?_⟩
    · by_cases hk : 0 = k
      · subst hk; simp [joinRunAct2, ReduceAct.upds, keyUpds, valUpds, accum] <;> abel
      · simp [joinRunAct2, ReduceAct.upds, keyUpds, valUpds, accum, hk]
    · by_cases hk : 0 = k
      · subst hk
        simp only [joinRunAct2, ReduceAct.upds, keyUpds, valUpds]
        simp [eq_comm]
      · simp [joinRunAct2, ReduceAct.upds, keyUpds, valUpds, hk]

/-- Concurrent records: the time at which they meet becomes pending in the first interval and is dealt with in the second. -/
example : ∃ N st, (∀ fuel, N ≤ fuel → ReduceOp.run fuel countEach (ReduceOp.start ⊥) [joinRunAct1, joinRunAct2] = some st) ∧ ReduceRight (fun _ => countFn) [joinRunAct1, joinRunAct2] st := by
  refine C28_reduce_partial (fun _ => countFn_reduces) _ ⟨joinRunLegal1, ?_, fun fuel st h => ?_⟩
  · intro k w hw
    simp [joinRunAct1, keyUpds] at hw
  · obtain rfl := act_unique h (show (ReduceOp.start ⊥ : ReduceOp Nat Int (Nat × Nat) Int).act 20 countEach joinRunAct1 = some joinRunState1 by decide +kernel)
    refine ⟨joinRunLegal2, ?_, fun fuel st h => ?_⟩
    · intro k w _ m _ hb
      exfalso
      revert hb
      have : joinRunAct2.nextUpper joinRunState1.upper = [] := by decide +kernel
      rw [this]
      simp [Beyond]
    · trivial

/-- A record comes in round 3 of epoch 0. -/
def roundRunAct1 : ReduceAct Nat Nat Int (Nat × Nat) Int Int :=
  { msgs := [((0, 0), [⟨⟨[(0, 0)], [(1, 0)], [(0, 0)]⟩, [((0, 7), (0, 3), 1)]⟩])], shown := [], frontier := [(1, 0)],
    source := [],
    output := [],
    fresh := [(0, [(7, [((0, 3), 1)])])] }

/-- Another comes in round 1 of epoch 1. -/
def roundRunAct2 : ReduceAct Nat Nat Int (Nat × Nat) Int Int :=
  { msgs := [((1, 1), [⟨⟨[(1, 0)], [(1, 2), (2, 0)], [(0, 0)]⟩, [((0, 8), (1, 1), 1)]⟩])], shown := [], frontier := [(1, 2), (2, 0)],
    source := [(0, [(7, [((0, 3), 1)])])],
    output := [(0, [(1, [((0, 3), 1)])])],
    fresh := [(0, [(8, [((1, 1), 1)])])] }

/-- The input is closed; the pending time (1,3) is due. -/
def roundRunAct3 : ReduceAct Nat Nat Int (Nat × Nat) Int Int :=
  { msgs := [], shown := [(⟨[(1, 2), (2, 0)], [], [(0, 0)]⟩, true)], frontier := [],
    source := [(0, [(7, [((0, 3), 1)]), (8, [((1, 1), 1)])])],
    output := [(0, [(1, [((0, 3), 1), ((1, 1), 1)])])],
    fresh := [] }

/-- The state after it. -/
def roundRunState1 : ReduceOp Nat Int (Nat × Nat) Int := ((ReduceOp.start ⊥ : ReduceOp Nat Int (Nat × Nat) Int).act 20 countEach roundRunAct1).getD (ReduceOp.start ⊥)

/-- The state after it. -/
def roundRunState2 : ReduceOp Nat Int (Nat × Nat) Int := (roundRunState1.act 20 countEach roundRunAct2).getD (ReduceOp.start ⊥)

theorem roundRunLegal1 : LegalAct (ReduceOp.start ⊥ : ReduceOp Nat Int (Nat × Nat) Int) [] ([(1, 1)] : List (Nat × Nat)) roundRunAct1 := by
  have hu : (ReduceOp.start ⊥ : ReduceOp Nat Int (Nat × Nat) Int).upper = ([(0, 0)] : List (Nat × Nat)) := by decide +kernel
  have hs : (ReduceOp.start ⊥ : ReduceOp Nat Int (Nat × Nat) Int).sentUpds = ([] : Upds (Nat × Int) (Nat × Nat) Int) := by decide +kernel
  refine ⟨by unfold Beyond; decide +kernel, by simp [roundRunAct1], ?_, by unfold Beyond; decide +kernel, ?_, by unfold Beyond; decide +kernel, by unfold Beyond; decide +kernel, ?_, ?_, ?_⟩
  · rw [hu]
    intro b hb q
    simp only [roundRunAct1, List.flatMap_cons, List.flatMap_nil, List.append_nil, List.mem_singleton] at hb
    subst hb
    simp [Beyond, Prod.le_def]
  · simp [roundRunAct1]
  · refine ⟨⟨by simp [roundRunAct1], by simp [roundRunAct1]⟩, fun k v q hq0 => ?_⟩
    by_cases hk : 0 = k
    · subst hk; simp [roundRunAct1, keyUpds, valUpds, accum] <;> abel
    · simp [roundRunAct1, keyUpds, valUpds, accum, hk]
  · rw [hs]
    refine ⟨⟨by simp [roundRunAct1], by simp [roundRunAct1]⟩, fun k v q hq0 => ?_⟩
    by_cases hk : 0 = k
    · subst hk; simp [roundRunAct1, keyUpds, valUpds, accum] <;> abel
    · simp [roundRunAct1, keyUpds, valUpds, accum, hk]
  · refine ⟨⟨by simp [roundRunAct1], by simp [roundRunAct1]⟩, fun k v q => ?_, fun k s => ?_⟩
    · by_cases hk : 0 = k
      · subst hk; simp [roundRunAct1, ReduceAct.upds, keyUpds, valUpds, accum] <;> abel
      · simp [roundRunAct1, ReduceAct.upds, keyUpds, valUpds, accum, hk]
    · by_cases hk : 0 = k
      · subst hk
        simp only [roundRunAct1, ReduceAct.upds, keyUpds, valUpds]
        simp [eq_comm]
      · simp [roundRunAct1, ReduceAct.upds, keyUpds, valUpds, hk]

theorem roundRunLegal2 : LegalAct roundRunState1 [((0, 7), (0, 3), 1)] ([] : List (Nat × Nat)) roundRunAct2 := by
  have hu : roundRunState1.upper = ([(1, 0)] : List (Nat × Nat)) := by decide +kernel
  have hs : roundRunState1.sentUpds = ([((0, 1), (0, 3), 1)] : Upds (Nat × Int) (Nat × Nat) Int) := by decide +kernel
  refine ⟨by unfold Beyond; decide +kernel, by simp [roundRunAct2], ?_, by unfold Beyond; decide +kernel, ?_, by unfold Beyond; decide +kernel, by unfold Beyond; decide +kernel, ?_, ?_, ?_⟩
  · rw [hu]
    intro b hb q
    simp only [roundRunAct2, List.flatMap_cons, List.flatMap_nil, List.append_nil, List.mem_singleton] at hb
    subst hb
    simp [Beyond, Prod.le_def] <;> omega
  · simp [roundRunAct2]
  · refine ⟨⟨by simp [roundRunAct2], by simp [roundRunAct2]⟩, fun k v q hq0 => ?_⟩
    by_cases hk : 0 = k
    · subst hk; simp [roundRunAct2, keyUpds, valUpds, accum] <;> abel
    · simp [roundRunAct2, keyUpds, valUpds, accum, hk]
  · rw [hs]
    refine ⟨⟨by simp [roundRunAct2], by simp [roundRunAct2]⟩, fun k v q hq0 => ?_⟩
    by_cases hk : 0 = k
    · subst hk; simp [roundRunAct2, keyUpds, valUpds, accum] <;> abel
    · simp [roundRunAct2, keyUpds, valUpds, accum, hk]
  · refine ⟨⟨by simp [roundRunAct2], by simp [roundRunAct2]⟩, fun k v q => ?_, fun k s => ?_⟩
    · by_cases hk : 0 = k
      · subst hk; simp [roundRunAct2, ReduceAct.upds, keyUpds, valUpds, accum] <;> abel
      · simp [roundRunAct2, ReduceAct.upds, keyUpds, valUpds, accum, hk]
    · by_cases hk : 0 = k
      · subst hk
        simp only [roundRunAct2, ReduceAct.upds, keyUpds, valUpds]
        simp [eq_comm]
      · simp [roundRunAct2, ReduceAct.upds, keyUpds, valUpds, hk]

theorem roundRunLegal3 : LegalAct roundRunState2 [((0, 7), (0, 3), 1), ((0, 8), (1, 1), 1)] ([] : List (Nat × Nat)) roundRunAct3 := by
  have hu : roundRunState2.upper = ([(1, 2), (2, 0)] : List (Nat × Nat)) := by decide +kernel
  have hs : roundRunState2.sentUpds = ([((0, 1), (0, 3), 1), ((0, 1), (1, 1), 1)] : Upds (Nat × Int) (Nat × Nat) Int) := by decide +kernel
  refine ⟨by unfold Beyond; decide +kernel, by simp [roundRunAct3], ?_, by unfold Beyond; decide +kernel, ?_, by unfold Beyond; decide +kernel, by unfold Beyond; decide +kernel, ?_, ?_, ?_⟩
  · simp [roundRunAct3]
  · intro d hd
    simp only [roundRunAct3, List.mem_singleton] at hd
    subst hd
    refine ⟨by simp [IsAntichainList, Prod.mk_le_mk], fun q hq => ?_⟩
    simp [Beyond] at hq
  · refine ⟨⟨by simp [roundRunAct3], by simp [roundRunAct3]⟩, fun k v q hq0 => ?_⟩
    by_cases hk : 0 = k
    · subst hk; simp [roundRunAct3, keyUpds, valUpds, accum] <;> abel
    · simp [roundRunAct3, keyUpds, valUpds, accum, hk]
  · rw [hs]
    refine ⟨⟨by simp [roundRunAct3], by simp [roundRunAct3]⟩, fun k v q hq0 => ?_⟩
    by_cases hk : 0 = k
    · subst hk; simp [roundRunAct3, keyUpds, valUpds, accum] <;> abel
    · simp [roundRunAct3, keyUpds, valUpds, accum, hk]
  · refine ⟨⟨by simp [roundRunAct3], by simp [roundRunAct3]⟩, fun k v q => ?_, fun k s => ?_⟩
    · by_cases hk : 0 = k
      · subst hk; simp [roundRunAct3, ReduceAct.upds, keyUpds, valUpds, accum] <;> abel
      · simp [roundRunAct3, ReduceAct.upds, keyUpds, valUpds, accum, hk]
    · by_cases hk : 0 = k
      · subst hk
        simp only [roundRunAct3, ReduceAct.upds, keyUpds, valUpds]
        simp [eq_comm]
      · simp [roundRunAct3, ReduceAct.upds, keyUpds, valUpds, hk]

/-- Rounds of an iteration, with a history that goes on for more rounds. -/
example : ∃ N st, (∀ fuel, N ≤ fuel → ReduceOp.run fuel countEach (ReduceOp.start ⊥) [roundRunAct1, roundRunAct2, roundRunAct3] = some st) ∧ ReduceRight (fun _ => countFn) [roundRunAct1, roundRunAct2, roundRunAct3] st := by
  refine C28_rounds (fun _ => countFn_reduces) _ ⟨roundRunLegal1, ?_, fun fuel st h => ?_⟩
  · intro k
    refine ⟨(0, 3), fun s hs => ?_⟩
    have hp : (ReduceOp.start ⊥ : ReduceOp Nat Int (Nat × Nat) Int).pending = [] := rfl
    rw [hp] at hs
    by_cases hk : 0 = k
    · subst hk; simpa [roundRunAct1, keyUpds, valUpds] using hs
    · simp [roundRunAct1, keyUpds, hk] at hs
  · obtain rfl := act_unique h (show (ReduceOp.start ⊥ : ReduceOp Nat Int (Nat × Nat) Int).act 20 countEach roundRunAct1 = some roundRunState1 by decide +kernel)
    refine ⟨roundRunLegal2, ?_, fun fuel st h => ?_⟩
    · intro k
      refine ⟨(1, 1), fun s hs => ?_⟩
      have hp : roundRunState1.pending = [] := by decide +kernel
      rw [hp] at hs
      by_cases hk : 0 = k
      · subst hk; simpa [roundRunAct2, keyUpds, valUpds] using hs
      · simp [roundRunAct2, keyUpds, hk] at hs
    · obtain rfl := act_unique h (show roundRunState1.act 20 countEach roundRunAct2 = some roundRunState2 by decide +kernel)
      refine ⟨roundRunLegal3, ?_, fun fuel st h => ?_⟩
      · intro k
        refine ⟨(1, 3), fun s hs => ?_⟩
        have hp : roundRunState2.pending = [(0, (1, 3))] := by decide +kernel
        rw [hp] at hs
        have hs : (k, s) ∈ [(0, (1, 3))] := by simpa [roundRunAct3, keyUpds] using hs.resolve_left (by simp [roundRunAct3, keyUpds]) |>.1
        simpa using (Prod.mk.inj (List.mem_singleton.1 hs)).2
      · trivial

/-- Records of epoch 0, of several rounds. -/
def epochRunAct1 : ReduceAct Nat Nat Int (Nat × Nat) Int Int :=
  { msgs := [((0, 0), [⟨⟨[(0, 0)], [(1, 0)], [(0, 0)]⟩, [((0, 7), (0, 0), 1), ((0, 8), (0, 3), 1)]⟩])], shown := [], frontier := [(1, 0)],
    source := [],
    output := [],
    fresh := [(0, [(7, [((0, 0), 1)]), (8, [((0, 3), 1)])])] }

/-- Records of epoch 1; then the input is closed. -/
def epochRunAct2 : ReduceAct Nat Nat Int (Nat × Nat) Int Int :=
  { msgs := [((1, 0), [⟨⟨[(1, 0)], [(2, 0)], [(0, 0)]⟩, [((0, 8), (1, 1), 1), ((0, 8), (1, 2), -1)]⟩])], shown := [], frontier := [],
    source := [(0, [(7, [((0, 0), 1)]), (8, [((0, 3), 1)])])],
    output := [(0, [(1, [((0, 0), 1), ((0, 3), -1)]), (2, [((0, 3), 1)])])],
    fresh := [(0, [(8, [((1, 1), 1), ((1, 2), -1)])])] }

/-- The state after it. -/
def epochRunState1 : ReduceOp Nat Int (Nat × Nat) Int := ((ReduceOp.start ⊥ : ReduceOp Nat Int (Nat × Nat) Int).act 20 countEach epochRunAct1).getD (ReduceOp.start ⊥)

theorem epochRunLegal1 : LegalAct (ReduceOp.start ⊥ : ReduceOp Nat Int (Nat × Nat) Int) [] ([(1, 0)] : List (Nat × Nat)) epochRunAct1 := by
  have hu : (ReduceOp.start ⊥ : ReduceOp Nat Int (Nat × Nat) Int).upper = ([(0, 0)] : List (Nat × Nat)) := by decide +kernel
  have hs : (ReduceOp.start ⊥ : ReduceOp Nat Int (Nat × Nat) Int).sentUpds = ([] : Upds (Nat × Int) (Nat × Nat) Int) := by decide +kernel
  refine ⟨by unfold Beyond; decide +kernel, by simp [epochRunAct1], ?_, by unfold Beyond; decide +kernel, ?_, by unfold Beyond; decide +kernel, by unfold Beyond; decide +kernel, ?_, ?_, ?_⟩
  · rw [hu]
    intro b hb q
    simp only [epochRunAct1, List.flatMap_cons, List.flatMap_nil, List.append_nil, List.mem_singleton] at hb
    subst hb
    simp [Beyond, Prod.le_def]
  · simp [epochRunAct1]
  · refine ⟨⟨by simp [epochRunAct1], by simp [epochRunAct1]⟩, fun k v q hq0 => ?_⟩
    by_cases hk : 0 = k
    · subst hk; simp [epochRunAct1, keyUpds, valUpds, accum] <;> abel
    · simp [epochRunAct1, keyUpds, valUpds, accum, hk]
  · rw [hs]
    refine ⟨⟨by simp [epochRunAct1], by simp [epochRunAct1]⟩, fun k v q hq0 => ?_⟩
    by_cases hk : 0 = k
    · subst hk; simp [epochRunAct1, keyUpds, valUpds, accum] <;> abel
    · simp [epochRunAct1, keyUpds, valUpds, accum, hk]
  · refine ⟨⟨by simp [epochRunAct1], by simp [epochRunAct1]⟩, fun k v q => ?_, fun k s => ?_⟩
    · by_cases hk : 0 = k
      · subst hk; simp [epochRunAct1, ReduceAct.upds, keyUpds, valUpds, accum] <;> abel
      · simp [epochRunAct1, ReduceAct.upds, keyUpds, valUpds, accum, hk]
    · by_cases hk : 0 = k
      · subst hk
        simp only [epochRunAct1, ReduceAct.upds, keyUpds, valUpds]
        simp [eq_comm]
      · simp [epochRunAct1, ReduceAct.upds, keyUpds, valUpds, hk]

theorem epochRunLegal2 : LegalAct epochRunState1 [((0, 7), (0, 0), 1), ((0, 8), (0, 3), 1)] ([] : List (Nat × Nat)) epochRunAct2 := by
  have hu : epochRunState1.upper = ([(1, 0)] : List (Nat × Nat)) := by decide +kernel
  have hs : epochRunState1.sentUpds = ([((0, 1), (0, 0), 1), ((0, 1), (0, 3), -1), ((0, 2), (0, 3), 1)] : Upds (Nat × Int) (Nat × Nat) Int) := by decide +kernel
  refine ⟨by unfold Beyond; decide +kernel, by simp [epochRunAct2], ?_, by unfold Beyond; decide +kernel, ?_, by unfold Beyond; decide +kernel, by unfold Beyond; decide +kernel, ?_, ?_, ?_⟩
  · rw [hu]
    intro b hb q
    simp only [epochRunAct2, List.flatMap_cons, List.flatMap_nil, List.append_nil, List.mem_singleton] at hb
    subst hb
    simp [Beyond, Prod.le_def] <;> omega
  · simp [epochRunAct2]
  · refine ⟨⟨by simp [epochRunAct2], by simp [epochRunAct2]⟩, fun k v q hq0 => ?_⟩
    by_cases hk : 0 = k
    · subst hk; simp [epochRunAct2, keyUpds, valUpds, accum] <;> abel
    · simp [epochRunAct2, keyUpds, valUpds, accum, hk]
  · rw [hs]
    refine ⟨⟨by simp [epochRunAct2], by simp [epochRunAct2]⟩, fun k v q hq0 => ?_⟩
    by_cases hk : 0 = k
    · subst hk; simp [epochRunAct2, keyUpds, valUpds, accum] <;> abel
    · simp [epochRunAct2, keyUpds, valUpds, accum, hk]
  · refine ⟨⟨by simp [epochRunAct2], by simp [epochRunAct2]⟩, fun k v q => ?_, fun k s => ?_⟩
    · by_cases hk : 0 = k
      · subst hk; simp [epochRunAct2, ReduceAct.upds, keyUpds, valUpds, accum] <;> abel
      · simp [epochRunAct2, ReduceAct.upds, keyUpds, valUpds, accum, hk]
    · by_cases hk : 0 = k
      · subst hk
        simp only [epochRunAct2, ReduceAct.upds, keyUpds, valUpds]
        simp [eq_comm]
      · simp [epochRunAct2, ReduceAct.upds, keyUpds, valUpds, hk]

/-- Epochs, with records of several rounds in each. -/
example : ∃ N st, (∀ fuel, N ≤ fuel → ReduceOp.run fuel countEach (ReduceOp.start ⊥) [epochRunAct1, epochRunAct2] = some st) ∧ ReduceRight (fun _ => countFn) [epochRunAct1, epochRunAct2] st := by
  refine C28_directed (fun _ => countFn_reduces) _ ⟨epochRunLegal1, ?_, fun fuel st h => ?_⟩
  · refine ⟨?_, ?_⟩
    · intro k w hw
      simp [epochRunAct1, keyUpds] at hw
    · have : epochRunAct1.nextUpper (ReduceOp.start ⊥ : ReduceOp Nat Int (Nat × Nat) Int).upper = [(1, 0)] := by decide +kernel
      rw [this]
      rintro ⟨a, a'⟩ ⟨b, b'⟩
      simp only [Beyond, List.mem_singleton, exists_eq_left, Prod.mk_sup_mk, Prod.mk_le_mk, Nat.zero_le, and_true, le_sup_iff]
      omega
  · obtain rfl := act_unique h (show (ReduceOp.start ⊥ : ReduceOp Nat Int (Nat × Nat) Int).act 20 countEach epochRunAct1 = some epochRunState1 by decide +kernel)
    refine ⟨epochRunLegal2, ?_, fun fuel st h => ?_⟩
    · refine ⟨?_, ?_⟩
      · intro k w hw l _
        refine ⟨w, ?_, le_sup_left⟩
        have : epochRunState1.upper = [(1, 0)] := by decide +kernel
        rw [this]
        by_cases hk : 0 = k
        · subst hk
          revert w
          unfold Beyond; decide +kernel
        · simp [epochRunAct2, keyUpds, hk] at hw
      · have : epochRunAct2.nextUpper epochRunState1.upper = [] := by decide +kernel
        rw [this]
        simp [Beyond]
    · trivial

/-- Records come at times 0 and 2. -/
def totalRunAct1 : ReduceAct Nat Nat Int Nat Int Int :=
  { msgs := [(0, [⟨⟨[0], [3], [0]⟩, [((0, 7), 0, 1), ((0, 8), 2, 1)]⟩])], shown := [], frontier := [3],
    source := [],
    output := [],
    fresh := [(0, [(7, [(0, 1)]), (8, [(2, 1)])])] }

/-- One goes at time 4; then the input is closed. The traces were compacted: what was at time 0 is now at time 2. -/
def totalRunAct2 : ReduceAct Nat Nat Int Nat Int Int :=
  { msgs := [(3, [⟨⟨[3], [5], [0]⟩, [((0, 8), 4, -1)]⟩])], shown := [], frontier := [],
    source := [(0, [(7, [(2, 1)]), (8, [(2, 1)])])],
    output := [(0, [(2, [(2, 1)])])],
    fresh := [(0, [(8, [(4, -1)])])] }

/-- The state after it. -/
def totalRunState1 : ReduceOp Nat Int Nat Int := ((ReduceOp.start ⊥ : ReduceOp Nat Int Nat Int).act 20 countEach totalRunAct1).getD (ReduceOp.start ⊥)

theorem totalRunLegal1 : LegalAct (ReduceOp.start ⊥ : ReduceOp Nat Int Nat Int) [] ([3] : List Nat) totalRunAct1 := by
  have hu : (ReduceOp.start ⊥ : ReduceOp Nat Int Nat Int).upper = ([0] : List Nat) := by decide +kernel
  have hs : (ReduceOp.start ⊥ : ReduceOp Nat Int Nat Int).sentUpds = ([] : Upds (Nat × Int) Nat Int) := by decide +kernel
  refine ⟨by unfold Beyond; decide +kernel, by simp [totalRunAct1], ?_, by unfold Beyond; decide +kernel, ?_, by unfold Beyond; decide +kernel, by unfold Beyond; decide +kernel, ?_, ?_, ?_⟩
  · rw [hu]
    intro b hb q
    simp only [totalRunAct1, List.flatMap_cons, List.flatMap_nil, List.append_nil, List.mem_singleton] at hb
    subst hb
    simp [Beyond, Prod.le_def]
  · simp [totalRunAct1]
  · refine ⟨⟨by simp [totalRunAct1], by simp [totalRunAct1]⟩, fun k v q hq0 => ?_⟩
    by_cases hk : 0 = k
    · subst hk; simp [totalRunAct1, keyUpds, valUpds, accum] <;> abel
    · simp [totalRunAct1, keyUpds, valUpds, accum, hk]
  · rw [hs]
    refine ⟨⟨by simp [totalRunAct1], by simp [totalRunAct1]⟩, fun k v q hq0 => ?_⟩
    by_cases hk : 0 = k
    · subst hk; simp [totalRunAct1, keyUpds, valUpds, accum] <;> abel
    · simp [totalRunAct1, keyUpds, valUpds, accum, hk]
  · refine ⟨⟨by simp [totalRunAct1], by simp [totalRunAct1]⟩, fun k v q => ?_, fun k s => ?_⟩
    · by_cases hk : 0 = k
      · subst hk; simp [totalRunAct1, ReduceAct.upds, keyUpds, valUpds, accum] <;> abel
      · simp [totalRunAct1, ReduceAct.upds, keyUpds, valUpds, accum, hk]
    · by_cases hk : 0 = k
      · subst hk
        simp only [totalRunAct1, ReduceAct.upds, keyUpds, valUpds]
        simp [eq_comm]
      · simp [totalRunAct1, ReduceAct.upds, keyUpds, valUpds, hk]

theorem totalRunLegal2 : LegalAct totalRunState1 [((0, 7), 0, 1), ((0, 8), 2, 1)] ([] : List Nat) totalRunAct2 := by
  have hu : totalRunState1.upper = ([3] : List Nat) := by decide +kernel
  have hs : totalRunState1.sentUpds = ([((0, 1), 0, 1), ((0, 1), 2, -1), ((0, 2), 2, 1)] : Upds (Nat × Int) Nat Int) := by decide +kernel
  refine ⟨by unfold Beyond; decide +kernel, by simp [totalRunAct2], ?_, by unfold Beyond; decide +kernel, ?_, by unfold Beyond; decide +kernel, by unfold Beyond; decide +kernel, ?_, ?_, ?_⟩
  · rw [hu]
    intro b hb q
    simp only [totalRunAct2, List.flatMap_cons, List.flatMap_nil, List.append_nil, List.mem_singleton] at hb
    subst hb
    simp [Beyond, Prod.le_def] <;> omega
  · simp [totalRunAct2]
  · refine ⟨⟨by simp [totalRunAct2], by simp [totalRunAct2]⟩, fun k v q hq0 => ?_⟩
    by_cases hk : 0 = k
    · subst hk; simp [totalRunAct2, keyUpds, valUpds, accum] <;>
      (have hq2 : 2 ≤ q := by obtain ⟨f, hf, hfq⟩ := hu ▸ hq0; have := List.mem_singleton.1 hf; omega)
      all_goals simp [hq2]; try split_ifs <;> simp_all
    · simp [totalRunAct2, keyUpds, valUpds, accum, hk]
  · rw [hs]
    refine ⟨⟨by simp [totalRunAct2], by simp [totalRunAct2]⟩, fun k v q hq0 => ?_⟩
    by_cases hk : 0 = k
    · subst hk; simp [totalRunAct2, keyUpds, valUpds, accum] <;>
      (have hq2 : 2 ≤ q := by obtain ⟨f, hf, hfq⟩ := hu ▸ hq0; have := List.mem_singleton.1 hf; omega)
      all_goals simp [hq2]; try split_ifs <;> simp_all
    · simp [totalRunAct2, keyUpds, valUpds, accum, hk]
  · refine ⟨⟨by simp [totalRunAct2], by simp [totalRunAct2]⟩, fun k v q => ?_, fun k s => ?_⟩
    · by_cases hk : 0 = k
      · subst hk; simp [totalRunAct2, ReduceAct.upds, keyUpds, valUpds, accum] <;> abel
      · simp [totalRunAct2, ReduceAct.upds, keyUpds, valUpds, accum, hk]
    · by_cases hk : 0 = k
      · subst hk
        simp only [totalRunAct2, ReduceAct.upds, keyUpds, valUpds]
        simp [eq_comm]
      · simp [totalRunAct2, ReduceAct.upds, keyUpds, valUpds, hk]

/-- Totally ordered times. -/
example : ∃ N st, (∀ fuel, N ≤ fuel → ReduceOp.run fuel countEach (ReduceOp.start ⊥) [totalRunAct1, totalRunAct2] = some st) ∧ ReduceRight (fun _ => countFn) [totalRunAct1, totalRunAct2] st := by
  refine C28_total Nat.le_total (fun _ => countFn_reduces) _ ⟨totalRunLegal1, ?_, fun fuel st h => ?_⟩
  · intro k w hw
    simp [totalRunAct1, keyUpds] at hw
  · obtain rfl := act_unique h (show (ReduceOp.start ⊥ : ReduceOp Nat Int Nat Int).act 20 countEach totalRunAct1 = some totalRunState1 by decide +kernel)
    refine ⟨totalRunLegal2, ?_, fun fuel st h => ?_⟩
    · intro k w hw l _
      refine ⟨w, ?_, le_sup_left⟩
      have : totalRunState1.upper = [3] := by decide +kernel
      rw [this]
      by_cases hk : 0 = k
      · subst hk
        revert w
        unfold Beyond; decide +kernel
      · simp [totalRunAct2, keyUpds, hk] at hw
    · trivial

end DD
