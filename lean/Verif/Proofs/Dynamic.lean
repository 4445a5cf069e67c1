import Verif.Model.Dynamic
import Verif.Spec.Dynamic
import Verif.Proofs.Iterate
import Verif.Props.Lattice

namespace DD
variable {D T R : Type*}

/-! ### Point stamps of a scope -/

theorem PS.ext_co {p q : PS Nat} (h : ∀ i, p.co i = q.co i) : p = q := Subtype.ext (PointStamp.ext (eq_of_coord p.2 q.2 h))

theorem PS.le_co {p q : PS Nat} : p ≤ q ↔ ∀ i, p.co i ≤ q.co i := PS.le_iff p q

theorem co_ptStamp (v : List Nat) (i : Nat) : (ptStamp v).co i = v.getD i 0 := by
  rw [PS.co, ptStamp]
  simp only [PointStamp.new, coord_popMin]
  rfl

theorem co_outerStamp (level : Nat) (p : PS Nat) (i : Nat) : (outerStamp level p).co i = if i < level - 1 then p.co i else 0 := by
  rw [outerStamp, co_ptStamp, List.getD_eq_getElem?_getD, List.getElem?_map]
  split_ifs with h
  · rw [List.getElem?_range h]; rfl
  · rw [List.getElem?_eq_none (by simpa using h)]; rfl

theorem co_atRound (level : Nat) (p : PS Nat) (r i : Nat) : (atRound level p r).co i = if i < level - 1 then p.co i else if i = level - 1 then r else 0 := by
  rw [atRound, co_ptStamp, List.getD_eq_getElem?_getD]
  split_ifs with h h2
  · rw [List.getElem?_append_left (by simpa using h), List.getElem?_map, List.getElem?_range h]; rfl
  · rw [List.getElem?_append_right (by simp; omega)]; simp [h2]
  · rw [List.getElem?_eq_none (by simp; omega)]; rfl

theorem inScope_atRound (level : Nat) (hl : 0 < level) (p : PS Nat) (r : Nat) : InScope level (atRound level p r) := by
  intro i hi
  rw [co_atRound, if_neg (by omega), if_neg (by omega)]

theorem inScope_outer (level : Nat) (p : PS Nat) : InScope (level - 1) (outerStamp level p) := by
  intro i hi
  rw [co_outerStamp, if_neg (by omega)]

theorem outer_of_scope {level : Nat} {p : PS Nat} (h : InScope (level - 1) p) : outerStamp level p = p := by
  refine PS.ext_co fun i => ?_
  rw [co_outerStamp]
  split_ifs with hi
  · rfl
  · exact (h i (by omega)).symm

theorem round_of_enclosing {level : Nat} {p : PS Nat} (h : InScope (level - 1) p) : roundOf level p = 0 := h _ le_rfl

theorem atRound_split {level : Nat} {p : PS Nat} (h : InScope level p) : atRound level (outerStamp level p) (roundOf level p) = p := by
  refine PS.ext_co fun i => ?_
  rw [co_atRound, co_outerStamp, roundOf]
  split_ifs with h1 h2
  · rfl
  · rw [h2]
  · exact (h i (by omega)).symm

theorem le_atRound {level : Nat} {p q : PS Nat} (h : InScope level p) (r : Nat) : p ≤ atRound level q r ↔ outerStamp level p ≤ q ∧ roundOf level p ≤ r := by
  rw [PS.le_co, PS.le_co]
  constructor
  · intro hh
    refine ⟨fun i => ?_, ?_⟩
    · rw [co_outerStamp]
      split_ifs with hi
      · have := hh i; rwa [co_atRound, if_pos hi] at this
      · exact Nat.zero_le _
    · have := hh (level - 1); rwa [co_atRound, if_neg (by omega), if_pos rfl] at this
  · rintro ⟨h1, h2⟩ i
    rw [co_atRound]
    split_ifs with a b
    · have := h1 i; rwa [co_outerStamp, if_pos a] at this
    · subst b; exact h2
    · exact (h i (by omega)).le

theorem outerStamp_mono (level : Nat) {p q : PS Nat} (h : p ≤ q) : outerStamp level p ≤ outerStamp level q := by
  rw [PS.le_co] at *
  intro i
  rw [co_outerStamp, co_outerStamp]
  split_ifs
  · exact h i
  · exact le_rfl

/-! ### What the operators do to times -/

theorem leaveTime_eq (level : Nat) (t : T × PS Nat) : leaveTime level t = (t.1, outerStamp level t.2) := by
  rw [leaveTime]
  congr 1
  refine PS.ext_co fun i => ?_
  rw [co_outerStamp]
  exact (C34_leave (TS := U64Step) level t.2.1 t.2.1).2.1 i

theorem dynResultsIn_leave (level : Nat) (t : T × PS Nat) : dynResultsIn (leaveSummary level) t = some (leaveTime level t) := by
  have h := (C34_leave (TS := U64Step) level t.2.1 t.2.1).1
  unfold dynResultsIn
  split
  · rename_i h'; rw [h] at h'; cases h'
  · rename_i p h'
    rw [h] at h'
    cases h'
    rfl

theorem dflt_keep (t : Nat) : PathSummary.results_in (⟨0⟩ : U64Step) t = some t := by simp [PathSummary.results_in]

open PointStampSummary in
theorem feedback_isSome (level : Nat) (hl : 0 < level) (p : PointStamp Nat) (h : coord p.vector (level - 1) < maxRound) :
    ∃ u, (feedbackSummary (⟨0⟩ : U64Step) level ⟨1⟩).results_in p = some u := by
  apply results_in_isSome
  intro i
  simp only [feedbackSummary, act, keep]
  by_cases hi : i < level - 1
  · rw [List.getElem?_append_left (by simpa using hi), List.getElem?_replicate, if_pos hi]
    simp [dflt_keep]
  · rw [List.getElem?_append_right (by simp; omega), List.length_replicate]
    by_cases h2 : i = level - 1
    · subst h2
      simp only [Nat.sub_self, List.getElem?_cons_zero, PathSummary.results_in]
      rw [if_pos (Or.inr (Nat.succ_le_of_lt h))]
      rfl
    · rw [List.getElem?_eq_none (by simp; omega)]
      rfl

/-- The split of a time into the enclosing scope's time and the round. -/
def split (level : Nat) (t : T × PS Nat) : (T × PS Nat) × Nat := ((t.1, outerStamp level t.2), roundOf level t.2)

/-- The step of a dynamic loop is the next round. -/
theorem split_step (level : Nat) (hl : 0 < level) (t : T × PS Nat) : (dynStep level t).map (split level) = nextRound (split level t) := by
  unfold dynStep dynResultsIn
  split
  · rename_i h
    rw [nextRound, if_neg]
    · rfl
    · intro hlt
      obtain ⟨u, hu⟩ := feedback_isSome level hl t.2.1 hlt
      rw [h] at hu
      cases hu
  · rename_i p h
    obtain ⟨h1, h2⟩ := C34_feedback (⟨0⟩ : U64Step) ⟨1⟩ dflt_keep level hl t.2.1 p h
    simp only [PathSummary.results_in, Option.ite_none_right_eq_some, Option.some.injEq] at h2
    obtain ⟨h2, h3⟩ := h2
    have h2 : coord t.2.1.vector (level - 1) + 1 ≤ maxRound := by
      rcases h2 with h2 | h2
      · exact absurd h2 (by decide)
      · exact h2
    have h4 : (split level t).2 < maxRound := h2
    rw [nextRound, if_pos h4]
    simp only [Option.map_some, Option.some.injEq, split, Prod.mk.injEq, true_and]
    refine ⟨PS.ext_co fun i => (co_outerStamp level _ i).trans (Eq.trans ?_ (co_outerStamp level t.2 i).symm), h3.symm⟩
    split_ifs with hi
    · exact h1 i (by omega)
    · rfl

theorem dynStep_scope (level : Nat) (hl : 0 < level) {t u : T × PS Nat} (h : dynStep level t = some u) (ht : InScope level t.2) : InScope level u.2 := by
  unfold dynStep dynResultsIn at h
  split at h
  · cases h
  · rename_i p hp
    cases h
    obtain ⟨h1, -⟩ := C34_feedback (⟨0⟩ : U64Step) ⟨1⟩ dflt_keep level hl t.2.1 p hp
    intro i hi
    exact (h1 i (by omega)).trans (ht i hi)

/-! ### Streams -/

/-- Times of all messages and updates replaced. -/
def onTimes {T2 : Type*} (f : T → T2) (ms : Msgs D T R) : Msgs D T2 R := List.map (fun m => (f m.1, m.2.map fun u => (u.1, f u.2.1, u.2.2))) ms

/-- Times of updates replaced. -/
def onUpds {T2 : Type*} (f : T → T2) (us : Upds D T R) : Upds D T2 R := us.map fun u => (u.1, f u.2.1, u.2.2)

theorem upds_onTimes {T2 : Type*} (f : T → T2) (ms : Msgs D T R) : (onTimes f ms).upds = onUpds f ms.upds := by
  simp only [Msgs.upds, onTimes, onUpds, List.flatMap_map, List.map_flatMap]

theorem onTimes_next (level : Nat) (hl : 0 < level) (ms : Msgs D (T × PS Nat) R) :
    onTimes (split level) ((ms.results_in (dynStep level)).feedback (dynStep level)) = ((onTimes (split level) ms).results_in nextRound).feedback nextRound := by
  have e : ∀ us : Upds D (T × PS Nat) R, (us.filterMap fun u => (dynStep level u.2.1).map fun t => (u.1, t, u.2.2)).map (fun u => (u.1, split level u.2.1, u.2.2))
      = (us.map fun u => (u.1, split level u.2.1, u.2.2)).filterMap fun u => (nextRound u.2.1).map fun t => (u.1, t, u.2.2) := by
    intro us
    rw [List.filterMap_map, List.map_filterMap]
    refine List.filterMap_congr fun u _ => ?_
    rw [Function.comp_apply, ← split_step level hl]
    cases dynStep level u.2.1 <;> rfl
  simp only [Msgs.results_in, Msgs.eachMsg, Msgs.feedback, onTimes, List.filterMap_map, List.map_filterMap]
  refine List.filterMap_congr fun m _ => ?_
  simp only [Function.comp_apply]
  rw [← split_step level hl, ← e]
  cases dynStep level m.1 <;> rfl

theorem onTimes_enclosing {level : Nat} {ms : Msgs D (T × PS Nat) R} (h : Enclosing level ms) : onTimes (split level) ms = ms.enter := by
  simp only [onTimes, Msgs.enter]
  refine List.map_congr_left fun m hm => ?_
  obtain ⟨h1, h2⟩ := h m hm
  have e : ∀ t : T × PS Nat, InScope (level - 1) t.2 → split level t = (t, ⊥) := by
    intro t ht
    rw [split, outer_of_scope ht, round_of_enclosing ht]
    rfl
  rw [e m.1 h1]
  congr 1
  refine List.map_congr_left fun u hu => ?_
  rw [e u.2.1 (h2 u hu)]

theorem onTimes_receives [Neg R] {level : Nat} (hl : 0 < level) {source : Msgs D (T × PS Nat) R} (hs : Enclosing level source) (result : Msgs D (T × PS Nat) R) :
    onTimes (split level) (dynReceives level source result) = iterateReceives source (onTimes (split level) result) := by
  have hc : ∀ a b : Msgs D (T × PS Nat) R, onTimes (split level) (a.concat b) = (onTimes (split level) a).concat (onTimes (split level) b) := fun a b => List.map_append
  have hn : ∀ a : Msgs D (T × PS Nat) R, onTimes (split level) a.negate = (onTimes (split level) a).negate := by
    intro a
    simp only [onTimes, Msgs.negate, Msgs.eachMsg, List.map_map]
    refine List.map_congr_left fun m _ => ?_
    simp only [Function.comp_apply, List.map_map]
    rfl
  simp only [dynReceives, iterateReceives, Variable.new_from, Variable.set, Msgs.enter_dynamic]
  rw [hc, onTimes_next level hl, hc, hn, onTimes_enclosing hs]

section order
variable [PartialOrder T] [DecidableLE T]

theorem receives_scope [Neg R] {level : Nat} (hl : 0 < level) {source : Msgs D (T × PS Nat) R} (hs : Enclosing level source) {result : Msgs D (T × PS Nat) R}
    (hr : ∀ u ∈ result.upds, InScope level u.2.1.2) : ∀ u ∈ (dynReceives level source result).upds, InScope level u.2.1.2 := by
  have hsrc : ∀ u ∈ source.upds, InScope level u.2.1.2 := by
    intro u hu i hi
    obtain ⟨m, hm, hu⟩ := List.mem_flatMap.1 hu
    exact (hs m hm).2 u hu i (by omega)
  intro u hu
  simp only [dynReceives, Variable.new_from, Variable.set, Msgs.enter_dynamic] at hu
  rw [upds_concat, List.mem_append] at hu
  rcases hu with hu | hu
  · obtain ⟨m, hm, hu⟩ := List.mem_flatMap.1 hu
    simp only [Msgs.feedback, List.mem_filterMap, Option.map_eq_some_iff] at hm
    obtain ⟨m1, hm1, t, -, rfl⟩ := hm
    have hu : u ∈ (((result.concat source.negate).results_in (dynStep level))).upds := List.mem_flatMap.2 ⟨m1, hm1, hu⟩
    rw [upds_results_in, List.mem_filterMap] at hu
    obtain ⟨v, hv, hu⟩ := hu
    obtain ⟨t', ht', rfl⟩ := Option.map_eq_some_iff.1 hu
    refine dynStep_scope level hl ht' ?_
    rw [upds_concat, List.mem_append] at hv
    rcases hv with hv | hv
    · exact hr v hv
    · rw [upds_negate] at hv
      obtain ⟨w, hw, rfl⟩ := List.mem_map.1 hv
      exact hsrc w hw
  · exact hsrc u hu


/-- The time of a round. -/
def unsplit (level : Nat) (q : (T × PS Nat) × Nat) : T × PS Nat := (q.1.1, atRound level q.1.2 q.2)

omit [DecidableLE T] in
theorem split_le {level : Nat} {t : T × PS Nat} (h : InScope level t.2) (q : (T × PS Nat) × Nat) : split level t ≤ q ↔ t ≤ unsplit level q := by
  rw [Prod.le_def, Prod.le_def, Prod.le_def, unsplit, split, and_assoc, le_atRound h]

omit [PartialOrder T] [DecidableLE T] in
theorem unsplit_split {level : Nat} {t : T × PS Nat} (h : InScope level t.2) : unsplit level (split level t) = t := by
  rw [unsplit, split, atRound_split h]

omit [DecidableLE T] in
theorem split_mono (level : Nat) {t u : T × PS Nat} (h : t ≤ u) : split level t ≤ split level u :=
  ⟨⟨h.1, outerStamp_mono level h.2⟩, PS.le_co.1 h.2 _⟩

theorem upTo_split {level : Nat} {us : Upds D (T × PS Nat) R} (h : ∀ u ∈ us, InScope level u.2.1.2) (q : (T × PS Nat) × Nat) :
    upTo q (onUpds (split level) us) = onUpds (split level) (upTo (unsplit level q) us) := by
  unfold upTo onUpds
  rw [List.filter_map]
  congr 1
  refine List.filter_congr fun u hu => ?_
  simp only [Function.comp_apply, split_le (h u hu)]

theorem onUpds_unsplit {level : Nat} {us : Upds D (T × PS Nat) R} (h : ∀ u ∈ us, InScope level u.2.1.2) : onUpds (unsplit level) (onUpds (split level) us) = us := by
  unfold onUpds
  rw [List.map_map]
  conv_rhs => rw [← List.map_id us]
  refine List.map_congr_left fun u hu => ?_
  simp only [Function.comp_apply, unsplit_split (h u hu)]
  rfl

theorem accum_split [DecidableEq D] [AddCommMonoid R] {level : Nat} {us : Upds D (T × PS Nat) R} (h : ∀ u ∈ us, InScope level u.2.1.2) (d : D) (q : (T × PS Nat) × Nat) :
    accum (onUpds (split level) us) d q = accum us d (unsplit level q) := by
  unfold accum onUpds
  rw [List.map_map]
  congr 1
  refine List.map_congr_left fun u hu => ?_
  simp only [Function.comp_apply, split_le (h u hu)]

theorem settled_split {level : Nat} {s : Nat → Upds D (T × PS Nat) R} (h : ∀ n, ∀ u ∈ s n, InScope level u.2.1.2) (n : Nat) (q : (T × PS Nat) × Nat) :
    Settled (fun n => onUpds (split level) (s n)) n q ↔ Settled s n (unsplit level q) := by
  have hm : ∀ n, ∀ u ∈ upTo (unsplit level q) (s n), InScope level u.2.1.2 := fun n u hu => h n u (List.mem_of_mem_filter hu)
  constructor
  · intro hs m hnm
    have := hs m hnm
    simp only [upTo_split (h _)] at this
    have := this.map fun u => (u.1, unsplit level u.2.1, u.2.2)
    rwa [← onUpds, ← onUpds, onUpds_unsplit (hm _), onUpds_unsplit (hm _)] at this
  · intro hs m hnm
    simp only [upTo_split (h _)]
    exact (hs m hnm).map _

theorem total_split [DecidableEq D] [DecidableEq T] [AddCommMonoid R] {level : Nat} {us : Upds D (T × PS Nat) R} (h : ∀ u ∈ us, InScope level u.2.1.2) (d : D) {t : T × PS Nat} (ht : InScope level t.2) :
    total (onUpds (split level) us) d (split level t) = total us d t := by
  unfold total onUpds
  rw [List.map_map]
  congr 1
  refine List.map_congr_left fun u hu => ?_
  have : split level u.2.1 = split level t ↔ u.2.1 = t := by
    constructor
    · intro e
      rw [← unsplit_split (h u hu), e, unsplit_split ht]
    · rintro rfl; rfl
  simp only [Function.comp_apply, this]

end order
end DD
