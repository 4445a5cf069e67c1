import Verif.Proofs.Dynamic
import Verif.Props.Iterate

/-!
# C61: dynamic scopes emulate nested scopes
-/

namespace DD
variable {D T R : Type*}

set_option linter.unusedSectionVars false

/-! ### Times -/

/-- C61: the times of a scope at `level` are the pairs of a time of the enclosing scope and a round, with the same order. -/
theorem C61_times (level : Nat) (hl : 0 < level) :
    (∀ p, InScope level p → InScope (level - 1) (outerStamp level p) ∧ atRound level (outerStamp level p) (roundOf level p) = p) ∧
    (∀ p i, InScope (level - 1) p → InScope level (atRound level p i) ∧ outerStamp level (atRound level p i) = p ∧ roundOf level (atRound level p i) = i) ∧
    (∀ p q i j, InScope (level - 1) p → InScope (level - 1) q → (atRound level p i ≤ atRound level q j ↔ p ≤ q ∧ i ≤ j)) := by
  have h2 : ∀ p i, InScope (level - 1) p → outerStamp level (atRound level p i) = p := by
    intro p i hp
    refine PS.ext_co fun k => ?_
    rw [co_outerStamp, co_atRound]
    split_ifs with hk
    · rfl
    · exact (hp k (by omega)).symm
  have h3 : ∀ p i, roundOf level (atRound level p i) = i := by
    intro p i
    rw [roundOf, co_atRound, if_neg (by omega), if_pos rfl]
  refine ⟨fun p hp => ⟨inScope_outer level p, atRound_split hp⟩, fun p i hp => ⟨inScope_atRound level hl p i, h2 p i hp, h3 p i⟩, fun p q i j hp _ => ?_⟩
  rw [le_atRound (inScope_atRound level hl p i), h2 p i hp, h3]

/-- C61: and with the same least upper and greatest lower bounds. -/
theorem C61_lattice (level : Nat) (p q : PS Nat) (hp : InScope level p) (hq : InScope level q) :
    InScope level (p ⊔ q) ∧ outerStamp level (p ⊔ q) = outerStamp level p ⊔ outerStamp level q ∧ roundOf level (p ⊔ q) = max (roundOf level p) (roundOf level q) ∧
    InScope level (p ⊓ q) ∧ outerStamp level (p ⊓ q) = outerStamp level p ⊓ outerStamp level q ∧ roundOf level (p ⊓ q) = min (roundOf level p) (roundOf level q) := by
  have hj : ∀ a b : PS Nat, ∀ i, (a ⊔ b).co i = max (a.co i) (b.co i) := fun a b i => coord_join a.1 b.1 i
  have hm : ∀ a b : PS Nat, ∀ i, (a ⊓ b).co i = min (a.co i) (b.co i) := fun a b i => coord_meet a.1 b.1 i
  refine ⟨fun i hi => ?_, PS.ext_co fun i => ?_, hj _ _ _, fun i hi => ?_, PS.ext_co fun i => ?_, hm _ _ _⟩
  · rw [hj, hp i hi, hq i hi]; rfl
  · rw [hj, co_outerStamp, co_outerStamp, co_outerStamp, hj]; split_ifs <;> rfl
  · rw [hm, hp i hi, hq i hi]; rfl
  · rw [hm, co_outerStamp, co_outerStamp, co_outerStamp, hm]; split_ifs <;> rfl

/-- C61: a collection that enters is at round zero, and its times are those it had. -/
theorem C61_enter (level : Nat) (ms : Msgs D (T × PS Nat) R) (h : Enclosing level ms) :
    ms.enter_dynamic level = ms ∧ ∀ u ∈ (ms.enter_dynamic level).upds, u.2.1.2 = atRound level u.2.1.2 0 := by
  refine ⟨rfl, fun u hu => ?_⟩
  obtain ⟨m, hm, hu⟩ := List.mem_flatMap.1 hu
  have hs := (h m hm).2 u hu
  have := atRound_split (level := level) (p := u.2.1.2) fun i hi => hs i (by omega)
  rw [outer_of_scope hs, round_of_enclosing hs] at this
  exact this.symm

section
variable [PartialOrder T] [DecidableLE T]

theorem leave_dynamic_eq (level : Nat) (ms : Msgs D (T × PS Nat) R) : ms.leave_dynamic level = some (onTimes (leaveTime level) ms) := by
  induction ms with
  | nil => rfl
  | cons m ms ih =>
    obtain ⟨cap, data⟩ := m
    rw [Msgs.leave_dynamic, dynResultsIn_leave]
    simp only [le_refl, if_true, ih, Option.map_some]
    rfl

/-- C61: leaving never panics. Each update leaves at the enclosing scope's part of its time, with its message at or before it if that was so, and at a time of the enclosing scope. What has left up
to a time `q` of the enclosing scope is what is inside at or before `q` at any round. -/
theorem C61_leave [DecidableEq D] [AddCommMonoid R] (level : Nat) (ms : Msgs D (T × PS Nat) R) :
    ∃ out, ms.leave_dynamic level = some out ∧
      out.upds = (ms.upds.map fun u => (u.1, (u.2.1.1, outerStamp level u.2.1.2), u.2.2)) ∧
      Enclosing level out ∧ (WellTimed ms → WellTimed out) ∧
      ∀ d q, (accum out.upds d q : R) = (ms.upds.map fun u => if u.1 = d ∧ u.2.1.1 ≤ q.1 ∧ outerStamp level u.2.1.2 ≤ q.2 then u.2.2 else 0).sum := by
  have hu : (onTimes (leaveTime level) ms).upds = ms.upds.map fun u => (u.1, (u.2.1.1, outerStamp level u.2.1.2), u.2.2) := by
    rw [upds_onTimes, onUpds]
    simp only [leaveTime_eq]
  refine ⟨_, leave_dynamic_eq level ms, hu, ?_, ?_, ?_⟩
  · intro m hm
    obtain ⟨m, -, rfl⟩ := List.mem_map.1 hm
    refine ⟨?_, fun u hu => ?_⟩
    · rw [leaveTime_eq]; exact inScope_outer _ _
    · obtain ⟨v, -, rfl⟩ := List.mem_map.1 hu
      simp only [leaveTime_eq]; exact inScope_outer _ _
  · intro hw m hm u hu
    obtain ⟨m, hm', rfl⟩ := List.mem_map.1 hm
    obtain ⟨v, hv, rfl⟩ := List.mem_map.1 hu
    simp only [leaveTime_eq]
    have := hw m hm' v hv
    exact ⟨this.1, outerStamp_mono level this.2⟩
  · intro d q
    rw [hu, accum, List.map_map]
    rfl

end

/-! ### Loops -/

section
variable [PartialOrder T] [DecidableLE T] [DecidableEq D] [AddCommGroup R]
variable {level : Nat} {source result : Nat → Msgs D (T × PS Nat) R} {recv : Nat → Upds D (T × PS Nat) R} {body : T × PS Nat → (D → R) → D → R}

theorem DynRun.recv_scope (hl : 0 < level) (he : ∀ n, Enclosing level (source n)) (h : DynRun level (fun n => dynReceives level (source n)) result recv) (n : Nat) :
    ∀ u ∈ recv n, InScope level u.2.1.2 := fun u hu => receives_scope hl (he n) (h.inScope n) u ((h.sound n).subset hu)

private theorem subperm_map {α β : Type*} (f : α → β) {l l' : List α} (h : l.Subperm l') : (l.map f).Subperm (l'.map f) := by
  obtain ⟨k, hk, hs⟩ := h
  exact ⟨k.map f, hk.map f, hs.map f⟩

/-- A run of a dynamic loop is a run of a nested loop, at the split times. -/
theorem DynRun.loop (hl : 0 < level) (he : ∀ n, Enclosing level (source n)) (h : DynRun level (fun n => dynReceives level (source n)) result recv) :
    LoopRun (fun n => iterateReceives (source n)) (fun n => onTimes (split level) (result n)) (fun n => onUpds (split level) (recv n)) where
  produces n := (h.produces n).map _
  timed n m hm u hu := by
    obtain ⟨m, hm', rfl⟩ := List.mem_map.1 hm
    obtain ⟨v, hv, rfl⟩ := List.mem_map.1 hu
    exact split_mono level (h.timed n m hm' v hv)
  rounds n u hu := by
    rw [upds_onTimes] at hu
    obtain ⟨v, hv, rfl⟩ := List.mem_map.1 hu
    exact h.rounds n v hv
  receives n := subperm_map _ (h.receives n)
  sound n := by
    rw [← onTimes_receives hl (he n), upds_onTimes]
    exact subperm_map _ (h.sound n)
  delivers n := by
    obtain ⟨m, hm⟩ := h.delivers n
    refine ⟨m, ?_⟩
    rw [← onTimes_receives hl (he n), upds_onTimes]
    exact subperm_map _ hm

theorem Computes.split {sent : Nat → Upds D (T × PS Nat) R} (hr : ∀ n, ∀ u ∈ recv n, InScope level u.2.1.2) (hs : ∀ n, ∀ u ∈ sent n, InScope level u.2.1.2)
    (hc : Computes body recv sent) :
    Computes (fun q => body (unsplit level q)) (fun n => onUpds (DD.split level) (recv n)) (fun n => onUpds (DD.split level) (sent n)) := by
  intro n q hq
  obtain ⟨n', h1, h2⟩ := hc n (unsplit level q) ((settled_split hr n q).1 hq)
  refine ⟨n', (settled_split hs n' q).2 h1, fun d => ?_⟩
  simp only [accum_split (hs _), accum_split (hr _)]
  exact h2 d

theorem Frugal.split [DecidableEq T] {sent : Nat → Upds D (T × PS Nat) R} (hr : ∀ n, ∀ u ∈ recv n, InScope level u.2.1.2) (hs : ∀ n, ∀ u ∈ sent n, InScope level u.2.1.2)
    (hf : Frugal recv sent) : Frugal (fun n => onUpds (DD.split level) (recv n)) (fun n => onUpds (DD.split level) (sent n)) := by
  intro n q hq
  obtain ⟨n', h1, h2⟩ := hf n (unsplit level q) ((settled_split hr n q).1 hq)
  refine ⟨n', (settled_split hs n' q).2 h1, fun u hu hle => ?_⟩
  obtain ⟨v, hv, rfl⟩ := List.mem_map.1 hu
  simp only [total_split (hs n') _ (hs n' v hv)]
  exact h2 v hv ((split_le (hs n' v hv) q).1 hle)

/-- C61: a loop made with `Variable::new_from(source.enter_dynamic(level), feedback_summary(level, 1))`. However updates circulate, for each time `(t, p)` of the enclosing scope whose source is
complete and each round `i`, the variable comes to hold, for good, the `i`-th iterate of the body from the source at that time. The body then produces the next iterate. -/
theorem C61_rounds (hl : 0 < level) (he : ∀ n, Enclosing level (source n)) (hw : ∀ n, WellTimed (source n)) (h : DynRun level (fun n => dynReceives level (source n)) result recv)
    (hc : Computes body recv fun n => (result n).upds) {n0 : Nat} {t : T} {p : PS Nat} (hs : Settled (fun n => (source n).upds) n0 (t, p)) (i : Nat) (hi : i ≤ maxRound) :
    ∃ n, Settled recv n (t, atRound level p i) ∧
      (∀ d, accum (recv n) d (t, atRound level p i) = iterates (fun d => accum (source n0).upds d (t, p)) (fun j => body (t, atRound level p j)) i d) ∧
      ∃ n', Settled (fun n => (result n).upds) n' (t, atRound level p i) ∧
        ∀ d, accum (result n').upds d (t, atRound level p i) = iterates (fun d => accum (source n0).upds d (t, p)) (fun j => body (t, atRound level p j)) (i + 1) d := by
  have hr := h.recv_scope hl he
  have hc' : Computes (fun q => body (unsplit level q)) (fun n => onUpds (split level) (recv n)) (fun n => (onTimes (split level) (result n)).upds) := by
    simp only [upds_onTimes]
    exact hc.split hr h.inScope
  obtain ⟨n, h1, h2, n', h3, h4⟩ := C31_rounds hw (h.loop hl he) hc' hs i hi
  simp only [upds_onTimes, accum_split (hr _), accum_split (h.inScope _)] at h2 h3 h4
  exact ⟨n, (settled_split hr n _).1 h1, h2, n', (settled_split h.inScope n' _).1 h3, h4⟩

theorem onTimes_through (k : Nat) (ms : Msgs D (T × PS Nat) R) : onTimes (split level) (throughDynRound level k ms) = throughRound k (onTimes (split level) ms) := by
  simp only [onTimes, throughDynRound, throughRound, List.map_map]
  refine List.map_congr_left fun m _ => ?_
  simp only [Function.comp_apply, List.filter_map]
  rfl

theorem leave_split (ms : Msgs D (T × PS Nat) R) : ms.leave_dynamic level = some (iterateReturns (onTimes (split level) ms)) := by
  rw [leave_dynamic_eq]
  simp only [onTimes, iterateReturns, Msgs.leave, List.map_map, leaveTime_eq]
  congr 1
  refine List.map_congr_left fun m _ => ?_
  simp only [Function.comp_apply, List.map_map]
  rfl

/-- C61: if the iterates reach a fixed point in round `m`, then for all `k` at or after `m`, what `leave_dynamic` sends, up to round `k`, comes to be the fixed point. -/
theorem C61_fixed_point (hl : 0 < level) (he : ∀ n, Enclosing level (source n)) (hw : ∀ n, WellTimed (source n)) (h : DynRun level (fun n => dynReceives level (source n)) result recv)
    (hc : Computes body recv fun n => (result n).upds) {n0 : Nat} {t : T} {p : PS Nat} (hs : Settled (fun n => (source n).upds) n0 (t, p)) {m : Nat} {X : D → R}
    (hm : iterates (fun d => accum (source n0).upds d (t, p)) (fun j => body (t, atRound level p j)) m = X) (hX : ∀ i, m ≤ i → body (t, atRound level p i) X = X)
    (k : Nat) (hk : m ≤ k) (hkm : k ≤ maxRound) :
    ∃ n, ∀ n', n ≤ n' → ∃ out, (throughDynRound level k (result n')).leave_dynamic level = some out ∧ ∀ d, accum out.upds d (t, p) = X d := by
  have hr := h.recv_scope hl he
  have hc' : Computes (fun q => body (unsplit level q)) (fun n => onUpds (split level) (recv n)) (fun n => (onTimes (split level) (result n)).upds) := by
    simp only [upds_onTimes]
    exact hc.split hr h.inScope
  obtain ⟨n, hn⟩ := C31_fixed_point hw (h.loop hl he) hc' hs hm hX k hk hkm
  refine ⟨n, fun n' hn' => ⟨_, leave_split _, fun d => ?_⟩⟩
  rw [onTimes_through]
  exact hn n' hn' d

/-- C61: if the body consolidates, and at `(t, p)` and all times before it the iterates reach a fixed point in round `m`, then nothing circulates for these times after round `m`, and what
`leave_dynamic` sends comes to be complete, and the fixed point. -/
theorem C61_terminates [DecidableEq T] (hl : 0 < level) (he : ∀ n, Enclosing level (source n)) (hw : ∀ n, WellTimed (source n))
    (h : DynRun level (fun n => dynReceives level (source n)) result recv) (hc : Computes body recv fun n => (result n).upds) (hf : Frugal recv fun n => (result n).upds)
    {n0 : Nat} {t : T} {p : PS Nat} (hs : Settled (fun n => (source n).upds) n0 (t, p)) {m : Nat} (hm : m ≤ maxRound) {X : T × PS Nat → D → R}
    (hX : ∀ q, q ≤ (t, p) → iterates (fun d => accum (source n0).upds d q) (fun j => body (q.1, atRound level q.2 j)) m = X q ∧
      ∀ i, m ≤ i → body (q.1, atRound level q.2 i) (X q) = X q) :
    (∀ n, ∀ u ∈ (result n).upds, (u.2.1.1, outerStamp level u.2.1.2) ≤ (t, p) → roundOf level u.2.1.2 ≤ m) ∧
    ∃ leaves : Nat → Msgs D (T × PS Nat) R, (∀ n, (result n).leave_dynamic level = some (leaves n)) ∧
      ∃ n, Settled (fun n => (leaves n).upds) n (t, p) ∧ ∀ d, accum (leaves n).upds d (t, p) = X (t, p) d := by
  have hr := h.recv_scope hl he
  have hc' : Computes (fun q => body (unsplit level q)) (fun n => onUpds (split level) (recv n)) (fun n => (onTimes (split level) (result n)).upds) := by
    simp only [upds_onTimes]
    exact hc.split hr h.inScope
  have hf' : Frugal (fun n => onUpds (split level) (recv n)) (fun n => (onTimes (split level) (result n)).upds) := by
    simp only [upds_onTimes]
    exact hf.split hr h.inScope
  obtain ⟨h1, n, h2, h3⟩ := C31_terminates hw (h.loop hl he) hc' hf' hs hm hX
  refine ⟨fun n u hu hle => ?_, fun n => iterateReturns (onTimes (split level) (result n)), fun n => leave_split _, n, h2, h3⟩
  refine h1 n (u.1, split level u.2.1, u.2.2) ?_ hle
  rw [upds_onTimes]
  exact List.mem_map.2 ⟨u, hu, rfl⟩

end

/-! ### A loop in a loop: numbers are halved while they are even, in a scope at level 2, for the enclosing loop's round 5 -/

/-- The body's function, as for C31. -/
def dynHalve (_ : Nat × PS Nat) (X : Nat → Int) (e : Nat) : Int := X (2 * e) + if e % 2 = 1 then X e else 0

def dynHalveSource : Msgs Nat (Nat × PS Nat) Int := [((0, ptStamp [5]), [(4, (0, ptStamp [5]), 1)])]

def dynHalveResult (n : Nat) : Msgs Nat (Nat × PS Nat) Int :=
  List.take n [((0, ptStamp [5]), [(2, (0, ptStamp [5]), 1)]), ((0, ptStamp [5, 1]), [(1, (0, ptStamp [5, 1]), 1), (2, (0, ptStamp [5, 1]), -1)])]

def dynHalveRecv (n : Nat) : Upds Nat (Nat × PS Nat) Int := (dynReceives 2 dynHalveSource (dynHalveResult n)).upds

/-- The hypotheses are of the times in the messages. -/
theorem inScope_of_length {level : Nat} {p : PS Nat} (h : p.1.vector.length ≤ level) : InScope level p := by
  intro i hi
  rw [PS.co, coord, List.getD_eq_getElem?_getD, List.getElem?_eq_none (by omega)]
  rfl

theorem dynHalve_enclosing : Enclosing 2 dynHalveSource := by
  have : ∀ m ∈ dynHalveSource, m.1.2.1.vector.length ≤ 1 ∧ ∀ u ∈ m.2, u.2.1.2.1.vector.length ≤ 1 := by decide +kernel
  exact fun m hm => ⟨inScope_of_length (this m hm).1, fun u hu => inScope_of_length ((this m hm).2 u hu)⟩

theorem dynHalveResult_late (n : Nat) (hn : 2 ≤ n) : dynHalveResult n = dynHalveResult 2 := by
  unfold dynHalveResult
  rw [List.take_of_length_le (by simpa using hn), List.take_of_length_le (by simp)]

theorem dynHalve_mem {n : Nat} {m : (Nat × PS Nat) × Upds Nat (Nat × PS Nat) Int} (hm : m ∈ dynHalveResult n) : m ∈ dynHalveResult 2 := by
  have := List.mem_of_mem_take hm
  exact this

theorem dynHalve_run : DynRun 2 (fun _ => dynReceives 2 dynHalveSource) dynHalveResult dynHalveRecv where
  produces n := List.take_prefix_take_left (Nat.le_succ n)
  timed n m hm u hu := by
    have : ∀ m ∈ dynHalveResult 2, ∀ u ∈ m.2, m.1 ≤ u.2.1 := by decide +kernel
    exact this m (dynHalve_mem hm) u hu
  rounds n u hu := by
    obtain ⟨m, hm, hu⟩ := List.mem_flatMap.1 hu
    have : ∀ m ∈ dynHalveResult 2, ∀ u ∈ m.2, roundOf 2 u.2.1.2 ≤ maxRound := by decide +kernel
    exact this m (dynHalve_mem hm) u hu
  inScope n u hu := by
    obtain ⟨m, hm, hu⟩ := List.mem_flatMap.1 hu
    have : ∀ m ∈ dynHalveResult 2, ∀ u ∈ m.2, u.2.1.2.1.vector.length ≤ 2 := by decide +kernel
    exact inScope_of_length (this m (dynHalve_mem hm) u hu)
  receives n := by
    rcases n with _ | _ | n
    · decide +kernel
    · decide +kernel
    · have e : ∀ n, dynHalveRecv (n + 2) = dynHalveRecv 2 := by intro n; unfold dynHalveRecv; rw [dynHalveResult_late _ (by omega)]
      rw [e, show n + 1 + 1 + 1 = (n + 1) + 2 by omega, e]
      exact List.Subperm.refl _
  sound n := List.Subperm.refl _
  delivers n := ⟨n, List.Subperm.refl _⟩

theorem le_five (j : Nat) (q : Nat × PS Nat) : ((0, ptStamp [5, j]) : Nat × PS Nat) ≤ q ↔ 5 ≤ q.2.co 0 ∧ j ≤ q.2.co 1 := by
  rw [Prod.le_def, PS.le_co]
  simp only [Nat.zero_le, true_and, co_ptStamp]
  constructor
  · intro h; exact ⟨h 0, h 1⟩
  · rintro ⟨h0, h1⟩ i
    rcases i with _ | _ | i
    · exact h0
    · exact h1
    · exact Nat.zero_le _

theorem dynHalve_computes : Computes dynHalve dynHalveRecv fun n => (dynHalveResult n).upds := by
  intro n q hs
  refine ⟨2, fun m hm => by simp only [dynHalveResult_late m hm, List.Perm.refl], fun d => ?_⟩
  have hr : ∀ d, accum (dynHalveRecv n) d q = accum (dynHalveRecv 2) d q := by
    intro d
    rw [(hs.mono (Nat.le_max_left n 2) le_rfl).accum_eq hs d |>.symm]
    unfold dynHalveRecv
    rw [dynHalveResult_late _ (Nat.le_max_right n 2)]
  simp only [hr]
  have e : dynHalveRecv 2 = [(2, (0, ptStamp [5, 1]), 1), (1, (0, ptStamp [5, 2]), 1), (2, (0, ptStamp [5, 2]), -1), (4, (0, ptStamp [5, 1]), -1), (4, (0, ptStamp [5, 0]), 1)] := by decide +kernel
  have e2 : (dynHalveResult 2).upds = [(2, (0, ptStamp [5, 0]), 1), (1, (0, ptStamp [5, 1]), 1), (2, (0, ptStamp [5, 1]), -1)] := by decide +kernel
  rw [e, e2]
  simp only [accum, dynHalve, List.map_cons, List.map_nil, List.sum_cons, List.sum_nil, le_five]
  generalize q.2.co 1 = i
  by_cases h5 : 5 ≤ q.2.co 0
  swap
  · simp [h5]
  simp only [h5, true_and]
  by_cases h1 : d = 1
  · subst h1
    by_cases i1 : 1 ≤ i <;> by_cases i2 : 2 ≤ i <;> simp [i1, i2]
  · by_cases h2 : d = 2
    · subst h2
      by_cases i1 : 1 ≤ i <;> by_cases i2 : 2 ≤ i <;> simp [i1, i2]
    · have a1 : ¬ 1 = d := fun h => h1 h.symm
      have a2 : ¬ 2 = d := fun h => h2 h.symm
      have a3 : ¬ 2 = 2 * d := by omega
      have a4 : ¬ 4 = 2 * d := by omega
      have a5 : ¬ 1 = 2 * d := by omega
      by_cases ho : d % 2 = 1
      · have a6 : ¬ 4 = d := by omega
        simp [a1, a2, a3, a4, a5, a6]
      · simp [a1, a2, a3, a4, a5, ho]

theorem dynHalve_frugal : Frugal dynHalveRecv fun n => (dynHalveResult n).upds := by
  intro n q _
  refine ⟨2, fun m hm => by simp only [dynHalveResult_late m hm, List.Perm.refl], fun u hu _ => ?_⟩
  have : ∀ u ∈ (dynHalveResult 2).upds, total (dynHalveResult 2).upds u.1 u.2.1 ≠ 0 := by decide +kernel
  exact this u hu

/-- The theorem about termination applies to it: at the enclosing loop's round 5, four becomes two, and then one. -/
example : ∃ leaves : Nat → Msgs Nat (Nat × PS Nat) Int, (∀ n, (dynHalveResult n).leave_dynamic 2 = some (leaves n)) ∧
    ∃ n, Settled (fun n => (leaves n).upds) n (0, ptStamp [5]) ∧ ∀ d, accum (leaves n).upds d (0, ptStamp [5]) = if d = 1 then 1 else 0 := by
  refine (C61_terminates (source := fun _ => dynHalveSource) (n0 := 0) (t := 0) (p := ptStamp [5]) (m := 2) (X := fun q d => if d = 1 ∧ 5 ≤ q.2.co 0 then 1 else 0) (by decide)
    (fun _ => dynHalve_enclosing) ?_ dynHalve_run dynHalve_computes dynHalve_frugal (fun _ _ => List.Perm.refl _) (by decide) ?_).2.imp fun leaves h => ⟨h.1, h.2.imp fun n h => ⟨h.1, fun d => ?_⟩⟩
  · intro _
    show ∀ m ∈ dynHalveSource, ∀ u ∈ m.2, m.1 ≤ u.2.1
    decide +kernel
  · intro q _
    have e : (dynHalveSource).upds = [(4, (0, ptStamp [5, 0]), 1)] := by decide +kernel
    refine ⟨?_, fun i _ => ?_⟩
    · funext d
      simp only [iterates, dynHalve, e, accum, List.map_cons, List.map_nil, List.sum_cons, List.sum_nil, le_five, Nat.zero_le, and_true]
      by_cases h5 : 5 ≤ q.2.co 0 <;> simp only [h5, and_true, and_false, if_false] <;> split_ifs <;> omega
    · funext d
      simp only [dynHalve]
      by_cases h5 : 5 ≤ q.2.co 0 <;> simp only [h5, and_true, and_false, if_false] <;> split_ifs <;> omega
  · rw [h.2 d, co_ptStamp]
    simp

/-- And this is what leaves. -/
example : ((dynHalveResult 2).leave_dynamic 2).map Msgs.upds = some [(2, (0, ptStamp [5]), 1), (1, (0, ptStamp [5]), 1), (2, (0, ptStamp [5]), -1)] := by decide +kernel

/-- Times at level 2. -/
example : outerStamp 2 (ptStamp [5, 7]) = ptStamp [5] ∧ roundOf 2 (ptStamp [5, 7]) = 7 ∧ atRound 2 (ptStamp [5]) 7 = ptStamp [5, 7] ∧ ptStamp [5, 1] ⊔ ptStamp [3, 7] = ptStamp [5, 7] := by decide +kernel

end DD
