import Verif.Proofs.History
import Verif.Proofs.TimeOrd
import Mathlib.Order.Lattice.Nat
import Mathlib.Algebra.Ring.Int.Defs
import Mathlib.Algebra.Ring.Nat

/-!
# C39: replaying histories exposes the collection at each time; C24: joining two histories
-/

namespace DD

section
variable {V T R : Type*} [LinearOrder V] [Lattice T] [DecidableLE T] [DecidableEq T] [TimeOrd T] [AddCommMonoid R]
  [DecidableEq R]

/-- The history `h0` replays the updates `all`: they are in time order, and after any sequence of operations the history is
at the point `w` the operations describe: its next edit, time and end are those of `w`; its meet is the greatest lower
bound of the times left; and the buffer accumulates to what was visited, at every time not before what the buffer was
advanced by. -/
def ReplaysHistory (h0 : ValueHistory V T R) (all : Upds V T R) : Prop :=
  (all.Pairwise fun u v => toLin u.2.1 ≤ toLin v.2.1) ∧
  ∀ (ops : List (HistOp T)) (w : HistWalk V T R), HistWalk.run { stepped := [], rest := all } ops = some w →
    ∃ h, h0.run ops = some h
      ∧ h.edit = some w.rest.head?
      ∧ h.time = w.rest.head?.map (·.2.1)
      ∧ h.isDone = w.rest.isEmpty
      ∧ (h.meet = none ↔ w.rest = [])
      ∧ (∀ m, h.meet = some m → IsGLB {t | ∃ u ∈ w.rest, u.2.1 = t} m)
      ∧ (∀ v q, (∀ m ∈ HistOp.advances ops, m ≤ q) → accum h.buffer v q = accum w.stepped v q)

theorem replaysHistory_of_ok {h0 : ValueHistory V T R} {all : Upds V T R} (hk : HistOk h0 all) (hb : h0.buffer = []) :
    ReplaysHistory h0 all := by
  refine ⟨hk.sorted, fun ops w hw => ?_⟩
  obtain ⟨h, a1, a2, a3⟩ := hist_run ops (w := { stepped := [], rest := all }) hk hw
  refine ⟨h, a1, ValueHistory.ok_edit a2, ValueHistory.ok_time a2, ValueHistory.ok_done a2, ?_, ?_,
    fun v q hq => a3 q hq (fun v => by rw [hb]) v⟩
  · cases hr : w.rest with
    | nil => rw [hr] at a2; simp [ValueHistory.meet, ValueHistory.ok_nil a2]
    | cons u us =>
      rw [hr] at a2
      obtain ⟨m, hm, _⟩ := ValueHistory.ok_meet a2
      simp [hm]
  · intro m hm
    cases hr : w.rest with
    | nil => rw [hr] at a2; simp [ValueHistory.meet, ValueHistory.ok_nil a2] at hm
    | cons u us =>
      rw [hr] at a2
      obtain ⟨m', hm', hg⟩ := ValueHistory.ok_meet a2
      rw [hm', Option.some.injEq] at hm
      subst hm
      exact hg

/-- C39. Loading the values of a key, advanced by `meet`, never fails, and replays updates that accumulate to the loaded ones at
every time at or beyond `meet`. -/
theorem C39_replay (meet : Option T) (vals : List (V × List (T × R))) :
    ∃ el h0 all, EditList.load meet vals = some el ∧ ValueHistory.build el = some h0 ∧ ReplaysHistory h0 all
      ∧ (∀ v q, (∀ m ∈ meet, m ≤ q) → accum all v q = accum (valUpds vals) v q)
      ∧ (∀ u ∈ all, ∀ m ∈ meet, m ≤ u.2.1) := by
  obtain ⟨h, rest, a1, a2, a3, a4⟩ := build_ok (EditList.loadGroups meet vals)
  refine ⟨_, h, rest, EditList.load_spec meet vals, a1, replaysHistory_of_ok a2 a4, fun v q hq => ?_, fun u hu m hm => ?_⟩
  · rw [accum_perm a3, accum_loadGroups meet vals v q hq]
  · obtain ⟨vu, _, x, _, _, e⟩ := loadGroups_mem meet vals u (a3.mem_iff.1 hu)
    rw [e]; exact le_joinOpt_right meet _ m hm

/-- C39. Loading a given key through a cursor, likewise; if the key is absent the history is empty. -/
theorem C39_replay_key {K : Type*} [LinearOrder K] (t : Contents K V T R) (ht : t.Pairwise fun x y => x.1 < y.1) (key : K)
    (meet : Option T) :
    ∃ h0 all, ValueHistory.replayKey t key meet = some h0 ∧ ReplaysHistory h0 all
      ∧ (∀ v q, (∀ m ∈ meet, m ≤ q) → accum all v q = accum (keyUpds t key) v q)
      ∧ (∀ u ∈ all, ∀ m ∈ meet, m ≤ u.2.1)
      ∧ ((∀ kv ∈ t, kv.1 ≠ key) → all = []) := by
  have hempty : ∃ h0, ValueHistory.build (EditList.empty (V := V) (T := T) (R := R)) = some h0 ∧ ReplaysHistory h0 [] := by
    obtain ⟨h, rest, a1, a2, a3, a4⟩ := build_ok ([] : List (V × List (T × R)))
    have : rest = [] := by simpa [valUpds] using a3
    subst this
    exact ⟨h, a1, replaysHistory_of_ok a2 a4⟩
  unfold ValueHistory.replayKey EditList.populateKey
  induction t with
  | nil =>
    obtain ⟨h0, a1, a2⟩ := hempty
    exact ⟨h0, [], a1, a2, fun _ _ _ => rfl, by simp, fun _ => rfl⟩
  | cons kv t ih =>
    obtain ⟨hp, ht'⟩ := List.pairwise_cons.1 ht
    by_cases hlt : kv.1 < key
    · obtain ⟨h0, all, a1, a2, a3, a4, a5⟩ := ih ht'
      refine ⟨h0, all, ?_, a2, ?_, a4, fun h => a5 fun x hx => h x (by simp [hx])⟩
      · rw [List.dropWhile_cons_of_pos (by simpa using hlt)]; exact a1
      · intro v q hq
        rw [a3 v q hq]
        simp [keyUpds, hlt.ne]
    · rw [List.dropWhile_cons_of_neg (by simpa using hlt)]
      have hrest : ∀ x ∈ t, x.1 ≠ key := fun x hx e => hlt (e ▸ hp x hx)
      have hrest' : (t.flatMap fun kv => if kv.1 = key then valUpds kv.2 else []) = [] := by
        rw [List.flatMap_eq_nil_iff]
        intro x hx
        rw [if_neg (hrest x hx)]
      by_cases he : kv.1 = key
      · obtain ⟨el, h0, all, a1, a2, a3, a4, a5⟩ := C39_replay meet kv.2
        simp only [he, if_true, a1]
        refine ⟨h0, all, a2, a3, ?_, a5, fun h => absurd he (h kv (by simp))⟩
        intro v q hq
        rw [a4 v q hq]
        simp [keyUpds, he, hrest']
      · obtain ⟨h0, a1, a2⟩ := hempty
        simp only [he, if_false]
        refine ⟨h0, [], a1, a2, ?_, by simp, fun _ => rfl⟩
        intro v q hq
        simp [keyUpds, he, hrest']

/-- C39. Loading a plain list of updates (the path of the integer-proxy operators), likewise. -/
theorem C39_load_iter (us : Upds V T R) (meet : Option T) :
    ∃ h0 all, ValueHistory.loadIter us meet = some h0 ∧ ReplaysHistory h0 all
      ∧ (∀ v q, (∀ m ∈ meet, m ≤ q) → accum all v q = accum us v q)
      ∧ (∀ u ∈ all, ∀ m ∈ meet, m ≤ u.2.1) := by
  obtain ⟨h, rest, a1, a2, a3, a4, a5⟩ := loadIter_ok us meet
  exact ⟨h, rest, a1, replaysHistory_of_ok a2 a3, a4, a5⟩

omit [LinearOrder V] [DecidableLE T] [AddCommMonoid R] [DecidableEq R] in
theorem advances_le_rest (ops : List (HistOp T)) : ∀ {w w' : HistWalk V T R}, w.run ops = some w' → w.AdvancesBelow ops →
    (∀ u ∈ w'.rest, u ∈ w.rest) ∧ ∀ m ∈ HistOp.advances ops, ∀ u ∈ w'.rest, m ≤ u.2.1 := by
  induction ops with
  | nil =>
    intro w w' hw _
    simp only [HistWalk.run, Option.some.injEq] at hw
    subst hw
    exact ⟨fun u hu => hu, by simp [HistOp.advances]⟩
  | cons op ops ih =>
    intro w w' hw hb
    simp only [HistWalk.run] at hw
    cases ha : w.apply op with
    | none => rw [ha] at hw; simp at hw
    | some w1 =>
      rw [ha] at hw
      obtain ⟨a1, a2⟩ := ih hw (hb.2 w1 ha)
      have hsub : ∀ u ∈ w1.rest, u ∈ w.rest := by
        intro u hu
        cases op with
        | step =>
          simp only [HistWalk.apply] at ha
          cases hr : w.rest with
          | nil => rw [hr] at ha; simp at ha
          | cons x xs =>
            rw [hr] at ha
            simp only [Option.some.injEq] at ha
            subst ha
            exact List.mem_cons_of_mem _ hu
        | whileTimeIs t =>
          simp only [HistWalk.apply, Option.some.injEq] at ha
          subst ha
          exact (List.dropWhile_sublist _).subset hu
        | through t =>
          simp only [HistWalk.apply, Option.some.injEq] at ha
          subst ha
          exact (List.dropWhile_sublist _).subset hu
        | advance m =>
          simp only [HistWalk.apply, Option.some.injEq] at ha
          subst ha
          exact hu
      refine ⟨fun u hu => hsub u (a1 u hu), fun m hm u hu => ?_⟩
      have hsplit : HistOp.advances (op :: ops) = HistOp.advances [op] ++ HistOp.advances ops := by
        simp only [HistOp.advances, ← List.filterMap_append]; rfl
      rw [hsplit, List.mem_append] at hm
      rcases hm with hm | hm
      · cases op with
        | advance m' =>
          simp only [HistOp.advances, List.filterMap_cons, List.filterMap_nil, List.mem_singleton] at hm
          subst hm
          exact hb.1 m rfl u (hsub u (a1 u hu))
        | step => simp [HistOp.advances] at hm
        | whileTimeIs t => simp [HistOp.advances] at hm
        | through t => simp [HistOp.advances] at hm
      · exact a2 m hm u hu

/-- C39. If the buffer is only ever advanced by lower bounds of the times left (such as their meet), then as long as something is
left, the buffer accumulates to what was visited at every time at or beyond the meet of what is left. -/
theorem C39_buffer_at_meet {h0 : ValueHistory V T R} {all : Upds V T R} (hr : ReplaysHistory h0 all)
    (ops : List (HistOp T)) (w : HistWalk V T R) (hw : HistWalk.run { stepped := [], rest := all } ops = some w)
    (hb : HistWalk.AdvancesBelow { stepped := [], rest := all } ops) :
    ∃ h, h0.run ops = some h ∧ ∀ m, h.meet = some m → ∀ v q, m ≤ q → accum h.buffer v q = accum w.stepped v q := by
  obtain ⟨h, a1, a2, a3, a4, a5, a6, a7⟩ := hr.2 ops w hw
  refine ⟨h, a1, fun m hm v q hq => a7 v q fun x hx => ?_⟩
  refine le_trans ((a6 m hm).2 ?_) hq
  rintro t ⟨u, hu, rfl⟩
  exact (advances_le_rest ops hw hb).2 x hx u hu

omit [DecidableLE T] in
/-- C39, for histories of times: after any sequence of operations the next time is that of the walk, the meet is the greatest
lower bound of the times left, and the buffered times, joined with any time at or beyond what the buffer was advanced by,
are the visited times joined with that time. -/
theorem C39_times (times : List T) (adv : Option T) :
    ∃ all : List T, all.Perm (times.map (joinOpt adv)) ∧ (all.Pairwise fun a b => toLin a ≤ toLin b) ∧
    ∀ (ops : List (TimeOp T)) (w : TimeWalk T), TimeWalk.run { stepped := [], rest := all } ops = w →
      ((TimeHistory.load times adv).run ops).time = w.rest.head?
      ∧ (((TimeHistory.load times adv).run ops).meet = none ↔ w.rest = [])
      ∧ (∀ m, ((TimeHistory.load times adv).run ops).meet = some m → IsGLB {t | t ∈ w.rest} m)
      ∧ (∀ q, (∀ m ∈ TimeOp.advances ops, m ≤ q) → ∀ x,
          (∃ b ∈ ((TimeHistory.load times adv).run ops).buffer, b ⊔ q = x) ↔ ∃ b ∈ w.stepped, b ⊔ q = x) := by
  obtain ⟨rest, a1, a2, a3⟩ := TimeHistory.load_ok times adv
  refine ⟨rest, a2, a1.sorted, ?_⟩
  rintro ops w rfl
  obtain ⟨b1, b2⟩ := TimeHistory.run_ok ops (w := { stepped := [], rest := rest }) a1
  refine ⟨TimeHistory.ok_time b1, ?_, ?_, fun q hq => b2 q hq fun x => by rw [a3]⟩
  · cases hr : (TimeWalk.run { stepped := [], rest := rest } ops).rest with
    | nil => rw [hr] at b1; simp [TimeHistory.ok_meet_nil b1]
    | cons u us =>
      rw [hr] at b1
      obtain ⟨m, hm, _⟩ := TimeHistory.ok_meet b1
      simp [hm]
  · intro m hm
    cases hr : (TimeWalk.run { stepped := [], rest := rest } ops).rest with
    | nil => rw [hr] at b1; rw [TimeHistory.ok_meet_nil b1] at hm; simp at hm
    | cons u us =>
      rw [hr] at b1
      obtain ⟨m', hm', hg⟩ := TimeHistory.ok_meet b1
      rw [hm', Option.some.injEq] at hm
      subst hm
      exact hg

end

section
variable {V1 V2 T R1 R2 M : Type*} [LinearOrder V1] [LinearOrder V2] [Lattice T] [DecidableLE T] [DecidableEq T] [TimeOrd T]
  [AddCommMonoid R1] [DecidableEq R1] [AddCommMonoid R2] [DecidableEq R2] [AddCommMonoid M]

omit [DecidableEq T] [TimeOrd T] [DecidableEq R1] [DecidableEq R2] in
/-- The sum over pairs of updates is the product of the accumulations. -/
theorem pairAccum_eq (mul : R1 →+ R2 →+ M) (us1 : Upds V1 T R1) (us2 : Upds V2 T R2) (v1 : V1) (v2 : V2) (q : T) :
    pairAccum (fun a b => mul a b) us1 us2 v1 v2 q = mul (accum us1 v1 q) (accum us2 v2 q) := by
  rw [← joinAccum_cross mul]
  unfold pairAccum joinAccum
  congr 1
  simp [List.product, List.map_flatMap, Function.comp_def]

/-- C24. Joining the values of a key from two inputs never fails, and its output accumulates, for each pair of values and each
time at or beyond the times the two sides were advanced by, to the sum of products over pairs of updates whose joined
time is at or before it. -/
theorem C24_join_key (meet1 meet2 : Option T) (c1 : List (V1 × List (T × R1))) (c2 : List (V2 × List (T × R2)))
    (mul : R1 →+ R2 →+ M) :
    ∃ out, joinKey meet1 meet2 c1 c2 = some out
      ∧ ∀ v1 v2 q, (∀ m ∈ meet1, m ≤ q) → (∀ m ∈ meet2, m ≤ q) →
        joinAccum (fun a b => mul a b) out v1 v2 q = pairAccum (fun a b => mul a b) (valUpds c1) (valUpds c2) v1 v2 q := by
  unfold joinKey
  rw [EditList.load_spec, EditList.load_spec]
  obtain ⟨out, a1, a2⟩ := think_spec (M := M) 10 (EditList.loadGroups meet1 c1) (EditList.loadGroups meet2 c2)
  refine ⟨out, a1, fun v1 v2 q h1 h2 => ?_⟩
  rw [a2, accum_loadGroups meet1 c1 v1 q h1, accum_loadGroups meet2 c2 v2 q h2, pairAccum_eq]

/-- C24. Equivalently: to the product of the accumulations of the two inputs. -/
theorem C24_join_key_product (meet1 meet2 : Option T) (c1 : List (V1 × List (T × R1))) (c2 : List (V2 × List (T × R2)))
    (mul : R1 →+ R2 →+ M) :
    ∃ out, joinKey meet1 meet2 c1 c2 = some out
      ∧ ∀ v1 v2 q, (∀ m ∈ meet1, m ≤ q) → (∀ m ∈ meet2, m ≤ q) →
        joinAccum (fun a b => mul a b) out v1 v2 q = mul (accum (valUpds c1) v1 q) (accum (valUpds c2) v2 q) := by
  obtain ⟨out, a1, a2⟩ := C24_join_key meet1 meet2 c1 c2 mul
  exact ⟨out, a1, fun v1 v2 q h1 h2 => by rw [a2 v1 v2 q h1 h2, pairAccum_eq]⟩

/-- C24. The strategies agree: whatever the size at which the implementation switches from the cross product to the time-ordered
replay, the outputs accumulate to the same at every time (`limit = 0` is always replay; a large limit is always the cross
product). -/
theorem C24_strategies_agree (limit limit' : Nat) (meet1 meet2 : Option T) (c1 : List (V1 × List (T × R1)))
    (c2 : List (V2 × List (T × R2))) (mul : R1 →+ R2 →+ M) :
    ∃ e1 e2 out out', EditList.load meet1 c1 = some e1 ∧ EditList.load meet2 c2 = some e2
      ∧ think limit e1 e2 = some out ∧ think limit' e1 e2 = some out'
      ∧ ∀ v1 v2 q, joinAccum (fun a b => mul a b) out v1 v2 q = joinAccum (fun a b => mul a b) out' v1 v2 q := by
  obtain ⟨out, a1, a2⟩ := think_spec (M := M) limit (EditList.loadGroups meet1 c1) (EditList.loadGroups meet2 c2)
  obtain ⟨out', b1, b2⟩ := think_spec (M := M) limit' (EditList.loadGroups meet1 c1) (EditList.loadGroups meet2 c2)
  exact ⟨_, _, out, out', EditList.load_spec _ _, EditList.load_spec _ _, a1, b1, fun v1 v2 q => by rw [a2, b2]⟩

/-- C24. `bilinear_wave` on histories loaded from lists of updates (the path of the integer-proxy join). -/
theorem C24_bilinear_wave (us1 : Upds V1 T R1) (us2 : Upds V2 T R2) (meet1 meet2 : Option T) (mul : R1 →+ R2 →+ M) :
    ∃ h1 h2 out, ValueHistory.loadIter us1 meet1 = some h1 ∧ ValueHistory.loadIter us2 meet2 = some h2
      ∧ bilinearWave h1 h2 = some out
      ∧ ∀ v1 v2 q, (∀ m ∈ meet1, m ≤ q) → (∀ m ∈ meet2, m ≤ q) →
        joinAccum (fun a b => mul a b) out v1 v2 q = pairAccum (fun a b => mul a b) us1 us2 v1 v2 q := by
  obtain ⟨h1, r1, a1, a2, a3, a4, _⟩ := loadIter_ok us1 meet1
  obtain ⟨h2, r2, b1, b2, b3, b4, _⟩ := loadIter_ok us2 meet2
  have hi : WaveInv h1 h2 [] r1 [] r2 := ⟨a2, b2, fun _ _ _ _ _ => by rw [a3], fun _ _ _ _ _ => by rw [b3]⟩
  obtain ⟨out, c1, c2⟩ := waveLoop_spec (M := M) (h1.history.length + h2.history.length) hi
    (by rw [a2.dec.length_eq, b2.dec.length_eq])
  refine ⟨h1, h2, out, a1, b1, c1, fun v1 v2 q hq1 hq2 => ?_⟩
  have := c2 mul v1 v2 q
  simp only [accum_nil, map_zero, AddMonoidHom.zero_apply, add_zero, List.nil_append] at this
  rw [this, a4 v1 q hq1, b4 v2 q hq2, pairAccum_eq]

end

/-! ### Examples: partially ordered times -/

/-- A history with incomparable times, and one value whose updates cancel. -/
def demoVals : List (Nat × List ((Nat × Nat) × Int)) :=
  [(3, [((0, 1), 1), ((1, 0), 2)]), (5, [((2, 0), 1), ((0, 2), 4), ((2, 0), -1)]), (7, [((0, 0), 1), ((0, 0), -1)])]

example : (EditList.load (T := Nat × Nat) none demoVals).map (fun el => el.values) = some [(3, 2), (5, 3)] := by
  decide +kernel

/-- The replay visits (0,1), (0,2), (1,0); initially the meet is (0,0), which is no update's time. -/
example : ((EditList.load (T := Nat × Nat) none demoVals).bind ValueHistory.build).map
    (fun h => (h.time, h.meet, h.history.map (·.1))) = some (some (0, 1), some (0, 0), [(0, 1), (0, 2), (1, 0)]) := by
  decide +kernel

/-- After visiting two updates and advancing by the meet `(1,0)` of the rest, the buffered times have moved, and still show the
visited updates at `(1, 2)`. -/
example : (((EditList.load (T := Nat × Nat) none demoVals).bind ValueHistory.build).bind
      (·.run [.step, .step, .advance (1, 0)])).map (fun h => (h.buffer, h.meet))
    = some ([(3, (1, 1), 1), (5, (1, 2), 4)], some (1, 0)) := by decide +kernel

/-- A join of this history with itself by both strategies: different outputs, the same accumulation. -/
example : ((EditList.load (T := Nat × Nat) none demoVals).bind fun e => think 10 e e).map
    (fun out => (out.length, joinAccum (fun a b : Int => a * b) out 3 5 (1, 2))) = some (9, 12) := by decide +kernel
example : ((EditList.load (T := Nat × Nat) none demoVals).bind fun e => think 0 e e).map
    (fun out => (out.length, joinAccum (fun a b : Int => a * b) out 3 5 (1, 2))) = some (9, 12) := by decide +kernel

example : HistWalk.AdvancesBelow (V := Nat) (R := Int) { stepped := [], rest := [(3, ((0, 1) : Nat × Nat), 1), (5, (0, 2), 4), (3, (1, 0), 2)] }
    [.step, .step, .advance (1, 0)] := by
  simp [HistWalk.AdvancesBelow, HistWalk.apply]
  omega

end DD
