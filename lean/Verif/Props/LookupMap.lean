import Verif.Proofs.LookupMap
import Verif.Proofs.TimeOrd
import Mathlib.Order.Nat
import Mathlib.Order.Lattice.Nat
import Mathlib.Algebra.Ring.Int.Defs
import Mathlib.Algebra.Group.Hom.Instances

/-!
# C45: lookups answer each prefix exactly once, as of its time
-/

namespace DD

section
variable {D K V T R R2 ROut DOut : Type*} [LinearOrder K] [LinearOrder V] [Lattice T] [OrderBot T] [DecidableLE T] [DecidableEq T] [AddCommMonoid R] [DecidableEq R]
  [AddCommMonoid R2] [DecidableEq R2] [AddCommMonoid ROut] [DecidableEq ROut] [DecidableEq DOut]
variable {key : D → K} {output_func : D → R → V → R2 → DOut × ROut} {trace : Upds (K × V) T R2}

/-- C45: however activations are scheduled, what the operator has sent, together with the answers to the prefixes that it still holds, are the answers to all prefixes received, as of their
times, from the whole arrangement, past and future. It sends updates at or after the time of the capability. (The output function must make nothing of an update without weight.) -/
theorem C45_exactly_once (hzero : ∀ d v c, (output_func d 0 v c).2 = 0) (acts : List (LookupAct D K V T R R2))
    (hl : LegalLookupRun key output_func trace [⊥] LookupMap.init acts) :
    (∀ x t, total ((LookupMap.init.run key output_func acts).2.map Prod.snd) x t
        + total (lookups key output_func trace ((LookupMap.init.run key output_func acts).1.stash.flatMap Prod.snd)) x t
      = total (lookups key output_func trace (acts.flatMap fun a => a.msgs.flatMap Prod.snd)) x t) ∧
    ∀ o ∈ (LookupMap.init.run key output_func acts).2, o.1 ≤ o.2.2.1 := by
  obtain ⟨-, h2, h3⟩ := lookup_run_ok key output_func hzero acts [⊥] LookupMap.init lookupInv_init hl
  refine ⟨fun x t => ?_, h3⟩
  rw [total_lookups, total_lookups]
  have := h2 x t
  rw [show stashAns key output_func x t trace (LookupMap.init : LookupMap D T R).stash = 0 from rfl, zero_add] at this
  exact this

/-- C45: after an activation the operator holds no prefix whose time the arrangement has passed. It lets the arrangement be compacted to ever later frontiers, but never past the times that it
may still look up; and gives it up only when there are none. -/
theorem C45_progress (hzero : ∀ d v c, (output_func d 0 v c).2 = 0) (acts : List (LookupAct D K V T R R2)) (act : LookupAct D K V T R R2)
    (hl : LegalLookupRun key output_func trace [⊥] LookupMap.init (acts ++ [act])) :
    let st := (LookupMap.init.run key output_func acts).1
    let st' := (LookupMap.init.run key output_func (acts ++ [act])).1
    (∀ e ∈ st'.stash, ∀ p ∈ e.2, e.1 ≤ p.2.1 ∧ Beyond act.frontier2 p.2.1) ∧ FrontierLe st.logical st'.logical ∧
    (st'.live = true → ∀ h, (h ∈ act.frontier1 ∨ ∃ e ∈ st'.stash, e.1 = h) → Beyond st'.logical h) ∧
    (st'.live = false → act.frontier1 = [] ∧ st'.stash = []) := by
  intro st st'
  obtain ⟨hl1, hl2⟩ := legalLookupRun_append key output_func acts [act] [⊥] LookupMap.init hl
  obtain ⟨h1, -, -⟩ := lookup_run_ok key output_func hzero acts [⊥] LookupMap.init lookupInv_init hl1
  obtain ⟨k1, -, -, k4, k5⟩ := lookup_activate_ok key output_func hzero h1 hl2.1
  have e : st' = (st.activate key output_func act).1 := by
    show (LookupMap.init.run key output_func (acts ++ [act])).1 = _
    rw [lookup_run_append]; rfl
  rw [e]
  exact ⟨fun e he p hp => ⟨k1.ok e he p hp, k4 e he p hp⟩, k5, k1.cover, k1.dead⟩

/-- C45: when both inputs are complete, the operator has sent exactly the answers to all prefixes. -/
theorem C45_complete (hzero : ∀ d v c, (output_func d 0 v c).2 = 0) (acts : List (LookupAct D K V T R R2)) (act : LookupAct D K V T R R2)
    (hl : LegalLookupRun key output_func trace [⊥] LookupMap.init (acts ++ [act])) (hdone : act.frontier2 = []) :
    (LookupMap.init.run key output_func (acts ++ [act])).1.stash = [] ∧
    ∀ x t, total ((LookupMap.init.run key output_func (acts ++ [act])).2.map Prod.snd) x t
      = total (lookups key output_func trace ((acts ++ [act]).flatMap fun a => a.msgs.flatMap Prod.snd)) x t := by
  obtain ⟨hl1, hl2⟩ := legalLookupRun_append key output_func acts [act] [⊥] LookupMap.init hl
  obtain ⟨h1, -, -⟩ := lookup_run_ok key output_func hzero acts [⊥] LookupMap.init lookupInv_init hl1
  obtain ⟨k1, -, -, k4, -⟩ := lookup_activate_ok key output_func hzero h1 hl2.1
  have e : (LookupMap.init.run key output_func (acts ++ [act])).1 = ((LookupMap.init.run key output_func acts).1.activate key output_func act).1 := by
    rw [lookup_run_append]; rfl
  have hs : (LookupMap.init.run key output_func (acts ++ [act])).1.stash = [] := by
    rw [e]
    apply List.eq_nil_iff_forall_not_mem.2
    intro x hx
    have hne := k1.ne x hx
    obtain ⟨p, hp⟩ := List.exists_mem_of_ne_nil _ hne
    obtain ⟨f, hf, -⟩ := k4 x hx p hp
    rw [hdone] at hf; simp at hf
  refine ⟨hs, fun x t => ?_⟩
  rw [← (C45_exactly_once hzero (acts ++ [act]) hl).1 x t, hs]
  simp [lookups, total_nil]

end

/-! ### The answers of the operators defined with it -/

section
variable {D K V T R R2 ROut DOut : Type*} [DecidableEq D] [DecidableEq K] [DecidableEq V] [LE T] [DecidableLE T] [DecidableEq T] [AddCommMonoid R]
  [AddCommMonoid R2] [DecidableEq R2] [AddCommMonoid ROut] {key : D → K} {trace : Upds (K × V) T R2}

private theorem sum_only {M : Type*} [AddCommMonoid M] (vs : List V) (hn : vs.Nodup) (v : V) (f : V → M) (hf : ∀ w, w ≠ v → f w = 0) (hv : v ∉ vs → f v = 0) : (vs.map f).sum = f v := by
  have := sum_map_nodup vs [v] hn (List.nodup_singleton v) f (fun w hw => by
    by_cases h : w = v
    · subst h; exact hv hw
    · exact hf w h) (fun w hw => hf w (by simpa using hw))
  simpa using this

private theorem ans_pair (f : D → R → V → R2 → ROut) (hf : ∀ d r v, f d r v 0 = 0) (d : D) (v : V) (t : T) (p : D × T × R) :
    ans key (fun d r v c => ((d, v), f d r v c)) (d, v) t trace p
      = if p.1 = d ∧ p.2.1 = t then f d p.2.2 v (accum trace (key d, v) t) else 0 := by
  unfold ans
  rw [sum_only _ (List.nodup_dedup _) v]
  · unfold ansV
    by_cases hp : p.1 = d ∧ p.2.1 = t
    · obtain ⟨h1, h2⟩ := hp
      subst h1; subst h2
      simp only [and_self, if_true]
      by_cases hc : accum trace (key p.1, v) p.2.1 = 0
      · rw [if_pos hc, hc, hf]
      · rw [if_neg hc]
    · rw [if_neg hp]
      have : ¬ ((p.1, v) = (d, v) ∧ p.2.1 = t) := fun h => hp ⟨by simpa using h.1, h.2⟩
      simp only [this, if_false, ite_self]
  · intro w hw
    unfold ansV
    have : ¬ ((p.1, w) = (d, v) ∧ p.2.1 = t) := fun h => hw (by simpa using (Prod.mk.inj h.1).2)
    simp only [this, if_false, ite_self]
  · intro hv
    rw [accum_of_not_mem _ _ _ _ hv, ansV_zero]

private theorem sum_pick (φ : R →+ ROut) (ps : Upds D T R) (d : D) (t : T) :
    (ps.map fun p => if p.1 = d ∧ p.2.1 = t then φ p.2.2 else 0).sum = φ (total ps d t) := by
  unfold total
  rw [map_list_sum, List.map_map]
  congr 1
  apply List.map_congr_left
  intro p _
  simp only [Function.comp]
  split_ifs <;> simp

/-- C45 for `propose`: each prefix is extended by the values that the arrangement associates with its key as of its time, with the product of the weights. -/
theorem C45_propose (mul : R →+ R2 →+ ROut) (prefixes : Upds D T R) (d : D) (v : V) (t : T) :
    total (lookups key (proposeOut fun a b => mul a b) trace prefixes) (d, v) t = mul (total prefixes d t) (accum trace (key d, v) t) := by
  rw [total_lookups]
  have : ∀ p : D × T × R, ans key (proposeOut fun a b => mul a b) (d, v) t trace p
      = if p.1 = d ∧ p.2.1 = t then (AddMonoidHom.flip mul (accum trace (key d, v) t)) p.2.2 else 0 :=
    fun p => ans_pair (fun _ r _ c => mul r c) (fun _ _ _ => map_zero _) d v t p
  rw [List.map_congr_left fun p _ => this p, sum_pick]; rfl

/-- C45 for `propose_distinct`: each prefix is extended by the values that the arrangement associates with its key as of its time, whatever their weight. -/
theorem C45_propose_distinct (prefixes : Upds D T R) (d : D) (v : V) (t : T) :
    total (lookups key proposeDistinctOut trace prefixes) (d, v) t = if accum trace (key d, v) t = 0 then 0 else total prefixes d t := by
  rw [total_lookups]
  have : ∀ p : D × T × R, ans key proposeDistinctOut (d, v) t trace p
      = if p.1 = d ∧ p.2.1 = t then (if accum trace (key d, v) t = 0 then (0 : R →+ R) else AddMonoidHom.id R) p.2.2 else 0 := by
    intro p
    have e : ans key (proposeDistinctOut : D → R → V → R2 → (D × V) × R) (d, v) t trace p
        = ans key (fun d r v c => ((d, v), if c = 0 then 0 else r)) (d, v) t trace p := by
      unfold ans ansV
      congr 1
      apply List.map_congr_left
      intro w _
      by_cases hc : accum trace (key p.1, w) p.2.1 = 0
      · simp [hc]
      · simp [hc, proposeDistinctOut]
    rw [e, ans_pair (fun (_ : D) (r : R) (_ : V) (c : R2) => if c = 0 then 0 else r) (fun _ _ _ => if_pos rfl) d v t p]
    split_ifs <;> rfl
  rw [List.map_congr_left fun p _ => this p, sum_pick]
  split_ifs <;> rfl

private theorem ans_unit {X D K' : Type*} [DecidableEq K'] {key : D → K'} {trace : Upds (K' × Unit) T R2} [DecidableEq X] (g : D → R2 → X) (x : X) (t : T) (p : D × T × R) :
    ans key (fun d r (_ : Unit) c => (g d c, r)) x t trace p
      = if accum trace (key p.1, ()) p.2.1 = 0 then 0 else if g p.1 (accum trace (key p.1, ()) p.2.1) = x ∧ p.2.1 = t then p.2.2 else 0 := by
  unfold ans
  rw [sum_only _ (List.nodup_dedup _) ()]
  · rfl
  · intro w hw; exact absurd rfl hw
  · intro hv
    rw [accum_of_not_mem _ _ _ _ hv, ansV_zero]

/-- C45 for `validate`: each extended prefix is kept, with its weight, if the arrangement holds the extension of its key as of its time. -/
theorem C45_validate {key : D × V → K} {trace : Upds (K × Unit) T R2} (extensions : Upds (D × V) T R) (d : D) (v : V) (t : T) :
    total (lookups key validateOut trace extensions) (d, v) t = if accum trace (key (d, v), ()) t = 0 then 0 else total extensions (d, v) t := by
  rw [total_lookups]
  have : ∀ p : (D × V) × T × R, ans key validateOut (d, v) t trace p
      = if p.1 = (d, v) ∧ p.2.1 = t then (if accum trace (key (d, v), ()) t = 0 then (0 : R →+ R) else AddMonoidHom.id R) p.2.2 else 0 := by
    intro p
    have := ans_unit (key := key) (trace := trace) (fun (d : D × V) (_ : R2) => d) (d, v) t p
    have e : ans key validateOut (d, v) t trace p = _ := this
    rw [e]
    by_cases hp : p.1 = (d, v) ∧ p.2.1 = t
    · rw [if_pos hp, hp.1, hp.2]
      simp only [and_self, if_true]
      split_ifs <;> rfl
    · rw [if_neg hp, if_neg hp, ite_self]
  rw [List.map_congr_left fun p _ => this p, sum_pick]
  split_ifs <;> rfl

/-- C45 for `count`: each prefix whose key the arrangement counts, as of its time, is kept with its weight, and annotated with that count and the index unless it had a smaller count. -/
theorem C45_count {key : D × Nat × Nat → K} {trace : Upds (K × Unit) T Int} (index : Nat) (prefixes : Upds (D × Nat × Nat) T R) (x : D × Nat × Nat) (t : T) :
    total (lookups key (countOut index) trace prefixes) x t
      = total ((prefixes.filter fun p => accum trace (key p.1, ()) p.2.1 ≠ 0).map fun p =>
          let n := asUsize (accum trace (key p.1, ()) p.2.1)
          ((if p.1.2.1 < n then p.1 else (p.1.1, n, index)), p.2.1, p.2.2)) x t := by
  rw [total_lookups]
  have hout : (countOut index : D × Nat × Nat → R → Unit → Int → (D × Nat × Nat) × R)
      = fun d r _ c => ((if d.2.1 < asUsize c then d else (d.1, asUsize c, index)), r) := by
    funext d r u c
    unfold countOut
    split_ifs <;> rfl
  have := fun p : (D × Nat × Nat) × T × R =>
    ans_unit (key := key) (trace := trace) (fun (d : D × Nat × Nat) (c : Int) => if d.2.1 < asUsize c then d else (d.1, asUsize c, index)) x t p
  rw [hout]
  rw [List.map_congr_left fun p _ => this p]
  clear this
  induction prefixes with
  | nil => simp [total_nil]
  | cons p ps ih =>
    rw [List.map_cons, List.sum_cons, ih]
    by_cases hc : accum trace (key p.1, ()) p.2.1 = 0
    · rw [List.filter_cons_of_neg (by simp [hc]), if_pos hc, zero_add]
    · rw [List.filter_cons_of_pos (by simp [hc]), if_neg hc, List.map_cons, total_cons]

end

/-! ### A run -/

/-- All updates that the arrangement ever holds. -/
private def lookTrace : Upds (Nat × Nat) Nat Int := [((1, 10), 0, 1), ((1, 10), 2, -1), ((2, 7), 1, 3), ((1, 20), 3, 1)]

/-- Three activations: prefixes wait; two are answered, from a compacted arrangement, and one stays; then all is complete. Prefixes are their keys. -/
private def lookActs : List (LookupAct Nat Nat Nat Nat Int Int) :=
  [⟨[(1, [(2, 2, 1), (1, 1, 5), (1, 3, 2)])], [3], [1], [(1, [(10, [(0, 1)])])], id⟩,
   ⟨[], [4], [3], [(1, [(10, [(1, 1), (2, -1)])]), (2, [(7, [(1, 3)])])], id⟩,
   ⟨[], [], [], [(1, [(10, [(1, 1), (2, -1)]), (20, [(3, 1)])]), (2, [(7, [(1, 3)])])], List.reverse⟩]

/-- The product of differences. -/
private abbrev times : Int → Int → Int := fun a b => AddMonoidHom.mul a b

private theorem logical1 : ((LookupMap.init : LookupMap Nat Nat Int).activate id (proposeOut times) (lookActs[0])).1.logical = [1] := by decide +kernel
private theorem logical2 : (((LookupMap.init : LookupMap Nat Nat Int).activate id (proposeOut times) (lookActs[0])).1.activate id (proposeOut times) (lookActs[1])).1.logical = [1] := by
  decide +kernel

example : LegalLookupRun id (proposeOut times) lookTrace [⊥] LookupMap.init lookActs := by
  refine ⟨⟨by decide, by decide, ⟨by decide, by decide⟩, ⟨[((1, 10), 0, 1)], [((1, 10), 2, -1), ((2, 7), 1, 3), ((1, 20), 3, 1)], by decide, by decide, ?_⟩, fun l => List.Perm.refl _⟩,
    ⟨by decide, by decide, ⟨by decide, by decide⟩, ⟨[((1, 10), 0, 1), ((1, 10), 2, -1), ((2, 7), 1, 3)], [((1, 20), 3, 1)], by decide, by decide, ?_⟩, fun l => List.Perm.refl _⟩,
    ⟨by decide, by decide, ⟨by decide, by decide⟩, ⟨lookTrace, [], by decide, by decide, ?_⟩, fun l => List.reverse_perm _⟩, trivial⟩
  · intro k v q _
    by_cases h1 : 1 = k <;> by_cases h2 : 10 = v <;> simp [Contents.count, Contents.at, accum, h1, h2]
  · intro k v q hq
    change Beyond ((LookupMap.init : LookupMap Nat Nat Int).activate id (proposeOut times) (lookActs[0])).1.logical q at hq
    rw [logical1] at hq
    have hq : 1 ≤ q := by obtain ⟨f, hf, h⟩ := hq; simp at hf; omega
    by_cases h1 : 1 = k <;> by_cases h2 : 10 = v <;> by_cases h3 : 2 = k <;> by_cases h4 : 7 = v <;>
      simp [Contents.count, Contents.at, accum, h1, h2, h3, h4, hq] <;> omega
  · intro k v q hq
    change Beyond (((LookupMap.init : LookupMap Nat Nat Int).activate id (proposeOut times) (lookActs[0])).1.activate id (proposeOut times) (lookActs[1])).1.logical q at hq
    rw [logical2] at hq
    have hq : 1 ≤ q := by obtain ⟨f, hf, h⟩ := hq; simp at hf; omega
    by_cases h1 : 1 = k <;> by_cases h2 : 10 = v <;> by_cases h3 : 2 = k <;> by_cases h4 : 7 = v <;> by_cases h5 : 20 = v <;>
      simp [Contents.count, Contents.at, accum, lookTrace, h1, h2, h3, h4, h5, hq] <;> omega

set_option synthInstance.maxSize 2000 in
/-- The prefix 1 at time 1 is extended by 10, with weight 5, and the prefix 2 at time 2 by 7, with weight 3; at time 3 the value 10 of 1 is gone, and 20 is there. -/
example : (LookupMap.init.run id (proposeOut times) lookActs).2 = [(1, (1, 10), 1, 5), (1, (2, 7), 2, 3), (1, (1, 20), 3, 2)] := by decide +kernel

end DD
