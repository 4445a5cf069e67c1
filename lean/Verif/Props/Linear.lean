import Verif.Model.Linear
import Verif.Spec.CursorContract
import Mathlib.Algebra.BigOperators.Group.Finset.Basic
import Mathlib.Algebra.BigOperators.Group.Finset.Piecewise
import Mathlib.Algebra.Group.Hom.Instances
import Mathlib.Algebra.Ring.Int.Defs
import Mathlib.Order.Nat

/-!
# Property C32: linear operators

The collection at time `q` is the function `fun d => accum us d q`; it is zero outside any finite set `S` that contains the data of the updates. The
operators are stated on collections: for example the collection of `map f` has at `e` the sum of the collection at all `d` with `f d = e`.
`WellTimed` says that no update is sent at a time its message's capability is not before.
-/

namespace DD

/-- Each update is at or after the time of the message it is in. -/
def WellTimed {D T R : Type*} [LE T] (ms : Msgs D T R) : Prop := ∀ m ∈ ms, ∀ u ∈ m.2, m.1 ≤ u.2.1

/-- `S` has all data of the updates. -/
def Covers {D T R : Type*} (S : Finset D) (us : Upds D T R) : Prop := ∀ u ∈ us, u.1 ∈ S

variable {D D2 T R R2 R3 : Type*} [DecidableEq D] [DecidableEq D2] [PartialOrder T] [DecidableLE T] [AddCommMonoid R] [AddCommMonoid R2] [AddCommMonoid R3]

private theorem accum_append_linear (us vs : Upds D T R) (d : D) (q : T) : accum (us ++ vs) d q = accum us d q + accum vs d q := by simp [accum]

private theorem accum_flatMap {α : Type*} (l : List α) (f : α → Upds D T R) (d : D) (q : T) :
    accum (l.flatMap f) d q = (l.map fun a => accum (f a) d q).sum := by
  induction l with
  | nil => rfl
  | cons a l ih => rw [List.flatMap_cons, accum_append_linear, ih]; simp

/-- A sum over updates of something additive in the difference is a sum over the collection. -/
private theorem sum_upds (us : Upds D T R) (q : T) (c : D → R →+ R3) (S : Finset D) (hS : Covers S us) :
    (us.map fun u => if u.2.1 ≤ q then c u.1 u.2.2 else 0).sum = ∑ d ∈ S, c d (accum us d q) := by
  induction us with
  | nil => simp [accum]
  | cons u us ih =>
    have hs : Covers S us := fun x hx => hS x (List.mem_cons_of_mem _ hx)
    have hu : u.1 ∈ S := hS u List.mem_cons_self
    rw [List.map_cons, List.sum_cons, ih hs]
    have : ∀ d, c d (accum (u :: us) d q) = c d (if u.1 = d ∧ u.2.1 ≤ q then u.2.2 else 0) + c d (accum us d q) := by
      intro d; rw [← map_add]; simp [accum]
    simp only [this, Finset.sum_add_distrib]
    congr 1
    rw [Finset.sum_eq_single u.1]
    · by_cases h : u.2.1 ≤ q <;> simp [h]
    · intro d _ hd
      rw [if_neg fun h => hd h.1.symm, map_zero]
    · intro h; exact absurd hu h

theorem upds_eachMsg (f : Upds D T R → Upds D2 T R2) (ms : Msgs D T R) (hf : ∀ us vs, f (us ++ vs) = f us ++ f vs) (h0 : f [] = []) :
    (ms.eachMsg f).upds = f ms.upds := by
  induction ms with
  | nil => exact h0.symm
  | cons m ms ih =>
    have : Msgs.upds (m :: ms) = m.2 ++ Msgs.upds ms := rfl
    rw [this, hf, ← ih]; rfl

/-- C32: `map`. -/
theorem C32_map (f : D → D2) (ms : Msgs D T R) (S : Finset D) (hS : Covers S ms.upds) (e : D2) (q : T) :
    accum (ms.map f).upds e q = ∑ d ∈ S, if f d = e then accum ms.upds d q else 0 := by
  rw [Msgs.map, upds_eachMsg _ _ (by simp) rfl]
  have := sum_upds ms.upds q (fun d => if f d = e then AddMonoidHom.id R else 0) S hS
  rw [accum, List.map_map]
  refine Eq.trans ?_ (this.trans ?_)
  · congr 1; apply List.map_congr_left; intro u _
    by_cases h1 : f u.1 = e <;> by_cases h2 : u.2.1 ≤ q <;> simp [h1, h2]
  · apply Finset.sum_congr rfl; intro d _
    by_cases h1 : f d = e <;> simp [h1]

private theorem accum_one (x e : D2) (t : T) (r : R) (q : T) : accum [(x, t, r)] e q = if x = e ∧ t ≤ q then r else 0 := by simp [accum]

/-- C32: `flat_map`: each `d` contributes once for each time `e` is produced from it. -/
theorem C32_flat_map (f : D → List D2) (ms : Msgs D T R) (S : Finset D) (hS : Covers S ms.upds) (e : D2) (q : T) :
    accum (ms.flat_map f).upds e q = ∑ d ∈ S, (f d).count e • accum ms.upds d q := by
  rw [Msgs.flat_map, upds_eachMsg _ _ (by simp) rfl, accum_flatMap]
  have := sum_upds ms.upds q (fun d => (f d).count e • AddMonoidHom.id R) S hS
  refine Eq.trans ?_ (this.trans ?_)
  · congr 1; apply List.map_congr_left; rintro ⟨d, t, r⟩ _
    simp only
    induction f d with
    | nil => simp [accum]
    | cons x xs ih =>
      have h : accum ((x :: xs).map fun x => (x, t, r)) e q = accum [(x, t, r)] e q + accum (xs.map fun x => (x, t, r)) e q := by simp [accum]
      rw [h, ih, accum_one]
      by_cases h1 : x = e <;> by_cases h2 : t ≤ q <;> simp [h1, h2, List.count_cons, succ_nsmul, add_comm]
  · apply Finset.sum_congr rfl; intro d _
    simp

omit [DecidableEq D2] in
/-- C32: `filter`. -/
theorem C32_filter (p : D → Bool) (ms : Msgs D T R) (d : D) (q : T) :
    accum (ms.filter p).upds d q = if p d then accum ms.upds d q else 0 := by
  rw [Msgs.filter, upds_eachMsg _ _ (by simp) rfl]
  induction ms.upds with
  | nil => simp [accum]
  | cons u us ih =>
    have h : accum (u :: us) d q = (if u.1 = d ∧ u.2.1 ≤ q then u.2.2 else 0) + accum us d q := by simp [accum]
    rw [h, List.filter_cons]
    by_cases hp : p u.1 = true
    · rw [if_pos hp]
      have h' : accum (u :: us.filter fun x => p x.1) d q = (if u.1 = d ∧ u.2.1 ≤ q then u.2.2 else 0) + accum (us.filter fun x => p x.1) d q := by simp [accum]
      rw [h', ih]
      by_cases h1 : u.1 = d
      · subst h1; simp [hp]
      · by_cases h2 : p d = true <;> simp [h1, h2]
    · rw [if_neg hp, ih]
      by_cases h1 : u.1 = d
      · subst h1; simp [hp]
      · by_cases h2 : p d = true <;> simp [h1, h2]

/-- C32: `explode`: each `d` contributes its weight multiplied with the total weight with which `e` is produced from it. -/
theorem C32_explode (mul : R2 →+ R →+ R3) (f : D → List (D2 × R2)) (ms : Msgs D T R) (S : Finset D) (hS : Covers S ms.upds) (e : D2) (q : T) :
    accum (ms.explode (fun a b => mul a b) f).upds e q = ∑ d ∈ S, mul (weight (f d) e) (accum ms.upds d q) := by
  rw [Msgs.explode, upds_eachMsg _ _ (by simp) rfl, accum_flatMap]
  have := sum_upds ms.upds q (fun d => mul (weight (f d) e)) S hS
  refine Eq.trans ?_ this
  congr 1; apply List.map_congr_left; rintro ⟨d, t, r⟩ _
  simp only
  induction f d with
  | nil => simp [accum, weight]
  | cons x xs ih =>
    have h : accum ((x :: xs).map fun x => (x.1, t, mul x.2 r)) e q = accum [(x.1, t, mul x.2 r)] e q + accum (xs.map fun x => (x.1, t, mul x.2 r)) e q := by simp [accum]
    have hw : weight (x :: xs) e = (if x.1 = e then x.2 else 0) + weight xs e := by simp [weight]
    rw [h, ih, accum_one, hw]
    by_cases h1 : x.1 = e <;> by_cases h2 : t ≤ q <;> simp [h1, h2]

/-- C32: `join_function` joins with the collection its function describes: at `q` only the results at or before `q` count. -/
theorem C32_join_function {T : Type*} [Lattice T] [DecidableLE T] (mul : R2 →+ R →+ R3) (f : D → List (D2 × T × R2)) (ms : Msgs D T R) (S : Finset D) (hS : Covers S ms.upds)
    (e : D2) (q : T) :
    accum (ms.join_function (fun a b => mul a b) f).upds e q = ∑ d ∈ S, mul (accum (f d) e q) (accum ms.upds d q) := by
  rw [Msgs.join_function, upds_eachMsg _ _ (by simp) rfl, accum_flatMap]
  have := sum_upds ms.upds q (fun d => mul (accum (f d) e q)) S hS
  refine Eq.trans ?_ this
  congr 1; apply List.map_congr_left; rintro ⟨d, t, r⟩ _
  simp only
  induction f d with
  | nil => simp [accum]
  | cons x xs ih =>
    have h : accum ((x :: xs).map fun x => (x.1, t ⊔ x.2.1, mul x.2.2 r)) e q =
      accum [(x.1, t ⊔ x.2.1, mul x.2.2 r)] e q + accum (xs.map fun x => (x.1, t ⊔ x.2.1, mul x.2.2 r)) e q := by simp [accum]
    have hw : accum (x :: xs) e q = (if x.1 = e ∧ x.2.1 ≤ q then x.2.2 else 0) + accum xs e q := by simp [accum]
    rw [h, ih, accum_one, hw]
    by_cases h1 : x.1 = e <;> by_cases h2 : t ≤ q <;> by_cases h3 : x.2.1 ≤ q <;> simp [h1, h2, h3]

omit [DecidableEq D2] in
/-- C32: `concat`; also if the messages are interleaved. -/
theorem C32_concat (ms ms' : Msgs D T R) (d : D) (q : T) (out : Msgs D T R) (h : out.Perm (ms.concat ms')) :
    accum out.upds d q = accum ms.upds d q + accum ms'.upds d q := by
  have hp : out.upds.Perm (Msgs.concat ms ms').upds := h.flatMap_right _
  have e : accum out.upds d q = accum (Msgs.concat ms ms').upds d q := (hp.map _).sum_eq
  rw [e, Msgs.concat, Msgs.upds, List.flatMap_append, accum_append_linear]; rfl

omit [DecidableEq D2] in
private theorem accum_negate {R : Type*} [AddCommGroup R] (us : Upds D T R) (d : D) (q : T) : accum (us.map fun (d, t, r) => (d, t, -r)) d q = -accum us d q := by
  induction us with
  | nil => simp [accum]
  | cons u us ih =>
    have h : ∀ (v : D × T × R) (vs : Upds D T R), accum (v :: vs) d q = (if v.1 = d ∧ v.2.1 ≤ q then v.2.2 else 0) + accum vs d q := by intro v vs; simp [accum]
    rw [List.map_cons, h, h, ih]
    by_cases h1 : u.1 = d ∧ u.2.1 ≤ q <;> simp [h1, add_comm]

omit [DecidableEq D2] in
/-- C32: `negate`. -/
theorem C32_negate {R : Type*} [AddCommGroup R] (ms : Msgs D T R) (d : D) (q : T) : accum ms.negate.upds d q = -accum ms.upds d q := by
  rw [Msgs.negate, upds_eachMsg _ _ (by simp) rfl]
  exact accum_negate ms.upds d q

section scopes
variable {T2 : Type*} [PartialOrder T2] [OrderBot T2] [DecidableLE T2]

private theorem accum_congr {us vs : List (D × T × R)} {d : D} {q : T} {P : T2} {ws : List (D × T2 × R)}
    (h : List.Forall₂ (fun u v => (if u.1 = d ∧ u.2.1 ≤ q then u.2.2 else 0) = (if v.1 = d ∧ v.2.1 ≤ P then v.2.2 else 0)) us ws) : accum us d q = accum ws d P := by
  unfold accum
  induction h with
  | nil => rfl
  | cons h _ ih => simp only [List.map_cons, List.sum_cons]; rw [h, ih]

omit [DecidableEq D2] in
/-- C32: a collection that enters a scope is the same at all inner times. -/
theorem C32_enter (ms : Msgs D T R) (d : D) (q : T) (i : T2) : accum (ms.enter (T2 := T2)).upds d (q, i) = accum ms.upds d q := by
  have : (ms.enter (T2 := T2)).upds = ms.upds.map fun (d, t, r) => (d, (t, ⊥), r) := by
    simp only [Msgs.upds, Msgs.enter, List.flatMap_map, List.map_flatMap]
  rw [this, accum, accum, List.map_map]
  congr 1; apply List.map_congr_left; rintro ⟨d', t, r⟩ _
  by_cases h1 : d' = d <;> by_cases h2 : t ≤ q <;> simp [h1, h2]

omit [DecidableEq D2] in
/-- C32: with `enter_at`, a datum is present from the inner time given for it. -/
theorem C32_enter_at (initial : D → T2) (ms : Msgs D T R) (d : D) (q : T) (i : T2) :
    accum (ms.enter_at initial).upds d (q, i) = if initial d ≤ i then accum ms.upds d q else 0 := by
  have : (ms.enter_at initial).upds = ms.upds.map fun (d, t, r) => (d, (t, initial d), r) := by
    simp only [Msgs.upds, Msgs.enter_at, List.flatMap_map, List.map_flatMap]
  rw [this, accum, accum, List.map_map]
  by_cases hi : initial d ≤ i
  · rw [if_pos hi]
    congr 1; apply List.map_congr_left; rintro ⟨d', t, r⟩ _
    by_cases h1 : d' = d
    · subst h1; by_cases h2 : t ≤ q <;> simp [h2, hi]
    · simp [h1]
  · rw [if_neg hi]
    apply List.sum_eq_zero
    intro x hx
    rw [List.mem_map] at hx
    obtain ⟨⟨d', t, r⟩, _, rfl⟩ := hx
    by_cases h1 : d' = d
    · subst h1; simp [hi]
    · simp [h1]

omit [DecidableEq D2] [OrderBot T2] in
/-- C32: a collection that leaves a scope is what it is at any inner time by which it no longer changes. -/
theorem C32_leave (ms : Msgs D (T × T2) R) (d : D) (q : T) (i : T2) (hi : ∀ u ∈ ms.upds, u.2.1.1 ≤ q → u.2.1.2 ≤ i) :
    accum ms.leave.upds d q = accum ms.upds d (q, i) := by
  have : ms.leave.upds = ms.upds.map fun (d, t, r) => (d, t.1, r) := by
    simp only [Msgs.upds, Msgs.leave, List.flatMap_map, List.map_flatMap]
  rw [this, accum, accum, List.map_map]
  congr 1; apply List.map_congr_left; rintro ⟨d', ⟨t, j⟩, r⟩ hu
  by_cases h1 : d' = d <;> by_cases h2 : t ≤ q
  · have := hi _ hu h2; simp_all
  · simp [h1, h2]
  · simp [h1]
  · simp [h1]

end scopes

omit [DecidableEq D2] in
/-- C32: the collection delayed by `func` is at `q` what it was at the last time `p` that `func` takes before `q`. -/
theorem C32_delay (func : T → T) (ms : Msgs D T R) (d : D) (q p : T) (hp : ∀ t, func t ≤ q ↔ t ≤ p) :
    accum (ms.delay func).upds d q = accum ms.upds d p := by
  have : (ms.delay func).upds = ms.upds.map fun (d, t, r) => (d, func t, r) := by
    simp only [Msgs.upds, Msgs.delay, List.flatMap_map, List.map_flatMap]
  rw [this, accum, accum, List.map_map]
  congr 1; apply List.map_congr_left; rintro ⟨d', t, r⟩ _
  simp [hp]

omit [DecidableEq D2] in
/-- C32: `results_in`: as `delay`, with updates for which there is no result never counted. -/
theorem C32_results_in (step : T → Option T) (ms : Msgs D T R) (d : D) (q p : T) (hp : ∀ t, (∃ t', step t = some t' ∧ t' ≤ q) ↔ t ≤ p) :
    accum (ms.results_in step).upds d q = accum ms.upds d p := by
  rw [Msgs.results_in, upds_eachMsg _ _ (by simp) rfl]
  induction ms.upds with
  | nil => rfl
  | cons u us ih =>
    have h : ∀ (v : D × T × R) (vs : Upds D T R) q, accum (v :: vs) d q = (if v.1 = d ∧ v.2.1 ≤ q then v.2.2 else 0) + accum vs d q := by intro v vs q; simp [accum]
    rw [h, List.filterMap_cons, ← ih]
    have hu := hp u.2.1
    obtain ⟨d0, t0, r0⟩ := u
    simp only at hu ⊢
    cases hs : step t0 with
    | none =>
      have : ¬ t0 ≤ p := fun hh => by obtain ⟨t', h1, _⟩ := hu.mpr hh; rw [hs] at h1; cases h1
      simp [this]
    | some t' =>
      simp only [Option.map_some]
      rw [h]
      have : t' ≤ q ↔ t0 ≤ p := by
        rw [← hu, hs]; constructor
        · intro hh; exact ⟨t', rfl, hh⟩
        · rintro ⟨x, hx, hh⟩; cases hx; exact hh
      simp [this]

/-- C32: the collection of an arrangement: what `as_collection` and `flat_map_ref` make of the batches is `flat_map` of their contents. -/
theorem C32_flat_map_batches {K V : Type*} [LinearOrder K] [LinearOrder V] (f : K → V → List D2) (ms : List (T × List (Contents K V T R))) (S : Finset (K × V))
    (hS : ∀ m ∈ ms, ∀ b ∈ m.2, Covers S b.flatten) (e : D2) (q : T) :
    accum (Msgs.flat_map_batches f ms).upds e q =
      ∑ d ∈ S, (f d.1 d.2).count e • accum (ms.flatMap fun m => m.2.flatMap Contents.flatten) d q := by
  have h1 : accum (Msgs.flat_map_batches f ms).upds e q =
      accum (Msgs.upds (Msgs.flat_map (fun d : K × V => f d.1 d.2) (ms.map fun m => (m.1, m.2.flatMap Contents.flatten)))) e q := by
    simp only [Msgs.flat_map, Msgs.eachMsg, Msgs.upds, Msgs.flat_map_batches, List.flatMap_map]
    rw [accum_flatMap, accum_flatMap]
    congr 1; apply List.map_congr_left; intro m _
    rw [List.flatMap_assoc, accum_flatMap, accum_flatMap]
    congr 1; apply List.map_congr_left; intro b _
    rw [Contents.flatten, List.flatMap_assoc, accum_flatMap, accum_flatMap]
    congr 1; apply List.map_congr_left; intro kv _
    rw [List.flatMap_assoc, accum_flatMap, accum_flatMap]
    congr 1; apply List.map_congr_left; intro vu _
    -- the two loops, over results and over updates, are exchanged
    rw [List.flatMap_map]
    simp only
    induction vu.2 with
    | nil => rw [accum_flatMap]; simp [accum]
    | cons u us ih =>
      rw [List.flatMap_cons, accum_append_linear, ← ih, accum_flatMap, accum_flatMap]
      have : ∀ datum, accum ((u :: us).map fun u => (datum, u.1, u.2)) e q = accum [(datum, u.1, u.2)] e q + accum (us.map fun u => (datum, u.1, u.2)) e q := by
        intro datum; simp [accum]
      simp only [this]
      have : ∀ l : List D2, accum (l.map fun x => (x, u.1, u.2)) e q = (l.map fun x => accum [(x, u.1, u.2)] e q).sum := by
        intro l; induction l with
          | nil => rfl
          | cons x xs ihl => rw [List.map_cons, List.map_cons, List.sum_cons, ← ihl]; simp [accum]
      rw [this]
      induction f kv.1 vu.1 with
      | nil => simp
      | cons x xs ihx => simp only [List.map_cons, List.sum_cons]; rw [ihx]; exact add_add_add_comm _ _ _ _
  rw [h1, C32_flat_map (fun d : K × V => f d.1 d.2) _ S]
  · simp only [Msgs.upds, List.flatMap_map]
  · intro u hu
    simp only [Msgs.upds, List.flatMap_map, List.mem_flatMap] at hu
    obtain ⟨m, hm, b, hb, hu⟩ := hu
    exact hS m hm b hb u hu

omit [DecidableEq D2] in
/-- C32: `antijoin`, given that `semi` is the semijoin with `other`: each record weighed by one minus the weight of its key in `other`. -/
theorem C32_antijoin {K V R R2 : Type*} [DecidableEq K] [DecidableEq V] [AddCommGroup R] [AddCommMonoid R2] (mul : R →+ R2 →+ R) (self semi : Msgs (K × V) T R) (other : Upds K T R2)
    (hsemi : ∀ d q, accum semi.upds d q = mul (accum self.upds d q) (accum other d.1 q)) (d : K × V) (q : T) :
    accum (Msgs.antijoin self semi).upds d q = accum self.upds d q - mul (accum self.upds d q) (accum other d.1 q) := by
  rw [Msgs.antijoin, C32_concat _ _ _ _ _ (List.Perm.refl _), C32_negate, hsemi, sub_eq_add_neg]

omit [DecidableEq D2] in
/-- C32: with a set of keys, `antijoin` keeps exactly the records with a key not in the set. -/
theorem C32_antijoin_set {K V : Type*} [DecidableEq K] [DecidableEq V] (self semi : Msgs (K × V) T Int) (other : Upds K T Int)
    (hsemi : ∀ d q, accum semi.upds d q = accum self.upds d q * accum other d.1 q) (d : K × V) (q : T) (hset : accum other d.1 q = 0 ∨ accum other d.1 q = 1) :
    accum (Msgs.antijoin self semi).upds d q = if accum other d.1 q = 0 then accum self.upds d q else 0 := by
  rw [Msgs.antijoin, C32_concat _ _ _ _ _ (List.Perm.refl _), C32_negate, hsemi]
  rcases hset with h | h <;> simp [h]

omit [DecidableEq D] [DecidableEq D2] [DecidableLE T] [AddCommMonoid R] [AddCommMonoid R2] [AddCommMonoid R3] in
private theorem wellTimed_each (f : Upds D T R → Upds D2 T R2) (ms : Msgs D T R) (h : WellTimed ms)
    (hf : ∀ us, ∀ u ∈ f us, ∃ v ∈ us, v.2.1 ≤ u.2.1) : WellTimed (ms.eachMsg f) := by
  intro m hm u hu
  simp only [Msgs.eachMsg, List.mem_map] at hm
  obtain ⟨m', hm', rfl⟩ := hm
  obtain ⟨v, hv, hle⟩ := hf _ u hu
  exact (h m' hm' v hv).trans hle

omit [DecidableEq D] [DecidableEq D2] [DecidableLE T] [AddCommMonoid R] [AddCommMonoid R2] [AddCommMonoid R3] in
/-- C32: no linear operator sends an update at a time its capability does not allow: `delay` if its function is monotone, `results_in` if its
function goes forward, the others always. -/
theorem C32_well_timed {T2 : Type*} [PartialOrder T2] [OrderBot T2] (ms ms' : Msgs D T R) (h : WellTimed ms) (h' : WellTimed ms') :
    (∀ f : D → D2, WellTimed (ms.map f)) ∧ (∀ f : D → List D2, WellTimed (ms.flat_map f)) ∧ (∀ p : D → Bool, WellTimed (ms.filter p)) ∧
    (∀ (mul : R2 → R → R3) (f : D → List (D2 × R2)), WellTimed (ms.explode mul f)) ∧ WellTimed (ms.concat ms') ∧
    WellTimed (ms.enter (T2 := T2)) ∧ (∀ initial : D → T2, WellTimed (ms.enter_at initial)) ∧
    (∀ func : T → T, Monotone func → WellTimed (ms.delay func)) ∧
    (∀ step : T → Option T, (∀ t t', step t = some t' → t ≤ t') → WellTimed (ms.results_in step)) := by
  refine ⟨fun f => wellTimed_each _ _ h ?_, fun f => wellTimed_each _ _ h ?_, fun f => wellTimed_each _ _ h ?_, fun mul f => wellTimed_each _ _ h ?_, ?_, ?_, ?_, ?_, ?_⟩
  · intro us u hu
    simp only [List.mem_map] at hu
    obtain ⟨v, hv, rfl⟩ := hu
    exact ⟨v, hv, le_refl _⟩
  · intro us u hu
    simp only [List.mem_flatMap, List.mem_map] at hu
    obtain ⟨v, hv, x, _, rfl⟩ := hu
    exact ⟨v, hv, le_refl _⟩
  · intro us u hu
    exact ⟨u, (List.mem_filter.mp hu).1, le_refl _⟩
  · intro us u hu
    simp only [List.mem_flatMap, List.mem_map] at hu
    obtain ⟨v, hv, x, _, rfl⟩ := hu
    exact ⟨v, hv, le_refl _⟩
  · intro m hm
    rcases List.mem_append.mp hm with hm | hm
    · exact h m hm
    · exact h' m hm
  · intro m hm u hu
    simp only [Msgs.enter, List.mem_map] at hm
    obtain ⟨m', hm', rfl⟩ := hm
    simp only [List.mem_map] at hu
    obtain ⟨v, hv, rfl⟩ := hu
    exact ⟨h m' hm' v hv, le_refl _⟩
  · intro f m hm u hu
    simp only [Msgs.enter_at, List.mem_map] at hm
    obtain ⟨m', hm', rfl⟩ := hm
    simp only [List.mem_map] at hu
    obtain ⟨v, hv, rfl⟩ := hu
    exact ⟨h m' hm' v hv, bot_le⟩
  · intro f hf m hm u hu
    simp only [Msgs.delay, List.mem_map] at hm
    obtain ⟨m', hm', rfl⟩ := hm
    simp only [List.mem_map] at hu
    obtain ⟨v, hv, rfl⟩ := hu
    exact hf (h m' hm' v hv)
  · intro step hs
    refine wellTimed_each _ _ h ?_
    intro us u hu
    simp only [List.mem_filterMap, Option.map_eq_some_iff] at hu
    obtain ⟨v, hv, t', ht, rfl⟩ := hu
    exact ⟨v, hv, hs _ _ ht⟩

omit [DecidableEq D] [DecidableLE T] [AddCommMonoid R] in
/-- C32: `leave` and `join_function` too. -/
theorem C32_well_timed' {T2 : Type*} [PartialOrder T2] (ms : Msgs D (T × T2) R) (h : WellTimed ms) : WellTimed ms.leave := by
  intro m hm u hu
  simp only [Msgs.leave, List.mem_map] at hm
  obtain ⟨m', hm', rfl⟩ := hm
  simp only [List.mem_map] at hu
  obtain ⟨v, hv, rfl⟩ := hu
  exact (h m' hm' v hv).1

/-- Non-vacuity of the C32 theorems: a stream with retractions, at two times. -/
example : WellTimed (T := Nat) [(0, [((3 : Nat), 0, (1 : Int)), (4, 1, 2)]), (1, [(3, 1, -1)])] ∧
    Covers {3, 4} (Msgs.upds (T := Nat) [(0, [((3 : Nat), 0, (1 : Int)), (4, 1, 2)]), (1, [(3, 1, -1)])]) ∧
    accum (Msgs.map (· / 2) [(0, [((3 : Nat), (0 : Nat), (1 : Int)), (4, 1, 2)]), (1, [(3, 1, -1)])]).upds 1 0 = 1 := by
  refine ⟨by intro m hm; revert m; decide, ?_, by decide +kernel⟩
  intro u hu; revert u; decide

/-- Non-vacuity of `C32_delay`: rounding up to even times. -/
example (t q : Nat) : 2 * ((t + 1) / 2) ≤ q ↔ t ≤ 2 * (q / 2) := by omega

/-- Non-vacuity of `C32_leave`: inner times bounded by 5. -/
example : ∀ u ∈ Msgs.upds [((0, 0), [((7 : Nat), ((0 : Nat), (5 : Nat)), (1 : Int))])], u.2.1.1 ≤ 0 → u.2.1.2 ≤ 5 := by decide

/-- Non-vacuity of `C32_antijoin_set`: the semijoin of `{(1, a), (2, b)}` with `{1}`. -/
example : ∀ d q, accum (Msgs.upds [(0, [(((1 : Nat), (10 : Nat)), (0 : Nat), (1 : Int))])]) d q =
    accum (Msgs.upds [(0, [(((1 : Nat), (10 : Nat)), (0 : Nat), (1 : Int)), ((2, 20), 0, 1)])]) d q * accum [((1 : Nat), (0 : Nat), (1 : Int))] d.1 q := by
  rintro ⟨k, v⟩ q
  by_cases h1 : k = 1
  · subst h1; by_cases h2 : v = 10 <;> simp [accum, Msgs.upds, h2, eq_comm]
  · have : ¬ 1 = k := fun h => h1 h.symm
    simp [accum, Msgs.upds, this]

end DD
