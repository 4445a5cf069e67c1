import Verif.Spec.JoinOp
import Verif.Proofs.History
import Verif.Proofs.ReduceOp
import Mathlib.Algebra.Group.Hom.Instances
import Mathlib.Algebra.BigOperators.Group.Finset.Basic
import Mathlib.Algebra.BigOperators.Pi
import Mathlib.Tactic.Abel

namespace DD

/-! ### Linear functionals of accumulations -/

section lin
variable {D T R M : Type*} [DecidableEq D] [LE T] [DecidableLE T] [AddCommMonoid R] [AddCommMonoid M]

/-- A linear functional of the updates at or before a time. -/
def lin (φ : D → R →+ M) (us : Upds D T R) (q : T) : M := (us.map fun u => if u.2.1 ≤ q then φ u.1 u.2.2 else 0).sum

omit [DecidableEq D] in
theorem lin_append (φ : D → R →+ M) (us vs : Upds D T R) (q : T) : lin φ (us ++ vs) q = lin φ us q + lin φ vs q := by simp [lin]

omit [DecidableEq D] in
theorem lin_cons (φ : D → R →+ M) (u : D × T × R) (vs : Upds D T R) (q : T) : lin φ (u :: vs) q = (if u.2.1 ≤ q then φ u.1 u.2.2 else 0) + lin φ vs q := by
  simp [lin]

omit [DecidableEq D] in
theorem lin_add (φ ψ : D → R →+ M) (us : Upds D T R) (q : T) : lin (fun d => φ d + ψ d) us q = lin φ us q + lin ψ us q := by
  induction us with
  | nil => simp [lin]
  | cons u us ih =>
    rw [lin_cons, lin_cons, lin_cons, ih]
    split_ifs
    · rw [AddMonoidHom.add_apply]; abel
    · simp

theorem lin_eq_sum (φ : D → R →+ M) (us : Upds D T R) (q : T) (S : Finset D) (hS : ∀ u ∈ us, u.1 ∈ S) :
    lin φ us q = ∑ d ∈ S, φ d (accum us d q) := by
  induction us with
  | nil => simp [lin]
  | cons u us ih =>
    rw [lin_cons, ih fun x hx => hS x (by simp [hx])]
    simp only [accum_cons, map_add, Finset.sum_add_distrib]
    congr 1
    have : ∀ d, φ d (if u.1 = d ∧ u.2.1 ≤ q then u.2.2 else 0) = if u.1 = d then (if u.2.1 ≤ q then φ u.1 u.2.2 else 0) else 0 := by
      intro d
      by_cases h : u.1 = d
      · subst h; by_cases h2 : u.2.1 ≤ q <;> simp [h2]
      · simp [h]
    simp only [this, Finset.sum_ite_eq, hS u (by simp), if_true]

theorem lin_congr (φ : D → R →+ M) {us vs : Upds D T R} {q : T} (h : ∀ d, accum us d q = accum vs d q) : lin φ us q = lin φ vs q := by
  let S : Finset D := (us.map (·.1)).toFinset ∪ (vs.map (·.1)).toFinset
  rw [lin_eq_sum φ us q S (by intro u hu; simp only [S, Finset.mem_union, List.mem_toFinset, List.mem_map]; exact Or.inl ⟨u, hu, rfl⟩),
    lin_eq_sum φ vs q S (by intro u hu; simp only [S, Finset.mem_union, List.mem_toFinset, List.mem_map]; exact Or.inr ⟨u, hu, rfl⟩)]
  simp only [h]

end lin

section
variable {K V1 V2 T R1 R2 D M : Type*} [LinearOrder K] [LinearOrder V1] [LinearOrder V2] [DecidableEq D] [Lattice T] [DecidableLE T]
  [AddCommMonoid R1] [AddCommMonoid R2] [AddCommMonoid M]

theorem accum_block (l : List D) (t : T) (m : M) (d : D) (q : T) :
    accum (l.map fun d => (d, t, m)) d q = if t ≤ q then l.count d • m else 0 := by
  induction l with
  | nil => simp
  | cons x l ih =>
    rw [List.map_cons, accum_cons, ih, List.count_cons]
    by_cases ht : t ≤ q <;> by_cases hx : x = d <;> simp [ht, hx, succ_nsmul, add_comm]

/-- The bilinear form of a join. -/
def joinForm (result : K → V1 → V2 → List D) (mul : R1 →+ R2 →+ M) (d : D) (kv1 : K × V1) (kv2 : K × V2) : R1 →+ R2 →+ M :=
  if kv1.1 = kv2.1 then (result kv1.1 kv1.2 kv2.2).count d • mul else 0

theorem accum_nestedJoin (result : K → V1 → V2 → List D) (mul : R1 →+ R2 →+ M) (us1 : Upds (K × V1) T R1) (us2 : Upds (K × V2) T R2) (d : D) (q : T) :
    accum (nestedJoin result (fun a b => mul a b) us1 us2) d q
      = lin (fun kv1 => lin (fun kv2 => (joinForm result mul d kv1 kv2).flip) us2 q) us1 q := by
  unfold nestedJoin
  induction us1 with
  | nil => simp [lin]
  | cons a us1 ih =>
    rw [List.flatMap_cons, accum_append, ih, lin_cons]
    congr 1
    clear ih
    induction us2 with
    | nil => simp [lin]
    | cons b us2 ih =>
      rw [List.flatMap_cons, accum_append, ih, lin_cons]
      by_cases hk : a.1.1 = b.1.1
      · rw [if_pos hk, accum_block]
        by_cases h1 : a.2.1 ≤ q
        · by_cases h2 : b.2.1 ≤ q
          · simp [h1, h2, joinForm, hk, AddMonoidHom.add_apply]
          · simp [h1, h2]
        · simp [h1]
      · rw [if_neg hk]
        have hf : joinForm result mul d a.1 b.1 = 0 := by unfold joinForm; rw [if_neg hk]
        by_cases h1 : a.2.1 ≤ q
        · rw [hf, if_pos h1, if_pos h1]
          have : (if b.2.1 ≤ q then (0 : R1 →+ R2 →+ M).flip b.2.2 else 0) = 0 := by
            split_ifs
            · ext; simp
            · rfl
          rw [this]; simp
        · simp [h1]

theorem nestedJoin_congr {result : K → V1 → V2 → List D} {mul : R1 →+ R2 →+ M} {us1 vs1 : Upds (K × V1) T R1} {us2 vs2 : Upds (K × V2) T R2} {q : T}
    (h1 : ∀ kv, accum us1 kv q = accum vs1 kv q) (h2 : ∀ kv, accum us2 kv q = accum vs2 kv q) (d : D) :
    accum (nestedJoin result (fun a b => mul a b) us1 us2) d q = accum (nestedJoin result (fun a b => mul a b) vs1 vs2) d q := by
  rw [accum_nestedJoin, accum_nestedJoin, lin_congr _ h1]
  congr 1
  funext kv1
  exact lin_congr _ h2

omit [LinearOrder V1] [LinearOrder V2] in
theorem nestedJoin_append_left (result : K → V1 → V2 → List D) (mul : R1 →+ R2 →+ M) (us1 vs1 : Upds (K × V1) T R1) (us2 : Upds (K × V2) T R2) (d : D) (q : T) :
    accum (nestedJoin result (fun a b => mul a b) (us1 ++ vs1) us2) d q
      = accum (nestedJoin result (fun a b => mul a b) us1 us2) d q + accum (nestedJoin result (fun a b => mul a b) vs1 us2) d q := by
  simp only [nestedJoin, List.flatMap_append, accum_append]

theorem nestedJoin_append_right (result : K → V1 → V2 → List D) (mul : R1 →+ R2 →+ M) (us1 : Upds (K × V1) T R1) (us2 vs2 : Upds (K × V2) T R2) (d : D) (q : T) :
    accum (nestedJoin result (fun a b => mul a b) us1 (us2 ++ vs2)) d q
      = accum (nestedJoin result (fun a b => mul a b) us1 us2) d q + accum (nestedJoin result (fun a b => mul a b) us1 vs2) d q := by
  simp only [accum_nestedJoin]
  rw [← lin_add]
  congr 1
  funext kv1
  rw [lin_append]

theorem nestedJoin_zero_left {result : K → V1 → V2 → List D} {mul : R1 →+ R2 →+ M} {us1 : Upds (K × V1) T R1} {us2 : Upds (K × V2) T R2} {q : T}
    (h1 : ∀ kv, accum us1 kv q = 0) (d : D) : accum (nestedJoin result (fun a b => mul a b) us1 us2) d q = 0 := by
  rw [nestedJoin_congr (vs1 := []) (vs2 := us2) (fun kv => by simp [h1]) (fun _ => rfl)]
  simp [nestedJoin]

theorem nestedJoin_zero_right {result : K → V1 → V2 → List D} {mul : R1 →+ R2 →+ M} {us1 : Upds (K × V1) T R1} {us2 : Upds (K × V2) T R2} {q : T}
    (h2 : ∀ kv, accum us2 kv q = 0) (d : D) : accum (nestedJoin result (fun a b => mul a b) us1 us2) d q = 0 := by
  rw [nestedJoin_congr (vs1 := us1) (vs2 := []) (fun _ => rfl) (fun kv => by simp [h2])]
  have : nestedJoin result (fun a b => mul a b) us1 ([] : Upds (K × V2) T R2) = [] := by
    simp only [nestedJoin, List.flatMap_nil]
    induction us1 with
    | nil => rfl
    | cons a us ih => simp
  rw [this]; rfl

/-- The updates of one key. -/
def tagKey {V R : Type*} (k : K) (us : Upds V T R) : Upds (K × V) T R := us.map fun u => ((k, u.1), u.2)

theorem accum_flatMap_logic (result : K → V1 → V2 → List D) (mul : R1 →+ R2 →+ M) (k : K) (outs : JoinOut V1 V2 T R1 R2) (d : D) (q : T) :
    accum (outs.flatMap fun o => joinCoreLogic result (fun a b => mul a b) k o.1 o.2.1 o.2.2.1 o.2.2.2.1 o.2.2.2.2) d q
      = lin (fun v : V1 × V2 => (result k v.1 v.2).count d • AddMonoidHom.id M) (outs.map fun o => ((o.1, o.2.1), o.2.2.1, mul o.2.2.2.1 o.2.2.2.2)) q := by
  induction outs with
  | nil => simp [lin]
  | cons o outs ih =>
    rw [List.flatMap_cons, accum_append, ih, List.map_cons, lin_cons]
    congr 1
    unfold joinCoreLogic
    rw [accum_block]
    split_ifs <;> simp_all

theorem accum_joinOut (mul : R1 →+ R2 →+ M) (outs : JoinOut V1 V2 T R1 R2) (v : V1 × V2) (q : T) :
    accum (outs.map fun o => ((o.1, o.2.1), o.2.2.1, mul o.2.2.2.1 o.2.2.2.2)) v q = joinAccum (fun a b => mul a b) outs v.1 v.2 q := by
  induction outs with
  | nil => simp [joinAccum]
  | cons o outs ih =>
    rw [List.map_cons, accum_cons, ih]
    simp only [joinAccum, List.map_cons, List.sum_cons]
    congr 1
    simp only [Prod.ext_iff, and_assoc]

/-- What is joined for one key. -/
theorem accum_logic_key (result : K → V1 → V2 → List D) (mul : R1 →+ R2 →+ M) (k : K) (outs : JoinOut V1 V2 T R1 R2) (us1 : Upds V1 T R1) (us2 : Upds V2 T R2) (q : T)
    (h : ∀ v1 v2, joinAccum (fun a b => mul a b) outs v1 v2 q = mul (accum us1 v1 q) (accum us2 v2 q)) (d : D) :
    accum (outs.flatMap fun o => joinCoreLogic result (fun a b => mul a b) k o.1 o.2.1 o.2.2.1 o.2.2.2.1 o.2.2.2.2) d q
      = accum (nestedJoin result (fun a b => mul a b) (tagKey k us1) (tagKey k us2)) d q := by
  have e : nestedJoin result (fun a b => mul a b) (tagKey k us1) (tagKey k us2)
      = (us1.flatMap fun u1 => us2.map fun u2 => (u1.1, u2.1, u1.2.1 ⊔ u2.2.1, u1.2.2, u2.2.2)).flatMap
          fun o => joinCoreLogic result (fun a b => mul a b) k o.1 o.2.1 o.2.2.1 o.2.2.2.1 o.2.2.2.2 := by
    simp [nestedJoin, tagKey, joinCoreLogic, List.flatMap_assoc, List.flatMap_map]
  rw [e, accum_flatMap_logic, accum_flatMap_logic]
  refine lin_congr _ fun v => ?_
  rw [accum_joinOut, accum_joinOut, h, joinAccum_cross]

end

/-! ### Contents -/

section
variable {K V T R : Type*} [LinearOrder K] [LinearOrder V] [Lattice T] [DecidableLE T] [AddCommMonoid R]

/-- The updates that contents present. -/
def contentsUpds (t : Contents K V T R) : Upds (K × V) T R := t.flatMap fun kv => tagKey kv.1 (valUpds kv.2)

theorem accum_tagKey (k : K) (us : Upds V T R) (k' : K) (v : V) (q : T) : accum (tagKey k us) (k', v) q = if k = k' then accum us v q else 0 := by
  induction us with
  | nil => simp [tagKey]
  | cons u us ih =>
    simp only [tagKey, List.map_cons, accum_cons] at ih ⊢
    rw [ih]
    by_cases hk : k = k' <;> simp [hk]

theorem accum_contentsUpds (t : Contents K V T R) (k : K) (v : V) (q : T) : accum (contentsUpds t) (k, v) q = accum (keyUpds t k) v q := by
  induction t with
  | nil => simp [contentsUpds, keyUpds]
  | cons kv t ih =>
    simp only [contentsUpds, keyUpds, List.flatMap_cons, accum_append] at ih ⊢
    rw [ih, accum_tagKey]
    split_ifs <;> simp

end

section
variable {X R M T : Type*} [DecidableEq X] [AddCommMonoid R] [AddCommMonoid M] [LE T] [DecidableLE T]

theorem lin_single (ψ : R →+ M) (x : X) (us : Upds X T R) (q : T) : lin (fun y => if y = x then ψ else 0) us q = ψ (accum us x q) := by
  induction us with
  | nil => simp [lin]
  | cons u us ih =>
    rw [lin_cons, ih, accum_cons, map_add]
    by_cases h1 : u.1 = x <;> by_cases h2 : u.2.1 ≤ q <;> simp [h1, h2]

end

section
variable {K V1 V2 T R1 R2 M : Type*} [LinearOrder K] [LinearOrder V1] [LinearOrder V2] [Lattice T] [DecidableLE T] [AddCommMonoid R1] [AddCommMonoid R2] [AddCommMonoid M]

/-- Joining keys and pairs of values: accumulations are products. -/
theorem accum_nestedJoin_pairs (mul : R1 →+ R2 →+ M) (us1 : Upds (K × V1) T R1) (us2 : Upds (K × V2) T R2) (k : K) (v1 : V1) (v2 : V2) (q : T) :
    accum (nestedJoin (fun k v1 v2 => [(k, v1, v2)]) (fun a b => mul a b) us1 us2) (k, v1, v2) q = mul (accum us1 (k, v1) q) (accum us2 (k, v2) q) := by
  rw [accum_nestedJoin]
  have e : (fun kv1 : K × V1 => lin (fun kv2 : K × V2 => (joinForm (fun k v1 v2 => [(k, v1, v2)]) mul (k, v1, v2) kv1 kv2).flip) us2 q)
      = fun kv1 => if kv1 = (k, v1) then lin (fun kv2 => if kv2 = (k, v2) then mul.flip else 0) us2 q else 0 := by
    funext kv1
    obtain ⟨k1, w1⟩ := kv1
    by_cases h : (k1, w1) = (k, v1)
    · rw [if_pos h]
      rw [Prod.mk.injEq] at h
      obtain ⟨rfl, rfl⟩ := h
      congr 1
      funext kv2
      obtain ⟨k2, w2⟩ := kv2
      unfold joinForm
      by_cases h2 : (k2, w2) = (k1, v2)
      · rw [if_pos h2]
        rw [Prod.mk.injEq] at h2
        obtain ⟨rfl, rfl⟩ := h2
        simp [one_nsmul]
      · rw [if_neg h2]
        by_cases hk : k1 = k2
        · subst hk
          have : ¬ w2 = v2 := fun e => h2 (by rw [e])
          simp [this]
          rfl
        · simp [hk]
          rfl
    · rw [if_neg h]
      have : ∀ kv2 : K × V2, (joinForm (fun k v1 v2 => [(k, v1, v2)]) mul (k, v1, v2) (k1, w1) kv2).flip = 0 := by
        intro kv2
        unfold joinForm
        by_cases hk : k1 = kv2.1
        · have : ¬ ((k1, w1, kv2.2) = (k, v1, v2)) := by
            intro e
            simp only [Prod.mk.injEq] at e h
            exact h ⟨e.1, e.2.1⟩
          simp only [if_pos hk, List.count_cons, List.count_nil, beq_iff_eq, if_neg this, zero_add, zero_nsmul, Bool.false_eq_true, if_false]
          rfl
        · simp only [if_neg hk]
          rfl
      simp only [this]
      unfold lin
      apply List.sum_eq_zero
      intro x hx
      obtain ⟨u, _, rfl⟩ := List.mem_map.1 hx
      simp
  rw [e, lin_single, lin_single]
  rfl

/-- Keeping the records of the first input: accumulations are products. -/
theorem accum_nestedJoin_semi (mul : R1 →+ R2 →+ M) (us1 : Upds (K × V1) T R1) (us2 : Upds (K × V2) T R2) [Unique V2] (k : K) (v1 : V1) (q : T) :
    accum (nestedJoin (fun k v1 _ => [(k, v1)]) (fun a b => mul a b) us1 us2) (k, v1) q = mul (accum us1 (k, v1) q) (accum us2 (k, default) q) := by
  rw [← accum_nestedJoin_pairs]
  have e : nestedJoin (fun k v1 (_ : V2) => [(k, v1)]) (fun a b => mul a b) us1 us2
      = (nestedJoin (fun k v1 v2 => [(k, v1, v2)]) (fun a b => mul a b) us1 us2).map fun u => ((u.1.1, u.1.2.1), u.2) := by
    simp only [nestedJoin, List.map_flatMap]
    congr 1; funext a; congr 1; funext b
    split_ifs <;> simp
  rw [e, accum, accum, List.map_map]
  congr 2
  funext u
  obtain ⟨⟨a, b, c⟩, t, r⟩ := u
  simp [Unique.eq_default c]

end

end DD
