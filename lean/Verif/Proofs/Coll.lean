import Verif.Model.Coll
import Verif.Proofs.Consolidation
import Mathlib.Algebra.Order.BigOperators.Group.Finset
import Mathlib.Algebra.BigOperators.Group.Finset.Piecewise
import Mathlib.Algebra.Order.BigOperators.Group.List
import Mathlib.Algebra.BigOperators.Ring.List
import Mathlib.Algebra.Order.Ring.Int
import Mathlib.Tactic.Ring

/-!
# Lemmas about operators on collections
-/

namespace DD
variable {D D2 K V V2 : Type*}

namespace Coll

/-- Two collections are the same. -/
def Same [DecidableEq D] (c c' : Coll D) : Prop := ∀ d, weight c d = weight c' d

/-- No record has a negative difference. -/
def Nonneg [DecidableEq D] (c : Coll D) : Prop := ∀ d, 0 ≤ weight c d

/-- The sum of a function over the records. -/
def lin (g : D → Int) (c : Coll D) : Int := (List.map (fun x => x.2 * g x.1) c).sum

@[simp] theorem lin_nil (g : D → Int) : lin g [] = 0 := rfl
@[simp] theorem lin_cons (g : D → Int) (x : D × Int) (c : Coll D) : lin g (x :: c) = x.2 * g x.1 + lin g c := by simp [lin]
theorem lin_append (g : D → Int) (c c' : Coll D) : lin g (c ++ c') = lin g c + lin g c' := by simp [lin]

theorem weight_eq_lin [DecidableEq D] (c : Coll D) (d : D) : weight c d = lin (fun x => if x = d then 1 else 0) c := by
  unfold weight lin
  congr 1
  refine List.map_congr_left fun x _ => ?_
  by_cases h : x.1 = d <;> simp [h]

theorem lin_eq_sum [DecidableEq D] (g : D → Int) (c : Coll D) (S : Finset D) (h : ∀ x ∈ c, x.1 ∈ S) : lin g c = ∑ d ∈ S, weight c d * g d := by
  induction c with
  | nil => simp
  | cons x c ih =>
    rw [lin_cons, ih fun y hy => h y (List.mem_cons_of_mem _ hy)]
    have e : ∀ d, weight (x :: c) d * g d = (if x.1 = d then x.2 * g d else 0) + weight c d * g d := by
      intro d
      rw [weight_cons]
      split_ifs <;> ring
    simp only [e, Finset.sum_add_distrib, Finset.sum_ite_eq, h x List.mem_cons_self, if_true]

theorem lin_congr [DecidableEq D] {c c' : Coll D} (h : Same c c') (g : D → Int) : lin g c = lin g c' := by
  rw [lin_eq_sum g c ((List.map Prod.fst c).toFinset ∪ (List.map Prod.fst c').toFinset) fun x hx => Finset.mem_union_left _ (List.mem_toFinset.2 (List.mem_map_of_mem hx)),
    lin_eq_sum g c' ((List.map Prod.fst c).toFinset ∪ (List.map Prod.fst c').toFinset) fun x hx => Finset.mem_union_right _ (List.mem_toFinset.2 (List.mem_map_of_mem hx))]
  simp only [h _]

theorem exists_of_weight [DecidableEq D] {c : Coll D} {d : D} (h : weight c d ≠ 0) : ∃ r, (d, r) ∈ c := by
  by_contra hn
  push Not at hn
  apply h
  unfold weight
  refine List.sum_eq_zero fun y hy => ?_
  obtain ⟨x, hx, rfl⟩ := List.mem_map.1 hy
  rw [if_neg]
  rintro rfl
  exact hn x.2 hx

/-- Every collection is a finite one. -/
theorem lin_pos [DecidableEq D] {c : Coll D} (hc : c.Nonneg) {g : D → Int} (hg : ∀ d, 0 ≤ g d) : 0 ≤ lin g c ∧ (0 < lin g c ↔ ∃ d, 0 < weight c d ∧ 0 < g d) := by
  rw [lin_eq_sum g c (List.map Prod.fst c).toFinset fun x hx => List.mem_toFinset.2 (List.mem_map_of_mem hx)]
  have nn : ∀ d ∈ (List.map Prod.fst c).toFinset, 0 ≤ weight c d * g d := fun d _ => mul_nonneg (hc d) (hg d)
  refine ⟨Finset.sum_nonneg nn, fun h => ?_, fun ⟨d, h1, h2⟩ => ?_⟩
  · obtain ⟨d, -, hd⟩ := Finset.exists_lt_of_sum_lt (f := fun _ => (0 : Int)) (g := fun d => weight c d * g d) (s := (List.map Prod.fst c).toFinset) (by simpa using h)
    have hd : 0 < weight c d * g d := hd
    refine ⟨d, lt_of_le_of_ne (hc d) fun e => ?_, lt_of_le_of_ne (hg d) fun e => ?_⟩
    · rw [← e] at hd; simp at hd
    · rw [← e] at hd; simp at hd
  · obtain ⟨r, hr⟩ := exists_of_weight h1.ne'
    exact lt_of_lt_of_le (mul_pos h1 h2) (Finset.single_le_sum nn (List.mem_toFinset.2 (List.mem_map.2 ⟨_, hr, rfl⟩)))

/-! ### Operators -/

theorem weight_map [DecidableEq D2] (f : D → D2) (c : Coll D) (e : D2) : weight (c.map f) e = lin (fun d => if f d = e then 1 else 0) c := by
  rw [weight_eq_lin]
  simp only [map, lin, List.map_map]
  rfl

theorem weight_map_inj [DecidableEq D] [DecidableEq D2] {f : D → D2} (hf : ∀ a b, f a = f b → a = b) (c : Coll D) (d : D) : weight (c.map f) (f d) = weight c d := by
  rw [weight_map, weight_eq_lin]
  congr 1
  funext x
  by_cases h : x = d
  · simp [h]
  · rw [if_neg h, if_neg fun e => h (hf _ _ e)]

theorem weight_flat_map [DecidableEq D2] (f : D → List D2) (c : Coll D) (e : D2) : weight (c.flat_map f) e = lin (fun d => (f d).count e) c := by
  induction c with
  | nil => rfl
  | cons x c ih =>
    have : flat_map f (x :: c) = ((f x.1).map fun y => (y, x.2)) ++ flat_map f c := rfl
    rw [this, weight_append, ih, lin_cons]
    congr 1
    induction f x.1 with
    | nil => simp
    | cons y l ih2 =>
      rw [List.map_cons, weight_cons, ih2, List.count_cons]
      by_cases h : y = e
      · simp [h]; ring
      · simp [h]

theorem weight_filter [DecidableEq D] (p : D → Bool) (c : Coll D) (d : D) : weight (c.filter p) d = if p d then weight c d else 0 := by
  induction c with
  | nil => simp [filter]
  | cons x c ih =>
    have : filter p (x :: c) = if p x.1 then x :: filter p c else filter p c := by
      unfold filter
      rw [List.filter_cons]
    rw [this]
    by_cases h : x.1 = d
    · subst h
      by_cases hp : p x.1
      · rw [if_pos hp, weight_cons, weight_cons, ih]; simp [hp]
      · rw [if_neg hp, ih]; simp [hp]
    · by_cases hp : p x.1
      · rw [if_pos hp, weight_cons, weight_cons, ih]; simp [h]
      · rw [if_neg hp, ih, weight_cons]; simp [h]

theorem weight_concat [DecidableEq D] (c c' : Coll D) (d : D) : weight (c.concat c') d = weight c d + weight c' d := weight_append c c' d

theorem weight_negate [DecidableEq D] (c : Coll D) (d : D) : weight c.negate d = -weight c d := by
  induction c with
  | nil => rfl
  | cons x c ih =>
    have : negate (x :: c) = (x.1, -x.2) :: negate c := rfl
    rw [this, weight_cons, weight_cons, ih]
    split_ifs <;> ring

theorem consolidate_def [LinearOrder D] (c : Coll D) : c.consolidate = consolidated c := by
  unfold consolidate
  rw [consolidate_eq]
  rfl

theorem weight_consolidate [LinearOrder D] (c : Coll D) (d : D) : weight c.consolidate d = weight c d := by rw [consolidate_def, weight_consolidated]

theorem weight_join_core [DecidableEq K] [DecidableEq D] (f : K → V → V2 → List D) (c : Coll (K × V)) (c' : Coll (K × V2)) (d : D) :
    weight (join_core f c c') d = lin (fun x => lin (fun y => if x.1 = y.1 then ((f x.1 x.2 y.2).count d : Int) else 0) c') c := by
  induction c with
  | nil => rfl
  | cons x c ih =>
    have : join_core f (x :: c) c' = (c'.flatMap fun y => if x.1.1 = y.1.1 then (f x.1.1 x.1.2 y.1.2).map fun d => (d, x.2 * y.2) else []) ++ join_core f c c' := rfl
    rw [this, weight_append, ih, lin_cons]
    congr 1
    clear this ih
    induction c' with
    | nil => simp
    | cons y c' ih =>
      rw [List.flatMap_cons, weight_append, ih, lin_cons, mul_add]
      congr 1
      split_ifs with h
      · induction f x.1.1 x.1.2 y.1.2 with
        | nil => simp
        | cons z l ih2 =>
          rw [List.map_cons, weight_cons, ih2, List.count_cons]
          by_cases h : z = d
          · simp [h]; ring
          · simp [h]
      · simp

theorem weight_semijoin [DecidableEq K] [DecidableEq V] (c : Coll (K × V)) (c' : Coll K) (k : K) (v : V) : weight (c.semijoin c') (k, v) = weight c (k, v) * weight c' k := by
  unfold semijoin
  rw [weight_join_core]
  have e : ∀ x : K × V, lin (fun y : K × Unit => if x.1 = y.1 then (@List.count (K × V) instBEqOfDecidableEq (k, v) [(x.1, x.2)] : Int) else 0) (c'.map fun k => (k, ())) = if x = (k, v) then weight c' k else 0 := by
    rintro ⟨k2, v2⟩
    induction c' with
    | nil => simp [map]
    | cons y c' ih =>
      have : map (fun k => (k, ())) (y :: c') = ((y.1, ()), y.2) :: map (fun k => (k, ())) c' := rfl
      rw [this, lin_cons, ih, weight_cons]
      by_cases h : ((k2, v2) : K × V) = (k, v)
      · simp only [Prod.mk.injEq] at h
        obtain ⟨rfl, rfl⟩ := h
        by_cases hk : y.1 = k2
        · simp [hk]
        · simp [hk, Ne.symm hk]
      · simp only [if_neg h]
        simp only [List.count_cons, List.count_nil, beq_iff_eq, if_neg h]
        simp
  rw [show (fun x : K × V => lin (fun y : K × Unit => if x.1 = y.1 then (@List.count (K × V) instBEqOfDecidableEq (k, v) [(x.1, x.2)] : Int) else 0) (c'.map fun k => (k, ()))) =
    fun x => if x = (k, v) then weight c' k else 0 from funext e, weight_eq_lin c]
  unfold lin
  rw [← List.sum_map_mul_right]
  congr 1
  refine List.map_congr_left fun x _ => ?_
  beta_reduce
  split_ifs <;> ring

theorem weight_antijoin [DecidableEq K] [DecidableEq V] (c : Coll (K × V)) (c' : Coll K) (k : K) (v : V) :
    weight (c.antijoin c') (k, v) = weight c (k, v) * (1 - weight c' k) := by
  unfold antijoin
  rw [weight_concat, weight_negate, weight_semijoin]
  ring

theorem values_pairs [DecidableEq K] [LinearOrder V] (c : Coll (K × V)) (k : K) : ConsolidatedPairs (c.values k) := by
  unfold values
  rw [consolidate_def]
  exact consolidatedPairs_consolidated _

theorem weight_values [DecidableEq K] [LinearOrder V] (c : Coll (K × V)) (k : K) (v : V) : weight (c.values k) v = weight c (k, v) := by
  unfold values
  rw [weight_consolidate]
  induction c with
  | nil => rfl
  | cons x c ih =>
    rw [List.filter_cons, weight_cons, ← ih]
    by_cases h : x.1.1 = k
    · simp only [h, decide_true, if_true, List.map_cons, weight_cons]
      congr 1
      obtain ⟨⟨a, b⟩, r⟩ := x
      simp only at h
      simp [h]
    · have : ¬ x.1 = (k, v) := fun e => h (by rw [e])
      simp [h, this]

theorem values_congr [DecidableEq K] [LinearOrder V] {c c' : Coll (K × V)} {k : K} (h : ∀ v, weight c (k, v) = weight c' (k, v)) : c.values k = c'.values k :=
  consolidatedPairs_unique (values_pairs c k) (values_pairs c' k) fun v => by rw [weight_values, weight_values, h]

theorem mem_values [DecidableEq K] [LinearOrder V] (c : Coll (K × V)) (k : K) (v : V) (r : Int) : (v, r) ∈ c.values k ↔ weight c (k, v) = r ∧ r ≠ 0 := by
  have hp := values_pairs c k
  rw [← weight_values]
  generalize c.values k = l at hp
  obtain ⟨hs, hz⟩ := hp
  induction l with
  | nil => simp; intro h; exact h.symm
  | cons x l ih =>
    rw [List.pairwise_cons] at hs
    rw [weight_cons, List.mem_cons]
    have ih2 : (v, r) ∈ l ↔ weight l v = r ∧ r ≠ 0 := ih hs.2 fun y hy => hz y (List.mem_cons_of_mem _ hy)
    by_cases h : x.1 = v
    · have hw : weight l v = 0 := by
        by_contra hn
        obtain ⟨r', hr'⟩ := exists_of_weight hn
        have := hs.1 _ hr'
        rw [h] at this
        exact lt_irrefl _ this
      have hnl : (v, r) ∉ l := fun hm => by
        have := hs.1 _ hm
        rw [h] at this
        exact lt_irrefl _ this
      rw [if_pos h, hw, add_zero]
      constructor
      · rintro (e | e)
        · subst e; exact ⟨rfl, hz _ List.mem_cons_self⟩
        · exact absurd e hnl
      · rintro ⟨e, -⟩
        left
        rw [← h, ← e]
    · rw [if_neg h, zero_add, ← ih2]
      constructor
      · rintro (e | e)
        · rw [← e] at h; exact absurd rfl h
        · exact e
      · exact Or.inr

theorem values_eq_nil [DecidableEq K] [LinearOrder V] (c : Coll (K × V)) (k : K) : c.values k = [] ↔ ∀ v, weight c (k, v) = 0 := by
  constructor
  · intro h v
    rw [← weight_values, h]
    rfl
  · intro h
    rw [List.eq_nil_iff_forall_not_mem]
    rintro ⟨v, r⟩ hm
    rw [mem_values, h] at hm
    exact hm.2 hm.1.symm

/-- The first value is the least one of non-zero difference. -/
theorem values_head [DecidableEq K] [LinearOrder V] {c : Coll (K × V)} {k : K} {x : V × Int} {s : List (V × Int)} (h : c.values k = x :: s) :
    weight c (k, x.1) = x.2 ∧ x.2 ≠ 0 ∧ ∀ v, weight c (k, v) ≠ 0 → x.1 ≤ v := by
  have hm : (x.1, x.2) ∈ c.values k := by rw [h]; exact List.mem_cons_self
  have := (mem_values c k x.1 x.2).1 hm
  refine ⟨this.1, this.2, fun v hv => ?_⟩
  have hm : (v, weight c (k, v)) ∈ c.values k := (mem_values c k v _).2 ⟨rfl, hv⟩
  have hp := (values_pairs c k).1
  rw [h] at hm hp
  rcases List.mem_cons.1 hm with e | e
  · rw [← e]
  · exact (List.rel_of_pairwise_cons hp e).le

theorem weight_reduce [DecidableEq K] [LinearOrder V] [DecidableEq V2] (logic : K → List (V × Int) → List (V2 × Int)) (c : Coll (K × V)) (k : K) (v : V2) :
    weight (c.reduce logic) (k, v) = if c.values k = [] then 0 else weight (logic k (c.values k)) v := by
  have key : ∀ (l : List (V2 × Int)) (k' : K), weight (l.map fun y => ((k', y.1), y.2)) (k, v) = if k' = k then weight l v else 0 := by
    intro l k'
    induction l with
    | nil => simp
    | cons y l ih =>
      rw [List.map_cons, weight_cons, weight_cons, ih]
      by_cases h : k' = k <;> by_cases h2 : y.1 = v <;> simp [h, h2]
  have gen : ∀ ks : List K, ks.Nodup → weight (ks.flatMap fun k => if (c.values k).isEmpty then [] else (logic k (c.values k)).map fun y => ((k, y.1), y.2)) (k, v) =
      if k ∈ ks then (if c.values k = [] then 0 else weight (logic k (c.values k)) v) else 0 := by
    intro ks hn
    induction ks with
    | nil => simp
    | cons k' ks ih =>
      rw [List.nodup_cons] at hn
      rw [List.flatMap_cons, weight_append, ih hn.2]
      have e : weight (if (c.values k').isEmpty then [] else (logic k' (c.values k')).map fun y => ((k', y.1), y.2)) (k, v) =
          if k' = k then (if c.values k = [] then 0 else weight (logic k (c.values k)) v) else 0 := by
        by_cases h : k' = k
        · subst h
          by_cases h2 : c.values k' = []
          · simp [h2]
          · rw [if_neg (by simpa using h2), key, if_pos rfl, if_pos rfl, if_neg h2]
        · by_cases h2 : c.values k' = []
          · simp [h2, h]
          · rw [if_neg (by simpa using h2), key, if_neg h, if_neg h]
      rw [e]
      by_cases h : k' = k
      · subst h
        simp [hn.1]
      · simp [h, Ne.symm h]
  unfold reduce
  rw [gen _ (List.nodup_dedup _)]
  by_cases hm : k ∈ (List.map (fun x => x.1.1) c).dedup
  · rw [if_pos hm]
  · rw [if_neg hm, if_pos]
    rw [values_eq_nil]
    intro v
    by_contra hn
    obtain ⟨r, hr⟩ := exists_of_weight hn
    exact hm (List.mem_dedup.2 (List.mem_map.2 ⟨_, hr, rfl⟩))

theorem weight_map_fst_unit [DecidableEq D] (c : Coll (D × Unit)) (d : D) : weight (c.map fun x => x.1) d = weight c (d, ()) := by
  rw [weight_map, weight_eq_lin]
  congr 1
  funext x
  by_cases h : x.1 = d
  · have e : x = (d, ()) := Prod.ext h rfl
    rw [if_pos h, if_pos e]
  · rw [if_neg h, if_neg fun e => h (by rw [e])]

theorem weight_map_unit [DecidableEq D] [DecidableEq (D × Unit)] (c : Coll D) (d : D) (u : Unit) : weight (c.map fun d => (d, ())) (d, u) = weight c d :=
  weight_map_inj (f := fun d => (d, ())) (fun _ _ h => congrArg Prod.fst h) c d

theorem values_unit [DecidableEq D] (c : Coll D) (d : D) : (c.map fun d => (d, ())).values d = if weight c d = 0 then [] else [((), weight c d)] := by
  refine consolidatedPairs_unique (values_pairs _ _) ?_ fun u => ?_
  · split_ifs with h
    · exact ⟨List.Pairwise.nil, by simp⟩
    · exact ⟨List.pairwise_singleton _ _, by simpa using h⟩
  · rw [weight_values, weight_map_unit]
    split_ifs with h
    · simpa using h
    · rw [weight_cons, if_pos rfl, weight_nil, add_zero]

theorem weight_threshold [DecidableEq D] (f : D → Int → Int) (c : Coll D) (d : D) : weight (c.threshold f) d = if weight c d = 0 then 0 else f d (weight c d) := by
  unfold threshold
  rw [weight_map_fst_unit, weight_reduce, values_unit]
  by_cases h : weight c d = 0
  · simp [h]
  · simp only [if_neg h, List.cons_ne_nil, if_false, weight_cons, weight_nil, add_zero, if_true]

theorem weight_distinct [DecidableEq D] (c : Coll D) (d : D) : weight c.distinct d = if weight c d = 0 then 0 else 1 := weight_threshold _ c d

theorem weight_count [DecidableEq D] (c : Coll D) (d : D) (r : Int) : weight c.count (d, r) = if r ≠ 0 ∧ weight c d = r then 1 else 0 := by
  unfold count
  rw [weight_reduce, values_unit]
  by_cases h : weight c d = 0
  · rw [if_pos h, if_pos rfl, if_neg]
    rintro ⟨a, b⟩
    exact a (b.symm.trans h)
  · simp only [if_neg h, List.cons_ne_nil, if_false, weight_cons, weight_nil, add_zero]
    by_cases h2 : weight c d = r
    · simp [h2, h2 ▸ h]
    · simp [h2]

/-! ### Operators respect sameness -/

theorem Same.refl [DecidableEq D] (c : Coll D) : Same c c := fun _ => rfl
theorem Same.symm [DecidableEq D] {c c' : Coll D} (h : Same c c') : Same c' c := fun d => (h d).symm
theorem Same.trans [DecidableEq D] {c c' c'' : Coll D} (h : Same c c') (h' : Same c' c'') : Same c c'' := fun d => (h d).trans (h' d)
theorem Same.map [DecidableEq D] [DecidableEq D2] {c c' : Coll D} (h : Same c c') (f : D → D2) : Same (c.map f) (c'.map f) := fun d => by rw [weight_map, weight_map, lin_congr h]
theorem Same.flat_map [DecidableEq D] [DecidableEq D2] {c c' : Coll D} (h : Same c c') (f : D → List D2) : Same (c.flat_map f) (c'.flat_map f) :=
  fun d => by rw [weight_flat_map, weight_flat_map, lin_congr h]
theorem Same.filter [DecidableEq D] {c c' : Coll D} (h : Same c c') (p : D → Bool) : Same (c.filter p) (c'.filter p) := fun d => by rw [weight_filter, weight_filter, h d]
theorem Same.concat [DecidableEq D] {c c' e e' : Coll D} (h : Same c c') (h' : Same e e') : Same (c.concat e) (c'.concat e') := fun d => by rw [weight_concat, weight_concat, h d, h' d]
theorem Same.negate [DecidableEq D] {c c' : Coll D} (h : Same c c') : Same c.negate c'.negate := fun d => by rw [weight_negate, weight_negate, h d]
theorem Same.join_core [DecidableEq K] [DecidableEq V] [DecidableEq V2] [DecidableEq D] {c c' : Coll (K × V)} {e e' : Coll (K × V2)} (h : Same c c') (h' : Same e e')
    (f : K → V → V2 → List D) : Same (join_core f c e) (join_core f c' e') := fun d => by
  rw [weight_join_core, weight_join_core, lin_congr h]
  congr 1
  funext x
  exact lin_congr h' _
theorem Same.join_map [DecidableEq K] [DecidableEq V] [DecidableEq V2] [DecidableEq D] {c c' : Coll (K × V)} {e e' : Coll (K × V2)} (h : Same c c') (h' : Same e e')
    (f : K → V → V2 → D) : Same (join_map f c e) (join_map f c' e') := h.join_core h' _
theorem Same.semijoin [DecidableEq K] [DecidableEq V] {c c' : Coll (K × V)} {e e' : Coll K} (h : Same c c') (h' : Same e e') : Same (c.semijoin e) (c'.semijoin e') :=
  fun d => by rw [weight_semijoin, weight_semijoin, h _, h' _]
theorem Same.antijoin [DecidableEq K] [DecidableEq V] {c c' : Coll (K × V)} {e e' : Coll K} (h : Same c c') (h' : Same e e') : Same (c.antijoin e) (c'.antijoin e') :=
  fun d => by rw [weight_antijoin, weight_antijoin, h _, h' _]
theorem Same.consolidate [LinearOrder D] {c c' : Coll D} (h : Same c c') : Same c.consolidate c'.consolidate := fun d => by rw [weight_consolidate, weight_consolidate, h d]
theorem Same.reduce [DecidableEq K] [LinearOrder V] [DecidableEq V2] {c c' : Coll (K × V)} (h : Same c c') (f : K → List (V × Int) → List (V2 × Int)) :
    Same (c.reduce f) (c'.reduce f) := fun d => by rw [weight_reduce, weight_reduce, values_congr fun v => h (d.1, v)]
theorem Same.distinct [DecidableEq D] {c c' : Coll D} (h : Same c c') : Same c.distinct c'.distinct := fun d => by rw [weight_distinct, weight_distinct, h d]

/-! ### Collections without negative differences -/

theorem Nonneg.map [DecidableEq D] [DecidableEq D2] {c : Coll D} (h : c.Nonneg) (f : D → D2) : (c.map f).Nonneg := fun e => by
  rw [weight_map]
  exact (lin_pos h fun d => by split_ifs <;> simp).1

theorem Nonneg.map_pos [DecidableEq D] [DecidableEq D2] {c : Coll D} (h : c.Nonneg) (f : D → D2) (e : D2) : 0 < weight (c.map f) e ↔ ∃ d, 0 < weight c d ∧ f d = e := by
  rw [weight_map, (lin_pos h fun d => by split_ifs <;> simp).2]
  refine exists_congr fun d => and_congr_right fun _ => ?_
  split_ifs with h <;> simp [h]

theorem Nonneg.flat_map [DecidableEq D] [DecidableEq D2] {c : Coll D} (h : c.Nonneg) (f : D → List D2) : (c.flat_map f).Nonneg := fun e => by
  rw [weight_flat_map]
  exact (lin_pos h fun d => by simp).1

theorem Nonneg.flat_map_pos [DecidableEq D] [DecidableEq D2] {c : Coll D} (h : c.Nonneg) (f : D → List D2) (e : D2) : 0 < weight (c.flat_map f) e ↔ ∃ d, 0 < weight c d ∧ e ∈ f d := by
  rw [weight_flat_map, (lin_pos h fun d => by simp).2]
  refine exists_congr fun d => and_congr_right fun _ => ?_
  rw [← List.count_pos_iff]
  exact_mod_cast Iff.rfl

theorem Nonneg.filter [DecidableEq D] {c : Coll D} (h : c.Nonneg) (p : D → Bool) : (c.filter p).Nonneg := fun e => by
  rw [weight_filter]
  split_ifs
  exacts [h e, le_rfl]

theorem Nonneg.concat [DecidableEq D] {c c' : Coll D} (h : c.Nonneg) (h' : c'.Nonneg) : (c.concat c').Nonneg := fun e => by
  rw [weight_concat]
  exact add_nonneg (h e) (h' e)

theorem Nonneg.concat_pos [DecidableEq D] {c c' : Coll D} (h : c.Nonneg) (h' : c'.Nonneg) (d : D) : 0 < weight (c.concat c') d ↔ 0 < weight c d ∨ 0 < weight c' d := by
  rw [weight_concat]
  have := h d
  have := h' d
  omega

theorem Nonneg.consolidate [LinearOrder D] {c : Coll D} (h : c.Nonneg) : c.consolidate.Nonneg := fun e => by rw [weight_consolidate]; exact h e

theorem Nonneg.join_aux [DecidableEq K] [DecidableEq V] [DecidableEq V2] [DecidableEq D] {c : Coll (K × V)} {c' : Coll (K × V2)} (h : c.Nonneg) (h' : c'.Nonneg)
    (f : K → V → V2 → List D) (d : D) : 0 ≤ weight (Coll.join_core f c c') d ∧ (0 < weight (Coll.join_core f c c') d ↔ ∃ k v w, 0 < weight c (k, v) ∧ 0 < weight c' (k, w) ∧ d ∈ f k v w) := by
  rw [weight_join_core]
  have hin : ∀ x : K × V, ∀ y : K × V2, (0 : Int) ≤ if x.1 = y.1 then ((f x.1 x.2 y.2).count d : Int) else 0 := fun x y => by split_ifs <;> simp
  have hl := lin_pos h (g := fun x => lin (fun y => if x.1 = y.1 then ((f x.1 x.2 y.2).count d : Int) else 0) c') fun x => (lin_pos h' (hin x)).1
  refine ⟨hl.1, hl.2.trans ⟨?_, ?_⟩⟩
  · rintro ⟨⟨k, v⟩, h1, h2⟩
    obtain ⟨⟨k', w⟩, h3, h4⟩ := (lin_pos h' (hin (k, v))).2.1 h2
    by_cases e : k = k'
    · subst e
      simp only [if_true] at h4
      exact ⟨k, v, w, h1, h3, List.count_pos_iff.1 (by exact_mod_cast h4)⟩
    · simp [e] at h4
  · rintro ⟨k, v, w, h1, h2, h3⟩
    refine ⟨(k, v), h1, (lin_pos h' (hin (k, v))).2.2 ⟨(k, w), h2, ?_⟩⟩
    simp only [if_true]
    exact_mod_cast List.count_pos_iff.2 h3

theorem Nonneg.join_core [DecidableEq K] [DecidableEq V] [DecidableEq V2] [DecidableEq D] {c : Coll (K × V)} {c' : Coll (K × V2)} (h : c.Nonneg) (h' : c'.Nonneg)
    (f : K → V → V2 → List D) : (Coll.join_core f c c').Nonneg := fun d => (h.join_aux h' f d).1

theorem Nonneg.join_core_pos [DecidableEq K] [DecidableEq V] [DecidableEq V2] [DecidableEq D] {c : Coll (K × V)} {c' : Coll (K × V2)} (h : c.Nonneg) (h' : c'.Nonneg)
    (f : K → V → V2 → List D) (d : D) : 0 < weight (Coll.join_core f c c') d ↔ ∃ k v w, 0 < weight c (k, v) ∧ 0 < weight c' (k, w) ∧ d ∈ f k v w := (h.join_aux h' f d).2

theorem Nonneg.same [DecidableEq D] {c c' : Coll D} (h : c.Nonneg) (h' : Same c c') : c'.Nonneg := fun d => by rw [← h' d]; exact h d

end Coll
end DD
