import Verif.Model.PrefixSum
import Verif.Spec.PrefixSum
import Verif.Proofs.Dataflow

/-!
# Prefix sums are right
-/

namespace DD
variable {K D E T : Type*}

namespace Coll

theorem lin_congr_mul [DecidableEq E] {c c' : Coll E} {g g' : E → Int} (h : ∀ x, weight c x * g x = weight c' x * g' x) : lin g c = lin g' c' := by
  rw [lin_eq_sum g c ((List.map Prod.fst c).toFinset ∪ (List.map Prod.fst c').toFinset) fun x hx => Finset.mem_union_left _ (List.mem_toFinset.2 (List.mem_map_of_mem hx)),
    lin_eq_sum g' c' ((List.map Prod.fst c).toFinset ∪ (List.map Prod.fst c').toFinset) fun x hx => Finset.mem_union_right _ (List.mem_toFinset.2 (List.mem_map_of_mem hx))]
  simp only [h _]

theorem count_none [DecidableEq E] {a : E} {l : List E} (h : a ∉ l) : l.count a = 0 := List.count_eq_zero.2 h

theorem lin_zero [DecidableEq E] {c : Coll E} {g : E → Int} (h : ∀ x, weight c x * g x = 0) : lin g c = 0 := by
  rw [lin_congr_mul (c' := []) (g' := g) fun x => by rw [h, weight_nil, zero_mul]]
  rfl

theorem lin_single [DecidableEq E] {c : Coll E} {g : E → Int} (x0 : E) (h : ∀ x, x ≠ x0 → weight c x * g x = 0) : lin g c = weight c x0 * g x0 := by
  rw [lin_congr_mul (c' := [(x0, weight c x0)]) (g' := g) fun x => ?_, lin_cons, lin_nil, add_zero]
  rw [weight_cons, weight_nil]
  by_cases e : x = x0
  · subst e; simp
  · rw [h x e, if_neg (Ne.symm e)]; simp

theorem lin_map (f : D → E) (g : E → Int) (c : Coll D) : lin g (c.map f) = lin (fun x => g (f x)) c := by
  simp only [lin, map, List.map_map]
  rfl

theorem weight_map_none [DecidableEq E] (f : D → E) (c : Coll D) (e : E) (h : ∀ x, f x ≠ e) : weight (c.map f) e = 0 := by
  rw [weight_map]
  simp [h, lin]

end Coll

section
variable [LinearOrder K] [LinearOrder D]

/-! ### The ranges -/

theorem weight_unitRanges (c : Coll ((Nat × K) × D)) (p l : Nat) (k : K) (d : D) : weight (unitRanges c) ((p, l, k), d) = if l = 0 then weight c ((p, k), d) else 0 := by
  unfold unitRanges
  split_ifs with h
  · subst h
    exact Coll.weight_map_inj (f := fun x : (Nat × K) × D => ((x.1.1, 0, x.1.2), x.2))
      (by rintro ⟨⟨a, b⟩, e⟩ ⟨⟨a', b'⟩, e'⟩ h; simp only [Prod.mk.injEq] at h ⊢; tauto) c ((p, k), d)
  · refine Coll.weight_map_none _ _ _ fun x e => h ?_
    simp only [Prod.mk.injEq] at e
    exact e.1.2.1.symm

theorem weight_halveRanges (c : Coll ((Nat × Nat × K) × D)) (p l q : Nat) (k : K) (d : D) :
    weight (halveRanges c) ((p, l + 1, k), toLex (q, d)) = if q / 2 = p ∧ l < 64 then weight c ((q, l, k), d) else 0 := by
  unfold halveRanges
  by_cases h : q / 2 = p
  · subst h
    have := Coll.weight_map_inj (f := fun x : (Nat × Nat × K) × D => ((x.1.1 >>> 1, x.1.2.1 + 1, x.1.2.2), toLex (x.1.1, x.2)))
      (by
        rintro ⟨⟨a, b, k⟩, e⟩ ⟨⟨a', b', k'⟩, e'⟩ h
        simp only [Prod.mk.injEq, EmbeddingLike.apply_eq_iff_eq, Nat.add_right_cancel_iff] at h ⊢
        tauto) (c.filter fun x => decide (x.1.2.1 < 64)) ((q, l, k), d)
    simp only [Nat.shiftRight_one] at this ⊢
    rw [this, Coll.weight_filter]
    simp
  · rw [if_neg fun e => h e.1]
    refine Coll.weight_map_none _ _ _ fun x e => h ?_
    simp only [Prod.mk.injEq, EmbeddingLike.apply_eq_iff_eq, Nat.shiftRight_one] at e
    rw [← e.1.1, e.2.1]

theorem weight_halveRanges_zero (c : Coll ((Nat × Nat × K) × D)) (p : Nat) (k : K) (v : Nat ×ₗ D) : weight (halveRanges c) ((p, 0, k), v) = 0 := by
  refine Coll.weight_map_none _ _ _ fun x e => ?_
  simp only [Prod.mk.injEq] at e
  omega

theorem weight_rangesIter_zero (combine : K → D → D → D) (c : Coll ((Nat × K) × D)) (i p : Nat) (k : K) (d : D) : weight (rangesIter combine c i) ((p, 0, k), d) = weight c ((p, k), d) := by
  cases i with
  | zero => exact (weight_unitRanges ..).trans (if_pos rfl)
  | succ i =>
    show weight (Coll.concat _ _) _ = _
    rw [Coll.weight_concat, weight_unitRanges, if_pos rfl, Coll.weight_reduce, if_pos ((Coll.values_eq_nil _ _).2 fun v => weight_halveRanges_zero ..), zero_add]

theorem weight_rangesIter_succ (combine : K → D → D → D) (c : Coll ((Nat × K) × D)) (i p l : Nat) (k : K) (d : D) :
    weight (rangesIter combine c (i + 1)) ((p, l + 1, k), d) = weight (Coll.reduce (combineHalves combine) (halveRanges (rangesIter combine c i))) ((p, l + 1, k), d) := by
  show weight (Coll.concat _ _) _ = _
  rw [Coll.weight_concat, weight_unitRanges, if_neg (Nat.succ_ne_zero l), add_zero]

theorem rangesIter_level (combine : K → D → D → D) (c : Coll ((Nat × K) × D)) (l : Nat) :
    ∀ i j, l ≤ i → l ≤ j → ∀ p k d, weight (rangesIter combine c i) ((p, l, k), d) = weight (rangesIter combine c j) ((p, l, k), d) := by
  induction l with
  | zero => intro i j _ _ p k d; rw [weight_rangesIter_zero, weight_rangesIter_zero]
  | succ l ih =>
    intro i j hi hj p k d
    obtain ⟨i, rfl⟩ : ∃ i', i = i' + 1 := ⟨i - 1, by omega⟩
    obtain ⟨j, rfl⟩ : ∃ j', j = j' + 1 := ⟨j - 1, by omega⟩
    rw [weight_rangesIter_succ, weight_rangesIter_succ, Coll.weight_reduce, Coll.weight_reduce, Coll.values_congr (c' := halveRanges (rangesIter combine c j)) fun v => ?_]
    obtain ⟨⟨q, e⟩, rfl⟩ : ∃ q : Nat × D, v = toLex q := ⟨ofLex v, rfl⟩
    rw [weight_halveRanges, weight_halveRanges, ih i j (by omega) (by omega)]

theorem rangesIter_beyond (combine : K → D → D → D) (c : Coll ((Nat × K) × D)) (i p l : Nat) (hl : 64 < l) (k : K) (d : D) : weight (rangesIter combine c i) ((p, l, k), d) = 0 := by
  cases i with
  | zero => exact (weight_unitRanges ..).trans (if_neg (by omega))
  | succ i =>
    obtain ⟨l, rfl⟩ : ∃ l', l = l' + 1 := ⟨l - 1, by omega⟩
    rw [weight_rangesIter_succ, Coll.weight_reduce, if_pos]
    refine (Coll.values_eq_nil _ _).2 fun v => ?_
    obtain ⟨⟨q, e⟩, rfl⟩ : ∃ q : Nat × D, v = toLex q := ⟨ofLex v, rfl⟩
    rw [weight_halveRanges, if_neg (by omega)]

/-- After 64 rounds the ranges no longer change. -/
theorem rangesIter_stable (combine : K → D → D → D) (c : Coll ((Nat × K) × D)) {i j : Nat} (hi : 64 ≤ i) (hj : 64 ≤ j) : Coll.Same (rangesIter combine c i) (rangesIter combine c j) := by
  rintro ⟨⟨p, l, k⟩, d⟩
  by_cases hl : 64 < l
  · rw [rangesIter_beyond _ _ _ _ _ hl, rangesIter_beyond _ _ _ _ _ hl]
  · exact rangesIter_level combine c l i j (by omega) (by omega) p k d

omit [LinearOrder D] in
/-- The accumulation of the data in a block of a power of two positions. -/
def blockSum (combine : D → D → D) (f : Nat → Option D) : Nat → Nat → Option D
  | 0, p => f p
  | l + 1, p => match blockSum combine f l (2 * p), blockSum combine f l (2 * p + 1) with
    | none, b => b
    | some a, none => some a
    | some a, some b => some (combine a b)

theorem weight_rangesIter {combine : K → D → D → D} {c : Coll ((Nat × K) × D)} {f : Nat → K → Option D} (hf : ∀ i k d, weight c ((i, k), d) = if f i k = some d then 1 else 0) (l : Nat) :
    ∀ i, l ≤ i → l ≤ 64 → ∀ p k d, weight (rangesIter combine c i) ((p, l, k), d) = if blockSum (combine k) (f · k) l p = some d then 1 else 0 := by
  induction l with
  | zero => intro i _ _ p k d; rw [weight_rangesIter_zero, hf]; rfl
  | succ l ih =>
    intro i hi hl p k d
    obtain ⟨i, rfl⟩ : ∃ i', i = i' + 1 := ⟨i - 1, by omega⟩
    have ih := ih i (by omega) (by omega)
    rw [weight_rangesIter_succ, Coll.weight_reduce]
    have hw : ∀ (q : Nat) (e : D), weight (halveRanges (rangesIter combine c i)) ((p, l + 1, k), toLex (q, e)) =
        if q / 2 = p ∧ blockSum (combine k) (f · k) l q = some e then 1 else 0 := by
      intro q e
      rw [weight_halveRanges, ih]
      by_cases h1 : q / 2 = p
      · simp [h1, show l < 64 by omega]
      · simp [h1]
    have hv : ∀ vs : List ((Nat ×ₗ D) × Int), ConsolidatedPairs vs → (∀ (q : Nat) (e : D), weight vs (toLex (q, e)) = if q / 2 = p ∧ blockSum (combine k) (f · k) l q = some e then 1 else 0) →
        (halveRanges (rangesIter combine c i)).values (p, l + 1, k) = vs := by
      intro vs h1 h2
      refine consolidatedPairs_unique (Coll.values_pairs _ _) h1 fun v => ?_
      obtain ⟨⟨q, e⟩, rfl⟩ : ∃ q : Nat × D, v = toLex q := ⟨ofLex v, rfl⟩
      rw [Coll.weight_values, hw, h2]
    have hq : ∀ q, q / 2 = p ↔ q = 2 * p ∨ q = 2 * p + 1 := by intro q; omega
    unfold blockSum
    cases ha : blockSum (combine k) (f · k) l (2 * p) with
    | none =>
      cases hb : blockSum (combine k) (f · k) l (2 * p + 1) with
      | none =>
        rw [hv [] ⟨List.Pairwise.nil, by simp⟩]
        · simp
        · intro q e
          rw [weight_nil, if_neg]
          rintro ⟨h1, h2⟩
          rcases (hq q).1 h1 with rfl | rfl
          · rw [ha] at h2; cases h2
          · rw [hb] at h2; cases h2
      | some b =>
        rw [hv [(toLex (2 * p + 1, b), 1)] ⟨List.pairwise_singleton _ _, by simp⟩]
        · rw [if_neg (by simp)]
          simp only [combineHalves, weight_cons, weight_nil, add_zero, ofLex_toLex, Option.some.injEq]
        · intro q e
          rw [weight_cons, weight_nil, add_zero]
          simp only [EmbeddingLike.apply_eq_iff_eq, Prod.mk.injEq]
          refine if_congr ⟨?_, ?_⟩ rfl rfl
          · rintro ⟨rfl, rfl⟩; exact ⟨by omega, hb⟩
          · rintro ⟨h1, h2⟩
            rcases (hq q).1 h1 with rfl | rfl
            · rw [ha] at h2; cases h2
            · rw [hb] at h2; exact ⟨rfl, Option.some.inj h2⟩
    | some a =>
      cases hb : blockSum (combine k) (f · k) l (2 * p + 1) with
      | none =>
        rw [hv [(toLex (2 * p, a), 1)] ⟨List.pairwise_singleton _ _, by simp⟩]
        · rw [if_neg (by simp)]
          simp only [combineHalves, weight_cons, weight_nil, add_zero, ofLex_toLex, Option.some.injEq]
        · intro q e
          rw [weight_cons, weight_nil, add_zero]
          simp only [EmbeddingLike.apply_eq_iff_eq, Prod.mk.injEq]
          refine if_congr ⟨?_, ?_⟩ rfl rfl
          · rintro ⟨rfl, rfl⟩; exact ⟨by omega, ha⟩
          · rintro ⟨h1, h2⟩
            rcases (hq q).1 h1 with rfl | rfl
            · rw [ha] at h2; exact ⟨rfl, Option.some.inj h2⟩
            · rw [hb] at h2; cases h2
      | some b =>
        rw [hv [(toLex (2 * p, a), 1), (toLex (2 * p + 1, b), 1)] ⟨by
          refine List.pairwise_cons.2 ⟨fun x hx => ?_, List.pairwise_singleton _ _⟩
          rw [List.mem_singleton.1 hx]
          exact Prod.Lex.toLex_lt_toLex.2 (Or.inl (by simp)), by simp⟩]
        · rw [if_neg (by simp)]
          simp only [combineHalves, weight_cons, weight_nil, add_zero, ofLex_toLex, Option.some.injEq]
        · intro q e
          rw [weight_cons, weight_cons, weight_nil, add_zero]
          simp only [EmbeddingLike.apply_eq_iff_eq, Prod.mk.injEq]
          by_cases h1 : q = 2 * p
          · subst h1
            simp [ha, show 2 * p / 2 = p by omega]
          · by_cases h2 : q = 2 * p + 1
            · subst h2
              simp [hb, show (2 * p + 1) / 2 = p by omega]
            · rw [if_neg (by omega), if_neg (by omega), if_neg (by omega), add_zero]

/-! ### Blocks -/

omit [LinearOrder D] in
theorem prefixSum_block {combine : D → D → D} (assoc : ∀ a b c, combine (combine a b) c = combine a (combine b c)) (zero : D) (f : Nat → Option D) (l : Nat) :
    ∀ p, prefixSum combine zero f ((p + 1) * 2 ^ l) = match blockSum combine f l p with
      | none => prefixSum combine zero f (p * 2 ^ l)
      | some d => combine (prefixSum combine zero f (p * 2 ^ l)) d := by
  induction l with
  | zero => intro p; rw [pow_zero, Nat.mul_one, Nat.mul_one]; rfl
  | succ l ih =>
    intro p
    have e1 : (p + 1) * 2 ^ (l + 1) = (2 * p + 1 + 1) * 2 ^ l := by rw [pow_succ]; ring
    have e2 : p * 2 ^ (l + 1) = 2 * p * 2 ^ l := by rw [pow_succ]; ring
    rw [e1, e2, ih, ih]
    conv_rhs => rw [blockSum]
    cases blockSum combine f l (2 * p) <;> cases blockSum combine f l (2 * p + 1) <;> simp [assoc]

omit [LinearOrder D] in
theorem prefixSum_block_getD {combine : D → D → D} (assoc : ∀ a b c, combine (combine a b) c = combine a (combine b c)) {zero : D} (right : ∀ a, combine a zero = a) (f : Nat → Option D)
    (l p : Nat) : prefixSum combine zero f ((p + 1) * 2 ^ l) = combine (prefixSum combine zero f (p * 2 ^ l)) ((blockSum combine f l p).getD zero) := by
  rw [prefixSum_block assoc]
  cases blockSum combine f l p with
  | none => exact (right _).symm
  | some d => rfl

theorem odd_pow_unique : ∀ {l j a b : Nat}, (2 * a + 1) * 2 ^ l = (2 * b + 1) * 2 ^ j → a = b ∧ l = j
  | 0, 0, a, b, h => by simp at h; exact ⟨h, rfl⟩
  | 0, j + 1, a, b, h => by
    have : (2 * a + 1) * 2 ^ 0 % 2 = (2 * b + 1) * 2 ^ (j + 1) % 2 := by rw [h]
    rw [pow_succ, ← Nat.mul_assoc, Nat.mul_mod_left, pow_zero] at this
    omega
  | l + 1, 0, a, b, h => by
    have : (2 * a + 1) * 2 ^ (l + 1) % 2 = (2 * b + 1) * 2 ^ 0 % 2 := by rw [h]
    rw [pow_succ, ← Nat.mul_assoc, Nat.mul_mod_left, pow_zero] at this
    omega
  | l + 1, j + 1, a, b, h => by
    rw [pow_succ, pow_succ, ← Nat.mul_assoc, ← Nat.mul_assoc] at h
    obtain ⟨h1, h2⟩ := odd_pow_unique (Nat.eq_of_mul_eq_mul_right (by omega) h)
    exact ⟨h1, by rw [h2]⟩

theorem exists_odd_pow {p : Nat} (h : p ≠ 0) : ∃ m l, p = (2 * m + 1) * 2 ^ l := by
  induction p using Nat.strong_induction_on with
  | _ p ih =>
    rcases Nat.even_or_odd' p with ⟨q, e | e⟩
    · obtain ⟨m, l, hq⟩ := ih q (by omega) (by omega)
      exact ⟨m, l + 1, by rw [e, pow_succ, ← Nat.mul_assoc, ← hq, Nat.mul_comm]⟩
    · exact ⟨q, 0, by rw [e, pow_zero, Nat.mul_one]⟩

theorem exists_odd_pow_mul {m l : Nat} (h : m * 2 ^ l ≠ 0) : ∃ m' l', m * 2 ^ l = (2 * m' + 1) * 2 ^ l' ∧ l ≤ l' := by
  obtain ⟨m', e, rfl⟩ := exists_odd_pow (p := m) (by rintro rfl; simp at h)
  exact ⟨m', l + e, by rw [pow_add]; ring, by omega⟩

/-! ### Requests -/

/-- A range that a query can ask for. -/
def ProperRange (a l : Nat) : Prop := ∃ idx m, idx < 2 ^ 64 ∧ l < 64 ∧ idx / 2 ^ l = 2 * m + 1 ∧ a = 2 * m

theorem ProperRange.ends {a l : Nat} (h : ProperRange a l) : shlUsize a l = a * 2 ^ l ∧ addUsize (shlUsize a l) (shlUsize 1 l) = (a + 1) * 2 ^ l := by
  obtain ⟨idx, m, h1, h2, h3, rfl⟩ := h
  have e1 : (2 * m + 1) * 2 ^ l ≤ idx := by rw [← h3]; exact Nat.div_mul_le_self idx _
  have e2 : (2 : Nat) ^ l < 2 ^ 64 := Nat.pow_lt_pow_right (by omega) h2
  have e3 : (2 * m + 1) * 2 ^ l = 2 * m * 2 ^ l + 2 ^ l := by ring
  have e4 := Nat.two_pow_pos l
  unfold addUsize shlUsize
  rw [Nat.shiftLeft_eq, Nat.shiftLeft_eq, Nat.one_mul, Nat.mod_eq_of_lt (by omega : 2 * m * 2 ^ l < 2 ^ 64), Nat.mod_eq_of_lt e2, Nat.mod_eq_of_lt (by omega)]
  exact ⟨rfl, e3.symm⟩

omit [LinearOrder K] in
theorem mem_queryRanges (idx : Nat) (k : K) (r : Nat × Nat × K) :
    r ∈ queryRanges (idx, k) ↔ r.2.1 < 64 ∧ r.2.2 = k ∧ ∃ m, idx / 2 ^ r.2.1 = 2 * m + 1 ∧ r.1 = 2 * m := by
  obtain ⟨a, l, k'⟩ := r
  unfold queryRanges
  simp only [List.mem_map, List.mem_filter, List.mem_range, Nat.testBit_eq_decide_div_mod_eq, decide_eq_true_eq, Prod.mk.injEq, Nat.shiftRight_eq_div_pow]
  constructor
  · rintro ⟨i, ⟨h1, h2⟩, h3, rfl, rfl⟩
    exact ⟨h1, rfl, idx / 2 ^ i / 2, by omega, by omega⟩
  · rintro ⟨h1, rfl, m, h2, rfl⟩
    exact ⟨l, ⟨h1, by omega⟩, by omega, rfl, rfl⟩

/-- The queries ask for a range. -/
def Asks (queries : Coll (Nat × K)) (r : Nat × Nat × K) : Prop := ∃ idx, 0 < weight queries (idx, r.2.2) ∧ r ∈ queryRanges (idx, r.2.2)

open Classical in
theorem weight_requestRanges {queries : Coll (Nat × K)} (hn : queries.Nonneg) (r : Nat × Nat × K) : weight (requestRanges queries) r = if Asks queries r then 1 else 0 := by
  unfold requestRanges
  rw [Coll.weight_distinct]
  have h := hn.flat_map_pos queryRanges r
  have hn' := hn.flat_map queryRanges r
  have e : (0 < weight (queries.flat_map queryRanges) r) ↔ Asks queries r := by
    rw [h]
    constructor
    · rintro ⟨⟨idx, k⟩, h1, h2⟩
      obtain rfl := ((mem_queryRanges idx k r).1 h2).2.1
      exact ⟨idx, h1, h2⟩
    · rintro ⟨idx, h1, h2⟩
      exact ⟨_, h1, h2⟩
  by_cases ha : Asks queries r
  · rw [if_pos ha, if_neg (e.2 ha).ne']
  · rw [if_neg ha, if_pos]
    exact le_antisymm (not_lt.1 fun h => ha (e.1 h)) hn'

theorem proper_of_request {queries : Coll (Nat × K)} (hq : ∀ x, weight queries x ≠ 0 → x.1 < 2 ^ 64) {r : Nat × Nat × K} (h : weight (requestRanges queries) r ≠ 0) : ProperRange r.1 r.2.1 := by
  unfold requestRanges at h
  rw [Coll.weight_distinct] at h
  have h1 : weight (queries.flat_map queryRanges) r ≠ 0 := by intro e; rw [if_pos e] at h; exact h rfl
  rw [Coll.weight_flat_map] at h1
  by_contra hc
  refine h1 (Coll.lin_zero fun x => ?_)
  by_cases hx : weight queries x = 0
  · rw [hx, zero_mul]
  · rw [Coll.count_none, Nat.cast_zero, mul_zero]
    intro hm
    obtain ⟨e1, -, m, e2, e3⟩ := (mem_queryRanges x.1 x.2 r).1 hm
    exact hc ⟨x.1, m, hq x hx, e1, e2, e3⟩

theorem proper_of_used {zero : D} {ranges : Coll ((Nat × Nat × K) × D)} {queries : Coll (Nat × K)} (hq : ∀ x, weight queries x ≠ 0 → x.1 < 2 ^ 64) {x : (Nat × Nat × K) × D}
    (h : weight (usedRanges zero ranges queries) x ≠ 0) : ProperRange x.1.1 x.1.2.1 := by
  refine proper_of_request hq fun e => h ?_
  obtain ⟨r, d⟩ := x
  have e1 : ∀ d, weight (ranges.semijoin (requestRanges queries)) (r, d) = 0 := by
    intro d
    rw [Coll.weight_semijoin, e, mul_zero]
  unfold usedRanges zeroRanges
  rw [Coll.weight_concat, Coll.weight_concat, Coll.weight_negate, e1, Coll.weight_map, Coll.weight_map, Coll.lin_zero fun x => ?_, Coll.lin_zero fun x => ?_]
  · rfl
  · by_cases h1 : x = r
    · subst h1; rw [e, zero_mul]
    · rw [if_neg (by rintro e; exact h1 (congrArg Prod.fst e)), mul_zero]
  · obtain ⟨r', d'⟩ := x
    by_cases h1 : r' = r
    · subst h1; rw [e1, zero_mul]
    · rw [if_neg (by rintro e; exact h1 (congrArg Prod.fst e)), mul_zero]

open Classical in
theorem weight_usedRanges {zero : D} {ranges : Coll ((Nat × Nat × K) × D)} {queries : Coll (Nat × K)} (hn : queries.Nonneg) {b : Nat × Nat × K → Option D}
    (hb : ∀ r, r.2.1 < 64 → ∀ d, weight ranges (r, d) = if b r = some d then 1 else 0) (r : Nat × Nat × K) (d : D) :
    weight (usedRanges zero ranges queries) (r, d) = if Asks queries r ∧ (b r).getD zero = d then 1 else 0 := by
  have hs : ∀ r d, weight (ranges.semijoin (requestRanges queries)) (r, d) = if Asks queries r ∧ b r = some d then 1 else 0 := by
    intro r d
    rw [Coll.weight_semijoin, weight_requestRanges hn]
    by_cases ha : Asks queries r
    · obtain ⟨idx, -, h2⟩ := id ha
      rw [hb r ((mem_queryRanges idx _ r).1 h2).1]
      by_cases h : b r = some d <;> simp [ha, h]
    · simp [ha]
  unfold usedRanges zeroRanges
  rw [Coll.weight_concat, Coll.weight_concat, Coll.weight_negate, hs]
  have e1 : weight ((requestRanges queries).map fun x => (x, zero)) (r, d) = if Asks queries r ∧ zero = d then 1 else 0 := by
    by_cases hd : zero = d
    · subst hd
      have := Coll.weight_map_inj (f := fun x : Nat × Nat × K => (x, zero)) (fun a b h => congrArg Prod.fst h) (requestRanges queries) r
      rw [this, weight_requestRanges hn]
      simp
    · rw [if_neg fun e => hd e.2]
      exact Coll.weight_map_none _ _ _ fun x e => hd (congrArg Prod.snd e)
  have e2 : weight ((ranges.semijoin (requestRanges queries)).map fun x => (x.1, zero)) (r, d) = if Asks queries r ∧ (b r).isSome ∧ zero = d then 1 else 0 := by
    by_cases hd : zero = d
    · subst hd
      rw [Coll.weight_map]
      cases hbr : b r with
      | none =>
        rw [Coll.lin_zero, if_neg (by simp)]
        rintro ⟨r', d'⟩
        by_cases h1 : r' = r
        · subst h1; rw [hs, hbr]; simp
        · rw [if_neg (by rintro e; exact h1 (congrArg Prod.fst e)), mul_zero]
      | some v =>
        rw [Coll.lin_single (r, v), hs, hbr]
        · simp
        · rintro ⟨r', d'⟩ hne
          by_cases h1 : r' = r
          · subst h1
            rw [hs, hbr, if_neg, zero_mul]
            rintro ⟨-, h⟩
            exact hne (by rw [Option.some.inj h])
          · rw [if_neg (by rintro e; exact h1 (congrArg Prod.fst e)), mul_zero]
    · rw [if_neg fun e => hd e.2.2]
      exact Coll.weight_map_none _ _ _ fun x e => hd (congrArg Prod.snd e)
  rw [e1, e2]
  by_cases ha : Asks queries r
  · cases hbr : b r with
    | none => simp [ha]
    | some v => by_cases hd : zero = d <;> simp [ha, hd]
  · simp [ha]

/-! ### States -/

/-- Each key that is asked about. -/
theorem weight_initStates_of_ne (zero : D) (queries : Coll (Nat × K)) {p : Nat} (hp : p ≠ 0) (k : K) (s : D) : weight (initStates zero queries) ((p, k), s) = 0 := by
  unfold initStates
  rw [Coll.weight_distinct, if_pos]
  refine Coll.weight_map_none _ _ _ fun x e => hp ?_
  exact (congrArg (fun y => y.1.1) e).symm

theorem distinct_initStates (zero : D) (queries : Coll (Nat × K)) : Coll.Same (initStates zero queries).distinct (initStates zero queries) := by
  intro x
  unfold initStates
  rw [Coll.weight_distinct, Coll.weight_distinct]
  split_ifs <;> simp_all

open Classical in
theorem weight_initStates {zero : D} {queries : Coll (Nat × K)} (hn : queries.Nonneg) (k : K) (s : D) :
    weight (initStates zero queries) ((0, k), s) = if (∃ idx, 0 < weight queries (idx, k)) ∧ zero = s then 1 else 0 := by
  unfold initStates
  rw [Coll.weight_distinct]
  have h := hn.map_pos (fun x : Nat × K => ((0, x.2), zero)) ((0, k), s)
  have h0 := hn.map (fun x : Nat × K => ((0, x.2), zero)) ((0, k), s)
  have e : (0 < weight (queries.map fun x => ((0, x.2), zero)) ((0, k), s)) ↔ (∃ idx, 0 < weight queries (idx, k)) ∧ zero = s := by
    rw [h]
    constructor
    · rintro ⟨⟨idx, k'⟩, h1, h2⟩
      simp only [Prod.mk.injEq, true_and] at h2
      obtain ⟨rfl, rfl⟩ := h2
      exact ⟨⟨idx, h1⟩, rfl⟩
    · rintro ⟨⟨idx, h1⟩, rfl⟩
      exact ⟨_, h1, rfl⟩
  split_ifs with h1 h2 h2
  · rw [← e, h1] at h2; exact absurd h2 (lt_irrefl _)
  · rfl
  · rfl
  · exact absurd (le_antisymm (not_lt.1 fun h => h2 (e.1 h)) h0) h1

theorem weight_stepStates_raw (combine : K → D → D → D) (used : Coll ((Nat × Nat × K) × D)) (states : Coll ((Nat × K) × D)) (p : Nat) (k : K) (s : D) :
    weight (stepStates combine used states) ((p, k), s) = Coll.lin (fun x => Coll.lin (fun y => if (shlUsize x.1.1 x.1.2.1, x.1.2.2) = y.1 ∧
      ((addUsize (shlUsize x.1.1 x.1.2.1) (shlUsize 1 x.1.2.1), x.1.2.2), combine x.1.2.2 y.2 x.2) = ((p, k), s) then 1 else 0) states) used := by
  unfold stepStates Coll.join_map
  rw [Coll.weight_join_core, Coll.lin_map]
  congr 1
  funext x
  congr 1
  funext y
  by_cases h : (shlUsize x.1.1 x.1.2.1, x.1.2.2) = y.1
  · rw [if_pos h]
    simp only [h, true_and, List.count_cons, List.count_nil, beq_iff_eq]
    split_ifs <;> rfl
  · simp [h]

theorem weight_stepStates_zero {combine : K → D → D → D} {used : Coll ((Nat × Nat × K) × D)} (hu : ∀ x, weight used x ≠ 0 → ProperRange x.1.1 x.1.2.1) (states : Coll ((Nat × K) × D)) (k : K) (s : D) :
    weight (stepStates combine used states) ((0, k), s) = 0 := by
  rw [weight_stepStates_raw]
  refine Coll.lin_zero fun x => ?_
  by_cases hx : weight used x = 0
  · rw [hx, zero_mul]
  · have h := (hu x hx).ends.2
    rw [Coll.lin_zero, mul_zero]
    intro y
    rw [if_neg, mul_zero]
    rintro ⟨-, e⟩
    simp only [Prod.mk.injEq] at e
    exact (Nat.mul_pos (Nat.succ_pos x.1.1) (Nat.two_pow_pos x.1.2.1)).ne' (h.symm.trans e.1.1)

theorem weight_stepStates {combine : K → D → D → D} {used : Coll ((Nat × Nat × K) × D)} (hu : ∀ x, weight used x ≠ 0 → ProperRange x.1.1 x.1.2.1) (states : Coll ((Nat × K) × D)) (m l : Nat) (k : K) (s : D) :
    weight (stepStates combine used states) (((2 * m + 1) * 2 ^ l, k), s) =
      Coll.lin (fun x => Coll.lin (fun y => if x.1 = (2 * m, l, k) ∧ y.1 = (m * 2 ^ (l + 1), k) ∧ combine k y.2 x.2 = s then 1 else 0) states) used := by
  rw [weight_stepStates_raw]
  refine Coll.lin_congr_mul fun x => ?_
  by_cases hx : weight used x = 0
  · rw [hx, zero_mul, zero_mul]
  · have hp := hu x hx
    obtain ⟨h1, h2⟩ := hp.ends
    obtain ⟨idx, m', -, -, -, h3⟩ := hp
    congr 2
    funext y
    refine if_congr ?_ rfl rfl
    rw [h2, h1]
    obtain ⟨⟨a, l', k'⟩, d⟩ := x
    obtain ⟨⟨q, k2⟩, s2⟩ := y
    simp only [Prod.mk.injEq] at h3 ⊢
    subst h3
    constructor
    · rintro ⟨⟨rfl, rfl⟩, ⟨e1, rfl⟩, e2⟩
      obtain ⟨rfl, rfl⟩ := odd_pow_unique e1
      exact ⟨⟨rfl, rfl, rfl⟩, ⟨by rw [pow_succ]; ring, rfl⟩, e2⟩
    · rintro ⟨⟨e1, rfl, rfl⟩, ⟨e2, rfl⟩, e3⟩
      obtain rfl : m' = m := by omega
      exact ⟨⟨by rw [e2, pow_succ]; ring, rfl⟩, ⟨rfl, rfl⟩, e3⟩

section iter
variable {zero : D} {combine : K → D → D → D} {used : Coll ((Nat × Nat × K) × D)} {queries : Coll (Nat × K)}

theorem weight_statesIter_succ (i : Nat) (x : (Nat × K) × D) : weight (statesIter zero combine used queries (i + 1)) x =
    if weight (stepStates combine used (statesIter zero combine used queries i)) x + weight (initStates zero queries) x = 0 then 0 else 1 := by
  show weight (Coll.distinct _) _ = _
  rw [Coll.weight_distinct, Coll.weight_concat]

theorem statesIter_zero_pos (hu : ∀ x, weight used x ≠ 0 → ProperRange x.1.1 x.1.2.1) (i : Nat) (k : K) (s : D) :
    weight (statesIter zero combine used queries i) ((0, k), s) = weight (initStates zero queries) ((0, k), s) := by
  cases i with
  | zero => rfl
  | succ i =>
    rw [weight_statesIter_succ, weight_stepStates_zero hu, zero_add]
    have := distinct_initStates zero queries ((0, k), s)
    rwa [Coll.weight_distinct] at this

theorem statesIter_level (hu : ∀ x, weight used x ≠ 0 → ProperRange x.1.1 x.1.2.1) (i : Nat) : ∀ j m l, i ≤ j → 64 ≤ l + i → ∀ k s,
    weight (statesIter zero combine used queries i) ((m * 2 ^ l, k), s) = weight (statesIter zero combine used queries j) ((m * 2 ^ l, k), s) := by
  induction i with
  | zero =>
    intro j m l _ hl k s
    by_cases h0 : m * 2 ^ l = 0
    · rw [h0, statesIter_zero_pos hu, statesIter_zero_pos hu]
    · cases j with
      | zero => rfl
      | succ j =>
        rw [weight_statesIter_succ, show statesIter zero combine used queries 0 = initStates zero queries from rfl, weight_initStates_of_ne _ _ h0, add_zero]
        obtain ⟨m', l', e, hl'⟩ := exists_odd_pow_mul h0
        rw [e, weight_stepStates hu, Coll.lin_zero, if_pos rfl]
        rintro ⟨⟨a, l2, k2⟩, d⟩
        by_cases hx : weight used ((a, l2, k2), d) = 0
        · rw [hx, zero_mul]
        · obtain ⟨-, -, -, h, -⟩ := hu _ hx
          rw [Coll.lin_zero, mul_zero]
          intro y
          rw [if_neg, mul_zero]
          rintro ⟨e1, -⟩
          simp only [Prod.mk.injEq] at e1 h
          omega
  | succ i ih =>
    intro j m l hj hl k s
    obtain ⟨j, rfl⟩ : ∃ j', j = j' + 1 := ⟨j - 1, by omega⟩
    by_cases h0 : m * 2 ^ l = 0
    · rw [h0, statesIter_zero_pos hu, statesIter_zero_pos hu]
    · obtain ⟨m', l', e, hl'⟩ := exists_odd_pow_mul h0
      rw [weight_statesIter_succ, weight_statesIter_succ, e, weight_stepStates hu, weight_stepStates hu]
      have : (fun x : (Nat × Nat × K) × D => Coll.lin (fun y => if x.1 = (2 * m', l', k) ∧ y.1 = (m' * 2 ^ (l' + 1), k) ∧ combine k y.2 x.2 = s then 1 else 0) (statesIter zero combine used queries i)) =
          fun x => Coll.lin (fun y => if x.1 = (2 * m', l', k) ∧ y.1 = (m' * 2 ^ (l' + 1), k) ∧ combine k y.2 x.2 = s then 1 else 0) (statesIter zero combine used queries j) := by
        funext x
        refine Coll.lin_congr_mul fun ⟨q, s'⟩ => ?_
        by_cases hq : q = (m' * 2 ^ (l' + 1), k)
        · rw [hq, ih j m' (l' + 1) (by omega) (by omega)]
        · simp [hq]
      rw [this]

/-- After 64 rounds the states no longer change. -/
theorem statesIter_stable (hu : ∀ x, weight used x ≠ 0 → ProperRange x.1.1 x.1.2.1) {i j : Nat} (hi : 64 ≤ i) (hj : 64 ≤ j) :
    Coll.Same (statesIter zero combine used queries i) (statesIter zero combine used queries j) := by
  rintro ⟨⟨p, k⟩, s⟩
  have := fun j hj => statesIter_level (zero := zero) (combine := combine) (queries := queries) hu 64 j p 0 hj (by omega) k s
  simp only [pow_zero, Nat.mul_one] at this
  rw [← this i hi, ← this j hj]

/-- A position on the way to a query. -/
def Reach (queries : Coll (Nat × K)) (p : Nat) (k : K) : Prop := ∃ idx j, 0 < weight queries (idx, k) ∧ p = idx / 2 ^ j * 2 ^ j

theorem reach_zero (hq : ∀ x, weight queries x ≠ 0 → x.1 < 2 ^ 64) (k : K) : Reach queries 0 k ↔ ∃ idx, 0 < weight queries (idx, k) := by
  constructor
  · rintro ⟨idx, j, h, -⟩; exact ⟨idx, h⟩
  · rintro ⟨idx, h⟩
    exact ⟨idx, 64, h, by rw [Nat.div_eq_of_lt (hq _ h.ne'), Nat.zero_mul]⟩

theorem reach_odd (hq : ∀ x, weight queries x ≠ 0 → x.1 < 2 ^ 64) (m l : Nat) (k : K) : Reach queries ((2 * m + 1) * 2 ^ l) k ↔ Asks queries (2 * m, l, k) := by
  constructor
  · rintro ⟨idx, j, h, e⟩
    have hidx := hq _ h.ne'
    have hjl : j ≤ l := by
      by_contra hlt
      obtain ⟨r, rfl⟩ : ∃ r, j = l + 1 + r := ⟨j - l - 1, by omega⟩
      have : (2 * m + 1) * 2 ^ l = (2 * (idx / 2 ^ (l + 1 + r) * 2 ^ r)) * 2 ^ l := by
        rw [e, pow_add _ (l + 1) r, pow_succ]; ring
      have := Nat.eq_of_mul_eq_mul_right (Nat.two_pow_pos l) this
      omega
    obtain ⟨r, rfl⟩ : ∃ r, l = j + r := ⟨l - j, by omega⟩
    have e1 : idx / 2 ^ j = (2 * m + 1) * 2 ^ r := by
      refine Nat.eq_of_mul_eq_mul_right (Nat.two_pow_pos j) ?_
      rw [← e, pow_add]; ring
    have e2 : idx / 2 ^ (j + r) = 2 * m + 1 := by
      rw [pow_add, ← Nat.div_div_eq_div_mul, e1, Nat.mul_div_cancel _ (Nat.two_pow_pos r)]
    refine ⟨idx, h, (mem_queryRanges _ _ _).2 ⟨?_, rfl, m, e2, rfl⟩⟩
    by_contra hge
    rw [Nat.div_eq_of_lt (lt_of_lt_of_le hidx (Nat.pow_le_pow_right (by omega) (not_lt.1 hge)))] at e2
    omega
  · rintro ⟨idx, h, hm⟩
    obtain ⟨-, -, m', h1, h2⟩ := (mem_queryRanges _ _ _).1 hm
    simp only at h1 h2
    obtain rfl : m = m' := by omega
    exact ⟨idx, l, h, by rw [h1]⟩

theorem reach_before {m l : Nat} {k : K} (h : Asks queries (2 * m, l, k)) : Reach queries (m * 2 ^ (l + 1)) k := by
  obtain ⟨idx, h, hm⟩ := h
  obtain ⟨-, -, m', h1, h2⟩ := (mem_queryRanges _ _ _).1 hm
  simp only at h1 h2
  refine ⟨idx, l + 1, h, ?_⟩
  rw [pow_succ, ← Nat.div_div_eq_div_mul, h1]
  congr 1
  omega

open Classical in
theorem weight_statesIter {f : Nat → K → Option D} (assoc : ∀ k a b c, combine k (combine k a b) c = combine k a (combine k b c)) (right : ∀ k a, combine k a zero = a)
    (hn : queries.Nonneg) (hq : ∀ x, weight queries x ≠ 0 → x.1 < 2 ^ 64)
    (hu : ∀ r d, weight used (r, d) = if Asks queries r ∧ (blockSum (combine r.2.2) (f · r.2.2) r.2.1 r.1).getD zero = d then 1 else 0) (i : Nat) : ∀ m l, 64 ≤ l + i → ∀ k s,
    weight (statesIter zero combine used queries i) ((m * 2 ^ l, k), s) = if Reach queries (m * 2 ^ l) k ∧ prefixSum (combine k) zero (f · k) (m * 2 ^ l) = s then 1 else 0 := by
  have hu' : ∀ x, weight used x ≠ 0 → ProperRange x.1.1 x.1.2.1 := by
    rintro ⟨r, d⟩ h
    rw [hu] at h
    have ha : Asks queries r := by by_contra e; exact h (if_neg fun e' => e e'.1)
    obtain ⟨idx, h1, h2⟩ := ha
    obtain ⟨e1, -, m, e2, e3⟩ := (mem_queryRanges _ _ _).1 h2
    exact ⟨idx, m, hq _ h1.ne', e1, e2, e3⟩
  have at0 : ∀ i k s, weight (statesIter zero combine used queries i) ((0, k), s) = if Reach queries 0 k ∧ prefixSum (combine k) zero (f · k) 0 = s then 1 else 0 := by
    intro i k s
    rw [statesIter_zero_pos hu', weight_initStates hn, reach_zero hq]
    rfl
  induction i with
  | zero =>
    intro m l hl k s
    by_cases h0 : m * 2 ^ l = 0
    · rw [h0]; exact at0 0 k s
    · rw [show statesIter zero combine used queries 0 = initStates zero queries from rfl, weight_initStates_of_ne _ _ h0, if_neg]
      rintro ⟨⟨idx, j, h1, h2⟩, -⟩
      have h3 := hq _ h1.ne'
      have h4 := Nat.div_mul_le_self idx (2 ^ j)
      have h5 : (2 : Nat) ^ 64 ≤ 2 ^ l := Nat.pow_le_pow_right (by omega) (by omega)
      have h6 : 2 ^ l ≤ m * 2 ^ l := Nat.le_mul_of_pos_left _ (Nat.pos_of_ne_zero (by rintro rfl; simp at h0))
      simp only at h3
      omega
  | succ i ih =>
    intro m l hl k s
    by_cases h0 : m * 2 ^ l = 0
    · rw [h0]; exact at0 (i + 1) k s
    · obtain ⟨m', l', e, hl'⟩ := exists_odd_pow_mul h0
      rw [weight_statesIter_succ, weight_initStates_of_ne _ _ h0, add_zero, e, weight_stepStates hu']
      have ih := ih m' (l' + 1) (by omega) k
      have hp := prefixSum_block_getD (assoc k) (right k) (f · k) l' (2 * m')
      rw [show 2 * m' * 2 ^ l' = m' * 2 ^ (l' + 1) by rw [pow_succ]; ring] at hp
      by_cases ha : Asks queries (2 * m', l', k)
      · have w1 := hu (2 * m', l', k) ((blockSum (combine k) (f · k) l' (2 * m')).getD zero)
        rw [if_pos ⟨ha, rfl⟩] at w1
        have w2 := ih (prefixSum (combine k) zero (f · k) (m' * 2 ^ (l' + 1)))
        rw [if_pos ⟨reach_before ha, rfl⟩] at w2
        rw [Coll.lin_single ((2 * m', l', k), (blockSum (combine k) (f · k) l' (2 * m')).getD zero), w1, one_mul,
          Coll.lin_single ((m' * 2 ^ (l' + 1), k), prefixSum (combine k) zero (f · k) (m' * 2 ^ (l' + 1))), w2, one_mul, hp]
        · simp only [true_and, (reach_odd hq m' l' k).2 ha]
          split_ifs <;> simp_all
        · rintro ⟨q, s'⟩ hne
          by_cases hq' : q = (m' * 2 ^ (l' + 1), k)
          · subst hq'
            rw [ih, if_neg, zero_mul]
            rintro ⟨-, rfl⟩
            exact hne rfl
          · simp [hq']
        · rintro ⟨r, d⟩ hne
          by_cases hr : r = (2 * m', l', k)
          · subst hr
            rw [hu, if_neg, zero_mul]
            rintro ⟨-, rfl⟩
            exact hne rfl
          · rw [Coll.lin_zero, mul_zero]
            intro y
            simp [hr]
      · rw [Coll.lin_zero, if_pos rfl, if_neg]
        · rintro ⟨h, -⟩
          exact ha ((reach_odd hq m' l' k).1 h)
        · rintro ⟨r, d⟩
          by_cases hr : r = (2 * m', l', k)
          · subst hr
            rw [hu, if_neg fun e => ha e.1, zero_mul]
          · rw [Coll.lin_zero, mul_zero]
            intro y
            simp [hr]

end iter
end
end DD
