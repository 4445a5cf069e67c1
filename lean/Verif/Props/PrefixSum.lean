import Verif.Proofs.PrefixSumRun

/-!
# C56: prefix sums

`data` has at most one datum for each position and key, with difference one: at the time in question, `f i k` is the datum of key `k` at position `i`, if there is one.
-/

namespace DD
variable {K D T : Type*} [LinearOrder K] [LinearOrder D] [PartialOrder T] [DecidableLE T] [DecidableEq T] {zero : D} {combine : K → D → D → D} {data : Nat → Upds ((Nat × K) × D) T Int}

section
variable {locations : Nat → Upds (Nat × K) T Int} {out : Nat → Upds ((Nat × K) × D) T Int} {n0 : Nat} {t : T} {f : Nat → K → Option D}

omit [LinearOrder D] [DecidableEq T] in
theorem locations_usize (usize : ∀ u ∈ locations n0, u.1.1 < 2 ^ 64) {t' : T} {x : Nat × K} (hx : weight (collectionAt (locations n0) t') x ≠ 0) : x.1 < 2 ^ 64 := by
  obtain ⟨r, hr⟩ := Coll.exists_of_weight hx
  obtain ⟨u, hu, e⟩ := List.mem_map.1 hr
  have := usize u (List.mem_filter.1 hu).1
  rwa [show u.1 = x from congrArg Prod.fst e] at this

theorem prefix_sums_aux (h : PrefixSumAt zero combine data locations out) (assoc : ∀ k a b c, combine k (combine k a b) c = combine k a (combine k b c)) (right : ∀ k a, combine k a zero = a)
    (sD : Settled data n0 t) {Q : T → Coll (Nat × K)} (hQ : ∀ t', t' ≤ t → Holds locations t' (Q t')) (hq : ∀ t', t' ≤ t → ∀ x, weight (Q t') x ≠ 0 → x.1 < 2 ^ 64) (hn : (Q t).Nonneg)
    (hf : ∀ i k d, accum (data n0) ((i, k), d) t = if f i k = some d then 1 else 0) :
    ∃ n, Settled out n t ∧ ∀ i k v, accum (out n) ((i, k), v) t = if prefixSum (combine k) zero (f · k) i = v then weight (Q t) (i, k) else 0 := by
  obtain ⟨A, B, hA, hB, rfl⟩ := h
  obtain ⟨n, h1, h2⟩ := broadcast_out hB (fun t' ht' => aggregate_out hA sD ht') hQ hq
  refine ⟨n, h1, fun i k v => ?_⟩
  rw [h2]
  refine weight_sums assoc right (fun r hr d => ?_) hn (hq t le_rfl) i k v
  exact weight_rangesIter (fun i k d => by rw [weight_collectionAt, hf]) r.2.1 65 (by omega) (by omega) r.1 r.2.2 d

/-- Once the data and the locations are complete for a time, the output comes to be complete for it, and it is each location, as often as it is asked about, with the accumulation of the
data before it. The operation must be associative, and `zero` be a right identity. -/
theorem C56_prefix_sum_at (h : PrefixSumAt zero combine data locations out) (assoc : ∀ k a b c, combine k (combine k a b) c = combine k a (combine k b c)) (right : ∀ k a, combine k a zero = a)
    (sD : Settled data n0 t) (sL : Settled locations n0 t) (usize : ∀ u ∈ locations n0, u.1.1 < 2 ^ 64) (nn : ∀ x, 0 ≤ accum (locations n0) x t)
    (hf : ∀ i k d, accum (data n0) ((i, k), d) t = if f i k = some d then 1 else 0) :
    ∃ n, Settled out n t ∧ ∀ i k v, accum (out n) ((i, k), v) t = if prefixSum (combine k) zero (f · k) i = v then accum (locations n0) (i, k) t else 0 := by
  obtain ⟨n, h1, h2⟩ := prefix_sums_aux h assoc right sD (Q := collectionAt (locations n0)) (fun t' ht' => sL.holds ht') (fun t' _ x hx => locations_usize usize hx)
    (fun x => by rw [weight_collectionAt]; exact nn x) hf
  exact ⟨n, h1, fun i k v => by rw [h2, weight_collectionAt]⟩

/-- The same for `prefix_sum`, where the locations are those of the data. -/
theorem C56_prefix_sum (h : PrefixSums zero combine data out) (assoc : ∀ k a b c, combine k (combine k a b) c = combine k a (combine k b c)) (right : ∀ k a, combine k a zero = a)
    (sD : Settled data n0 t) (usize : ∀ u ∈ data n0, u.1.1.1 < 2 ^ 64) (hf : ∀ i k d, accum (data n0) ((i, k), d) t = if f i k = some d then 1 else 0) :
    ∃ n, Settled out n t ∧ ∀ i k v, accum (out n) ((i, k), v) t = if (f i k).isSome ∧ prefixSum (combine k) zero (f · k) i = v then 1 else 0 := by
  obtain ⟨locations, h1, h2⟩ := h
  have hw : ∀ i k, weight ((collectionAt (data n0) t).map fun x => x.1) (i, k) = if (f i k).isSome then 1 else 0 := by
    intro i k
    rw [Coll.weight_map]
    cases hfi : f i k with
    | none =>
      rw [Coll.lin_zero]
      · rfl
      rintro ⟨x, d⟩
      by_cases hx : x = (i, k)
      · subst hx; rw [weight_collectionAt, hf, hfi]; simp
      · simp [hx]
    | some v =>
      rw [Coll.lin_single ((i, k), v), weight_collectionAt, hf, hfi]
      · simp
      · rintro ⟨x, d⟩ hne
        by_cases hx : x = (i, k)
        · subst hx
          rw [weight_collectionAt, hf, hfi, if_neg, zero_mul]
          rintro e
          exact hne (by rw [Option.some.inj e])
        · simp [hx]
  have hq : ∀ t', t' ≤ t → ∀ x, weight ((collectionAt (data n0) t').map fun x => x.1) x ≠ 0 → x.1 < 2 ^ 64 := by
    intro t' _ x hx
    obtain ⟨r, hr⟩ := Coll.exists_of_weight hx
    obtain ⟨y, hy, e⟩ := List.mem_map.1 hr
    obtain ⟨u, hu, rfl⟩ := List.mem_map.1 hy
    have := usize u (List.mem_filter.1 hu).1
    rwa [show u.1.1 = x from congrArg Prod.fst e] at this
  obtain ⟨n, e1, e2⟩ := prefix_sums_aux h2 assoc right sD (Q := fun t' => (collectionAt (data n0) t').map fun x => x.1) (fun t' ht' => h1 _ _ (sD.holds ht')) hq
    (fun ⟨i, k⟩ => by rw [hw]; split_ifs <;> simp) hf
  refine ⟨n, e1, fun i k v => ?_⟩
  rw [e2, hw]
  by_cases a : prefixSum (combine k) zero (f · k) i = v <;> simp [a]

/-- `aggregate` alone: the accumulations of all aligned ranges, up to width `2 ^ 64`, that contain data. -/
theorem C56_aggregate {A : AggregateFlow K D T} (h : A.Runs combine data) (assoc : ∀ k a b c, combine k (combine k a b) c = combine k a (combine k b c)) (sD : Settled data n0 t)
    (hf : ∀ i k d, accum (data n0) ((i, k), d) t = if f i k = some d then 1 else 0) :
    ∃ n, Settled A.out n t ∧ ∀ p l k v, accum (A.out n) ((p, l, k), v) t = if l ≤ 64 ∧ rangeSum (combine k) (f · k) (p * 2 ^ l) (2 ^ l) = some v then 1 else 0 := by
  obtain ⟨n, h1, h2⟩ := aggregate_out h sD le_rfl
  refine ⟨n, h1, fun p l k v => ?_⟩
  rw [h2]
  by_cases hl : l ≤ 64
  · rw [weight_rangesIter (fun i k d => by rw [weight_collectionAt, hf]) l 65 (by omega) hl, blockSum_eq (assoc k)]
    simp [hl]
  · rw [rangesIter_beyond _ _ _ _ _ (by omega), if_neg fun e => hl e.1]

omit [DecidableEq T] in
/-- And then it is right at each later moment too. -/
theorem C56_stays {n n' : Nat} (h : Settled out n t) (hn : n ≤ n') (x : (Nat × K) × D) : accum (out n') x t = accum (out n) x t := h.mono hn le_rfl |>.accum_eq h x

/-- Neither loop runs for more than 64 rounds, whatever the data. -/
theorem C56_stops {A : AggregateFlow K D T} {B : BroadcastFlow K D T} (hA : A.Runs combine data) (hB : B.Runs zero combine A.out locations) (sD : Settled data n0 t) (sL : Settled locations n0 t)
    (usize : ∀ u ∈ locations n0, u.1.1 < 2 ^ 64) :
    (∀ n, ∀ u ∈ (A.result n).upds, u.2.1.1 ≤ t → u.2.1.2 ≤ 64) ∧ ∀ n, ∀ u ∈ (B.result n).upds, u.2.1.1 ≤ t → u.2.1.2 ≤ 64 := by
  exact ⟨aggregate_stops hA sD, broadcast_stops hB (fun t' ht' => aggregate_out hA sD ht') (Q := collectionAt (locations n0)) (fun t' ht' => sL.holds ht') fun t' _ x hx => locations_usize usize hx⟩

end

/-- Data and locations that do not change have a run. -/
theorem C56_run_exists [OrderBot T] (zero : D) (combine : K → D → D → D) (C : Coll ((Nat × K) × D)) (Q : Coll (Nat × K)) (usize : ∀ x ∈ Q, x.1.1 < 2 ^ 64) :
    ∃ out, PrefixSumAt (T := T) zero combine (fun n => (constant C n).upds) (fun n => (constant Q n).upds) out := by
  simp only [upds_constant]
  obtain ⟨A, hA, hout⟩ := aggregate_static (stages_constant (T := T)) combine (C := fun _ => C) (represents_constant C)
  obtain ⟨B, hB⟩ := broadcast_static (stages_constant (T := T)) zero combine (R := fun _ => rangesIter combine C 65) (Q := fun _ => Q) hout (represents_constant Q) fun _ x hx => by
    obtain ⟨r, hr⟩ := Coll.exists_of_weight hx
    exact usize _ hr
  exact ⟨B.out, A, B, hA, hB, rfl⟩

section examples

/-- Two keys; positions without data. -/
private def exData : Coll ((Nat × Nat) × Nat) := [((0, 7), 1), ((1, 7), 2), ((4, 7), 3), ((6, 7), 4), ((2, 8), 5)].map fun x => (x, 1)

private def exAt (i k : Nat) : Option Nat := ((exData.find? fun x => x.1.1 = (i, k)).map fun x => x.1.2)

/-- Sums for all keys but 7, for which it is the last datum: an operation that does not commute. -/
private def exOp (k a b : Nat) : Nat := if k = 7 then (if b = 0 then a else b) else a + b

example : prefixSum (exOp 7) 0 (exAt · 7) 5 = 3 := by decide +kernel
example : prefixSum (exOp 7) 0 (exAt · 7) 4 = 2 := by decide +kernel
example : prefixSum (exOp 9) 0 (exAt · 7) 5 = 6 := by decide +kernel
example : rangeSum (exOp 9) (exAt · 7) 4 4 = some 7 := by decide +kernel

/-- The theorem applies to it: query 5 for key 7 is asked twice. -/
example : ∃ (out : Nat → Upds ((Nat × Nat) × Nat) Nat Int) (n : Nat),
    PrefixSumAt 0 exOp (fun n => (constant exData n).upds) (fun n => (constant [((5, 7), 2), ((3, 8), 1)] n).upds) out ∧ Settled out n 9 ∧
      accum (out n) ((5, 7), 3) 9 = 2 ∧ accum (out n) ((5, 7), 2) 9 = 0 ∧ accum (out n) ((3, 8), 5) 9 = 1 := by
  obtain ⟨out, h⟩ := C56_run_exists (T := Nat) 0 exOp exData [((5, 7), 2), ((3, 8), 1)] (by decide)
  have hL : ∀ x, accum (constant (T := Nat) [(((5, 7) : Nat × Nat), (2 : Int)), ((3, 8), 1)] 0).upds x 9 = if (5, 7) = x then 2 else if (3, 8) = x then 1 else 0 := by
    intro x
    rw [upds_constant, accum_stamp, if_pos bot_le, weight_cons, weight_cons, weight_nil]
    by_cases h1 : (5, 7) = x
    · subst h1; decide
    · rw [if_neg h1, if_neg h1, zero_add, add_zero]
  have hD : ∀ i k d, accum (constant (T := Nat) exData 0).upds ((i, k), d) 9 = if exAt i k = some d then 1 else 0 := by
    intro i k d
    rw [upds_constant, accum_stamp, if_pos bot_le]
    simp only [exData, exAt, List.map_cons, List.map_nil, weight_cons, weight_nil, List.find?_cons, List.find?_nil, Prod.mk.injEq]
    by_cases h1 : i = 0 ∧ k = 7
    · obtain ⟨rfl, rfl⟩ := h1; simp
    by_cases h2 : i = 1 ∧ k = 7
    · obtain ⟨rfl, rfl⟩ := h2; simp
    by_cases h3 : i = 4 ∧ k = 7
    · obtain ⟨rfl, rfl⟩ := h3; simp
    by_cases h4 : i = 6 ∧ k = 7
    · obtain ⟨rfl, rfl⟩ := h4; simp
    by_cases h5 : i = 2 ∧ k = 8
    · obtain ⟨rfl, rfl⟩ := h5; simp
    have e1 : ¬ (0 = i ∧ 7 = k) := by omega
    have e2 : ¬ (1 = i ∧ 7 = k) := by omega
    have e3 : ¬ (4 = i ∧ 7 = k) := by omega
    have e4 : ¬ (6 = i ∧ 7 = k) := by omega
    have e5 : ¬ (2 = i ∧ 8 = k) := by omega
    rw [if_neg fun e => e1 e.1, if_neg fun e => e2 e.1, if_neg fun e => e3 e.1, if_neg fun e => e4 e.1, if_neg fun e => e5 e.1]
    simp [e1, e2, e3, e4, e5]
  have hu : ∀ u ∈ (constant (T := Nat) [(((5, 7) : Nat × Nat), (2 : Int)), ((3, 8), 1)] 0).upds, u.1.1 < 2 ^ 64 := by
    rw [upds_constant]; simp [stamp]
  obtain ⟨n, h1, h2⟩ := C56_prefix_sum_at (n0 := 0) (t := 9) (f := exAt) h (fun k a b c => by unfold exOp; split_ifs <;> omega) (fun k a => by simp [exOp]) (fun _ _ => List.Perm.refl _)
    (fun _ _ => List.Perm.refl _) hu (fun x => (hL x).symm ▸ (by split_ifs <;> decide)) hD
  refine ⟨out, n, h, h1, ?_, ?_, ?_⟩
  · rw [h2, hL]; decide +kernel
  · rw [h2, hL]; decide +kernel
  · rw [h2, hL]; decide +kernel

end examples

/-- That the data has differences one is needed, though it is not documented: with the datum 5 at position 0 twice, the answer for position 1 is both 5 and 0, in every run. -/
theorem C56_counts_needed {out : Nat → Upds ((Nat × Nat) × Nat) Nat Int}
    (h : PrefixSumAt 0 (fun _ => (· + ·)) (fun n => (constant [(((0, 0), 5), 2)] n).upds) (fun n => (constant [((1, 0), 1)] n).upds) out) (t : Nat) :
    ∃ n, Settled out n t ∧ accum (out n) ((1, 0), 5) t = 1 ∧ accum (out n) ((1, 0), 0) t = 1 := by
  obtain ⟨A, B, hA, hB, rfl⟩ := h
  have sD : Settled (fun n => (constant (T := Nat) [((((0, 0) : Nat × Nat), 5), (2 : Int))] n).upds) 0 t := fun _ _ => List.Perm.refl _
  have e : ∀ t', collectionAt (constant (T := Nat) [((((0, 0) : Nat × Nat), 5), (2 : Int))] 0).upds t' = [(((0, 0), 5), 2)] := fun t' => by
    rw [upds_constant]; simp [collectionAt, upTo, stamp]
  obtain ⟨n, h1, h2⟩ := broadcast_out (t := t) hB (R := fun _ => rangesIter (fun _ => (· + ·)) [(((0, 0), 5), 2)] 65) (Q := fun _ => [((1, 0), 1)]) (fun t' ht' => e t' ▸ aggregate_out hA sD ht')
    (fun t' _ => holds_constant _ _) (fun _ _ x hx => by
      obtain ⟨r, hr⟩ := Coll.exists_of_weight hx
      obtain ⟨rfl, rfl⟩ := Prod.mk.inj (List.mem_singleton.1 hr)
      norm_num)
  rw [show Coll.semijoin (statesIter 0 (fun _ : Nat => (· + ·)) (usedRanges 0 (rangesIter (fun _ => (· + ·)) [(((0, 0), 5), 2)] 65) [((1, 0), 1)]) [((1, 0), 1)] 65) [((1, 0), 1)] =
    [(((1, 0), 5), 1), (((1, 0), 0), 1)] by decide +kernel] at h2
  exact ⟨n, h1, (h2 _).trans (by decide), (h2 _).trans (by decide)⟩

end DD
