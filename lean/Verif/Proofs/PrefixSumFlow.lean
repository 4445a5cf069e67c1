import Verif.Proofs.PrefixSum
import Verif.Proofs.Static
import Verif.Props.Coll

/-!
# Prefix sums as a dataflow
-/

namespace DD
variable {K D E T : Type*}

/-! ### Ranges -/

/-- Two accumulations, one after the other. -/
def mergeSums (combine : D → D → D) : Option D → Option D → Option D
  | none, b => b
  | some a, none => some a
  | some a, some b => some (combine a b)

theorem rangeSum_add {combine : D → D → D} (assoc : ∀ a b c, combine (combine a b) c = combine a (combine b c)) (f : Nat → Option D) (a n m : Nat) :
    rangeSum combine f a (n + m) = mergeSums combine (rangeSum combine f a n) (rangeSum combine f (a + n) m) := by
  induction m with
  | zero => cases rangeSum combine f a n <;> rfl
  | succ m ih =>
    rw [← Nat.add_assoc, rangeSum, ih, rangeSum, Nat.add_assoc a n m]
    cases rangeSum combine f a n <;> cases rangeSum combine f (a + n) m <;> cases f (a + (n + m)) <;> simp [mergeSums, assoc]

theorem blockSum_eq {combine : D → D → D} (assoc : ∀ a b c, combine (combine a b) c = combine a (combine b c)) (f : Nat → Option D) (l : Nat) :
    ∀ p, blockSum combine f l p = rangeSum combine f (p * 2 ^ l) (2 ^ l) := by
  induction l with
  | zero => intro p; simp [blockSum, rangeSum]
  | succ l ih =>
    intro p
    rw [blockSum, ih, ih, pow_succ, Nat.mul_two, rangeSum_add assoc, show p * (2 ^ l + 2 ^ l) = 2 * p * 2 ^ l by ring, show (2 * p + 1) * 2 ^ l = 2 * p * 2 ^ l + 2 ^ l by ring]
    cases rangeSum combine f (2 * p * 2 ^ l) (2 ^ l) <;> cases rangeSum combine f (2 * p * 2 ^ l + 2 ^ l) (2 ^ l) <;> rfl

/-! ### Streams -/

theorem holds_upds_append [DecidableEq E] [PartialOrder T] [DecidableLE T] {s s1 s2 : Nat → Upds E T Int} (hp : ∀ n, (s n).Perm (s1 n ++ s2 n)) {q : T} {c c' : Coll E} (h : Holds s1 q c) (h' : Holds s2 q c') :
    Holds s q (c.concat c') := by
  obtain ⟨n, h1, h2⟩ := h
  obtain ⟨n', h1', h2'⟩ := h'
  have hs := h1.mono (le_max_left n n') (le_refl q)
  have hs' := h1'.mono (le_max_right n n') (le_refl q)
  refine ⟨max n n', fun m hm => ?_, fun d => ?_⟩
  · have e : ∀ k, (upTo q (s k)).Perm (upTo q (s1 k) ++ upTo q (s2 k)) := fun k => by
      rw [← upTo_append]
      exact (hp k).filter _
    exact (e m).trans (((hs m hm).append (hs' m hm)).trans (e _).symm)
  · rw [Coll.weight_concat, ← h2 d, ← h2' d, accum_perm (hp _), accum_append]
    congr 1
    · exact hs.accum_eq h1 d
    · exact hs'.accum_eq h1' d

section
variable [LinearOrder K] [LinearOrder D] [PartialOrder T] [DecidableLE T] [DecidableEq T] {zero : D} {combine : K → D → D → D}

theorem halveRanges_same {c c' : Coll ((Nat × Nat × K) × D)} (h : Coll.Same c c') : Coll.Same (halveRanges c) (halveRanges c') := (h.filter _).map _

section aggregate
variable {A : AggregateFlow K D T} {data : Nat → Upds ((Nat × K) × D) T Int}

theorem aggregate_holds (h : A.Runs combine data) {t : T} {c : Coll ((Nat × K) × D)} (hc : Holds data t c) : ∀ i, i ≤ maxRound → Holds A.ranges (t, i) (rangesIter combine c i) ∧
    Holds (fun n => (A.reduced n).upds) (t, i) (Coll.reduce (combineHalves combine) (halveRanges (rangesIter combine c i))) ∧
    Holds (fun n => (A.result n).upds) (t, i) (rangesIter combine c (i + 1)) := by
  have hu := h.unit t c hc
  have step : ∀ i, Holds A.ranges (t, i) (rangesIter combine c i) → Holds (fun n => (A.reduced n).upds) (t, i) (Coll.reduce (combineHalves combine) (halveRanges (rangesIter combine c i))) ∧
      Holds (fun n => (A.result n).upds) (t, i) (rangesIter combine c (i + 1)) := fun i hi => by
    have h1 := h.reduced _ _ (h.halves _ _ hi)
    exact ⟨h1, holds_upds_append h.result h1 (C49_enter A.unit t i _ hu)⟩
  intro i
  induction i with
  | zero => exact fun _ => ⟨loop_zero h.timed h.loop hu, step 0 (loop_zero h.timed h.loop hu)⟩
  | succ i ih =>
    intro hi
    have := loop_succ h.timed h.loop hu (by omega) (ih (by omega)).2.2
    exact ⟨this, step _ this⟩

theorem aggregate_stops (h : A.Runs combine data) {n0 : Nat} {t : T} (hs : Settled data n0 t) : ∀ n, ∀ u ∈ (A.result n).upds, u.2.1.1 ≤ t → u.2.1.2 ≤ 64 := by
  have h64 : 64 ≤ maxRound := by unfold maxRound; omega
  have hround : ∀ n, ∀ u ∈ (A.reduced n).upds, u.2.1.2 ≤ maxRound := fun n u hu => h.loop.rounds n u ((h.result n).mem_iff.2 (List.mem_append_left _ hu))
  have hred := tidy_stops h.grows hround h.tidy (t := t) (m := 64) (X := fun t' => Coll.reduce (combineHalves combine) (halveRanges (rangesIter combine (collectionAt (data n0) t') 64)))
    (fun t' ht' i hi hi' => (aggregate_holds h (hs.holds ht') i hi').2.1.same ((halveRanges_same (rangesIter_stable _ _ hi le_rfl)).reduce _))
  intro n u hu hle
  rcases List.mem_append.1 ((h.result n).mem_iff.1 hu) with hu | hu
  · exact hred n u hu hle
  · rw [upds_enter] at hu
    obtain ⟨v, -, rfl⟩ := List.mem_map.1 hu
    exact Nat.zero_le _

theorem aggregate_out (h : A.Runs combine data) {n0 : Nat} {t : T} (hs : Settled data n0 t) {t' : T} (ht : t' ≤ t) : Holds A.out t' (rangesIter combine (collectionAt (data n0) t') 65) :=
  leave_holds (aggregate_stops h (hs.mono le_rfl ht)) (aggregate_holds h (hs.holds ht) 64 (by unfold maxRound; omega)).2.2

end aggregate

section broadcast
variable {B : BroadcastFlow K D T} {ranges : Nat → Upds ((Nat × Nat × K) × D) T Int} {queries : Nat → Upds (Nat × K) T Int}

theorem used_holds (h : B.Runs zero combine ranges queries) {t : T} {R : Coll ((Nat × Nat × K) × D)} {Q : Coll (Nat × K)} (hR : Holds ranges t R) (hQ : Holds queries t Q) :
    Holds B.used t (usedRanges zero R Q) := by
  have h1 := h.requests t Q hQ
  have h2 := h.full t _ _ hR h1
  exact h.used t _ _ h2 (h.zeros t _ _ h2 h1)

theorem states_holds (h : B.Runs zero combine ranges queries) {t : T} {R : Coll ((Nat × Nat × K) × D)} {Q : Coll (Nat × K)} (hR : Holds ranges t R) (hQ : Holds queries t Q) :
    ∀ i, i ≤ maxRound → Holds B.states (t, i) (statesIter zero combine (usedRanges zero R Q) Q i) ∧
      Holds (fun n => (B.result n).upds) (t, i) (statesIter zero combine (usedRanges zero R Q) Q (i + 1)) := by
  have hi := h.init t Q hQ
  have hu := used_holds h hR hQ
  have step : ∀ i, Holds B.states (t, i) (statesIter zero combine (usedRanges zero R Q) Q i) →
      Holds (fun n => (B.result n).upds) (t, i) (statesIter zero combine (usedRanges zero R Q) Q (i + 1)) := fun i hs =>
    h.result _ _ _ (h.stepped _ _ _ (h.usedIn t i _ hu) hs) (h.initIn t i _ hi)
  intro i
  induction i with
  | zero => exact fun _ => ⟨loop_zero h.timed h.loop hi, step 0 (loop_zero h.timed h.loop hi)⟩
  | succ i ih =>
    intro hle
    have := loop_succ h.timed h.loop hi (by omega) (ih (by omega)).2
    exact ⟨this, step _ this⟩

variable {R : T → Coll ((Nat × Nat × K) × D)} {Q : T → Coll (Nat × K)} {t : T}

theorem broadcast_stops (h : B.Runs zero combine ranges queries) (hR : ∀ t', t' ≤ t → Holds ranges t' (R t')) (hQ : ∀ t', t' ≤ t → Holds queries t' (Q t'))
    (hq : ∀ t', t' ≤ t → ∀ x, weight (Q t') x ≠ 0 → x.1 < 2 ^ 64) : ∀ n, ∀ u ∈ (B.result n).upds, u.2.1.1 ≤ t → u.2.1.2 ≤ 64 :=
  tidy_stops h.loop.produces h.loop.rounds h.tidy (X := fun t' => statesIter zero combine (usedRanges zero (R t') (Q t')) (Q t') 64)
    fun t' ht' i hi hi' => (states_holds h (hR t' ht') (hQ t' ht') i hi').2.same (statesIter_stable (fun _ hx => proper_of_used (hq t' ht') hx) (by omega) le_rfl)

theorem broadcast_out (h : B.Runs zero combine ranges queries) (hR : ∀ t', t' ≤ t → Holds ranges t' (R t')) (hQ : ∀ t', t' ≤ t → Holds queries t' (Q t'))
    (hq : ∀ t', t' ≤ t → ∀ x, weight (Q t') x ≠ 0 → x.1 < 2 ^ 64) :
    Holds B.out t ((statesIter zero combine (usedRanges zero (R t) (Q t)) (Q t) 65).semijoin (Q t)) :=
  h.out t _ _ (leave_holds (broadcast_stops h hR hQ hq) (states_holds h (hR t le_rfl) (hQ t le_rfl) 64 (by unfold maxRound; omega)).2) (hQ t le_rfl)

end broadcast

/-- The sums at the queries, of collections. -/
theorem weight_sums (assoc : ∀ k a b c, combine k (combine k a b) c = combine k a (combine k b c)) (right : ∀ k a, combine k a zero = a) {ranges : Coll ((Nat × Nat × K) × D)} {queries : Coll (Nat × K)}
    {f : Nat → K → Option D} (hr : ∀ r, r.2.1 < 64 → ∀ d, weight ranges (r, d) = if blockSum (combine r.2.2) (f · r.2.2) r.2.1 r.1 = some d then 1 else 0)
    (hn : queries.Nonneg) (hq : ∀ x, weight queries x ≠ 0 → x.1 < 2 ^ 64) (i : Nat) (k : K) (v : D) :
    weight ((statesIter zero combine (usedRanges zero ranges queries) queries 65).semijoin queries) ((i, k), v) = if prefixSum (combine k) zero (f · k) i = v then weight queries (i, k) else 0 := by
  classical
  have := weight_statesIter (f := f) assoc right hn hq (fun r d => weight_usedRanges hn hr r d) 65 i 0 (by omega) k v
  simp only [pow_zero, Nat.mul_one] at this
  rw [Coll.weight_semijoin, this]
  by_cases hw : weight queries (i, k) = 0
  · rw [hw]; simp
  · have hre : Reach queries i k := ⟨i, 0, lt_of_le_of_ne (hn _) (Ne.symm hw), by simp⟩
    by_cases hv : prefixSum (combine k) zero (f · k) i = v <;> simp [hre, hv]

end
end DD
