import Verif.Proofs.TotalOps
import Verif.Props.Cursor

/-!
# Property C30: counts and thresholds in total order

`LegalRounds [] rounds` (Spec/TotalOps.lean) says what the arrangement hands to the operator: batches in order of time, and a trace that holds what
was received before, up to compaction. `accum us d q` is the collection at `q` (Spec/Basic.lean).
-/

namespace DD
variable {K T R R2 : Type*} [LinearOrder K] [LinearOrder T] [AddCommMonoid R] [DecidableEq R] [AddCommGroup R2] [DecidableEq R2]

private theorem piece_accum (k k' : K) (c n : R) (v : R2) (t q : T) :
    accum (if n = 0 then [] else [((k', n), t, v)]) (k, c) q = if k' = k ∧ t ≤ q then (if n = c ∧ n ≠ 0 then v else 0) else 0 := by
  by_cases hn : n = 0
  · subst hn; simp [accum]
  · by_cases hk : k' = k <;> by_cases hc : n = c <;> by_cases ht : t ≤ q <;> simp only [accum, hn, hk, hc, ht] <;> simp_all

private theorem countEmit_accum (one : R2) (k k' : K) (c : R) (x : Option R) (t q : T) (r : R) :
    accum (countEmit one k' x t r) (k, c) q = if k' = k ∧ t ≤ q then
      (if (addCount x r).getD 0 = c ∧ (addCount x r).getD 0 ≠ 0 then one else 0) - (if x.getD 0 = c ∧ x.getD 0 ≠ 0 then one else 0) else 0 := by
  have happ : ∀ us vs : Upds (K × R) T R2, accum (us ++ vs) (k, c) q = accum us (k, c) q + accum vs (k, c) q := by intro us vs; simp [accum]
  have hneg : ∀ n : R, (if n = c ∧ n ≠ 0 then -one else 0) = -(if n = c ∧ n ≠ 0 then one else 0) := by intro n; split_ifs <;> simp
  cases x with
  | none =>
    simp only [countEmit, addCount]
    rw [happ, piece_accum]
    have : accum ([] : Upds (K × R) T R2) (k, c) q = 0 := rfl
    rw [this, zero_add]
    by_cases h : k' = k ∧ t ≤ q
    · rw [if_pos h, if_pos h]
      have h0 : (if (0 : R) = c ∧ (0 : R) ≠ 0 then one else 0) = 0 := by simp
      have h1 : (if r = c ∧ r ≠ 0 then one else 0) = (if r = c ∧ r ≠ 0 then one else 0) - (if (0 : R) = c ∧ (0 : R) ≠ 0 then one else 0) := by
        rw [h0, sub_zero]
      exact h1
    · rw [if_neg h, if_neg h]
  | some x =>
    simp only [countEmit, addCount]
    rw [happ, piece_accum, piece_accum]
    by_cases h : k' = k ∧ t ≤ q
    · rw [if_pos h, if_pos h, if_pos h, hneg, add_comm]
      exact (sub_eq_add_neg _ _).symm
    · rw [if_neg h, if_neg h, if_neg h, add_zero]

private theorem countEmit_telescopes (one : R2) (k : K) (c : R) :
    Telescopes (countEmit (T := T) one) k (k, c) fun x => (fun n : R => if n = c ∧ n ≠ 0 then one else 0) (x.getD 0) := by
  constructor
  · intro x t r q
    rw [countEmit_accum]
    simp only [true_and]
  · intro k' x t r q hk
    rw [countEmit_accum, if_neg fun h => hk h.1]

/-- C30: at each time, `count_total` has each key with its count, once, if the count is not zero, and nothing else. -/
theorem C30_count_total (one : R2) (rounds : List (TotalRound K T R)) (hl : LegalRounds [] rounds) (k : K) (c : R) (q : T) :
    accum (countTotal one rounds) (k, c) q = if c = accum (roundsInput rounds) k q ∧ c ≠ 0 then one else 0 := by
  have := (countEmit_telescopes (T := T) one k c).value (fun n : R => if n = c ∧ n ≠ 0 then one else 0) q rounds hl
  rw [countTotal, this]
  have h0 : (if (0 : R) = c ∧ (0 : R) ≠ 0 then one else 0) = 0 := by simp
  rw [h0, sub_zero]
  by_cases h : c = accum (roundsInput rounds) k q
  · rw [← h]
  · rw [if_neg fun hh => h hh.1.symm, if_neg fun hh => h hh.1]

private theorem thresholdEmit_accum (f : K → R → R2) (k k' : K) (x : Option R) (t : T) (r : R) (q : T) :
    accum (thresholdEmit (threshTotal f) k' x t r) k q =
      if k' = k ∧ t ≤ q then f k ((addCount x r).getD 0) - ((x.map (f k)).getD 0) else 0 := by
  cases x with
  | none =>
    simp only [thresholdEmit, threshTotal, accum, addCount]
    by_cases h : f k' r = 0
    · by_cases hk : k' = k
      · subst hk; simp [h]
      · simp [h, hk]
    · by_cases hk : k' = k
      · subst hk; simp [h]
      · simp [h, hk]
  | some x =>
    simp only [thresholdEmit, threshTotal, accum, addCount]
    by_cases h : f k' (x + r) + -f k' x = 0
    · by_cases hk : k' = k
      · subst hk; rw [if_pos h]; simp [sub_eq_add_neg, h]
      · simp [h, hk]
    · by_cases hk : k' = k
      · subst hk; simp [h, sub_eq_add_neg]
      · simp [h, hk]

/-- C30: for a threshold function that is zero at zero, `threshold_total` has at each time each key with the threshold function of its count. -/
theorem C30_threshold_total (f : K → R → R2) (rounds : List (TotalRound K T R)) (hl : LegalRounds [] rounds) (k : K) (hf : f k 0 = 0) (q : T) :
    accum (thresholdTotal f rounds) k q = f k (accum (roundsInput rounds) k q) := by
  have ht : Telescopes (thresholdEmit (T := T) (threshTotal f)) k k fun x => f k (x.getD 0) := by
    constructor
    · intro c t r q
      rw [thresholdEmit_accum]
      cases c <;> simp [hf]
    · intro k' c t r q hk
      rw [thresholdEmit_accum, if_neg fun h => hk h.1]
  have := ht.value (f k) q rounds hl
  rw [thresholdTotal, this, hf, sub_zero]

private theorem weight_prefix {us prev rest : Upds K T R} (h : us = prev ++ rest) (k : K) (t : T) (h1 : ∀ u ∈ prev, u.1 = k → u.2.1 ≤ t) (h2 : ∀ u ∈ rest, u.1 = k → t < u.2.1) :
    accum us k t = weight (prev.map fun u => (u.1, u.2.2)) k := by
  rw [weight_keyOf, accum_keyOf, h, keyOf_append, List.filter_append]
  have e1 : (keyOf k prev).filter (fun u => decide (u.1 ≤ t)) = keyOf k prev := by
    rw [List.filter_eq_self]; intro x hx; simpa using h1 _ (mem_keyOf.mp hx) rfl
  have e2 : (keyOf k rest).filter (fun u => decide (u.1 ≤ t)) = [] := by
    rw [List.filter_eq_nil_iff]; intro x hx; simpa using h2 _ (mem_keyOf.mp hx) rfl
  rw [e1, e2, List.append_nil]

private theorem rounds_ordered (k : K) (rounds : List (TotalRound K T R)) : ∀ prev : Upds K T R, LegalRounds prev rounds → (keyOf k prev).Pairwise (fun u v => u.1 < v.1) →
    (keyOf k (prev ++ roundsInput rounds)).Pairwise (fun u v => u.1 < v.1) := by
  induction rounds with
  | nil => intro prev _ h; simpa [roundsInput] using h
  | cons r rs ih =>
    intro prev hl h
    have e : prev ++ roundsInput (r :: rs) = (prev ++ r.input) ++ roundsInput rs := by simp [roundsInput]
    rw [e]
    refine ih _ hl.2 ?_
    rw [keyOf_append, List.pairwise_append]
    refine ⟨h, ?_, ?_⟩
    · rw [keyOf_input k r hl.1.batch, hl.1.batch.atUnit]
      exact pairwise_at k (fun b hb => hl.1.times b hb k) hl.1.order
    · intro u hu v hv
      exact hl.1.after _ (mem_keyOf.mp hu) _ (mem_keyOf.mp hv)

/-- C30, what remains for a threshold function that is not zero at zero: the output is right for a key whose count does not return to zero, at the
time of any of its updates until `q`. The full claim would be that for all histories the accumulation is `f k` of the count if that is not zero, and
zero otherwise; it is false, see `C30_distinct_total_retraction`. -/
theorem C30_threshold_total_partial (f : K → R → R2) (rounds : List (TotalRound K T R)) (hl : LegalRounds [] rounds) (k : K) (q : T)
    (hnz : ∀ u ∈ roundsInput rounds, u.1 = k → u.2.1 ≤ q → accum (roundsInput rounds) k u.2.1 ≠ 0) :
    accum (thresholdTotal f rounds) k q = if ∃ u ∈ roundsInput rounds, u.1 = k ∧ u.2.1 ≤ q then f k (accum (roundsInput rounds) k q) else 0 := by
  have hsome : ∀ (x : Option R) r, addCount x r = some ((addCount x r).getD 0) := by intro x r; cases x <;> rfl
  have ht : Telescopes (thresholdEmit (T := T) (threshTotal f)) k k fun x => (x.map (f k)).getD 0 := by
    constructor
    · intro c t r q
      rw [thresholdEmit_accum, hsome c r]
      simp
    · intro k' c t r q hk
      rw [thresholdEmit_accum, if_neg fun h => hk h.1]
  have hord : (keyOf k (roundsInput rounds)).Pairwise (fun u v => u.1 < v.1) := by
    have := rounds_ordered k rounds [] hl (by simp [keyOf])
    simpa using this
  have key := ht.rounds q rounds [] hl (by
    intro prev t xs hpre htr hq
    simp only [List.nil_append] at hpre
    obtain ⟨rest, hrest⟩ := hpre
    have hc : runCount none (t.at k ()) = runCount none (keyOf k prev) := by
      by_cases hp : keyOf k prev = []
      · have : t.at k () = [] := at_of_not _ _ fun kv hkv e => by
          obtain ⟨u, hu, hk⟩ := htr.keys kv hkv
          have : u.2 ∈ keyOf k prev := by
            rw [mem_keyOf]
            have : u = (k, u.2) := by rw [← e, ← hk]
            rw [← this]; exact hu
          rw [hp] at this
          cases this
        rw [this, hp]
      · have hs2 := runCount_isSome (keyOf k prev) none (Or.inr hp)
        have hne : ((keyOf k prev).map Prod.snd).sum ≠ 0 := by
          obtain ⟨init, last, hlast⟩ : ∃ init last, keyOf k prev = init ++ [last] := ⟨_, _, (List.dropLast_append_getLast hp).symm⟩
          have hmem : (k, last) ∈ prev := mem_keyOf.mp (by rw [hlast]; simp)
          have hin : (k, last) ∈ roundsInput rounds := by rw [← hrest]; exact List.mem_append_left _ hmem
          have := hnz _ hin rfl (hq _ hmem)
          rw [← hrest, keyOf_append, hlast] at hord
          rw [List.pairwise_append] at hord
          obtain ⟨o1, o2, o3⟩ := hord
          rw [List.pairwise_append] at o1
          rw [weight_prefix hrest.symm k last.1, weight_keyOf] at this
          · exact this
          · intro u hu hk
            have : u.2 ∈ keyOf k prev := by rw [mem_keyOf, ← hk]; exact hu
            rw [hlast] at this
            rcases List.mem_append.mp this with h1 | h1
            · exact (o1.2.2 _ h1 last (by simp)).le
            · rw [List.mem_singleton] at h1; rw [h1]
          · intro u hu hk
            have : u.2 ∈ keyOf k rest := by rw [mem_keyOf, ← hk]; exact hu
            exact o3 last (by simp) _ this
        have hs1 : (runCount none (t.at k ())).isSome = true := by
          refine runCount_isSome _ _ (Or.inr ?_)
          intro h0
          have := htr.sums k
          rw [h0, weight_keyOf] at this
          exact hne this.symm
        have v1 := runCount_getD (t.at k ()) (none : Option R)
        have v2 := runCount_getD (keyOf k prev) (none : Option R)
        rw [htr.sums, weight_keyOf] at v1
        obtain ⟨a, ha⟩ := Option.isSome_iff_exists.mp hs1
        obtain ⟨b, hb⟩ := Option.isSome_iff_exists.mp hs2
        rw [ha] at v1 ⊢
        rw [hb] at v2 ⊢
        simp only [Option.getD_some, Option.getD_none] at v1 v2
        rw [v1, v2]
    rw [hc])
  have h0 : keyOf k ([] : Upds K T R) = [] := rfl
  rw [h0] at key
  simp only [List.filter_nil, List.nil_append] at key
  have h1 : runCount none ([] : List (T × R)) = none := rfl
  rw [h1] at key
  simp only [Option.map_none, Option.getD_none, add_zero] at key
  rw [thresholdTotal, key]
  by_cases hx : ((keyOf k (roundsInput rounds)).filter fun u => u.1 ≤ q) = []
  · rw [hx, if_neg]
    · rfl
    · rintro ⟨u, hu, hk, hq⟩
      have : u.2 ∈ ((keyOf k (roundsInput rounds)).filter fun u => u.1 ≤ q) := by
        rw [List.mem_filter, mem_keyOf, ← hk]; exact ⟨hu, by simpa using hq⟩
      rw [hx] at this; cases this
  · have hs := runCount_isSome _ (none : Option R) (Or.inr hx)
    obtain ⟨a, ha⟩ := Option.isSome_iff_exists.mp hs
    have v := runCount_getD ((keyOf k (roundsInput rounds)).filter fun u => u.1 ≤ q) (none : Option R)
    rw [ha] at v ⊢
    simp only [Option.getD_some, Option.getD_none, zero_add, ← accum_keyOf] at v
    rw [if_pos]
    · rw [v]; rfl
    · obtain ⟨u, hu⟩ := List.exists_mem_of_ne_nil _ hx
      rw [List.mem_filter, mem_keyOf] at hu
      exact ⟨_, hu.1, rfl, by simpa using hu.2⟩

/-- C30 for `distinct_total`, as far as it holds: a key whose count does not return to zero is present once from its first update on. -/
theorem C30_distinct_total_partial (one : R2) (rounds : List (TotalRound K T R)) (hl : LegalRounds [] rounds) (k : K) (q : T)
    (hnz : ∀ u ∈ roundsInput rounds, u.1 = k → u.2.1 ≤ q → accum (roundsInput rounds) k u.2.1 ≠ 0) :
    accum (distinctTotal one rounds) k q = if ∃ u ∈ roundsInput rounds, u.1 = k ∧ u.2.1 ≤ q then one else 0 :=
  C30_threshold_total_partial (threshDistinct one) rounds hl k q hnz

/-! ### Witnesses -/

private def oneKey (k : Nat) (us : List (Nat × Int)) : Contents Nat Unit Nat Int := [(k, [((), us)])]

private theorem oneKey_sorted (k : Nat) (us : List (Nat × Int)) : ContentsSorted (oneKey k us) := ⟨by simp [oneKey], by simp [oneKey]⟩

private theorem oneKey_union (k : Nat) (us : List (Nat × Int)) : IsUnion [oneKey k us] (oneKey k us) :=
  ⟨oneKey_sorted k us, by simp, by simp, by simp⟩

private theorem oneKey_at (k : Nat) (us : List (Nat × Int)) (k' : Nat) : (oneKey k us).at k' () = if k = k' then us else [] := by
  by_cases h : k = k' <;> simp [oneKey, Contents.at, h]

private theorem oneKey_round (k : Nat) (us : List (Nat × Int)) (prev : Upds Nat Nat Int) (trace : Contents Nat Unit Nat Int)
    (h1 : us.Pairwise fun u v => u.1 < v.1) (h2 : ∀ u ∈ prev, ∀ v ∈ us, u.2.1 < v.1) (h3 : TraceOf trace prev) :
    TotalRound.Ok prev ⟨[oneKey k us], oneKey k us, trace⟩ := by
  refine ⟨by simpa using oneKey_sorted k us, ?_, by simp, ?_, oneKey_union k us, h3⟩
  · intro b hb k'
    rw [List.mem_singleton] at hb
    subst hb
    rw [oneKey_at]
    by_cases h : k = k'
    · rw [if_pos h]; exact h1
    · rw [if_neg h]; exact List.Pairwise.nil
  · intro u hu v hv
    have : v.2 ∈ us := by
      simp only [TotalRound.input, List.flatMap_cons, List.flatMap_nil, List.append_nil, Contents.keyUpds, Contents.flatten, oneKey] at hv
      simp at hv
      obtain ⟨a, b, h, rfl⟩ := hv
      exact h
    exact h2 u hu _ this

private theorem nil_trace : TraceOf ([] : Contents Nat Unit Nat Int) [] := ⟨⟨by simp, by simp⟩, fun _ => rfl, by simp⟩

/-- The key 7 is added at time 0, removed at time 1 and added again at time 2; the trace is not compacted. -/
private def keepRounds : List (TotalRound Nat Nat Int) :=
  [⟨[oneKey 7 [(0, 1), (1, -1)]], oneKey 7 [(0, 1), (1, -1)], []⟩, ⟨[oneKey 7 [(2, 1)]], oneKey 7 [(2, 1)], oneKey 7 [(0, 1), (1, -1)]⟩]

/-- The same with a compacted trace. -/
private def compactRounds : List (TotalRound Nat Nat Int) :=
  [⟨[oneKey 7 [(0, 1), (1, -1)]], oneKey 7 [(0, 1), (1, -1)], []⟩, ⟨[oneKey 7 [(2, 1)]], oneKey 7 [(2, 1)], []⟩]

private theorem keepRounds_legal : LegalRounds [] keepRounds := by
  refine ⟨oneKey_round _ _ _ _ (by decide) (by decide) nil_trace, oneKey_round _ _ _ _ (by decide) (by decide) ⟨oneKey_sorted _ _, ?_, by decide⟩, trivial⟩
  intro k
  rw [oneKey_at, weight_keyOf, List.nil_append, keyOf_input k _ (oneKey_union _ _), oneKey_at]

private theorem compactRounds_legal : LegalRounds [] compactRounds := by
  refine ⟨oneKey_round _ _ _ _ (by decide) (by decide) nil_trace, oneKey_round _ _ _ _ (by decide) (by decide) ⟨⟨by simp, by simp⟩, ?_, by simp⟩, trivial⟩
  intro k
  rw [at_nil, weight_keyOf, List.nil_append, keyOf_input k _ (oneKey_union _ _), oneKey_at]
  by_cases h : 7 = k <;> simp [h]

/-- C30 is false of `distinct_total`: a removed key stays in the output. Moreover the output depends on compaction of the trace: when the key
comes back it is counted once if the trace is not compacted and twice if it is. -/
theorem C30_distinct_total_retraction : ∃ a b : List (TotalRound Nat Nat Int), LegalRounds [] a ∧ LegalRounds [] b ∧ roundsInput a = roundsInput b ∧
    accum (roundsInput a) 7 1 = 0 ∧ accum (distinctTotal (1 : Int) a) 7 1 = 1 ∧
    accum (roundsInput a) 7 2 = 1 ∧ accum (distinctTotal (1 : Int) a) 7 2 = 1 ∧ accum (distinctTotal (1 : Int) b) 7 2 = 2 :=
  ⟨keepRounds, compactRounds, keepRounds_legal, compactRounds_legal, rfl, by decide +kernel, by decide +kernel, by decide +kernel, by decide +kernel, by decide +kernel⟩

/-- Non-vacuity of the C30 theorems: rounds with retractions. -/
example : LegalRounds [] keepRounds ∧ countTotal (1 : Int) keepRounds = [((7, 1), 0, 1), ((7, 1), 1, -1), ((7, 1), 2, 1)] ∧
    thresholdTotal (fun _ c => c % 2) keepRounds = [(7, 0, 1), (7, 1, -1), (7, 2, 1)] :=
  ⟨keepRounds_legal, by decide +kernel, by decide +kernel⟩

/-- Non-vacuity of `C30_distinct_total_partial`: the count of the key 7 is not zero until time 0. -/
example : LegalRounds [] keepRounds ∧ (∀ u ∈ roundsInput keepRounds, u.1 = 7 → u.2.1 ≤ 0 → accum (roundsInput keepRounds) 7 u.2.1 ≠ 0) ∧
    accum (distinctTotal (1 : Int) keepRounds) 7 0 = 1 :=
  ⟨keepRounds_legal, by decide +kernel, by decide +kernel⟩

end DD
