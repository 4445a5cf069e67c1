import Verif.Proofs.IdentifiersRun

/-!
# C57: unique identifiers
-/

namespace DD
variable {D T : Type*} [LinearOrder D] [PartialOrder T] [DecidableLE T] [DecidableEq T] {F : IdentifiersFlow D T} {hash : Nat → D → Nat} {data : Nat → Upds D T Int} {n0 : Nat} {t : T}
  {S : Finset D} {m : Nat}

/-- Once the data is complete for a time, so is the output in the end, and it is each record with its difference and an identifier, which no other record present at that time has. `S` are the
records that occur in the data. The hash function must tell apart as many proposals of each record as there are records, within less than 2^64 attempts. -/
theorem C57_identifiers (h : F.Runs hash data) (sD : Settled data n0 t) (hS : ∀ u ∈ data n0, u.1 ∈ S) (hm : Spreads hash S m) (hmax : m ≤ maxRound) :
    ∃ n, Settled F.out n t ∧ ∃ id : D → Nat, (∀ r x, accum (F.out n) (r, x) t = if id r = x then accum (data n0) r t else 0) ∧
      (∀ r r', accum (data n0) r t ≠ 0 → accum (data n0) r' t ≠ 0 → id r = id r' → r = r') ∧ ∀ r, ∃ k ≤ m, id r = hash k r := by
  obtain ⟨n, h1, h2⟩ := identifiers_out h sD hS hm hmax
  have hin : ∀ r, weight (collectionAt (data n0) t) r ≠ 0 → r ∈ S := by
    intro r hr
    obtain ⟨x, hx⟩ := Coll.exists_of_weight hr
    obtain ⟨u, hu, e⟩ := List.mem_map.1 hx
    have := hS u (List.mem_filter.1 hu).1
    rwa [show u.1 = r from congrArg Prod.fst e] at this
  refine ⟨n, h1, fun r => hash (proposal hash (fun r => weight (collectionAt (data n0) t) r ≠ 0) m r) r, fun r x => ?_, fun r r' hr hr' e => ?_, fun r => ⟨_, proposal_le m r, rfl⟩⟩
  · rw [h2, weight_identifiers, ← weight_collectionAt]
    by_cases hr : weight (collectionAt (data n0) t) r = 0
    · rw [hr, ite_self, ite_self]
    · rw [proposal_final hin hm hr (Nat.le_succ m)]
  · rw [← weight_collectionAt] at hr hr'
    exact proposal_unique hin hm hr hr' e

/-- Which identifier a record has is determined by the records present at the time: it is that of the rule in `Spec/Identifiers.lean`, after any number of rounds that is large enough. -/
theorem C57_rule (h : F.Runs hash data) (sD : Settled data n0 t) (hS : ∀ u ∈ data n0, u.1 ∈ S) (hm : Spreads hash S m) (hmax : m ≤ maxRound) {i : Nat} (hi : m ≤ i) :
    ∃ n, Settled F.out n t ∧ ∀ r x, accum (F.out n) (r, x) t = if hash (proposal hash (fun r => accum (data n0) r t ≠ 0) i r) r = x then accum (data n0) r t else 0 := by
  obtain ⟨n, h1, h2⟩ := identifiers_out h sD hS hm hmax
  refine ⟨n, h1, fun r x => ?_⟩
  have hin : ∀ r, weight (collectionAt (data n0) t) r ≠ 0 → r ∈ S := by
    intro r hr
    obtain ⟨x, hx⟩ := Coll.exists_of_weight hr
    obtain ⟨u, hu, e⟩ := List.mem_map.1 hx
    have := hS u (List.mem_filter.1 hu).1
    rwa [show u.1 = r from congrArg Prod.fst e] at this
  rw [h2, weight_identifiers]
  simp only [← weight_collectionAt]
  by_cases hr : weight (collectionAt (data n0) t) r = 0
  · rw [hr, ite_self, ite_self]
  · rw [proposal_final hin hm hr (Nat.le_succ m), proposal_final hin hm hr hi]

omit [PartialOrder T] [DecidableLE T] [DecidableEq T] in
/-- A record keeps its own hash, unless a smaller record that is present has the same. -/
theorem C57_own_hash {present : D → Prop} {r : D} (h : ∀ r', present r' → r' < r → hash 0 r' ≠ hash 0 r) (i : Nat) : hash (proposal hash present i r) r = hash 0 r := by
  have h1 : proposal hash present 1 r = 0 := by
    rw [(proposal_same_iff 0 r).2]
    · rfl
    · rintro ⟨r', hp, he, hb⟩
      rcases hb with hb | ⟨-, hb⟩
      · exact absurd hb (Nat.lt_irrefl 0)
      · exact h r' hp hb he
  cases i with
  | zero => rfl
  | succ i => rw [proposal_stays (i := 1) (by omega) (by omega), h1]

omit [LinearOrder D] [DecidableEq T] in
/-- And then it is right at each later moment too. -/
theorem C57_stays [DecidableEq D] {out : Nat → Upds (D × Nat) T Int} {n n' : Nat} (h : Settled out n t) (hn : n ≤ n') (x : D × Nat) : accum (out n') x t = accum (out n) x t :=
  h.mono hn le_rfl |>.accum_eq h x

/-- The loop stops. -/
theorem C57_stops (h : F.Runs hash data) (sD : Settled data n0 t) (hS : ∀ u ∈ data n0, u.1 ∈ S) (hm : Spreads hash S m) : ∀ n, ∀ u ∈ (F.result n).upds, u.2.1.1 ≤ t → u.2.1.2 ≤ m :=
  identifiers_stops h sD hS hm

/-- Two records that the hash function never tells apart keep the loop from stopping: there are updates in all rounds. -/
theorem C57_hash_needed (h : F.Runs hash data) (sD : Settled data n0 t) {r r' : D} (hlt : r < r') (hr : accum (data n0) r t ≠ 0) (hr' : accum (data n0) r' t ≠ 0)
    (hh : ∀ k k', hash k r = hash k' r') {i : Nat} (hi : i < maxRound) : ∃ n, ∃ u ∈ (F.result n).upds, u.2.1.1 ≤ t ∧ u.2.1.2 = i + 1 := by
  rw [← weight_collectionAt] at hr hr'
  set c := collectionAt (data n0) t
  have key : ∀ i, proposal hash (fun r => weight c r ≠ 0) i r' = i := by
    intro i
    induction i with
    | zero => rfl
    | succ i ih =>
      rw [proposal, if_pos, ih]
      refine ⟨r, hr, hh _ _, ?_⟩
      rw [ih]
      rcases Nat.lt_or_eq_of_le (proposal_le (hash := hash) (present := fun r => weight c r ≠ 0) i r) with h | h
      · exact Or.inl h
      · exact Or.inr ⟨h, hlt⟩
  obtain ⟨n1, a1, a2⟩ := (identifiers_holds h (sD.holds le_rfl) i hi.le).2.2
  obtain ⟨n2, b1, b2⟩ := (identifiers_holds h (sD.holds le_rfl) (i + 1) hi).2.2
  by_contra hn
  push Not at hn
  set N := max n1 n2
  have e : upTo (t, i + 1) (F.result N).upds = upTo (t, i) (F.result N).upds := by
    unfold upTo
    refine List.filter_congr fun u hu => ?_
    have := hn N u hu
    simp only [decide_eq_decide, Prod.le_def]
    constructor
    · rintro ⟨x, y⟩
      refine ⟨x, ?_⟩
      have := this x
      omega
    · rintro ⟨x, y⟩
      exact ⟨x, Nat.le_succ_of_le y⟩
  have w1 := weight_idIter hash c (i + 1) (i + 2) r'
  have w2 := weight_idIter hash c (i + 1 + 1) (i + 2) r'
  rw [Coll.weight_concat, key, if_neg (by omega)] at w1
  rw [Coll.weight_concat, key, if_pos rfl] at w2
  have s1 := (a1.mono (le_max_left n1 n2) le_rfl).accum_eq a1 (i + 2, r')
  have s2 := (b1.mono (le_max_right n1 n2) le_rfl).accum_eq b1 (i + 2, r')
  have s3 : accum (F.result N).upds (i + 2, r') (t, i + 1) = accum (F.result N).upds (i + 2, r') (t, i) := by
    rw [← weight_collectionAt, ← weight_collectionAt, collectionAt, collectionAt, e]
  beta_reduce at s1 s2
  rw [a2] at s1
  rw [b2] at s2
  have q : weight (idIter hash c (i + 1 + 1)) (i + 2, r') = weight (idIter hash c (i + 1)) (i + 2, r') := s2.symm.trans (s3.trans s1)
  rw [q] at w2
  exact hr' (w2.symm.trans w1)

/-- Data that does not change has a run. -/
theorem C57_run_exists [OrderBot T] (hash : Nat → D → Nat) (c : Coll D) (hS : ∀ x ∈ c, x.1 ∈ S) (hm : Spreads hash S m) (hmax : m < maxRound) :
    ∃ F : IdentifiersFlow D T, F.Runs hash fun n => (constant c n).upds := by
  simp only [upds_constant]
  exact identifiers_static (stages_constant (T := T)) hash (C := fun _ => c) (represents_constant c) (fun _ r hr => by obtain ⟨x, hx⟩ := Coll.exists_of_weight hr; exact hS _ hx) hm hmax

section examples

/-- The hash function of the test in identifiers.rs:116, `(round + num) / 10`. -/
private def exHash (k r : Nat) : Nat := (k + r) / 10

private theorem ex_spreads : Spreads exHash {1, 2, 3} 30 := by unfold Spreads; decide +kernel

/-- There is a run with the three records, one of them twice, which all have the same hash at first; all get identifiers, different ones. -/
example : ∃ F : IdentifiersFlow Nat Nat, F.Runs exHash (fun n => (constant [(1, 1), (2, 2), (3, 1)] n).upds) ∧ ∃ n, Settled F.out n 5 ∧ ∃ id : Nat → Nat, id 1 = 0 ∧ id 1 ≠ id 2 ∧ id 2 ≠ id 3 ∧ id 1 ≠ id 3 ∧
    accum (F.out n) (1, 0) 5 = 1 ∧ accum (F.out n) (2, id 2) 5 = 2 ∧ accum (F.out n) (2, id 1) 5 = 0 ∧ accum (F.out n) (3, id 3) 5 = 1 := by
  obtain ⟨F, h⟩ := C57_run_exists (T := Nat) exHash [(1, 1), (2, 2), (3, 1)] (S := {1, 2, 3}) (by decide) ex_spreads (by unfold maxRound; omega)
  have ha : ∀ r, accum (constant (T := Nat) [(1, (1 : Int)), (2, 2), (3, 1)] 0).upds r 5 = weight [(1, (1 : Int)), (2, 2), (3, 1)] r := fun r => by rw [upds_constant, accum_stamp, if_pos bot_le]
  have hS : ∀ u ∈ (constant (T := Nat) [(1, (1 : Int)), (2, 2), (3, 1)] 0).upds, u.1 ∈ ({1, 2, 3} : Finset Nat) := by decide
  obtain ⟨n, h1, h2⟩ := C57_rule (n0 := 0) (t := 5) h (fun _ _ => List.Perm.refl _) hS ex_spreads (by unfold maxRound; omega) (i := 30) le_rfl
  have hu : ∀ r r', weight [(1, (1 : Int)), (2, 2), (3, 1)] r ≠ 0 → weight [(1, (1 : Int)), (2, 2), (3, 1)] r' ≠ 0 → r ≠ r' →
      exHash (proposal exHash (fun r => weight [(1, (1 : Int)), (2, 2), (3, 1)] r ≠ 0) 30 r) r ≠ exHash (proposal exHash (fun r => weight [(1, (1 : Int)), (2, 2), (3, 1)] r ≠ 0) 30 r') r' := by
    intro r r' hr hr' hne e
    refine hne (proposal_unique (S := {1, 2, 3}) (present := fun r => weight [(1, (1 : Int)), (2, 2), (3, 1)] r ≠ 0) (fun r hr => ?_) ex_spreads hr hr' e)
    obtain ⟨x, hx⟩ := Coll.exists_of_weight hr
    simp only [List.mem_cons, Prod.mk.injEq, List.not_mem_nil, or_false] at hx
    simp only [Finset.mem_insert, Finset.mem_singleton]
    omega
  simp only [ha] at h2
  have h12 := hu 1 2 (by decide) (by decide) (by decide)
  have h23 := hu 2 3 (by decide) (by decide) (by decide)
  have h13 := hu 1 3 (by decide) (by decide) (by decide)
  have h10 : exHash (proposal exHash (fun r => weight [(1, (1 : Int)), (2, 2), (3, 1)] r ≠ 0) 30 1) 1 = 0 := C57_own_hash (fun r' hp hlt => absurd hp (by
    have : r' = 0 := by omega
    subst this; decide)) 30
  refine ⟨F, h, n, h1, fun r => exHash (proposal exHash (fun r => weight [(1, (1 : Int)), (2, 2), (3, 1)] r ≠ 0) 30 r) r, h10, h12, h23, h13, ?_, ?_, ?_, ?_⟩
  · rw [h2, if_pos h10]; decide
  · rw [h2, if_pos rfl]; decide
  · rw [h2, if_neg (Ne.symm h12)]
  · rw [h2, if_pos rfl]; decide

end examples
end DD
