import Verif.Proofs.Delta

namespace DD

section
open scoped Classical
variable {ι K D T R M O : Type*} [DecidableEq ι] [Fintype ι] [DecidableEq K] [DecidableEq D] [Lattice T] [OrderBot T] [DecidableEq T] [CommSemiring R] [AddCommMonoid M] [DecidableEq O]
variable {rels : ι → Upds D T R}

/-- What a half join makes of a functional of its output, as a functional of its input. -/
noncomputable def stepForm (comparison : T → T → Bool) (rels : ι → Upds D T R) (l : Lookup ι K D) (φ : Assign ι D × T → T → R →+ M) (s : Assign ι D × T) (i : T) : R →+ M :=
  ∑ a : Fin (rels l.rel).length, if l.keyOf s.1 = l.arrKey (rels l.rel)[a].1 ∧ comparison (rels l.rel)[a].2.1 i = true then
    (φ (Function.update s.1 l.rel (some (rels l.rel)[a].1), (rels l.rel)[a].2.1 ⊔ s.2) i).comp (AddMonoidHom.mulRight (rels l.rel)[a].2.2) else 0

theorem meas_deltaStep (comparison : T → T → Bool) (l : Lookup ι K D) (φ : Assign ι D × T → T → R →+ M) (us : Upds (Assign ι D × T) T R) :
    meas φ (deltaStep comparison rels l us) = meas (stepForm comparison rels l φ) us := by
  unfold meas
  rw [sum_deltaStep]
  congr 1
  apply List.map_congr_left
  intro s _
  unfold stepForm
  rw [AddMonoidHom.finsetSum_apply]
  apply Finset.sum_congr rfl
  intro a _
  split_ifs <;> rfl

theorem meas_deltaChain (comparison : ι → T → T → Bool) : ∀ (path : Path ι K D) (us ws : Upds (Assign ι D × T) T R) (φ : Assign ι D × T → T → R →+ M),
    DeltaChain comparison rels path us ws → meas φ ws = meas φ (path.foldl (fun us l => deltaStep (comparison l.rel) rels l us) us)
  | [], us, ws, φ, h => meas_congr φ h
  | l :: ls, us, ws, φ, ⟨mid, h1, h2⟩ => by
    rw [meas_deltaChain comparison ls mid ws φ h2, List.foldl_cons]
    have : ∀ (ls : Path ι K D) (us vs : Upds (Assign ι D × T) T R) (φ : Assign ι D × T → T → R →+ M), (∀ x i, total us x i = total vs x i) →
        meas φ (ls.foldl (fun us l => deltaStep (comparison l.rel) rels l us) us) = meas φ (ls.foldl (fun us l => deltaStep (comparison l.rel) rels l us) vs) := by
      intro ls
      induction ls with
      | nil => intro us vs φ h; exact meas_congr φ h
      | cons l ls ih =>
        intro us vs φ h
        rw [List.foldl_cons, List.foldl_cons]
        apply ih
        intro x i
        rw [total_eq_meas, total_eq_meas, meas_deltaStep, meas_deltaStep]
        exact meas_congr _ h
    exact this ls _ _ φ h1

/-- The functional that reads off one record of the answer. -/
def outForm (out : Assign ι D → List O) (o : O) (t : T) (s : Assign ι D × T) (_ : T) : R →+ R :=
  if s.2 = t then (out s.1).count o • AddMonoidHom.id R else 0

omit [Fintype ι] [DecidableEq ι] [DecidableEq D] [OrderBot T] in
theorem total_out (out : Assign ι D → List O) (us : Upds (Assign ι D × T) T R) (o : O) (t : T) :
    total (us.flatMap fun u => (out u.1.1).map fun o => (o, u.1.2, u.2.2)) o t = meas (outForm out o t) us := by
  unfold total meas outForm
  rw [sum_flatMap]
  congr 1
  apply List.map_congr_left
  intro u _
  rw [List.map_map]
  by_cases h1 : u.1.2 = t
  · rw [if_pos h1]
    induction out u.1.1 with
    | nil => simp
    | cons a l ih =>
      rw [List.map_cons, List.sum_cons, ih, List.count_cons]
      by_cases h2 : a = o
      · simp [h1, h2, add_comm, succ_nsmul]
      · simp [h1, h2]
  · rw [if_neg h1]
    induction out u.1.1 with
    | nil => simp
    | cons a l ih => rw [List.map_cons, List.sum_cons, ih]; simp [h1]

theorem total_deltaChains (comparison : ι → ι → T → T → Bool) (paths : ι → Path ι K D) (out : Assign ι D → List O) (ws : ι → Upds (Assign ι D × T) T R)
    (hc : ∀ i, DeltaChain (comparison i) rels (paths i) (changesOf i (rels i)) (ws i)) (order : List ι) (o : O) (t : T) :
    total (order.flatMap fun i => (ws i).flatMap fun u => (out u.1.1).map fun o => (o, u.1.2, u.2.2)) o t = total (deltaQuery comparison rels paths out order) o t := by
  unfold deltaQuery
  induction order with
  | nil => rfl
  | cons i order ih =>
    rw [List.flatMap_cons, List.flatMap_cons, total_append, total_append, ih, total_out, total_out, meas_deltaChain (comparison i) (paths i) _ _ _ (hc i)]
    rfl

end

/-! ### Two collections -/

section
variable {K V1 V2 T R1 R2 M O : Type*} [LinearOrder K] [Lattice T] [DecidableEq T] [LinearOrder (Lin T)] [AddCommMonoid R1] [AddCommMonoid R2] [AddCommMonoid M] [DecidableEq O]

/-- The functional that reads off one record at one payload time. -/
def payloadForm (o : O) (t : T) (x : O × T) (_ : T) : M →+ M := if x.1 = o ∧ x.2 = t then AddMonoidHom.id M else 0

omit [LinearOrder (Lin T)] [Lattice T] in
theorem total_atPayload (us : Upds (O × T) T M) (o : O) (t : T) : total (atPayload us) o t = meas (payloadForm o t) us := by
  unfold total atPayload meas payloadForm
  rw [List.map_map]
  congr 1
  apply List.map_congr_left
  intro u _
  simp only [Function.comp_apply]
  split_ifs <;> rfl

omit [LinearOrder (Lin T)] [Lattice T] in
theorem atPayload_congr {us vs : Upds (O × T) T M} (h : ∀ x i, total us x i = total vs x i) (o : O) (t : T) : total (atPayload us) o t = total (atPayload vs) o t := by
  rw [total_atPayload, total_atPayload]; exact meas_congr _ h

/-- What a pair of updates contributes to one record at one time. -/
def pairTerm (logic : K → V1 → V2 → O) (mul : R1 →+ R2 →+ M) (o : O) (t : T) (a : (K × V1) × T × R1) (b : (K × V2) × T × R2) : M :=
  if a.1.1 = b.1.1 ∧ logic a.1.1 a.1.2 b.1.2 = o ∧ a.2.1 ⊔ b.2.1 = t then mul a.2.2 b.2.2 else 0

omit [LinearOrder (Lin T)] in
theorem total_nestedJoin_pairs (logic : K → V1 → V2 → O) (mul : R1 →+ R2 →+ M) (us1 : Upds (K × V1) T R1) (us2 : Upds (K × V2) T R2) (o : O) (t : T) :
    total (nestedJoin (fun k v1 v2 => [logic k v1 v2]) (fun a b => mul a b) us1 us2) o t = ∑ a : Fin us1.length, ∑ b : Fin us2.length, pairTerm logic mul o t us1[a] us2[b] := by
  unfold nestedJoin
  conv_lhs => unfold total
  rw [sum_flatMap, sum_eq_fin]
  apply Finset.sum_congr rfl
  intro a _
  rw [sum_flatMap, sum_eq_fin]
  apply Finset.sum_congr rfl
  intro b _
  unfold pairTerm
  generalize us1[a] = a'
  generalize us2[b] = b'
  by_cases h : a'.1.1 = b'.1.1
  · rw [if_pos h]; simp [h]
  · rw [if_neg h, if_neg fun hh => h hh.1]; rfl

omit [LinearOrder (Lin T)] in
theorem total_half_pairs (comparison : T → T → Bool) (logic : K → V1 → V2 → O) (mul : R1 →+ R2 →+ M) (us1 : Upds (K × V1) T R1) (us2 : Upds (K × V2) T R2) (o : O) (t : T) :
    total (atPayload (halfMatches comparison logic (fun a b => mul a b) (proposalsOf us1) us2)) o t
      = ∑ a : Fin us1.length, ∑ b : Fin us2.length, if comparison us2[b].2.1 us1[a].2.1 = true then pairTerm logic mul o t us1[a] us2[b] else 0 := by
  rw [total_atPayload]
  unfold halfMatches proposalsOf
  rw [meas_flatMap, List.map_map, sum_eq_fin]
  apply Finset.sum_congr rfl
  intro a _
  simp only [Function.comp_apply]
  rw [meas_flatMap, sum_eq_fin]
  apply Finset.sum_congr rfl
  intro b _
  by_cases hc : comparison us2[b].2.1 us1[a].2.1 = true
  · rw [if_pos hc]
    by_cases hk : us2[b].1.1 = us1[a].1.1
    · have : us2[b].1.1 = PropData.key (toLex (us1[a].1.1, toLex (us1[a].1.2, toLin us1[a].2.1)) : PropData K V1 T) ∧ comparison us2[b].2.1 us1[a].2.1 = true := ⟨hk, hc⟩
      refine (congrArg (meas (payloadForm o t)) (if_pos this)).trans ?_
      rw [meas_cons, meas_nil, add_zero]
      unfold payloadForm pairTerm
      simp only [hk, true_and]
      have e : us2[b].2.1 ⊔ PropData.time (toLex (us1[a].1.1, toLex (us1[a].1.2, toLin us1[a].2.1)) : PropData K V1 T) = us1[a].2.1 ⊔ us2[b].2.1 := sup_comm _ _
      rw [e]
      by_cases hx : logic us1[a].1.1 us1[a].1.2 us2[b].1.2 = o ∧ us1[a].2.1 ⊔ us2[b].2.1 = t
      · rw [if_pos hx]
        refine (congrArg (fun f : M →+ M => f (mul us1[a].2.2 us2[b].2.2)) (if_pos hx)).trans rfl
      · rw [if_neg hx]
        refine (congrArg (fun f : M →+ M => f (mul us1[a].2.2 us2[b].2.2)) (if_neg hx)).trans rfl
    · have : ¬ (us2[b].1.1 = PropData.key (toLex (us1[a].1.1, toLex (us1[a].1.2, toLin us1[a].2.1)) : PropData K V1 T) ∧ comparison us2[b].2.1 us1[a].2.1 = true) := fun h => hk h.1
      refine (congrArg (meas (payloadForm o t)) (if_neg this)).trans ?_
      unfold pairTerm
      rw [if_neg fun h => hk h.1.symm]; rfl
  · rw [if_neg hc]
    have : ¬ (us2[b].1.1 = PropData.key (toLex (us1[a].1.1, toLex (us1[a].1.2, toLin us1[a].2.1)) : PropData K V1 T) ∧ comparison us2[b].2.1 us1[a].2.1 = true) := fun h => hc h.2
    exact (congrArg (meas (payloadForm o t)) (if_neg this)).trans rfl

/-- Strict comparison one way and weak comparison the other cover each pair of updates once. -/
theorem total_two (logic : K → V1 → V2 → O) (mul : R1 →+ R2 →+ M) (us1 : Upds (K × V1) T R1) (us2 : Upds (K × V2) T R2) (o : O) (t : T) :
    total (atPayload (halfMatches (fun s t => decide (toLin s < toLin t)) logic (fun a b => mul a b) (proposalsOf us1) us2)) o t
      + total (atPayload (halfMatches (fun s t => decide (toLin s ≤ toLin t)) (fun k v2 v1 => logic k v1 v2) (fun b a => mul.flip b a) (proposalsOf us2) us1)) o t
      = total (nestedJoin (fun k v1 v2 => [logic k v1 v2]) (fun a b => mul a b) us1 us2) o t := by
  rw [total_half_pairs, total_half_pairs, total_nestedJoin_pairs]
  rw [Finset.sum_comm (s := (Finset.univ : Finset (Fin us2.length))), ← Finset.sum_add_distrib]
  apply Finset.sum_congr rfl
  intro a _
  rw [← Finset.sum_add_distrib]
  apply Finset.sum_congr rfl
  intro b _
  generalize us1[a] = a'
  generalize us2[b] = b'
  have e : pairTerm (fun k v2 v1 => logic k v1 v2) mul.flip o t b' a' = pairTerm logic mul o t a' b' := by
    unfold pairTerm
    by_cases h : a'.1.1 = b'.1.1
    · have h' : b'.1.1 = a'.1.1 := h.symm
      rw [sup_comm b'.2.1]
      simp only [h, true_and]
      rfl
    · rw [if_neg fun hh => h hh.1.symm, if_neg fun hh => h hh.1]
  rw [e]
  by_cases h : toLin b'.2.1 < toLin a'.2.1
  · simp [h, not_le.2 h]
  · simp [h, not_lt.1 h]

end

/-! ### Alt/Neu times that are comparable -/

section
open scoped Classical
variable {ι K D T R O : Type*} [LinearOrder ι] [Fintype ι] [Nonempty ι] [DecidableEq K] [Lattice T] [OrderBot T] [DecidableEq T] [CommRing R] [DecidableEq O]
variable {rels : ι → Upds D T R}

theorem last_one (τ : ι → T) (hcomp : ∀ i j, τ i ≤ τ j ∨ τ j ≤ τ i) :
    ∃! i, τ i = Finset.univ.sup τ ∧ ∀ j, j ≠ i → decide (i < j) = true → τ j ≠ Finset.univ.sup τ := by
  have hmax : ∃ i, τ i = Finset.univ.sup τ := by
    have : ∀ s : Finset ι, s.Nonempty → ∃ i, τ i = s.sup τ := by
      intro s
      induction s using Finset.induction_on with
      | empty => intro h; exact absurd h (by simp)
      | insert a s ha ih =>
        intro _
        rcases s.eq_empty_or_nonempty with rfl | hs
        · exact ⟨a, by simp⟩
        · obtain ⟨i, hi⟩ := ih hs
          rw [Finset.sup_insert, ← hi]
          rcases hcomp a i with h | h
          · exact ⟨i, (sup_eq_right.2 h).symm⟩
          · exact ⟨a, (sup_eq_left.2 h).symm⟩
    exact this _ Finset.univ_nonempty
  let S := Finset.univ.filter fun i => τ i = Finset.univ.sup τ
  have hS : S.Nonempty := by obtain ⟨i, hi⟩ := hmax; exact ⟨i, by simp [S, hi]⟩
  have h1 : τ (S.max' hS) = Finset.univ.sup τ := (Finset.mem_filter.1 (S.max'_mem hS)).2
  refine ⟨S.max' hS, ⟨h1, ?_⟩, ?_⟩
  · intro j _ hlt he
    rw [decide_eq_true_eq] at hlt
    exact absurd hlt (not_lt.2 (S.le_max' j (by simp [S, he])))
  · rintro i ⟨hi, hi'⟩
    by_contra hne
    have hle : i ≤ S.max' hS := S.le_max' i (by simp [S, hi])
    exact hi' _ (Ne.symm hne) (by rw [decide_eq_true_eq]; exact lt_of_le_of_ne hle hne) h1

omit [Nonempty ι] in
theorem total_altNeuQuery (neu : ι → ι → Bool) (paths : ι → Path ι K D) (hv : VisitsOthers paths) (out : Assign ι D → List O) (hk : KeysRight paths out)
    (order : List ι) (ho : order.Nodup ∧ ∀ i, i ∈ order)
    (hone : ∀ c : Combo rels, ∃! i, (c.upd i).2.1 = (Finset.univ.sup fun j => (c.upd j).2.1) ∧ ∀ j, j ≠ i → neu i j = true → (c.upd j).2.1 ≠ Finset.univ.sup fun j => (c.upd j).2.1)
    (o : O) (t : T) : total (altNeuQuery neu rels paths out order) o t = queryTotal rels out o t := by
  have e1 : ∀ order : List ι, total (altNeuQuery neu rels paths out order) o t
      = (order.map fun i => total (integrate ((altNeuPath neu rels i (paths i)).flatMap fun u => (out u.1).map fun o => (o, u.2))) o t).sum := by
    intro order
    unfold altNeuQuery
    induction order with
    | nil => rfl
    | cons i order ih =>
      rw [List.map_cons, List.sum_cons, ← ih, List.flatMap_cons, ← total_append]
      congr 1
      unfold integrate
      rw [List.filter_append, List.map_append]
  rw [e1]
  simp only [total_altNeuPath neu paths hv out hk]
  rw [← List.sum_toFinset _ ho.1]
  have hu : order.toFinset = Finset.univ := by ext i; simp [ho.2 i]
  rw [hu, Finset.sum_comm]
  unfold queryTotal
  apply Finset.sum_congr rfl
  intro c _
  obtain ⟨i, hi, huniq⟩ := hone c
  rw [Finset.sum_eq_single i]
  · rw [if_pos hi]
  · intro j _ hj
    rw [if_neg]
    intro h
    exact hj (huniq j h)
  · intro h; exact absurd (Finset.mem_univ _) h

end

end DD
