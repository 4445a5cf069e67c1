import Verif.Spec.Identifiers
import Verif.Model.Identifiers
import Verif.Proofs.PrefixSumFlow

/-!
# Identifiers are unique
-/

namespace DD
variable {D T : Type*} [LinearOrder D]

/-! ### The rule -/

section rule
variable {hash : Nat → D → Nat} {present : D → Prop}

local notation "prop" => proposal hash present

theorem proposal_mono_one (i : Nat) (r : D) : prop i r ≤ prop (i + 1) r ∧ prop (i + 1) r ≤ prop i r + 1 := by
  rw [proposal]; split_ifs <;> omega

theorem proposal_le (i : Nat) (r : D) : prop i r ≤ i := by
  induction i with
  | zero => exact le_rfl
  | succ i ih => have := (proposal_mono_one (hash := hash) (present := present) i r).2; omega

theorem proposal_same_iff (i : Nat) (r : D) : prop (i + 1) r = prop i r ↔ ¬ ∃ r', present r' ∧ Beats hash (prop i) r' r := by
  rw [proposal]
  split_ifs with h
  · exact ⟨fun e => by omega, fun e => absurd h e⟩
  · exact ⟨fun _ => h, fun _ => rfl⟩

/-- A record that stopped once has precedence over all others from then on. -/
theorem proposal_wins (i : Nat) : ∀ r, prop i r < i → prop (i + 1) r = prop i r := by
  induction i with
  | zero => exact fun r h => absurd h (Nat.not_lt_zero _)
  | succ i ih =>
    have same : ∀ r, prop (i + 1) r < i + 1 → prop (i + 1) r = prop i r := fun r h => by
      by_cases hi : prop i r < i
      · exact ih r hi
      · have h1 := proposal_le (hash := hash) (present := present) i r
        have h2 := (proposal_mono_one (hash := hash) (present := present) i r)
        omega
    intro r hr
    have e := same r hr
    refine (proposal_same_iff _ _).2 fun ⟨r', hp, hb⟩ => ?_
    have e' := same r' (by rcases hb.2 with h | h <;> omega)
    refine (proposal_same_iff i r).1 e ⟨r', hp, ?_⟩
    unfold Beats at hb ⊢
    rwa [e, e'] at hb

theorem proposal_stays {i : Nat} {r : D} (h : prop i r < i) : ∀ {j}, i ≤ j → prop j r = prop i r := by
  intro j hj
  induction hj with
  | refl => rfl
  | @step j hj ih => rw [proposal_wins j r (by have := hj; simp only [Nat.le_eq] at this; omega), ih]

theorem proposal_early {i : Nat} {r : D} (h : prop (i + 1) r ≤ i) : prop (i + 1) r = prop i r := by
  by_cases hi : prop i r < i
  · exact proposal_wins i r hi
  · have h1 := proposal_le (hash := hash) (present := present) i r
    have h2 := proposal_mono_one (hash := hash) (present := present) i r
    omega

theorem beats_total {k : D → Nat} {r r' : D} (hne : r ≠ r') (h : hash (k r) r = hash (k r') r') : Beats hash k r r' ∨ Beats hash k r' r := by
  unfold Beats
  rcases Nat.lt_trichotomy (k r) (k r') with h1 | h1 | h1
  · exact Or.inl ⟨h, Or.inl h1⟩
  · rcases lt_or_gt_of_ne hne with h2 | h2
    · exact Or.inl ⟨h, Or.inr ⟨h1, h2⟩⟩
    · exact Or.inr ⟨h.symm, Or.inr ⟨h1.symm, h2⟩⟩
  · exact Or.inr ⟨h.symm, Or.inl h1⟩

/-- Whoever loses, loses against someone who wins. -/
theorem exists_winner {S : Finset D} (hS : ∀ r, present r → r ∈ S) {i : Nat} {r : D} (h : prop (i + 1) r ≠ prop i r) :
    ∃ r', present r' ∧ r' ≠ r ∧ hash (prop i r') r' = hash (prop i r) r ∧ prop (i + 1) r' = prop i r' := by
  rw [ne_eq, proposal_same_iff, not_not] at h
  classical
  obtain ⟨r0, hp0, hb0⟩ := h
  obtain ⟨x, hx, hmin⟩ := ((S.filter fun r' => present r' ∧ Beats hash (prop i) r' r).image fun r' => (toLex (prop i r', r') : Nat ×ₗ D)).exists_minimal
    ⟨_, Finset.mem_image_of_mem _ (Finset.mem_filter.2 ⟨hS _ hp0, hp0, hb0⟩)⟩
  obtain ⟨r', hr', rfl⟩ := Finset.mem_image.1 hx
  obtain ⟨-, hp, hb⟩ := Finset.mem_filter.1 hr'
  refine ⟨r', hp, ?_, hb.1, (proposal_same_iff _ _).2 fun ⟨r2, hp2, hb2⟩ => ?_⟩
  · rintro rfl
    rcases hb.2 with h | h
    · exact lt_irrefl _ h
    · exact lt_irrefl _ h.2
  · have hb2' : Beats hash (prop i) r2 r := ⟨hb2.1.trans hb.1, by
      rcases hb2.2 with h | ⟨h, h'⟩ <;> rcases hb.2 with g | ⟨g, g'⟩
      · exact Or.inl (h.trans g)
      · exact Or.inl (g ▸ h)
      · exact Or.inl (h ▸ g)
      · exact Or.inr ⟨h.trans g, h'.trans g'⟩⟩
    have hm2 : (toLex (prop i r2, r2) : Nat ×ₗ D) ∈ (S.filter fun r' => present r' ∧ Beats hash (prop i) r' r).image fun r' => (toLex (prop i r', r') : Nat ×ₗ D) :=
      Finset.mem_image_of_mem _ (Finset.mem_filter.2 ⟨hS _ hp2, hp2, hb2'⟩)
    have hlt : (toLex (prop i r2, r2) : Nat ×ₗ D) < toLex (prop i r', r') := Prod.Lex.toLex_lt_toLex.2 hb2.2
    exact absurd (hmin hm2 hlt.le) (not_le.2 hlt)

/-- With a good enough hash function, numbers stay below `m`. -/
theorem proposal_bounded {S : Finset D} (hS : ∀ r, present r → r ∈ S) {m : Nat} (hm : Spreads hash S m) {r : D} (hr : present r) : prop (m + 1) r ≤ m := by
  by_contra hn
  have hle := proposal_le (hash := hash) (present := present) (m + 1) r
  have hall : ∀ j, j ≤ m + 1 → prop j r = j := by
    intro j hj
    by_contra hne
    have hlt : prop j r < j := lt_of_le_of_ne (proposal_le _ _) hne
    have := proposal_stays hlt hj
    omega
  have hw : ∀ j, j ≤ m → ∃ r', present r' ∧ r' ≠ r ∧ hash (prop (m + 1) r') r' = hash j r := by
    intro j hj
    obtain ⟨r', h1, h2, h3, h4⟩ := exists_winner hS (i := j) (r := r) (by rw [hall j (by omega), hall (j + 1) (by omega)]; omega)
    refine ⟨r', h1, h2, ?_⟩
    rw [proposal_stays (i := j + 1) (by have := proposal_le (hash := hash) (present := present) j r'; omega) (by omega), h4, h3, hall j (by omega)]
  have hsub : (Finset.range (m + 1)).image (fun k => hash k r) ⊆ (S.erase r).image fun r' => hash (prop (m + 1) r') r' := by
    intro x hx
    obtain ⟨j, hj, rfl⟩ := Finset.mem_image.1 hx
    obtain ⟨r', h1, h2, h3⟩ := hw j (Nat.lt_succ_iff.1 (Finset.mem_range.1 hj))
    exact Finset.mem_image.2 ⟨r', Finset.mem_erase.2 ⟨h2, hS _ h1⟩, h3⟩
  have c1 := (Finset.card_le_card hsub).trans Finset.card_image_le
  have c2 := hm r (hS r hr)
  have c3 := Finset.card_erase_lt_of_mem (hS r hr)
  omega

theorem proposal_final {S : Finset D} (hS : ∀ r, present r → r ∈ S) {m : Nat} (hm : Spreads hash S m) {r : D} (hr : present r) {i : Nat} (hi : m ≤ i) : prop i r = prop m r := by
  have h := proposal_bounded hS hm hr
  have h' := proposal_early h
  rcases Nat.eq_or_lt_of_le hi with rfl | hi
  · rfl
  · rw [proposal_stays (Nat.lt_succ_of_le h) hi, h']

/-- And in the end they propose different identifiers. -/
theorem proposal_unique {S : Finset D} (hS : ∀ r, present r → r ∈ S) {m : Nat} (hm : Spreads hash S m) {r r' : D} (hr : present r) (hr' : present r')
    (h : hash (prop m r) r = hash (prop m r') r') : r = r' := by
  by_contra hne
  rcases beats_total (k := prop m) hne h with hb | hb
  · exact (proposal_same_iff m r').1 (proposal_final hS hm hr' (Nat.le_succ m)) ⟨r, hr, hb⟩
  · exact (proposal_same_iff m r).1 (proposal_final hS hm hr (Nat.le_succ m)) ⟨r', hr', hb⟩

end rule

/-! ### The collections -/

/-- What a proposal that stays adds for a given record and number. -/
private def keepsFor (k : Nat) (r : D) (p : Nat ×ₗ D) : Int := if (ofLex p).2 = r then (if k = (ofLex p).1 then 1 else 0) - (if k = 0 then 1 else 0) else 0

/-- What a proposal that loses adds. -/
private def losesFor (k : Nat) (r : D) (p : Nat ×ₗ D) : Int := if (ofLex p).2 = r then (if k = (ofLex p).1 + 1 then 1 else 0) - (if k = 0 then 1 else 0) else 0

private theorem weight_losers (losers : List ((Nat ×ₗ D) × Int)) (k : Nat) (r : D) :
    weight (losers.flatMap fun y => [((0, (ofLex y.1).2), -y.2), (((ofLex y.1).1 + 1, (ofLex y.1).2), y.2)]) (k, r) = Coll.lin (losesFor k r) losers := by
  induction losers with
  | nil => rfl
  | cons y l ih =>
    rw [List.flatMap_cons, weight_append, ih, Coll.lin_cons, weight_cons, weight_cons, weight_nil]
    congr 1
    unfold losesFor
    simp only [Prod.mk.injEq, eq_comm (a := 0) (b := k), eq_comm (a := (ofLex y.1).1 + 1) (b := k)]
    by_cases h1 : (ofLex y.1).2 = r <;> by_cases h2 : k = 0 <;> by_cases h3 : k = (ofLex y.1).1 + 1 <;> simp [h1, h2, h3]

private theorem weight_resolve {K : Type*} (h : K) (x : (Nat ×ₗ D) × Int) (losers : List ((Nat ×ₗ D) × Int)) (k : Nat) (r : D) :
    weight (resolveCollisions h (x :: losers)) (k, r) = x.2 * keepsFor k r x.1 + Coll.lin (losesFor k r) losers := by
  unfold resolveCollisions
  rw [weight_append, weight_losers]
  congr 1
  obtain ⟨p, c⟩ := x
  obtain ⟨⟨a, r'⟩, rfl⟩ : ∃ q : Nat × D, p = toLex q := ⟨ofLex p, rfl⟩
  show weight (if 0 < a then [((0, r'), -c), ((a, r'), c)] else []) (k, r) = c * if r' = r then (if k = a then 1 else 0) - (if k = 0 then 1 else 0) else 0
  by_cases h1 : r' = r
  · subst h1
    rcases Nat.eq_zero_or_pos a with rfl | ha
    · simp [sub_self]
    · rw [if_pos ha, weight_cons, weight_cons, weight_nil]
      simp only [Prod.mk.injEq, and_true, if_true]
      by_cases h2 : k = 0
      · subst h2
        rw [if_pos rfl, if_neg (by omega), if_neg (by omega)]; simp
      · rw [if_neg (Ne.symm h2), if_neg h2]
        by_cases h3 : k = a
        · subst h3; simp
        · rw [if_neg (Ne.symm h3), if_neg h3]; simp
  · rw [if_neg h1, mul_zero]
    split_ifs
    · rw [weight_cons, weight_cons, weight_nil, if_neg fun e => h1 (congrArg Prod.snd e), if_neg fun e => h1 (congrArg Prod.snd e)]; rfl
    · rfl

theorem weight_hashedProposals (hash : Nat → D → Nat) (init diff : Coll (Nat × D)) (h : Nat) (p : Nat × D) :
    weight (hashedProposals hash init diff) (h, toLex p) = if hash p.1 p.2 = h then weight init p + weight diff p else 0 := by
  unfold hashedProposals
  split_ifs with e
  · subst e
    rw [← Coll.weight_concat]
    exact Coll.weight_map_inj (f := fun p : Nat × D => (hash p.1 p.2, (toLex p : Nat ×ₗ D))) (fun a b e => toLex.injective (congrArg Prod.snd e)) _ p
  · refine Coll.weight_map_none _ _ _ fun x hx => e ?_
    have := toLex.injective (congrArg Prod.snd hx)
    subst this
    exact congrArg Prod.fst hx

private theorem resolve_none {c : Coll (Nat × (Nat ×ₗ D))} {h : Nat} {r : D} (hr : ∀ a, weight c (h, toLex (a, r)) = 0) (k : Nat) :
    weight (Coll.reduce resolveCollisions c) (h, (k, r)) = 0 := by
  rw [Coll.weight_reduce]
  cases hv : c.values h with
  | nil => rfl
  | cons x losers =>
    rw [if_neg (List.cons_ne_nil _ _), weight_resolve]
    have hx : (ofLex x.1).2 ≠ r := by
      rintro rfl
      have := Coll.values_head hv
      exact this.2.1 (this.1.symm.trans (hr (ofLex x.1).1))
    have hl : Coll.lin (losesFor k r) losers = 0 := by
      refine Coll.lin_zero fun p => ?_
      by_cases hp : (ofLex p).2 = r
      · have hw : weight (x :: losers) p = 0 := by rw [← hv, Coll.weight_values]; subst hp; exact hr (ofLex p).1
        rw [weight_cons, if_neg (fun e : x.1 = p => hx (by rw [e]; exact hp)), zero_add] at hw
        rw [hw, zero_mul]
      · unfold losesFor
        rw [if_neg hp, mul_zero]
    rw [hl]
    unfold keepsFor
    rw [if_neg hx, mul_zero, add_zero]

private theorem resolve_some {c : Coll (Nat × (Nat ×ₗ D))} {h a0 : Nat} {r : D} (hr : ∀ a, a ≠ a0 → weight c (h, toLex (a, r)) = 0) (hr0 : weight c (h, toLex (a0, r)) ≠ 0) (k : Nat) :
    ((∀ p, weight c (h, p) ≠ 0 → toLex (a0, r) ≤ p) → weight (Coll.reduce resolveCollisions c) (h, (k, r)) = weight c (h, toLex (a0, r)) * keepsFor k r (toLex (a0, r))) ∧
    ((∃ p, weight c (h, p) ≠ 0 ∧ p < toLex (a0, r)) → weight (Coll.reduce resolveCollisions c) (h, (k, r)) = weight c (h, toLex (a0, r)) * losesFor k r (toLex (a0, r))) := by
  rw [Coll.weight_reduce]
  cases hv : c.values h with
  | nil => exact absurd ((Coll.values_eq_nil _ _).1 hv _) hr0
  | cons x losers =>
    rw [if_neg (List.cons_ne_nil _ _), weight_resolve]
    obtain ⟨h1, h2, h3⟩ := Coll.values_head hv
    have hw : ∀ p, weight losers p = weight c (h, p) - if x.1 = p then x.2 else 0 := fun p => by
      rw [← Coll.weight_values, hv, weight_cons]; ring
    have hother : ∀ p : Nat ×ₗ D, p ≠ toLex (a0, r) → weight losers p * losesFor k r p = 0 := by
      intro p hp
      by_cases e : (ofLex p).2 = r
      · have hpa : (ofLex p).1 ≠ a0 := by rintro rfl; subst e; exact hp rfl
        have h0 : weight c (h, p) = 0 := by subst e; exact hr (ofLex p).1 hpa
        rw [hw, h0, if_neg, sub_zero, zero_mul]
        rintro rfl
        exact h2 (h1.symm.trans h0)
      · unfold losesFor
        rw [if_neg e, mul_zero]
    rw [Coll.lin_single (toLex (a0, r)) hother, hw]
    constructor
    · intro hle
      have e : x.1 = toLex (a0, r) := le_antisymm (h3 _ hr0) (hle _ (by rw [h1]; exact h2))
      rw [if_pos e, ← h1, e, sub_self, zero_mul, add_zero]
    · rintro ⟨p, hp, hlt⟩
      have e : x.1 ≠ toLex (a0, r) := ((h3 p hp).trans_lt hlt).ne
      have hxr : (ofLex x.1).2 ≠ r := by
        intro er
        have : (ofLex x.1).1 ≠ a0 := by rintro rfl; subst er; exact e rfl
        refine h2 (h1.symm.trans ?_)
        subst er
        exact hr (ofLex x.1).1 this
      rw [if_neg e, sub_zero]
      unfold keepsFor
      rw [if_neg hxr, mul_zero, zero_add]

omit [LinearOrder D] in
private theorem moved (w : Int) (k a : Nat) : (if k = 0 then w else 0) + w * ((if k = a then 1 else 0) - (if k = 0 then 1 else 0)) = if k = a then w else 0 := by
  by_cases h1 : k = 0
  · by_cases h2 : k = a
    · rw [if_pos h1, if_pos h2, if_pos h2, if_pos h1, sub_self, mul_zero, add_zero]
    · rw [if_pos h1, if_neg h2, if_neg h2, if_pos h1]; ring
  · by_cases h2 : k = a
    · rw [if_neg h1, if_pos h2, if_pos h2, if_neg h1]; ring
    · rw [if_neg h1, if_neg h2, if_neg h2, if_neg h1]; ring

/-- In each round, each record has one proposal, with its difference. -/
theorem weight_idIter (hash : Nat → D → Nat) (c : Coll D) (i : Nat) : ∀ k r, weight ((c.map fun r => (0, r)).concat (idIter hash c i)) (k, r) =
    if k = proposal hash (fun r => weight c r ≠ 0) i r then weight c r else 0 := by
  have hinit : ∀ k r, weight (c.map fun r => (0, r)) (k, r) = if k = 0 then weight c r else 0 := by
    intro k r
    split_ifs with h
    · subst h
      exact Coll.weight_map_inj (f := fun r : D => (0, r)) (fun a b e => congrArg Prod.snd e) c r
    · exact Coll.weight_map_none _ _ _ fun x hx => h (congrArg Prod.fst hx).symm
  induction i with
  | zero => intro k r; rw [Coll.weight_concat, hinit]; show _ + weight [] _ = _; rw [weight_nil, add_zero]; rfl
  | succ i ih =>
    intro k r
    set P := proposal hash fun r => weight c r ≠ 0 with hP
    have hw : ∀ h a r', weight (hashedProposals hash (c.map fun r => (0, r)) (idIter hash c i)) (h, toLex (a, r')) = if hash a r' = h ∧ a = P i r' then weight c r' else 0 := by
      intro h a r'
      rw [weight_hashedProposals, ← Coll.weight_concat, ih]
      by_cases e1 : hash a r' = h <;> by_cases e2 : a = P i r' <;> simp [e1, e2]
    have hone : weight (idIter hash c (i + 1)) (k, r) = weight (Coll.reduce resolveCollisions (hashedProposals hash (c.map fun r => (0, r)) (idIter hash c i))) (hash (P i r) r, (k, r)) := by
      show weight (Coll.map _ _) _ = _
      rw [Coll.weight_map, Coll.lin_single (hash (P i r) r, (k, r)), if_pos rfl, mul_one]
      rintro ⟨h, k', r'⟩ hne
      by_cases e : (k', r') = (k, r)
      · obtain ⟨rfl, rfl⟩ := Prod.mk.inj e
        rw [resolve_none, zero_mul]
        intro a
        rw [hw, if_neg]
        rintro ⟨rfl, rfl⟩
        exact hne rfl
      · rw [if_neg e, mul_zero]
    rw [Coll.weight_concat, hinit, hone]
    by_cases hr : weight c r = 0
    · rw [resolve_none, hr]
      · simp
      · intro a
        rw [hw, hr, ite_self]
    · obtain ⟨s1, s2⟩ := resolve_some (c := hashedProposals hash (c.map fun r => (0, r)) (idIter hash c i)) (h := hash (P i r) r) (a0 := P i r) (r := r)
        (fun a ha => by rw [hw, if_neg fun e => ha e.2]) (by rw [hw, if_pos ⟨rfl, rfl⟩]; exact hr) k
      rw [hw, if_pos ⟨rfl, rfl⟩] at s1 s2
      by_cases hb : ∃ r', weight c r' ≠ 0 ∧ Beats hash (P i) r' r
      · have e : P (i + 1) r = P i r + 1 := by rw [hP, proposal]; exact if_pos hb
        obtain ⟨r', h1, h2⟩ := hb
        rw [s2 ⟨toLex (P i r', r'), by rw [hw, if_pos ⟨h2.1, rfl⟩]; exact h1, Prod.Lex.toLex_lt_toLex.2 h2.2⟩, e]
        exact (congrArg _ (congrArg _ (if_pos rfl))).trans (moved _ k _)
      · have e : P (i + 1) r = P i r := by rw [hP, proposal]; exact if_neg hb
        rw [s1 fun p hp => ?_, e]
        · exact (congrArg _ (congrArg _ (if_pos rfl))).trans (moved _ k _)
        · obtain ⟨⟨a, r'⟩, rfl⟩ : ∃ q : Nat × D, p = toLex q := ⟨ofLex p, rfl⟩
          rw [hw] at hp
          split_ifs at hp with hq
          · obtain ⟨hq, rfl⟩ := hq
            by_contra hlt
            exact hb ⟨r', hp, hq, Prod.Lex.toLex_lt_toLex.1 (not_le.1 hlt)⟩
          · exact absurd rfl hp

theorem idIter_stable {hash : Nat → D → Nat} {c : Coll D} {S : Finset D} (hS : ∀ r, weight c r ≠ 0 → r ∈ S) {m : Nat} (hm : Spreads hash S m) {i : Nat} (hi : m ≤ i) :
    Coll.Same (idIter hash c i) (idIter hash c m) := by
  rintro ⟨k, r⟩
  have h1 := weight_idIter hash c i k r
  have h2 := weight_idIter hash c m k r
  rw [Coll.weight_concat] at h1 h2
  by_cases hr : weight c r = 0
  · rw [hr, ite_self] at h1 h2
    omega
  · rw [proposal_final hS hm hr hi] at h1
    omega

/-! ### The dataflow -/

section flow
variable [PartialOrder T] [DecidableLE T] [DecidableEq T] {F : IdentifiersFlow D T} {hash : Nat → D → Nat} {data : Nat → Upds D T Int}

theorem hashedProposals_same {a a' b b' : Coll (Nat × D)} (h : Coll.Same a a') (h' : Coll.Same b b') : Coll.Same (hashedProposals hash a b) (hashedProposals hash a' b') := (h.concat h').map _

theorem identifiers_holds (h : F.Runs hash data) {t : T} {c : Coll D} (hc : Holds data t c) : ∀ i, i ≤ maxRound → Holds F.diff (t, i) (idIter hash c i) ∧
    Holds (fun n => (F.reduced n).upds) (t, i) (Coll.reduce resolveCollisions (hashedProposals hash (c.map fun r => (0, r)) (idIter hash c i))) ∧
    Holds (fun n => (F.result n).upds) (t, i) (idIter hash c (i + 1)) := by
  have hi := h.init t c hc
  have step : ∀ i, Holds F.diff (t, i) (idIter hash c i) →
      Holds (fun n => (F.reduced n).upds) (t, i) (Coll.reduce resolveCollisions (hashedProposals hash (c.map fun r => (0, r)) (idIter hash c i))) ∧
      Holds (fun n => (F.result n).upds) (t, i) (idIter hash c (i + 1)) := fun i hd => by
    have h1 := h.reduced _ _ (h.hashed _ _ _ (h.initIn t i _ hi) hd)
    exact ⟨h1, C49_map _ _ _ _ h1⟩
  have hw : ∀ n : Nat, WellTimed ((fun _ => []) n : Msgs (Nat × D) T Int) := fun _ _ hm => absurd hm List.not_mem_nil
  have hs : Holds (fun _ => Msgs.upds ([] : Msgs (Nat × D) T Int)) t ([] : Coll (Nat × D)) := ⟨0, fun _ _ => List.Perm.refl _, fun _ => rfl⟩
  intro i
  induction i with
  | zero => exact fun _ => ⟨loop_zero hw h.loop hs, step 0 (loop_zero hw h.loop hs)⟩
  | succ i ih =>
    intro hle
    have := loop_succ hw h.loop hs (by omega) (ih (by omega)).2.2
    exact ⟨this, step _ this⟩

theorem identifiers_stops (h : F.Runs hash data) {n0 : Nat} {t : T} (hs : Settled data n0 t) {S : Finset D} (hS : ∀ u ∈ data n0, u.1 ∈ S) {m : Nat} (hm : Spreads hash S m) :
    ∀ n, ∀ u ∈ (F.result n).upds, u.2.1.1 ≤ t → u.2.1.2 ≤ m := by
  have hmem : ∀ n, ∀ u ∈ (F.reduced n).upds, ∃ v ∈ (F.result n).upds, v.2.1 = u.2.1 := by
    intro n u hu
    obtain ⟨ms, hms, hu⟩ := List.mem_flatMap.1 hu
    exact ⟨(u.1.2, u.2.1, u.2.2), List.mem_flatMap.2 ⟨_, List.mem_map.2 ⟨ms, hms, rfl⟩, List.mem_map.2 ⟨u, hu, rfl⟩⟩, rfl⟩
  have hin : ∀ t', ∀ r, weight (collectionAt (data n0) t') r ≠ 0 → r ∈ S := by
    intro t' r hr
    obtain ⟨x, hx⟩ := Coll.exists_of_weight hr
    obtain ⟨u, hu, e⟩ := List.mem_map.1 hx
    have := hS u (List.mem_filter.1 hu).1
    rwa [show u.1 = r from congrArg Prod.fst e] at this
  have hred := tidy_stops h.grows (fun n u hu => by obtain ⟨v, hv, e⟩ := hmem n u hu; rw [← e]; exact h.loop.rounds n v hv) h.tidy (t := t) (m := m)
    (X := fun t' => Coll.reduce resolveCollisions (hashedProposals hash ((collectionAt (data n0) t').map fun r => (0, r)) (idIter hash (collectionAt (data n0) t') m)))
    (fun t' ht' i hi hi' => (identifiers_holds h (hs.holds ht') i hi').2.1.same ((hashedProposals_same (Coll.Same.refl _) (idIter_stable (hin t') hm hi)).reduce _))
  intro n u hu hle
  obtain ⟨ms, hms, hu⟩ := List.mem_flatMap.1 hu
  obtain ⟨ms', hms', rfl⟩ := List.mem_map.1 hms
  obtain ⟨v, hv, rfl⟩ := List.mem_map.1 hu
  exact hred n v (List.mem_flatMap.2 ⟨ms', hms', hv⟩) hle

/-- What leaves the loop. -/
theorem identifiers_out (h : F.Runs hash data) {n0 : Nat} {t : T} (hs : Settled data n0 t) {S : Finset D} (hS : ∀ u ∈ data n0, u.1 ∈ S) {m : Nat} (hm : Spreads hash S m) (hmax : m ≤ maxRound) :
    Holds F.out t (((idIter hash (collectionAt (data n0) t) (m + 1)).concat ((collectionAt (data n0) t).map fun r => (0, r))).map fun p => (p.2, hash p.1 p.2)) :=
  h.out _ _ _ (leave_holds (identifiers_stops h hs hS hm) (identifiers_holds h (hs.holds le_rfl) m hmax).2.2) (h.init _ _ (hs.holds le_rfl))

theorem weight_identifiers (hash : Nat → D → Nat) (c : Coll D) (i : Nat) (r : D) (x : Nat) :
    weight (((idIter hash c i).concat (c.map fun r => (0, r))).map fun p => (p.2, hash p.1 p.2)) (r, x) =
      if hash (proposal hash (fun r => weight c r ≠ 0) i r) r = x then weight c r else 0 := by
  have hw : ∀ k r, weight ((idIter hash c i).concat (c.map fun r => (0, r))) (k, r) = if k = proposal hash (fun r => weight c r ≠ 0) i r then weight c r else 0 := by
    intro k r
    rw [← weight_idIter, Coll.weight_concat, Coll.weight_concat, add_comm]
  rw [Coll.weight_map, Coll.lin_single (proposal hash (fun r => weight c r ≠ 0) i r, r), hw, if_pos rfl]
  · simp
  · rintro ⟨k, r'⟩ hne
    by_cases e : r' = r
    · subst e
      rw [hw, if_neg fun e => hne (by rw [e]), zero_mul]
    · rw [if_neg fun e' => e (congrArg Prod.fst e'), mul_zero]

end flow

end DD
