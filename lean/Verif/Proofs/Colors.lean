import Verif.Proofs.SequentialFlow

/-!
# Colors
-/

namespace DD
variable {N V T : Type*} [LinearOrder N]

theorem heard_pos [LinearOrder V] {edges : Coll (N × N)} {state : Coll (N × V)} (hS : state.Nonneg) (hE : edges.Nonneg) (new : N → V) (n : N) (v : V) :
    0 < weight (heard edges state new n) v ↔ (∃ a, a < n ∧ 0 < weight edges (a, n) ∧ new a = v) ∨ ∃ a, n < a ∧ 0 < weight edges (a, n) ∧ 0 < weight state (a, v) := by
  rw [weight_heard, (Coll.lin_pos hE (g := hears state new n v) fun e => ?_).2]
  · constructor
    · rintro ⟨⟨a, b⟩, he, hp⟩
      unfold hears at hp
      split_ifs at hp with h1 h2 h3 h4
      · exact Or.inl ⟨a, h2, h1 ▸ he, h3⟩
      · exact absurd hp (lt_irrefl 0)
      · exact Or.inr ⟨a, h4, h1 ▸ he, hp⟩
      · exact absurd hp (lt_irrefl 0)
      · exact absurd hp (lt_irrefl 0)
    · rintro (⟨a, ha, he, rfl⟩ | ⟨a, ha, he, hw⟩)
      · exact ⟨(a, n), he, by simp [hears, ha]⟩
      · exact ⟨(a, n), he, by simp [hears, ha, not_lt_of_gt ha, hw]⟩
  · unfold hears
    split_ifs <;> first | exact hS _ | decide

theorem firstAbsent_spec : ∀ {vs : List (Nat × Int)} {k : Nat}, (vs.map Prod.fst).Pairwise (· < ·) → (∀ x ∈ vs, k ≤ x.1) →
    k ≤ firstAbsent k vs ∧ firstAbsent k vs ∉ vs.map Prod.fst ∧ ∀ j, k ≤ j → j < firstAbsent k vs → j ∈ vs.map Prod.fst
  | [], k, _, _ => ⟨le_rfl, List.not_mem_nil, fun j h1 h2 => absurd h2 (not_lt_of_ge h1)⟩
  | x :: vs, k, hs, hk => by
    rw [List.map_cons, List.pairwise_cons] at hs
    unfold firstAbsent
    split_ifs with h
    · obtain ⟨h1, h2, h3⟩ := firstAbsent_spec (k := k + 1) hs.2 fun y hy => h ▸ hs.1 _ (List.mem_map_of_mem hy)
      refine ⟨by omega, ?_, fun j hj hj' => ?_⟩
      · rw [List.map_cons, List.mem_cons, not_or]
        exact ⟨by omega, h2⟩
      · rw [List.map_cons, List.mem_cons]
        by_cases e : j = k
        · exact Or.inl (e.trans h.symm)
        · exact Or.inr (h3 j (by omega) hj')
    · have hx : k < x.1 := lt_of_le_of_ne (hk x List.mem_cons_self) (Ne.symm h)
      refine ⟨le_rfl, ?_, fun j h1 h2 => absurd h2 (not_lt_of_ge h1)⟩
      rw [List.map_cons, List.mem_cons, not_or]
      refine ⟨by omega, fun hm => ?_⟩
      have := hs.1 _ hm
      omega

theorem firstAbsent_ge : ∀ (k : Nat) (vs : List (Nat × Int)), k ≤ firstAbsent k vs
  | _, [] => le_rfl
  | k, x :: vs => by
    unfold firstAbsent
    split_ifs
    · exact le_trans (Nat.le_succ k) (firstAbsent_ge (k + 1) vs)
    · exact le_rfl

theorem pairs_mem {D : Type*} [LinearOrder D] {vs : List (D × Int)} (h : ConsolidatedPairs vs) (v : D) : v ∈ vs.map Prod.fst ↔ weight vs v ≠ 0 := by
  obtain ⟨hs, hz⟩ := h
  induction vs with
  | nil => simp
  | cons x vs ih =>
    rw [List.pairwise_cons] at hs
    have ih := ih hs.2 fun y hy => hz y (List.mem_cons_of_mem _ hy)
    rw [weight_cons, List.map_cons, List.mem_cons]
    by_cases e : x.1 = v
    · have hw : weight vs v = 0 := by
        by_contra hn
        obtain ⟨r, hr⟩ := Coll.exists_of_weight hn
        exact absurd e (hs.1 _ hr).ne
      simp [e, hw, hz x List.mem_cons_self]
    · rw [if_neg e, zero_add, ← ih]
      exact ⟨fun h => h.resolve_left (Ne.symm e), Or.inr⟩

theorem bogusColors_nonneg (edges : Coll (N × N)) : (bogusColors edges).Nonneg := fun x => by
  unfold bogusColors
  rw [Coll.weight_distinct]
  split_ifs <;> decide

theorem bogusColors_pos {edges : Coll (N × N)} (hE : edges.Nonneg) (a : N) (v : Nat) : 0 < weight (bogusColors edges) (a, v) ↔ (∃ b, 0 < weight edges (a, b)) ∧ v = maxU32 := by
  have h := hE.map_pos (fun e => (e.1, maxU32)) (a, v)
  have h' := hE.map (fun e : N × N => (e.1, maxU32)) (a, v)
  unfold bogusColors
  rw [Coll.weight_distinct]
  have : (0 < if weight (Coll.map (fun e => (e.1, maxU32)) edges) (a, v) = 0 then (0 : Int) else 1) ↔ 0 < weight (Coll.map (fun e => (e.1, maxU32)) edges) (a, v) := by
    split_ifs with e
    · rw [e]
    · exact ⟨fun _ => lt_of_le_of_ne h' (Ne.symm e), fun _ => by decide⟩
  rw [this, h]
  constructor
  · rintro ⟨⟨a', b⟩, he, e⟩
    obtain ⟨rfl, rfl⟩ := Prod.mk.inj e
    exact ⟨⟨b, he⟩, rfl⟩
  · rintro ⟨⟨b, he⟩, rfl⟩
    exact ⟨(a, b), he, rfl⟩

/-- Edges that go both ways are as needed. -/
theorem connected_colors {edges : Coll (N × N)} (hE : edges.Nonneg) (hsym : ∀ a b, weight edges (a, b) = weight edges (b, a)) : Connected (bogusColors edges) edges := fun m n hm he =>
  ⟨⟨maxU32, (bogusColors_pos hE m maxU32).2 ⟨⟨n, he⟩, rfl⟩⟩, n, hm.symm, hsym m n ▸ he⟩

/-- Colors chosen one after the other. -/
theorem colors_proper {edges : Coll (N × N)} (hE : edges.Nonneg) (hsym : ∀ a b, weight edges (a, b) = weight edges (b, a)) {color : N → Nat}
    (h : ∀ m, Addressed edges m → color m = firstAbsent 1 (heard edges (bogusColors edges) color m).consolidate) :
    (∀ m, Addressed edges m → 1 ≤ color m ∧ ∀ j, 1 ≤ j → j < color m → j = maxU32 ∨ ∃ a, a < m ∧ 0 < weight edges (a, m) ∧ color a = j) ∧
      ∀ a m, a ≠ m → 0 < weight edges (a, m) → color a ≠ color m := by
  have hpos := heard_pos (bogusColors_nonneg edges) hE color
  have hnn : ∀ m, (heard edges (bogusColors edges) color m).Nonneg := fun m v => by
    rw [weight_heard]
    refine (Coll.lin_pos hE fun e => ?_).1
    unfold hears
    split_ifs <;> first | exact bogusColors_nonneg edges _ | decide
  have key : ∀ m, (∀ v, 0 < weight (heard edges (bogusColors edges) color m) v → 1 ≤ v) → let c := firstAbsent 1 (heard edges (bogusColors edges) color m).consolidate
      ¬ 0 < weight (heard edges (bogusColors edges) color m) c ∧ ∀ j, 1 ≤ j → j < c → 0 < weight (heard edges (bogusColors edges) color m) j := by
    intro m hm
    have hcp : ConsolidatedPairs (heard edges (bogusColors edges) color m).consolidate := by
      rw [Coll.consolidate_def]
      exact consolidatedPairs_consolidated _
    have hp : ∀ v, v ∈ List.map Prod.fst (heard edges (bogusColors edges) color m).consolidate ↔ 0 < weight (heard edges (bogusColors edges) color m) v := by
      intro v
      rw [pairs_mem hcp, Coll.weight_consolidate]
      exact ⟨fun h => lt_of_le_of_ne (hnn m v) (Ne.symm h), fun h => h.ne'⟩
    obtain ⟨-, h2, h3⟩ := firstAbsent_spec (k := 1) (List.pairwise_map.2 hcp.1) fun x hx => hm x.1 ((hp x.1).1 (List.mem_map_of_mem hx))
    rw [hp] at h2
    exact ⟨h2, fun j hj hj' => (hp j).1 (h3 j hj hj')⟩
  have h1 : ∀ m, Addressed edges m → 1 ≤ color m := fun m hm => by
    rw [h m hm]
    exact firstAbsent_ge _ _
  have h1' : ∀ m v, 0 < weight (heard edges (bogusColors edges) color m) v → 1 ≤ v := fun m v hv => by
    rcases (hpos m v).1 hv with ⟨a, ha, he, rfl⟩ | ⟨a, ha, he, hb⟩
    · exact h1 a ⟨m, ha.ne', hsym a m ▸ he⟩
    · rw [((bogusColors_pos hE a v).1 hb).2]
      decide
  refine ⟨fun m hm => ⟨h1 m hm, fun j hj hj' => ?_⟩, fun a m hne he => ?_⟩
  · rw [h m hm] at hj'
    rcases (hpos m j).1 ((key m (h1' m)).2 j hj hj') with h2 | ⟨a, ha, he, hb⟩
    · exact Or.inr h2
    · exact Or.inl ((bogusColors_pos hE a j).1 hb).2
  · wlog hlt : a < m generalizing a m
    · exact (this m a hne.symm (hsym a m ▸ he) (lt_of_le_of_ne (not_lt.1 hlt) hne.symm)).symm
    · intro e
      have := (key m (h1' m)).1
      rw [← h m ⟨a, hne, he⟩] at this
      exact this ((hpos m _).2 (Or.inl ⟨a, hlt, he, e⟩))

end DD
