import Verif.Proofs.Scalar

/-!
# Reducers of `interactive`
-/

namespace DD.Ir

theorem least_fold (l : List Value) (v : Value) : (l.foldl (fun m x => if x.cmp m == .lt then x else m) v) ∈ v :: l ∧
    ∀ x ∈ v :: l, l.foldl (fun m x => if x.cmp m == .lt then x else m) v = x ∨ (l.foldl (fun m x => if x.cmp m == .lt then x else m) v).Less x := by
  induction l generalizing v with
  | nil => simp
  | cons y ys ih =>
    rw [List.foldl_cons]
    by_cases h : y.cmp v = .lt
    · have he : (if y.cmp v == .lt then y else v) = y := by simp [h]
      rw [he]
      obtain ⟨h1, h2⟩ := ih y
      refine ⟨List.mem_cons_of_mem _ h1, fun x hx => ?_⟩
      rcases List.mem_cons.1 hx with rfl | hx
      · have hl := (Value.cmp_lt _ _).1 h
        rcases h2 y List.mem_cons_self with e | e
        · rw [e]; exact Or.inr hl
        · exact Or.inr (Value.less_trans _ _ _ e hl)
      · exact h2 x hx
    · have he : (if y.cmp v == .lt then y else v) = v := by simp [h]
      rw [he]
      obtain ⟨h1, h2⟩ := ih v
      refine ⟨?_, fun x hx => ?_⟩
      · rcases List.mem_cons.1 h1 with e | e
        · rw [e]; exact List.mem_cons_self
        · exact List.mem_cons_of_mem _ (List.mem_cons_of_mem _ e)
      · rcases List.mem_cons.1 hx with rfl | hx
        · exact h2 x List.mem_cons_self
        · rcases List.mem_cons.1 hx with rfl | hx
          · have hl : v = x ∨ v.Less x := by
              rcases Value.less_trichotomy v x with a | a | a
              · exact Or.inr a
              · exact Or.inl a
              · exact absurd ((Value.cmp_lt _ _).2 a) h
            rcases h2 v List.mem_cons_self with e | e
            · rw [e]; exact hl
            · rcases hl with a | a
              · rw [← a]; exact Or.inr e
              · exact Or.inr (Value.less_trans _ _ _ e a)
          · exact h2 x (List.mem_cons_of_mem _ hx)

theorem collect_sorted : ∀ (vals : List (Value × Int)), vals.Pairwise (fun p q => p.1.Less q.1) → (vals.flatMap fun p => List.replicate p.2.toNat p.1).Pairwise fun a b => a = b ∨ a.Less b
  | [], _ => by simp
  | p :: vals, h => by
    rw [List.flatMap_cons, List.pairwise_append]
    rw [List.pairwise_cons] at h
    refine ⟨?_, collect_sorted vals h.2, fun a ha b hb => ?_⟩
    · rw [List.pairwise_replicate]
      exact Or.inr (Or.inl rfl)
    · rw [List.eq_of_mem_replicate ha]
      obtain ⟨q, hq, hb⟩ := List.mem_flatMap.1 hb
      rw [List.eq_of_mem_replicate hb]
      exact Or.inr (h.1 q hq)

open Classical in
theorem collect_count : ∀ (vals : List (Value × Int)) (v : Value), (vals.flatMap fun p => List.replicate p.2.toNat p.1).count v = ((vals.filter fun p => p.1 = v).map fun p => p.2.toNat).sum
  | [], v => by simp
  | p :: vals, v => by
    rw [List.flatMap_cons, List.count_append, collect_count vals v, List.count_replicate]
    by_cases h : p.1 = v <;> simp [h]

theorem collect_length : ∀ (vals : List (Value × Int)), (∀ p ∈ vals, 0 ≤ p.2) → (((vals.flatMap fun p => List.replicate p.2.toNat p.1).length : Nat) : Int) = (vals.map Prod.snd).sum
  | [], _ => by simp
  | p :: vals, h => by
    have := collect_length vals fun q hq => h q (List.mem_cons_of_mem _ hq)
    have h0 := h p List.mem_cons_self
    simp only [List.flatMap_cons, List.length_append, List.length_replicate, List.map_cons, List.sum_cons, Int.natCast_add] at this ⊢
    omega

theorem zipIdx_pairwise : ∀ (xs : List Value) (k : Nat), (xs.zipIdx k).Pairwise fun p q => p.2 < q.2
  | [], k => by simp
  | x :: xs, k => by
    rw [List.zipIdx_cons, List.pairwise_cons]
    refine ⟨fun p hp => ?_, zipIdx_pairwise xs (k + 1)⟩
    have := List.le_snd_of_mem_zipIdx hp
    simp only at this ⊢
    omega

theorem enumerate_sorted (xs : List Value) : (enumerate xs).Pairwise Value.Less := by
  unfold enumerate
  rw [List.pairwise_map]
  exact (zipIdx_pairwise xs 0).imp fun h => .tuple (.head (.int (by exact_mod_cast h)))

end DD.Ir
