import Verif.Proofs.Bfs
import Verif.Model.Propagate
import Mathlib.Data.Set.Finite.Lemmas

/-!
# Lemmas for `propagate`
-/

namespace DD
variable {N L T : Type*} [LinearOrder N] [LinearOrder L]

omit [LinearOrder N] [LinearOrder L] in
theorem introduceAt_le (logic : L → Nat) (r : N × L) : introduceAt logic r ≤ 16384 := by
  unfold introduceAt
  omega

/-- The edges that are named. -/
def support (c : Coll (N × N)) : Finset (N × N) := (List.map Prod.fst c).toFinset

theorem mem_support (c : Coll (N × N)) (a b : N) (h : edgesOf c a b) : (a, b) ∈ support c := by
  obtain ⟨r, hr⟩ := Coll.exists_of_weight h.ne'
  exact List.mem_toFinset.2 (List.mem_map.2 ⟨_, hr, rfl⟩)

theorem card_support (c : Coll (N × N)) : (support c).card ≤ c.length := (List.toFinset_card_le _).trans (by simp)

/-- The label can have come to the node by the round. -/
def Arrives (logic : L → Nat) (edges : Coll (N × N)) (nodes : Coll (N × L)) (i : Nat) (x : N) (l : L) : Prop :=
  ∃ m p, 0 < weight nodes (m, l) ∧ Walk (edgesOf edges) m p x ∧ introduceAt logic (m, l) + p ≤ i

theorem Arrives.step {logic : L → Nat} {edges : Coll (N × N)} {nodes : Coll (N × L)} {i : Nat} {x y : N} {l : L} (h : Arrives logic edges nodes i x l) (he : edgesOf edges x y) :
    Arrives logic edges nodes (i + 1) y l := by
  obtain ⟨m, p, h1, h2, h3⟩ := h
  exact ⟨m, p + 1, h1, h2.snoc he, by omega⟩

theorem labels_step {logic : L → Nat} {edges : Coll (N × N)} {nodes : Coll (N × L)} (hn : nodes.Nonneg) {i : Nat} {P : Coll (N × L)} (hP : P.Nonneg)
    (h1 : ∀ x l, 0 < weight P (x, l) → Arrives logic edges nodes i x l)
    (h2 : ∀ x l, Arrives logic edges nodes i x l → (0 < weight nodes (x, l) ∧ introduceAt logic (x, l) ≤ i) ∨ ∃ l', l' ≤ l ∧ 0 < weight P (x, l')) (x : N) (l : L) :
    (weight (labelRound logic nodes i P) (x, l) = 1 ∧ Arrives logic edges nodes i x l ∧ ∀ l', Arrives logic edges nodes i x l' → l ≤ l') ∨
    (weight (labelRound logic nodes i P) (x, l) = 0 ∧ ¬ (Arrives logic edges nodes i x l ∧ ∀ l', Arrives logic edges nodes i x l' → l ≤ l')) := by
  have hf : (nodes.filter fun r => introduceAt logic r ≤ i).Nonneg := hn.filter _
  have hc := hP.concat hf
  have hfp : ∀ l, 0 < weight (nodes.filter fun r => introduceAt logic r ≤ i) (x, l) ↔ 0 < weight nodes (x, l) ∧ introduceAt logic (x, l) ≤ i := by
    intro l
    rw [Coll.weight_filter]
    by_cases h : introduceAt logic (x, l) ≤ i <;> simp [h]
  have hpos : ∀ l, weight (P.concat (nodes.filter fun r => introduceAt logic r ≤ i)) (x, l) ≠ 0 ↔
      0 < weight P (x, l) ∨ (0 < weight nodes (x, l) ∧ introduceAt logic (x, l) ≤ i) := by
    intro l
    rw [← hfp, ← hP.concat_pos hf]
    exact ⟨fun h => lt_of_le_of_ne (hc _) h.symm, fun h => h.ne'⟩
  have hsound : ∀ l, weight (P.concat (nodes.filter fun r => introduceAt logic r ≤ i)) (x, l) ≠ 0 → Arrives logic edges nodes i x l := by
    intro l h
    rcases (hpos l).1 h with h | ⟨h, h'⟩
    · exact h1 x l h
    · exact ⟨x, 0, h, .nil, by omega⟩
  have hcomp : ∀ l, Arrives logic edges nodes i x l → ∃ l', l' ≤ l ∧ weight (P.concat (nodes.filter fun r => introduceAt logic r ≤ i)) (x, l') ≠ 0 := by
    intro l h
    rcases h2 x l h with h | ⟨l', h, h'⟩
    · exact ⟨l, le_rfl, (hpos l).2 (Or.inr h)⟩
    · exact ⟨l', h, (hpos l').2 (Or.inl h')⟩
  unfold labelRound
  rw [weight_keepLeast]
  split_ifs with h
  · refine Or.inl ⟨rfl, hsound l h.1, fun l' hl' => ?_⟩
    obtain ⟨l'', a, b⟩ := hcomp l' hl'
    exact (h.2 l'' b).trans a
  · refine Or.inr ⟨rfl, fun ⟨a, b⟩ => h ⟨?_, fun l' hl' => b l' (hsound l' hl')⟩⟩
    obtain ⟨l', c, d⟩ := hcomp l a
    obtain rfl : l = l' := le_antisymm (b l' (hsound l' d)) c
    exact d

/-- The labels of a round: for each node the least that can have come to it. -/
theorem labelIter_ok {logic : L → Nat} {edges : Coll (N × N)} {nodes : Coll (N × L)} (he : edges.Nonneg) (hn : nodes.Nonneg) (i : Nat) : ∀ x l,
    (weight (labelIter logic edges nodes i) (x, l) = 1 ∧ Arrives logic edges nodes i x l ∧ ∀ l', Arrives logic edges nodes i x l' → l ≤ l') ∨
    (weight (labelIter logic edges nodes i) (x, l) = 0 ∧ ¬ (Arrives logic edges nodes i x l ∧ ∀ l', Arrives logic edges nodes i x l' → l ≤ l')) := by
  induction i with
  | zero =>
    refine labels_step hn (fun _ => le_rfl) (fun x l h => absurd h (lt_irrefl _)) fun x l h => ?_
    obtain ⟨m, p, h1, h2, h3⟩ := h
    obtain rfl : p = 0 := by omega
    cases h2
    exact Or.inl ⟨h1, by omega⟩
  | succ i ih =>
    have hnn : (labelIter logic edges nodes i).Nonneg := fun ⟨x, l⟩ => by rcases ih x l with h | h <;> rw [h.1]; decide
    have hpos : ∀ x l, 0 < weight (labelIter logic edges nodes i) (x, l) ↔ Arrives logic edges nodes i x l ∧ ∀ l', Arrives logic edges nodes i x l' → l ≤ l' := by
      intro x l
      rcases ih x l with h | h
      · simp only [h.1, Int.one_pos, true_iff]
        exact h.2
      · simp only [h.1, lt_irrefl, false_iff]
        exact h.2
    have hjp := hnn.join_core_pos he (fun (_ : N) (l : L) d => [(d, l)])
    refine labels_step hn (hnn.join_core he _) (fun x l h => ?_) fun x l h => ?_
    · obtain ⟨k, v, w, a, b, c⟩ := (hjp (x, l)).1 h
      rw [List.mem_singleton, Prod.mk.injEq] at c
      obtain ⟨rfl, rfl⟩ := c
      exact ((hpos k l).1 a).1.step b
    · obtain ⟨m, p, h1, h2, h3⟩ := h
      cases h2 with
      | nil => exact Or.inl ⟨h1, by omega⟩
      | snoc hw hedge =>
        rename_i p k
        have hk : Arrives logic edges nodes i k l := ⟨m, p, h1, hw, by omega⟩
        -- the least label at the predecessor
        have hfin : {l' | Arrives logic edges nodes i k l'}.Finite := by
          refine Set.Finite.subset (List.finite_toSet (List.map (fun x => x.1.2) nodes)) fun l' ⟨m, p, a, _⟩ => ?_
          obtain ⟨r, hr⟩ := Coll.exists_of_weight (ne_of_gt a)
          exact List.mem_map.2 ⟨_, hr, rfl⟩
        obtain ⟨l', hl', hmin⟩ := Set.exists_min_image _ id hfin ⟨l, hk⟩
        refine Or.inr ⟨l', hmin l hk, (hjp (x, l')).2 ⟨k, l', x, (hpos k l').2 ⟨hl', hmin⟩, hedge, List.mem_singleton.2 rfl⟩⟩

theorem labelIter_nonneg {logic : L → Nat} {edges : Coll (N × N)} {nodes : Coll (N × L)} (he : edges.Nonneg) (hn : nodes.Nonneg) (i : Nat) : (labelIter logic edges nodes i).Nonneg := by
  rintro ⟨x, l⟩
  rcases labelIter_ok (logic := logic) he hn i x l with h | h <;> rw [h.1]
  decide

theorem arrives_final {logic : L → Nat} {edges : Coll (N × N)} {nodes : Coll (N × L)} {S : Finset (N × N)} (hS : ∀ a b, edgesOf edges a b → (a, b) ∈ S) {i : Nat} (hi : 16384 + S.card ≤ i)
    (x : N) (l : L) : Arrives logic edges nodes i x l ↔ ∃ m, 0 < weight nodes (m, l) ∧ Reaches (edgesOf edges) m x := by
  constructor
  · rintro ⟨m, p, h1, h2, -⟩
    exact ⟨m, h1, p, h2⟩
  · rintro ⟨m, h1, p, h2⟩
    obtain ⟨d, hd, -⟩ := exists_distance (root := fun r => r = m) rfl h2
    have hle := hd.le_card S hS
    obtain ⟨r, rfl, hw⟩ := hd.1
    exact ⟨r, d, h1, hw, by have := introduceAt_le logic (r, l); omega⟩

open Classical in
theorem labelIter_final {logic : L → Nat} {edges : Coll (N × N)} {nodes : Coll (N × L)} (he : edges.Nonneg) (hn : nodes.Nonneg) {S : Finset (N × N)}
    (hS : ∀ a b, edgesOf edges a b → (a, b) ∈ S) {i : Nat} (hi : 16384 + S.card ≤ i) (x : N) (l : L) :
    weight (labelIter logic edges nodes i) (x, l) = if IsLeastLabel (edgesOf edges) (fun m l => 0 < weight nodes (m, l)) x l then 1 else 0 := by
  have e : IsLeastLabel (edgesOf edges) (fun m l => 0 < weight nodes (m, l)) x l ↔
      Arrives logic edges nodes i x l ∧ ∀ l', Arrives logic edges nodes i x l' → l ≤ l' := by
    unfold IsLeastLabel
    simp only [arrives_final hS hi]
    exact and_congr_right fun _ => ⟨fun h l' ⟨m, a, b⟩ => h m l' a b, fun h m l' a b => h l' ⟨m, a, b⟩⟩
  rcases labelIter_ok (logic := logic) he hn i x l with h | h
  · rw [if_pos (e.2 h.2), h.1]
  · rw [if_neg fun c => h.2 (e.1 c), h.1]

section run
variable [PartialOrder T] [DecidableLE T] [DecidableEq T] {F : PropagateFlow N L T} {logic : L → Nat} {edges : Nat → Upds (N × N) T Int} {nodes : Nat → Upds (N × L) T Int}

/-- What the streams hold in the rounds. -/
theorem propagate_holds (h : F.Runs logic edges nodes) {t : T} {E : Coll (N × N)} {M : Coll (N × L)} (hE : Holds edges t E) (hM : Holds nodes t M) :
    ∀ i, i ≤ maxRound → Holds (fun n => (F.labels n).upds) (t, i) (labelIter logic E M i) := by
  intro i
  induction i with
  | zero =>
    intro _
    exact h.labels _ _ (h.candidates _ _ _ (scope_zero h.loop t) (h.nodesIn t 0 M hM))
  | succ i ih =>
    intro hi
    have hl := ih (by omega)
    have hp := h.propagate _ _ _ hl (h.edgesIn t i E hE)
    exact h.labels _ _ (h.candidates _ _ _ (scope_succ h.loop (by omega) hp) (h.nodesIn t (i + 1) M hM))

/-- What is returned. -/
theorem propagate_out (h : F.Runs logic edges nodes) {t : T} {E : Coll (N × N)} {M : Coll (N × L)} (hE : Holds edges t E) (hM : Holds nodes t M) :
    Holds F.out t (labelIter logic E M maxRound) := leave_holds (fun n u hu _ => h.rounds n u hu) (propagate_holds h hE hM maxRound le_rfl)

end run
end DD
