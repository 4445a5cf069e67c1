import Verif.Proofs.Containers
import Verif.Proofs.Reduce
import Verif.Spec.JoinOp

/-!
# `ConsolidatingContainerBuilder` as a builder of join outputs
-/

namespace DD
variable {D T M : Type*} [LinearOrder D] [LinearOrder (Lin T)] [AddCommMonoid M] [DecidableEq M] [DecidableEq T]

omit [DecidableEq T] in
theorem CCB.flushThrough_mem {p m : Nat} (hp : 0 < p) {b b' : CCB D T M} (h : b.flushThrough p m = some b') :
    ∀ x ∈ b'.retained, ∃ y ∈ b.retained, y.2.1 = x.2.1 := by
  unfold CCB.flushThrough at h
  rw [consolidateUpdates_eq] at h
  simp only [Option.some.injEq] at h
  subst h
  obtain ⟨h1, -⟩ := drainLoop_spec p hp ((consolidatedU b.current).length / m * m) ((consolidatedU b.current).take ((consolidatedU b.current).length / m * m)) b.empty (by simp)
  intro x hx
  simp only [CCB.retained, List.flatten_append, h1, List.mem_append] at hx ⊢
  have key : x ∈ consolidatedU b.current → ∃ y, (y ∈ b.current ∨ y ∈ b.outbound.flatten) ∧ y.2.1 = x.2.1 := by
    intro hx
    obtain ⟨u, hu, -, e⟩ := consolidatedU_mem hx
    exact ⟨u, Or.inl hu, e⟩
  rcases hx with hx | hx | hx
  · exact key (List.mem_of_mem_drop hx)
  · exact ⟨x, Or.inr hx, rfl⟩
  · exact key (List.mem_of_mem_take hx)

omit [LinearOrder D] [LinearOrder (Lin T)] [AddCommMonoid M] [DecidableEq M] [DecidableEq T] in
theorem CCB.extract_flat (b : CCB D T M) : (b.extract []).2.getD [] ++ (b.extract []).1.outbound.flatten = b.outbound.flatten ∧ (b.extract []).1.current = b.current := by
  unfold CCB.extract
  cases h : b.outbound with
  | nil => simp [h]
  | cons c cs => simp

omit [DecidableEq T] in
theorem CCB.extractLoop_spec : ∀ (n : Nat) (b : CCB D T M), b.outbound.length ≤ n →
    (CCB.extractLoop n b).2.flatten = b.outbound.flatten ∧ (CCB.extractLoop n b).1.current = b.current ∧ (CCB.extractLoop n b).1.outbound = []
  | 0, b, h => by
    have : b.outbound = [] := List.length_eq_zero_iff.1 (by omega)
    simp [CCB.extractLoop, this]
  | n + 1, b, h => by
    unfold CCB.extractLoop
    cases ho : b.outbound with
    | nil => simp [CCB.extract, ho]
    | cons c cs =>
      have e : b.extract [] = ({ b with outbound := cs, empty := b.empty ++ [[]] }, some c) := by simp [CCB.extract, ho]
      rw [e]
      obtain ⟨h1, h2, h3⟩ := CCB.extractLoop_spec n { b with outbound := cs, empty := b.empty ++ [[]] } (by simp [ho] at h; simpa using h)
      simp only [List.flatten_cons, h1, h2, h3, and_self]

theorem CCB.finishLoop_spec {p : Nat} (hp : 0 < p) : ∀ (n : Nat) (b : CCB D T M), b.current = [] → b.outbound.length < n →
    ∃ b', CCB.finishLoop p n b = some (b', b.outbound)
  | 0, b, _, h => absurd h (by omega)
  | n + 1, b, hc, h => by
    unfold CCB.finishLoop CCB.finish
    rw [if_neg (by simp [hc])]
    cases ho : b.outbound with
    | nil => exact ⟨b, by simp [CCB.extract, ho]⟩
    | cons c cs =>
      have e : b.extract [] = ({ b with outbound := cs, empty := b.empty ++ [[]] }, some c) := by simp [CCB.extract, ho]
      rw [e]
      obtain ⟨b', h1⟩ := CCB.finishLoop_spec hp n { b with outbound := cs, empty := b.empty ++ [[]] } hc (by simp [ho] at h; simpa using h)
      exact ⟨b', by simp only [h1]⟩

/-- The loop over `finish` hands out what is retained. -/
theorem CCB.finishAll_spec {p : Nat} (hp : 0 < p) (b : CCB D T M) (hb : ∀ c ∈ b.outbound, GoodContainer p c) :
    ∃ b' cs, CCB.finishLoop p (b.finishRounds p) b = some (b', cs) ∧ (∀ d t, total cs.flatten d t = total b.retained d t) ∧
      ∀ x ∈ cs.flatten, ∃ y ∈ b.retained, y.2.1 = x.2.1 := by
  by_cases hc : b.current = []
  · have hf : b.finish p [] = some (b.extract []) := by unfold CCB.finish; rw [if_neg (by simp [hc])]
    have hr : b.finishRounds p = (b.extract []).1.outbound.length + 2 := by unfold CCB.finishRounds; rw [hf]
    obtain ⟨b', h⟩ := CCB.finishLoop_spec hp (b.finishRounds p) b hc (by
      rw [hr]; unfold CCB.extract; cases ho : b.outbound <;> simp)
    refine ⟨b', b.outbound, h, ?_, ?_⟩
    · intro d t; simp [CCB.retained, hc]
    · intro x hx; exact ⟨x, by simp [CCB.retained, hx], rfl⟩
  · obtain ⟨b1, f1, f2, f3, f4⟩ := b.flushThrough_spec p 1 hp hb
    have hf : b.finish p [] = some (CCB.extract { b1 with empty := b1.empty.take 2 } []) := by
      unfold CCB.finish
      rw [if_pos hc, f1]
    have hr : b.finishRounds p = (CCB.extract { b1 with empty := b1.empty.take 2 } []).1.outbound.length + 2 := by unfold CCB.finishRounds; rw [hf]
    have hmem := CCB.flushThrough_mem hp f1
    have hret : b1.retained = b1.outbound.flatten := by simp [CCB.retained, f4 rfl]
    rw [hr]
    unfold CCB.finishLoop
    rw [hf]
    cases ho : b1.outbound with
    | nil =>
      simp only [CCB.extract]
      refine ⟨_, [], rfl, ?_, by simp⟩
      intro d t; rw [← f2, hret, ho]
    | cons c cs =>
      simp only [CCB.extract]
      obtain ⟨b', h⟩ := CCB.finishLoop_spec hp (cs.length + 1) { b1 with outbound := cs, empty := b1.empty.take 2 ++ [[]] } (f4 rfl) (by simp)
      rw [h]
      refine ⟨b', c :: cs, rfl, ?_, ?_⟩
      · intro d t; rw [← f2, hret, ho]
      · intro x hx
        apply hmem
        rw [hret, ho]; exact hx

/-- `ConsolidatingContainerBuilder` hands out what is pushed into it. -/
theorem CCB.keeps [PartialOrder T] [DecidableLE T] {p : Nat} (hp : 0 < p) (capacity : Nat → Nat) :
    OutBuilder.Keeps (CCB.outBuilder (D := D) (T := T) (M := M) p capacity) (fun s => ∀ c ∈ s.1.outbound, GoodContainer p c) (fun s => s.1.retained) := by
  refine ⟨⟨by simp [CCB.outBuilder, CCB.init], rfl⟩, ?_, ?_, ?_⟩
  · rintro ⟨b, n⟩ u hb
    simp only [CCB.outBuilder, CCB.push] at hb ⊢
    have hperm : ({ b with current := b.current ++ [u] } : CCB D T M).retained.Perm (b.retained ++ [u]) := by
      simp only [CCB.retained, List.append_assoc]
      exact List.Perm.append_left _ List.perm_append_comm
    split_ifs with hcap
    · obtain ⟨b1, f1, f2, f3, -⟩ := CCB.flushThrough_spec p p hp { b with current := b.current ++ [u] } hb
      rw [f1]
      refine ⟨(b1, n + 1), rfl, f3, ?_, ?_⟩
      · intro d q
        rw [accum_of_total f2, accum_perm hperm]
      · intro x hx
        obtain ⟨y, hy, e⟩ := CCB.flushThrough_mem hp f1 x hx
        exact ⟨y, hperm.mem_iff.1 hy, e⟩
    · refine ⟨({ b with current := b.current ++ [u] }, n + 1), rfl, hb, ?_, ?_⟩
      · intro d q; rw [accum_perm hperm]
      · intro x hx; exact ⟨x, hperm.mem_iff.1 hx, rfl⟩
  · rintro ⟨b, n⟩ hb
    obtain ⟨h1, h2, h3⟩ := CCB.extractLoop_spec b.outbound.length b le_rfl
    have hperm : ((CCB.extractLoop b.outbound.length b).2.flatten ++ (CCB.extractLoop b.outbound.length b).1.retained).Perm b.retained := by
      simp only [CCB.retained, h1, h2, h3, List.flatten_nil, List.append_nil]
      exact List.perm_append_comm
    refine ⟨((CCB.extractLoop b.outbound.length b).1, n), (CCB.extractLoop b.outbound.length b).2, rfl, by simp [h3], ?_, ?_⟩
    · intro d q; exact accum_perm hperm d q
    · intro x hx; exact ⟨x, hperm.mem_iff.1 hx, rfl⟩
  · rintro ⟨b, n⟩ hb
    obtain ⟨b', cs, h1, h2, h3⟩ := CCB.finishAll_spec hp b hb
    refine ⟨(b', n), cs, ?_, fun d q => accum_of_total h2 d q, h3⟩
    simp only [CCB.outBuilder]
    rw [h1]; rfl

end DD
