import Verif.Spec.Agent
import Verif.Proofs.SpineRun
import Verif.Proofs.Consolidation

/-! # Proofs about shared trace handles -/

namespace DD
variable {T : Type*} [Lattice T] [DecidableLE T] [DecidableEq T]

/-- How many handles hold the time. -/
def holds (f : Handle T → List T) (hs : List (Handle T)) (t : T) : Int := (hs.map fun h => ((f h).count t : Int)).sum

omit [Lattice T] [DecidableLE T] in
theorem weight_pos (F : List T) (t : T) : weight (F.map fun x => (x, (1 : Int))) t = F.count t := by
  induction F with
  | nil => simp
  | cons x F ih => rw [List.map_cons, weight_cons, ih, List.count_cons]; by_cases h : x = t <;> simp [h]; omega

omit [Lattice T] [DecidableLE T] in
theorem weight_neg (F : List T) (t : T) : weight (F.map fun x => (x, (-1 : Int))) t = - (F.count t : Int) := by
  induction F with
  | nil => simp
  | cons x F ih => rw [List.map_cons, weight_cons, ih, List.count_cons]; by_cases h : x = t <;> simp [h, add_comm]

omit [Lattice T] [DecidableLE T] in
theorem mem_of_weight {m : List (T × Int)} {t : T} (h : 0 < weight m t) : t ∈ m.map Prod.fst := by
  induction m with
  | nil => simp at h
  | cons u m ih =>
    rw [weight_cons] at h
    by_cases hu : u.1 = t
    · simp [hu]
    · rw [if_neg hu, zero_add] at h
      exact List.mem_cons_of_mem _ (ih h)

theorem beyond_frontier (m : MutAntichain T) (q : T) : Beyond m.frontier q ↔ ∃ t, 0 < weight m t ∧ t ≤ q := by
  rw [MutAntichain.frontier, beyond_acExtend]
  constructor
  · rintro (⟨f, hf, -⟩ | ⟨f, hf, hq⟩)
    · simp at hf
    · rw [List.mem_filter] at hf
      exact ⟨f, by simpa using hf.2, hq⟩
  · rintro ⟨t, ht, hq⟩
    exact Or.inr ⟨t, List.mem_filter.2 ⟨mem_of_weight ht, by simpa using ht⟩, hq⟩

omit [Lattice T] [DecidableLE T] in
theorem holds_pos (f : Handle T → List T) (hs : List (Handle T)) (t : T) : 0 < holds f hs t ↔ ∃ h ∈ hs, t ∈ f h := by
  induction hs with
  | nil => simp [holds]
  | cons h hs ih =>
    have hc : holds f (h :: hs) t = (f h).count t + holds f hs t := by simp [holds]
    have hn : ∀ hs : List (Handle T), 0 ≤ holds f hs t := by
      intro hs
      induction hs with
      | nil => simp [holds]
      | cons a hs ih =>
        have : holds f (a :: hs) t = (f a).count t + holds f hs t := by simp [holds]
        omega
    rw [hc]
    have := hn hs
    have hp : (0 : Int) < ((f h).count t : Int) ↔ t ∈ f h := by rw [← List.count_pos_iff]; omega
    constructor
    · intro hlt
      by_cases hm : t ∈ f h
      · exact ⟨h, by simp, hm⟩
      · have : ¬ (0 : Int) < ((f h).count t : Int) := fun h' => hm (hp.1 h')
        obtain ⟨h', g1, g2⟩ := ih.1 (by omega)
        exact ⟨h', by simp [g1], g2⟩
    · rintro ⟨h', g1, g2⟩
      rcases List.mem_cons.1 g1 with rfl | g1
      · have := hp.2 g2; omega
      · have := ih.2 ⟨h', g1, g2⟩; omega

theorem beyond_holds {f : Handle T → List T} {hs : List (Handle T)} {m : MutAntichain T} (h : ∀ t, weight m t = holds f hs t) (q : T) :
    Beyond m.frontier q ↔ ∃ h ∈ hs, Beyond (f h) q := by
  rw [beyond_frontier]
  constructor
  · rintro ⟨t, ht, hq⟩
    rw [h, holds_pos] at ht
    obtain ⟨a, ha, hm⟩ := ht
    exact ⟨a, ha, t, hm, hq⟩
  · rintro ⟨a, ha, t, hm, hq⟩
    exact ⟨t, by rw [h, holds_pos]; exact ⟨a, ha, hm⟩, hq⟩

omit [Lattice T] [DecidableLE T] in
theorem holds_append (f : Handle T → List T) (hs : List (Handle T)) (h : Handle T) (t : T) :
    holds f (hs ++ [h]) t = holds f hs t + (f h).count t := by simp [holds]

omit [Lattice T] [DecidableLE T] in
theorem holds_erase (f : Handle T → List T) : ∀ (hs : List (Handle T)) (i : Nat) (h : Handle T) (t : T), hs[i]? = some h →
    holds f (hs.eraseIdx i) t + (f h).count t = holds f hs t
  | [], i, h, t, hi => by simp at hi
  | a :: hs, 0, h, t, hi => by simp at hi; subst hi; simp [holds]; omega
  | a :: hs, i + 1, h, t, hi => by
    have := holds_erase f hs i h t (by simpa using hi)
    simp only [holds, List.eraseIdx_cons_succ, List.map_cons, List.sum_cons] at *; omega

omit [Lattice T] [DecidableLE T] in
theorem holds_set (f : Handle T → List T) (h' : Handle T) : ∀ (hs : List (Handle T)) (i : Nat) (h : Handle T) (t : T), hs[i]? = some h →
    holds f (hs.set i h') t + (f h).count t = holds f hs t + (f h').count t
  | [], i, h, t, hi => by simp at hi
  | a :: hs, 0, h, t, hi => by simp at hi; subst hi; simp [holds]; omega
  | a :: hs, i + 1, h, t, hi => by
    have := holds_set f h' hs i h t (by simpa using hi)
    simp only [holds, List.set_cons_succ, List.map_cons, List.sum_cons] at *; omega

theorem appliedLogical_append (F : List T) (cs ds : List (TraceCall T)) :
    appliedLogical F (cs ++ ds) = appliedLogical (appliedLogical F cs) ds := by
  induction cs generalizing F with
  | nil => rfl
  | cons c cs ih => cases c <;> simp only [List.cons_append, appliedLogical, ih]

theorem appliedPhysical_append (F : List T) (cs ds : List (TraceCall T)) :
    appliedPhysical F (cs ++ ds) = appliedPhysical (appliedPhysical F cs) ds := by
  induction cs generalizing F with
  | nil => rfl
  | cons c cs ih => cases c <;> simp only [List.cons_append, appliedPhysical, ih]

theorem callsAdvance_append (L P : List T) (cs ds : List (TraceCall T)) :
    CallsAdvance L P (cs ++ ds) ↔ CallsAdvance L P cs ∧ CallsAdvance (appliedLogical L cs) (appliedPhysical P cs) ds := by
  induction cs generalizing L P with
  | nil => simp [CallsAdvance, appliedLogical, appliedPhysical]
  | cons c cs ih => cases c <;> simp only [List.cons_append, CallsAdvance, appliedLogical, appliedPhysical, ih, and_assoc]

/-- What holds of the handles and the trace they share. -/
structure HandlesInv (L P : List T) (s : Handles T) : Prop where
  logical : ∀ t, weight s.box.logical t = holds (·.logical) s.handles t
  physical : ∀ t, weight s.box.physical t = holds (·.physical) s.handles t
  antichain : ∀ h ∈ s.handles, IsAntichainList h.logical ∧ IsAntichainList h.physical
  appliedL : ∀ q, Beyond (appliedLogical L s.box.calls) q ↔ ∃ h ∈ s.handles, Beyond h.logical q
  appliedP : ∀ q, Beyond (appliedPhysical P s.box.calls) q ↔ ∃ h ∈ s.handles, Beyond h.physical q
  calls : CallsAdvance L P s.box.calls

theorem HandlesInv.new {L P : List T} (hL : IsAntichainList L) (hP : IsAntichainList P) : HandlesInv L P (Handles.new L P) := by
  have hc : ∀ F : List T, IsAntichainList F → (MutAntichain.frontier (F.map fun t => (t, (1 : Int)))).Perm F := by
    intro F hF
    refine perm_of_beyond_eq (isAntichain_acExtend _ _ isAntichain_nil) hF fun q => ?_
    rw [beyond_frontier]
    constructor
    · rintro ⟨t, ht, hq⟩
      rw [weight_pos] at ht
      exact ⟨t, List.count_pos_iff.1 (by omega), hq⟩
    · rintro ⟨t, ht, hq⟩
      refine ⟨t, ?_, hq⟩
      rw [weight_pos]
      have := List.count_pos_iff.2 ht
      omega
  have cl := hc L hL
  have cp := hc P hP
  have hl : (TraceBox.new L P).logical = L.map fun t => (t, (1 : Int)) := rfl
  have hp : (TraceBox.new L P).physical = P.map fun t => (t, (1 : Int)) := rfl
  refine ⟨fun t => ?_, fun t => ?_, ?_, fun q => ?_, fun q => ?_, trivial⟩
  · simp only [Handles.new, hl, weight_pos, holds, List.map_cons, List.map_nil, List.sum_cons, List.sum_nil, add_zero]
    rw [cl.count_eq]
  · simp only [Handles.new, hp, weight_pos, holds, List.map_cons, List.map_nil, List.sum_cons, List.sum_nil, add_zero]
    rw [cp.count_eq]
  · intro h hh
    simp only [Handles.new, List.mem_singleton] at hh
    subst hh
    exact ⟨isAntichain_acExtend _ _ isAntichain_nil, isAntichain_acExtend _ _ isAntichain_nil⟩
  · simp only [Handles.new, hl, List.mem_singleton, exists_eq_left]
    have h := cl
    constructor
    · rintro ⟨f, hf, hq⟩; exact ⟨f, h.symm.subset hf, hq⟩
    · rintro ⟨f, hf, hq⟩; exact ⟨f, h.subset hf, hq⟩
  · simp only [Handles.new, hp, List.mem_singleton, exists_eq_left]
    have h := cp
    constructor
    · rintro ⟨f, hf, hq⟩; exact ⟨f, h.symm.subset hf, hq⟩
    · rintro ⟨f, hf, hq⟩; exact ⟨f, h.subset hf, hq⟩

theorem HandlesInv.step {L P : List T} {s : Handles T} (h : HandlesInv L P s) (op : HandleOp T) : HandlesInv L P (s.step op) := by
  cases op with
  | clone i =>
    rw [Handles.step]
    cases hi : s.handles[i]? with
    | none => exact h
    | some a =>
      have hm : a ∈ s.handles := List.mem_of_getElem? hi
      have w1 : ∀ t, weight ((s.box.logical ++ a.logical.map fun t => (t, (1 : Int))) ++ ([] : List T).map fun t => (t, (-1 : Int))) t =
          holds (·.logical) (s.handles ++ [a]) t := by
        intro t; rw [weight_append, weight_append, weight_pos, weight_neg, h.logical, holds_append]; simp
      have w2 : ∀ t, weight ((s.box.physical ++ a.physical.map fun t => (t, (1 : Int))) ++ ([] : List T).map fun t => (t, (-1 : Int))) t =
          holds (·.physical) (s.handles ++ [a]) t := by
        intro t; rw [weight_append, weight_append, weight_pos, weight_neg, h.physical, holds_append]; simp
      have e : ∀ (g : Handle T → List T) q, (∃ x ∈ s.handles ++ [a], Beyond (g x) q) ↔ ∃ x ∈ s.handles, Beyond (g x) q := by
        intro g q
        constructor
        · rintro ⟨x, hx, hq⟩
          rcases List.mem_append.1 hx with hx | hx
          · exact ⟨x, hx, hq⟩
          · rw [List.mem_singleton.1 hx] at hq; exact ⟨a, hm, hq⟩
        · rintro ⟨x, hx, hq⟩; exact ⟨x, by simp [hx], hq⟩
      refine ⟨w1, w2, ?_, fun q => ?_, fun q => ?_, ?_⟩
      · intro x hx
        rcases List.mem_append.1 hx with hx | hx
        · exact h.antichain x hx
        · rw [List.mem_singleton.1 hx]; exact h.antichain a hm
      · simp only [TraceBox.adjustPhysical, TraceBox.adjustLogical, appliedLogical_append, appliedLogical]
        exact beyond_holds w1 q
      · simp only [TraceBox.adjustPhysical, TraceBox.adjustLogical, appliedPhysical_append, appliedPhysical]
        exact beyond_holds w2 q
      · simp only [TraceBox.adjustPhysical, TraceBox.adjustLogical, callsAdvance_append, appliedPhysical_append, appliedLogical_append, appliedPhysical,
          appliedLogical, CallsAdvance, and_true]
        refine ⟨⟨h.calls, fun q hq => ?_⟩, fun q hq => ?_⟩
        · rw [h.appliedL]; exact (e _ q).1 ((beyond_holds w1 q).1 hq)
        · rw [h.appliedP]; exact (e _ q).1 ((beyond_holds w2 q).1 hq)
  | drop i =>
    rw [Handles.step]
    cases hi : s.handles[i]? with
    | none => exact h
    | some a =>
      have w1 : ∀ t, weight ((s.box.logical ++ ([] : List T).map fun t => (t, (1 : Int))) ++ a.logical.map fun t => (t, (-1 : Int))) t =
          holds (·.logical) (s.handles.eraseIdx i) t := by
        intro t
        rw [weight_append, weight_append, weight_pos, weight_neg, h.logical, ← holds_erase _ _ _ _ t hi]; simp
      have w2 : ∀ t, weight ((s.box.physical ++ ([] : List T).map fun t => (t, (1 : Int))) ++ a.physical.map fun t => (t, (-1 : Int))) t =
          holds (·.physical) (s.handles.eraseIdx i) t := by
        intro t
        rw [weight_append, weight_append, weight_pos, weight_neg, h.physical, ← holds_erase _ _ _ _ t hi]; simp
      have e : ∀ (g : Handle T → List T) q, (∃ x ∈ s.handles.eraseIdx i, Beyond (g x) q) → ∃ x ∈ s.handles, Beyond (g x) q := by
        rintro g q ⟨x, hx, hq⟩
        exact ⟨x, List.mem_of_mem_eraseIdx hx, hq⟩
      refine ⟨w1, w2, fun x hx => h.antichain x (List.mem_of_mem_eraseIdx hx), fun q => ?_, fun q => ?_, ?_⟩
      · simp only [TraceBox.adjustPhysical, TraceBox.adjustLogical, appliedLogical_append, appliedLogical]
        exact beyond_holds w1 q
      · simp only [TraceBox.adjustPhysical, TraceBox.adjustLogical, appliedPhysical_append, appliedPhysical]
        exact beyond_holds w2 q
      · simp only [TraceBox.adjustPhysical, TraceBox.adjustLogical, callsAdvance_append, appliedPhysical_append, appliedLogical_append, appliedPhysical,
          appliedLogical, CallsAdvance, and_true]
        refine ⟨⟨h.calls, fun q hq => ?_⟩, fun q hq => ?_⟩
        · rw [h.appliedL]; exact e _ q ((beyond_holds w1 q).1 hq)
        · rw [h.appliedP]; exact e _ q ((beyond_holds w2 q).1 hq)
  | setLogical i F =>
    rw [Handles.step]
    cases hi : s.handles[i]? with
    | none => exact h
    | some a =>
      have hm : a ∈ s.handles := List.mem_of_getElem? hi
      set a' : Handle T := { a with logical := acJoin a.logical F } with ha'
      have w1 : ∀ t, weight ((s.box.logical ++ (acJoin a.logical F).map fun t => (t, (1 : Int))) ++ a.logical.map fun t => (t, (-1 : Int))) t =
          holds (·.logical) (s.handles.set i a') t := by
        intro t
        rw [weight_append, weight_append, weight_pos, weight_neg, h.logical]
        have := holds_set (·.logical) a' s.handles i a t hi
        simp only [ha'] at this ⊢; omega
      have w2 : ∀ t, weight s.box.physical t = holds (·.physical) (s.handles.set i a') t := by
        intro t
        rw [h.physical]
        have := holds_set (·.physical) a' s.handles i a t hi
        simp only [ha'] at this ⊢; omega
      have hin : ∀ x ∈ s.handles.set i a', x ∈ s.handles ∨ x = a' := fun x hx => List.mem_or_eq_of_mem_set hx
      refine ⟨w1, w2, ?_, fun q => ?_, fun q => ?_, ?_⟩
      · intro x hx
        rcases hin x hx with hx | rfl
        · exact h.antichain x hx
        · exact ⟨isAntichain_acJoin _ _, (h.antichain a hm).2⟩
      · simp only [TraceBox.adjustLogical, appliedLogical_append, appliedLogical]
        exact beyond_holds w1 q
      · simp only [TraceBox.adjustLogical, appliedPhysical_append, appliedPhysical]
        rw [h.appliedP, ← beyond_holds h.physical, ← beyond_holds w2]
      · simp only [TraceBox.adjustLogical, callsAdvance_append, CallsAdvance, and_true]
        refine ⟨h.calls, fun q hq => ?_⟩
        obtain ⟨x, hx, hq⟩ := (beyond_holds w1 q).1 hq
        rw [h.appliedL]
        rcases hin x hx with hx | rfl
        · exact ⟨x, hx, hq⟩
        · exact ⟨a, hm, ((beyond_acJoin _ _ q).1 hq).1⟩
  | setPhysical i F =>
    rw [Handles.step]
    cases hi : s.handles[i]? with
    | none => exact h
    | some a =>
      have hm : a ∈ s.handles := List.mem_of_getElem? hi
      set a' : Handle T := { a with physical := acJoin a.physical F } with ha'
      have w2 : ∀ t, weight ((s.box.physical ++ (acJoin a.physical F).map fun t => (t, (1 : Int))) ++ a.physical.map fun t => (t, (-1 : Int))) t =
          holds (·.physical) (s.handles.set i a') t := by
        intro t
        rw [weight_append, weight_append, weight_pos, weight_neg, h.physical]
        have := holds_set (·.physical) a' s.handles i a t hi
        simp only [ha'] at this ⊢; omega
      have w1 : ∀ t, weight s.box.logical t = holds (·.logical) (s.handles.set i a') t := by
        intro t
        rw [h.logical]
        have := holds_set (·.logical) a' s.handles i a t hi
        simp only [ha'] at this ⊢; omega
      have hin : ∀ x ∈ s.handles.set i a', x ∈ s.handles ∨ x = a' := fun x hx => List.mem_or_eq_of_mem_set hx
      refine ⟨w1, w2, ?_, fun q => ?_, fun q => ?_, ?_⟩
      · intro x hx
        rcases hin x hx with hx | rfl
        · exact h.antichain x hx
        · exact ⟨(h.antichain a hm).1, isAntichain_acJoin _ _⟩
      · simp only [TraceBox.adjustPhysical, appliedLogical_append, appliedLogical]
        rw [h.appliedL, ← beyond_holds h.logical, ← beyond_holds w1]
      · simp only [TraceBox.adjustPhysical, appliedPhysical_append, appliedPhysical]
        exact beyond_holds w2 q
      · simp only [TraceBox.adjustPhysical, callsAdvance_append, CallsAdvance, and_true]
        refine ⟨h.calls, fun q hq => ?_⟩
        obtain ⟨x, hx, hq⟩ := (beyond_holds w2 q).1 hq
        rw [h.appliedP]
        rcases hin x hx with hx | rfl
        · exact ⟨x, hx, hq⟩
        · exact ⟨a, hm, ((beyond_acJoin _ _ q).1 hq).1⟩

theorem HandlesInv.run {L P : List T} (ops : List (HandleOp T)) : ∀ {s : Handles T}, HandlesInv L P s → HandlesInv L P (s.run ops) := by
  induction ops with
  | nil => intro s h; exact h
  | cons op ops ih => intro s h; exact ih (h.step op)

end DD
