import Verif.Model.Tile
import Verif.Spec.Tile
import Verif.Proofs.SpineRun

/-!
# Lemmas about the tiling of intervals
-/

namespace DD
variable {T : Type*} [PartialOrder T] [DecidableLE T] [DecidableEq T]

omit [DecidableEq T] in
theorem outputIndex_cons (h : T) (rest : List T) (t : T) :
    outputIndex (h :: rest) t = match outputIndex rest t with
      | some k => some (k + 1)
      | none => if h ≤ t then some 0 else none := by
  unfold outputIndex
  rw [List.reverse_cons, List.findIdx?_append]
  cases hf : List.findIdx? (fun h => decide (h ≤ t)) rest.reverse with
  | none =>
    by_cases hc : h ≤ t <;> simp [List.findIdx?_cons, hc]
  | some i =>
    have hi : i < rest.length := by
      have := (List.findIdx?_eq_some_iff_findIdx_eq.1 hf).1
      simpa using this
    simp only [Option.or, Option.map_some, List.length_cons, Option.some.injEq]
    omega

omit [DecidableEq T] in
theorem outputIndex_eq_none {held : List T} {t : T} : outputIndex held t = none ↔ ¬ Beyond held t := by
  simp [outputIndex, Beyond]

theorem tileLoop_spec [OrderBot T] (upper : List T) (hu : IsAntichainList upper) (rest : List T) :
    ∀ (lo : List T) (acc : Tiles T), IsAntichainList lo → FrontierLe lo upper → (∀ h ∈ rest, Beyond lo h) → (rest = [] → lo.Perm upper) →
      ∃ ds hs os, tileLoop upper lo rest acc = ⟨acc.descs ++ ds, acc.held ++ hs, acc.tileOf ++ os⟩ ∧ DescsTile lo ds upper ∧
        os.length = rest.length ∧ hs.length = ds.length ∧ (∀ d ∈ ds, d.since = [⊥]) ∧
        (∀ t k, Beyond lo t → ¬ Beyond upper t → outputIndex rest t = some k →
          ∃ i d h, os[k]? = some (some (acc.descs.length + i)) ∧ ds[i]? = some d ∧ hs[i]? = some h ∧ rest[k]? = some h ∧ h ≤ t ∧ d.Covers t) := by
  induction rest with
  | nil =>
    intro lo acc _ _ _ hp
    refine ⟨[], [], [], by simp [tileLoop], hp rfl, rfl, rfl, by simp, ?_⟩
    intro t k _ _ h
    simp [outputIndex] at h
  | cons h rest ih =>
    intro lo acc hlo hle hb _
    have hanti : IsAntichainList (acExtend upper rest) := isAntichain_acExtend _ _ hu
    have hloOut : FrontierLe lo (acExtend upper rest) := by
      intro q hq
      rcases (beyond_acExtend _ _ _).1 hq with hq | ⟨r, hr, hrq⟩
      · exact hle q hq
      · exact beyond_mono (hb r (by simp [hr])) hrq
    have hcase : ∀ t, ¬ Beyond upper t → outputIndex rest t = none → ¬ Beyond (acExtend upper rest) t := by
      intro t ht hn hc
      rcases (beyond_acExtend _ _ _).1 hc with hc | hc
      · exact ht hc
      · exact outputIndex_eq_none.1 hn hc
    by_cases he : acEq (acExtend upper rest) lo = true
    · have hperm := perm_of_acEq he (nodup_of_isAntichain hanti)
      obtain ⟨ds, hs, os, e, h1, h2, h3, h4, h5⟩ := ih lo { acc with tileOf := acc.tileOf ++ [none] } hlo hle
        (fun r hr => hb r (by simp [hr])) (by rintro rfl; exact hperm.symm)
      refine ⟨ds, hs, none :: os, ?_, h1, by simp [h2], h3, h4, ?_⟩
      · rw [tileLoop]
        simp only [he, if_true]
        rw [e]
        simp
      · intro t k ht1 ht2 hk
        rw [outputIndex_cons] at hk
        cases hr : outputIndex rest t with
        | none => exact absurd ((beyond_perm hperm t).2 ht1) (hcase t ht2 hr)
        | some j =>
          rw [hr] at hk
          simp only [Option.some.injEq] at hk
          subst hk
          obtain ⟨i, d, x, a1, a2, a3, a4, a5, a6⟩ := h5 t j ht1 ht2 hr
          exact ⟨i, d, x, by simpa using a1, a2, a3, by simpa using a4, a5, a6⟩
    · obtain ⟨ds, hs, os, e, h1, h2, h3, h4, h5⟩ := ih (acExtend upper rest)
        { descs := acc.descs ++ [⟨lo, acExtend upper rest, [⊥]⟩], held := acc.held ++ [h], tileOf := acc.tileOf ++ [some acc.descs.length] }
        hanti (fun q hq => (beyond_acExtend _ _ _).2 (Or.inl hq)) (fun r hr => (beyond_acExtend _ _ _).2 (Or.inr ⟨r, hr, le_refl _⟩))
        (by rintro rfl; exact List.Perm.refl _)
      refine ⟨⟨lo, acExtend upper rest, [⊥]⟩ :: ds, h :: hs, some acc.descs.length :: os, ?_, ?_, by simp [h2], by simp [h3], ?_, ?_⟩
      · rw [tileLoop]
        simp only [he]
        simp only [Bool.false_eq_true, if_false]
        rw [e]
        simp
      · exact ⟨List.Perm.refl _, hloOut, fun hp => he (acEq_of_perm hp.symm), h1⟩
      · intro d hd
        rcases List.mem_cons.1 hd with rfl | hd
        · rfl
        · exact h4 d hd
      · intro t k ht1 ht2 hk
        rw [outputIndex_cons] at hk
        cases hr : outputIndex rest t with
        | none =>
          rw [hr] at hk
          by_cases hht : h ≤ t
          · simp only [if_pos hht, Option.some.injEq] at hk
            subst hk
            exact ⟨0, _, h, by simp, rfl, rfl, rfl, hht, ht1, hcase t ht2 hr⟩
          · simp [hht] at hk
        | some j =>
          rw [hr] at hk
          simp only [Option.some.injEq] at hk
          subst hk
          have hb' : Beyond rest t := by
            by_contra hc
            rw [outputIndex_eq_none.2 hc] at hr
            cases hr
          obtain ⟨i, d, x, a1, a2, a3, a4, a5, a6⟩ := h5 t j ((beyond_acExtend _ _ _).2 (Or.inr hb')) ht2 hr
          refine ⟨i + 1, d, x, ?_, by simpa using a2, by simpa using a3, by simpa using a4, a5, a6⟩
          simp only [List.length_append, List.length_cons, List.length_nil] at a1
          simp only [List.getElem?_cons_succ, a1, Option.some.injEq]
          omega

omit [DecidableLE T] [DecidableEq T] in
theorem beyond_congr_perm {F G : List T} (h : F.Perm G) (t : T) : Beyond F t ↔ Beyond G t := by
  simp [Beyond, h.mem_iff]

omit [DecidableLE T] [DecidableEq T] in
/-- In a tiling, a covered time is in the interval. -/
theorem DescsTile.inside {ds : List (Description T)} {lo hi : List T} (h : DescsTile lo ds hi) :
    FrontierLe lo hi ∧ ∀ (i : Nat) d t, ds[i]? = some d → d.Covers t → Beyond lo t ∧ ¬ Beyond hi t := by
  induction ds generalizing lo with
  | nil => exact ⟨fun q hq => (beyond_congr_perm h q).2 hq, by simp⟩
  | cons d ds ih =>
    obtain ⟨h1, h2, -, h4⟩ := h
    obtain ⟨i1, i2⟩ := ih h4
    refine ⟨fun q hq => (beyond_congr_perm h1 q).2 (h2 q (i1 q hq)), ?_⟩
    intro i d' t hi hc
    cases i with
    | zero =>
      simp only [List.getElem?_cons_zero, Option.some.injEq] at hi
      subst hi
      exact ⟨(beyond_congr_perm h1 t).2 hc.1, fun hh => hc.2 (i1 t hh)⟩
    | succ i =>
      obtain ⟨a, b⟩ := i2 i d' t (by simpa using hi) hc
      exact ⟨(beyond_congr_perm h1 t).2 (h2 t a), b⟩

omit [DecidableLE T] [DecidableEq T] in
/-- In a tiling, no time is covered twice. -/
theorem DescsTile.unique {ds : List (Description T)} {lo hi : List T} (h : DescsTile lo ds hi) (i j : Nat) (d e : Description T) (t : T)
    (hi' : ds[i]? = some d) (hj : ds[j]? = some e) (hd : d.Covers t) (he : e.Covers t) : i = j := by
  induction ds generalizing lo i j with
  | nil => simp at hi'
  | cons d0 ds ih =>
    obtain ⟨_, _, -, h4⟩ := h
    have hin := h4.inside.2
    cases i with
    | zero =>
      cases j with
      | zero => rfl
      | succ j =>
        simp only [List.getElem?_cons_zero, Option.some.injEq] at hi'
        subst hi'
        exact absurd (hin j e t (by simpa using hj) he).1 hd.2
    | succ i =>
      cases j with
      | zero =>
        simp only [List.getElem?_cons_zero, Option.some.injEq] at hj
        subst hj
        exact absurd (hin i d t (by simpa using hi') hd).1 he.2
      | succ j => rw [ih h4 i j (by simpa using hi') (by simpa using hj)]

end DD
