import Mathlib.Data.Prod.Lex
import Verif.Model.TimeOrd

namespace DD

theorem toLin_inj {T : Type*} {a b : T} : toLin a = toLin b ↔ a = b := Iff.rfl

theorem TimeOrd.lt_mono {T : Type*} [PartialOrder T] [TimeOrd T] {a b : T} (h : a < b) : toLin a < toLin b :=
  lt_of_le_of_ne (TimeOrd.mono h.le) (fun e => h.ne (toLin_inj.1 e))

/-- A total order: reflexive, transitive, antisymmetric, total. -/
structure IsTotalOrd {α : Type*} (r : α → α → Prop) : Prop where
  refl : ∀ a, r a a
  trans : ∀ a b c, r a b → r b c → r a c
  antisymm : ∀ a b, r a b → r b a → a = b
  total : ∀ a b, r a b ∨ r b a

/-- Build the `LinearOrder` of a model total order. -/
noncomputable def IsTotalOrd.toLinear {α : Type*} {r : α → α → Prop} (h : IsTotalOrd r) : LinearOrder α where
  le := r
  le_refl := h.refl
  le_trans := h.trans
  le_antisymm := h.antisymm
  le_total := h.total
  toDecidableLE := Classical.decRel _

section
variable {T1 T2 : Type*} [LinearOrder (Lin T1)] [LinearOrder (Lin T2)]

theorem ProductT.ordLe_total : IsTotalOrd (ProductT.ordLe (T1 := T1) (T2 := T2)) where
  refl a := Or.inr ⟨rfl, le_rfl⟩
  trans a b c h1 h2 := by
    rcases h1 with h1 | ⟨h1, h1'⟩ <;> rcases h2 with h2 | ⟨h2, h2'⟩
    · exact Or.inl (h1.trans h2)
    · exact Or.inl (h2 ▸ h1)
    · exact Or.inl (h1 ▸ h2)
    · exact Or.inr ⟨h1.trans h2, h1'.trans h2'⟩
  antisymm a b h1 h2 := by
    rcases h1 with h1 | ⟨h1, h1'⟩ <;> rcases h2 with h2 | ⟨h2, h2'⟩
    · exact absurd (h1.trans h2) (lt_irrefl _)
    · exact absurd (h2 ▸ h1) (lt_irrefl _)
    · exact absurd (h1 ▸ h2) (lt_irrefl _)
    · exact ProductT.ext (toLin_inj.1 h1) (toLin_inj.1 (le_antisymm h1' h2'))
  total a b := by
    rcases lt_trichotomy (toLin a.outer) (toLin b.outer) with h | h | h
    · exact Or.inl (Or.inl h)
    · rcases le_total (toLin a.inner) (toLin b.inner) with h' | h'
      · exact Or.inl (Or.inr ⟨h, h'⟩)
      · exact Or.inr (Or.inr ⟨h.symm, h'⟩)
    · exact Or.inr (Or.inl h)

theorem LexT.ordLe_total : IsTotalOrd (LexT.ordLe (T1 := T1) (T2 := T2)) where
  refl a := Or.inr ⟨rfl, le_rfl⟩
  trans a b c h1 h2 := by
    rcases h1 with h1 | ⟨h1, h1'⟩ <;> rcases h2 with h2 | ⟨h2, h2'⟩
    · exact Or.inl (h1.trans h2)
    · exact Or.inl (h2 ▸ h1)
    · exact Or.inl (h1 ▸ h2)
    · exact Or.inr ⟨h1.trans h2, h1'.trans h2'⟩
  antisymm a b h1 h2 := by
    rcases h1 with h1 | ⟨h1, h1'⟩ <;> rcases h2 with h2 | ⟨h2, h2'⟩
    · exact absurd (h1.trans h2) (lt_irrefl _)
    · exact absurd (h2 ▸ h1) (lt_irrefl _)
    · exact absurd (h1 ▸ h2) (lt_irrefl _)
    · exact LexT.ext (toLin_inj.1 h1) (toLin_inj.1 (le_antisymm h1' h2'))
  total a b := by
    rcases lt_trichotomy (toLin a.fst) (toLin b.fst) with h | h | h
    · exact Or.inl (Or.inl h)
    · rcases le_total (toLin a.snd) (toLin b.snd) with h' | h'
      · exact Or.inl (Or.inr ⟨h, h'⟩)
      · exact Or.inr (Or.inr ⟨h.symm, h'⟩)
    · exact Or.inr (Or.inl h)

end

section
variable {T : Type*} [LinearOrder (Lin T)]

theorem AltNeu.ordLe_total : IsTotalOrd (AltNeu.ordLe (T := T)) where
  refl a := Or.inr ⟨rfl, le_rfl⟩
  trans a b c h1 h2 := by
    rcases h1 with h1 | ⟨h1, h1'⟩ <;> rcases h2 with h2 | ⟨h2, h2'⟩
    · exact Or.inl (h1.trans h2)
    · exact Or.inl (h2 ▸ h1)
    · exact Or.inl (h1 ▸ h2)
    · exact Or.inr ⟨h1.trans h2, h1'.trans h2'⟩
  antisymm a b h1 h2 := by
    rcases h1 with h1 | ⟨h1, h1'⟩ <;> rcases h2 with h2 | ⟨h2, h2'⟩
    · exact absurd (h1.trans h2) (lt_irrefl _)
    · exact absurd (h2 ▸ h1) (lt_irrefl _)
    · exact absurd (h1 ▸ h2) (lt_irrefl _)
    · exact AltNeu.ext (toLin_inj.1 h1) (le_antisymm h1' h2')
  total a b := by
    rcases lt_trichotomy (toLin a.time) (toLin b.time) with h | h | h
    · exact Or.inl (Or.inl h)
    · rcases le_total a.neu b.neu with h' | h'
      · exact Or.inl (Or.inr ⟨h, h'⟩)
      · exact Or.inr (Or.inr ⟨h.symm, h'⟩)
    · exact Or.inr (Or.inl h)

theorem vecOrdLe_total : IsTotalOrd (vecOrdLe (T := T)) where
  refl a := by induction a <;> simp [vecOrdLe, *]
  trans a b c h1 h2 := by
    induction a generalizing b c with
    | nil => simp [vecOrdLe]
    | cons x a ih =>
      cases b with
      | nil => simp [vecOrdLe] at h1
      | cons y b =>
        cases c with
        | nil => simp [vecOrdLe] at h2
        | cons z c =>
          rcases h1 with h1 | ⟨h1, h1'⟩ <;> rcases h2 with h2 | ⟨h2, h2'⟩
          · exact Or.inl (h1.trans h2)
          · exact Or.inl (h2 ▸ h1)
          · exact Or.inl (h1 ▸ h2)
          · exact Or.inr ⟨h1.trans h2, ih _ _ h1' h2'⟩
  antisymm a b h1 h2 := by
    induction a generalizing b with
    | nil => cases b with
      | nil => rfl
      | cons => simp [vecOrdLe] at h2
    | cons x a ih =>
      cases b with
      | nil => simp [vecOrdLe] at h1
      | cons y b =>
        rcases h1 with h1 | ⟨h1, h1'⟩ <;> rcases h2 with h2 | ⟨h2, h2'⟩
        · exact absurd (h1.trans h2) (lt_irrefl _)
        · exact absurd (h2 ▸ h1) (lt_irrefl _)
        · exact absurd (h1 ▸ h2) (lt_irrefl _)
        · rw [toLin_inj.1 h1, ih _ h1' h2']
  total a b := by
    induction a generalizing b with
    | nil => simp [vecOrdLe]
    | cons x a ih =>
      cases b with
      | nil => simp [vecOrdLe]
      | cons y b =>
        rcases lt_trichotomy (toLin x) (toLin y) with h | h | h
        · exact Or.inl (Or.inl h)
        · rcases ih b with h' | h'
          · exact Or.inl (Or.inr ⟨h, h'⟩)
          · exact Or.inr (Or.inr ⟨h.symm, h'⟩)
        · exact Or.inr (Or.inl h)

end

theorem ProductT.ordLe_of_le {T1 T2 : Type*} [PartialOrder T1] [TimeOrd T1] [PartialOrder T2] [TimeOrd T2]
    {a b : ProductT T1 T2} (h : a ≤ b) : ordLe a b := by
  rcases eq_or_lt_of_le h.1 with e | e
  · exact Or.inr ⟨toLin_inj.2 e, TimeOrd.mono h.2⟩
  · exact Or.inl (TimeOrd.lt_mono e)

theorem LexT.ordLe_of_le {T1 T2 : Type*} [PartialOrder T1] [TimeOrd T1] [PartialOrder T2] [TimeOrd T2]
    {a b : LexT T1 T2} (h : a ≤ b) : ordLe a b := by
  rcases h with e | ⟨e, h⟩
  · exact Or.inl (TimeOrd.lt_mono e)
  · exact Or.inr ⟨toLin_inj.2 e, TimeOrd.mono h⟩

theorem AltNeu.ordLe_of_le {T : Type*} [PartialOrder T] [TimeOrd T] {a b : AltNeu T} (h : a ≤ b) : ordLe a b := by
  rcases (AltNeu.le_iff_lt a b).1 h with e | ⟨e, h⟩
  · exact Or.inl (TimeOrd.lt_mono e)
  · exact Or.inr ⟨toLin_inj.2 e, h⟩

theorem vecOrdLe_of_coord {T : Type*} [PartialOrder T] [TimeOrd T] [OrderBot T] [DecidableEq T] {v w : List T}
    (hv : (PointStamp.mk v).Norm) (h : ∀ i, coord v i ≤ coord w i) : vecOrdLe v w := by
  induction v generalizing w with
  | nil => simp [vecOrdLe]
  | cons a v ih =>
    cases w with
    | nil =>
      have := nil_of_norm_bot hv (fun i => le_bot_iff.1 (by simpa using h i))
      simp at this
    | cons b w =>
      have h0 : a ≤ b := by simpa using h 0
      rcases eq_or_lt_of_le h0 with e | e
      · exact Or.inr ⟨toLin_inj.2 e, ih (norm_tail hv) fun i => by simpa using h (i+1)⟩
      · exact Or.inl (TimeOrd.lt_mono e)

/-! Instances: products of times, lexicographic pairs, AltNeu and normalized point stamps are themselves times. -/

noncomputable instance {T1 T2 : Type*} [PartialOrder T1] [TimeOrd T1] [PartialOrder T2] [TimeOrd T2] :
    TimeOrd (ProductT T1 T2) where
  lin := ProductT.ordLe_total.toLinear
  mono h := ProductT.ordLe_of_le h

noncomputable instance {T1 T2 : Type*} [PartialOrder T1] [TimeOrd T1] [PartialOrder T2] [TimeOrd T2] :
    TimeOrd (LexT T1 T2) where
  lin := LexT.ordLe_total.toLinear
  mono h := LexT.ordLe_of_le h

noncomputable instance {T : Type*} [PartialOrder T] [TimeOrd T] : TimeOrd (AltNeu T) where
  lin := AltNeu.ordLe_total.toLinear
  mono h := AltNeu.ordLe_of_le h

theorem PS.ordLe_total {T : Type*} [LinearOrder (Lin T)] [LE T] [OrderBot T] [DecidableEq T] :
    IsTotalOrd (fun a b : PS T => PointStamp.ordLe a.1 b.1) where
  refl a := vecOrdLe_total.refl _
  trans a b c := vecOrdLe_total.trans _ _ _
  antisymm a b h1 h2 := Subtype.ext (PointStamp.ext (vecOrdLe_total.antisymm _ _ h1 h2))
  total a b := vecOrdLe_total.total _ _

noncomputable instance {T : Type*} [PartialOrder T] [TimeOrd T] [OrderBot T] [DecidableEq T] [DecidableLE T] :
    TimeOrd (PS T) where
  lin := PS.ordLe_total.toLinear
  mono {a b} h := vecOrdLe_of_coord a.2 ((PS.le_iff a b).1 h)

/-- A totally ordered time (integers): `Ord` and `PartialOrder` agree. -/
def TimeOrd.ofLinear (T : Type*) [i : LinearOrder T] : TimeOrd T where
  lin := i
  mono h := h

instance : TimeOrd Nat := TimeOrd.ofLinear Nat
instance : TimeOrd Unit := TimeOrd.ofLinear Unit

/-- Pairs of numbers, ordered componentwise, with the lexicographic total order: a computable instance for examples. -/
instance : TimeOrd (Nat × Nat) where
  lin := inferInstanceAs (LinearOrder (Nat ×ₗ Nat))
  mono := fun {_ _} h => Prod.Lex.toLex_mono h

end DD
