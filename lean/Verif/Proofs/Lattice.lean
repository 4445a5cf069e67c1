import Verif.Model.Lattice
import Mathlib.Order.Lex
import Mathlib.Data.Prod.Lex
import Mathlib.Data.List.Pairwise

namespace DD

/-! ### `advance_by` -/
section Advance
variable {T : Type*} [Lattice T]

theorem le_foldl_meet (t q a : T) (fs : List T) :
    q ≤ fs.foldl (fun result f => result ⊓ (t ⊔ f)) a ↔ q ≤ a ∧ ∀ f ∈ fs, q ≤ t ⊔ f := by
  induction fs generalizing a with
  | nil => simp
  | cons f fs ih => simp [ih, le_inf_iff, and_assoc]

theorem advanceBy_cons (t f : T) (fs : List T) :
    advanceBy t (f :: fs) = fs.foldl (fun result f => result ⊓ (t ⊔ f)) (t ⊔ f) := by
  cases fs <;> simp [advanceBy]

/-- The advanced time is the greatest lower bound of the `t ⊔ f`. -/
theorem le_advanceBy_iff (t q : T) (F : List T) (h : F ≠ []) :
    q ≤ advanceBy t F ↔ ∀ f ∈ F, q ≤ t ⊔ f := by
  cases F with
  | nil => exact absurd rfl h
  | cons f fs => rw [advanceBy_cons, le_foldl_meet]; simp

theorem advanceBy_le (t : T) {F : List T} {f : T} (h : f ∈ F) : advanceBy t F ≤ t ⊔ f :=
  (le_advanceBy_iff t _ F (List.ne_nil_of_mem h)).1 le_rfl f h

theorem le_advanceBy (t : T) (F : List T) : t ≤ advanceBy t F := by
  by_cases h : F = []
  · subst h; exact le_rfl
  · exact (le_advanceBy_iff t t F h).2 fun _ _ => le_sup_left

theorem advanceBy_le_iff (t q : T) (F : List T) (hq : Beyond F q) : advanceBy t F ≤ q ↔ t ≤ q := by
  obtain ⟨f, hf, hfq⟩ := hq
  exact ⟨fun h => (le_advanceBy t F).trans h, fun h => (advanceBy_le t hf).trans (sup_le h hfq)⟩

theorem advanceBy_mono {s t : T} (h : s ≤ t) (F : List T) : advanceBy s F ≤ advanceBy t F := by
  by_cases hF : F = []
  · subst hF; exact h
  · rw [le_advanceBy_iff _ _ _ hF]
    intro f hf
    exact (advanceBy_le s hf).trans (sup_le_sup_right h f)

theorem advanceBy_idem (t : T) (F : List T) : advanceBy (advanceBy t F) F = advanceBy t F := by
  apply le_antisymm _ (le_advanceBy _ _)
  by_cases h : F = []
  · subst h; exact le_rfl
  · rw [le_advanceBy_iff _ _ _ h]
    intro f hf
    exact (advanceBy_le _ hf).trans (sup_le (advanceBy_le _ hf) le_sup_right)

theorem advanceBy_le_of_forall (s t : T) {F : List T} (hF : F ≠ [])
    (h : ∀ q, Beyond F q → t ≤ q → s ≤ q) : s ≤ advanceBy t F := by
  rw [le_advanceBy_iff _ _ _ hF]
  intro f hf
  exact h _ ⟨f, hf, le_sup_right⟩ le_sup_left

end Advance

/-! ### Antichains -/
section Antichain
variable {T : Type*} [PartialOrder T] [DecidableLE T]

theorem lessEqual_iff (F : List T) (t : T) : lessEqual F t = true ↔ Beyond F t := by
  simp [lessEqual, Beyond]

theorem beyond_mono {F : List T} {s t : T} (h : Beyond F s) (hst : s ≤ t) : Beyond F t := by
  obtain ⟨f, hf, hfs⟩ := h; exact ⟨f, hf, hfs.trans hst⟩

theorem beyond_acInsert (F : List T) (x t : T) : Beyond (acInsert F x) t ↔ Beyond F t ∨ x ≤ t := by
  unfold acInsert
  split_ifs with h
  · constructor
    · exact Or.inl
    · rintro (h' | h')
      · exact h'
      · simp at h; obtain ⟨f, hf, hfx⟩ := h; exact ⟨f, hf, hfx.trans h'⟩
  · simp only [Beyond, List.mem_append, List.mem_filter, List.mem_singleton]
    constructor
    · rintro ⟨f, (⟨hf, -⟩ | rfl), hft⟩
      · exact Or.inl ⟨f, hf, hft⟩
      · exact Or.inr hft
    · rintro (⟨f, hf, hft⟩ | hxt)
      · by_cases hxf : x ≤ f
        · exact ⟨x, Or.inr rfl, hxf.trans hft⟩
        · exact ⟨f, Or.inl ⟨hf, by simpa using hxf⟩, hft⟩
      · exact ⟨x, Or.inr rfl, hxt⟩

theorem isAntichain_acInsert (F : List T) (x : T) (hF : IsAntichainList F) : IsAntichainList (acInsert F x) := by
  unfold acInsert
  split_ifs with h
  · exact hF
  · unfold IsAntichainList at *
    rw [List.pairwise_append]
    refine ⟨hF.filter _, by simp, ?_⟩
    intro a ha b hb
    simp only [List.mem_singleton] at hb; subst hb
    simp only [List.mem_filter, Bool.not_eq_true', decide_eq_false_iff_not] at ha
    simp only [List.any_eq_true, decide_eq_true_eq, not_exists, not_and] at h
    exact ⟨h a ha.1, ha.2⟩

theorem mem_acInsert {F : List T} {x y : T} (h : y ∈ acInsert F x) : y ∈ F ∨ y = x := by
  unfold acInsert at h
  split_ifs at h
  · exact Or.inl h
  · simp only [List.mem_append, List.mem_filter, List.mem_singleton] at h
    tauto

theorem beyond_acExtend (F ts : List T) (t : T) : Beyond (acExtend F ts) t ↔ Beyond F t ∨ Beyond ts t := by
  induction ts generalizing F with
  | nil => simp [acExtend, Beyond]
  | cons x ts ih =>
    have : acExtend F (x :: ts) = acExtend (acInsert F x) ts := rfl
    rw [this, ih, beyond_acInsert]
    simp only [Beyond, List.mem_cons, exists_eq_or_imp, or_assoc]

theorem isAntichain_acExtend (F ts : List T) (hF : IsAntichainList F) : IsAntichainList (acExtend F ts) := by
  induction ts generalizing F with
  | nil => exact hF
  | cons x ts ih => exact ih _ (isAntichain_acInsert F x hF)

theorem mem_acExtend {F ts : List T} {y : T} (h : y ∈ acExtend F ts) : y ∈ F ∨ y ∈ ts := by
  induction ts generalizing F with
  | nil => exact Or.inl h
  | cons x ts ih =>
    rcases ih h with h | h
    · rcases mem_acInsert h with h | h
      · exact Or.inl h
      · exact Or.inr (by simp [h])
    · exact Or.inr (by simp [h])

theorem isAntichain_nil : IsAntichainList ([] : List T) := List.Pairwise.nil

/-- Two antichains with the same up-set have the same elements. -/
theorem mem_of_beyond_eq {F G : List T} (hF : IsAntichainList F) (hG : IsAntichainList G)
    (h : ∀ t, Beyond F t ↔ Beyond G t) {x : T} (hx : x ∈ F) : x ∈ G := by
  obtain ⟨g, hg, hgx⟩ := (h x).1 ⟨x, hx, le_rfl⟩
  obtain ⟨f, hf, hfg⟩ := (h g).2 ⟨g, hg, le_rfl⟩
  have hfx : f = x := by
    by_contra hne
    haveI : Std.Symm (fun a b : T => ¬ a ≤ b ∧ ¬ b ≤ a) := ⟨fun _ _ h => h.symm⟩
    have := List.Pairwise.forall hF hf hx hne
    exact this.1 (hfg.trans hgx)
  subst hfx
  have : f = g := le_antisymm hfg hgx
  exact this ▸ hg

theorem nodup_of_isAntichain {F : List T} (hF : IsAntichainList F) : F.Nodup :=
  hF.imp fun {a b} h => fun e => h.1 (e ▸ le_rfl)

theorem perm_of_beyond_eq {F G : List T} (hF : IsAntichainList F) (hG : IsAntichainList G)
    (h : ∀ t, Beyond F t ↔ Beyond G t) : F.Perm G :=
  (List.perm_ext_iff_of_nodup (nodup_of_isAntichain hF) (nodup_of_isAntichain hG)).2 fun _ =>
    ⟨mem_of_beyond_eq hF hG h, mem_of_beyond_eq hG hF fun t => (h t).symm⟩

end Antichain

section AntichainLattice
variable {T : Type*} [Lattice T] [DecidableLE T]

theorem beyond_acJoin (F G : List T) (t : T) : Beyond (acJoin F G) t ↔ Beyond F t ∧ Beyond G t := by
  unfold acJoin
  rw [beyond_acExtend]
  simp only [Beyond, List.mem_flatMap, List.mem_map]
  constructor
  · rintro (⟨f, hf, -⟩ | ⟨_, ⟨f, hf, g, hg, rfl⟩, h⟩)
    · simp at hf
    · exact ⟨⟨f, hf, le_sup_left.trans h⟩, ⟨g, hg, le_sup_right.trans h⟩⟩
  · rintro ⟨⟨f, hf, hft⟩, ⟨g, hg, hgt⟩⟩
    exact Or.inr ⟨f ⊔ g, ⟨f, hf, g, hg, rfl⟩, sup_le hft hgt⟩

theorem beyond_acMeet (F G : List T) (t : T) : Beyond (acMeet F G) t ↔ Beyond F t ∨ Beyond G t := by
  unfold acMeet
  rw [beyond_acExtend, beyond_acExtend]
  simp [Beyond]

theorem isAntichain_acJoin (F G : List T) : IsAntichainList (acJoin F G) := isAntichain_acExtend _ _ isAntichain_nil
theorem isAntichain_acMeet (F G : List T) : IsAntichainList (acMeet F G) :=
  isAntichain_acExtend _ _ (isAntichain_acExtend _ _ isAntichain_nil)

end AntichainLattice

theorem acLe_iff {T : Type*} [PartialOrder T] [DecidableLE T] (F G : List T) :
    acLe F G = true ↔ ∀ t, Beyond G t → Beyond F t := by
  simp only [acLe, List.all_eq_true, lessEqual_iff]
  constructor
  · rintro h t ⟨g, hg, hgt⟩; exact beyond_mono (h g hg) hgt
  · exact fun h g hg => h g ⟨g, hg, le_rfl⟩

/-! ### Concrete timestamps: order instances -/

namespace ProductT
variable {T1 T2 : Type*}

instance [PartialOrder T1] [PartialOrder T2] : PartialOrder (ProductT T1 T2) where
  le := less_equal
  le_refl a := ⟨le_rfl, le_rfl⟩
  le_trans a b c h1 h2 := ⟨h1.1.trans h2.1, h1.2.trans h2.2⟩
  le_antisymm a b h1 h2 := ProductT.ext (le_antisymm h1.1 h2.1) (le_antisymm h1.2 h2.2)

theorem le_def [PartialOrder T1] [PartialOrder T2] (a b : ProductT T1 T2) :
    a ≤ b ↔ a.outer ≤ b.outer ∧ a.inner ≤ b.inner := Iff.rfl

instance [PartialOrder T1] [PartialOrder T2] [DecidableLE T1] [DecidableLE T2] : DecidableLE (ProductT T1 T2) :=
  fun a b => inferInstanceAs (Decidable (a.outer ≤ b.outer ∧ a.inner ≤ b.inner))

instance [Lattice T1] [Lattice T2] : Lattice (ProductT T1 T2) where
  sup := join
  inf := meet
  le_sup_left a b := ⟨le_sup_left, le_sup_left⟩
  le_sup_right a b := ⟨le_sup_right, le_sup_right⟩
  sup_le a b c h1 h2 := ⟨sup_le h1.1 h2.1, sup_le h1.2 h2.2⟩
  inf_le_left a b := ⟨inf_le_left, inf_le_left⟩
  inf_le_right a b := ⟨inf_le_right, inf_le_right⟩
  le_inf a b c h1 h2 := ⟨le_inf h1.1 h2.1, le_inf h1.2 h2.2⟩

end ProductT

namespace LexT
variable {T1 T2 : Type*}

instance [PartialOrder T1] [PartialOrder T2] : PartialOrder (LexT T1 T2) where
  le := less_equal
  le_refl a := Or.inr ⟨rfl, le_rfl⟩
  le_trans a b c h1 h2 := by
    rcases h1 with h1 | ⟨h1, h1'⟩ <;> rcases h2 with h2 | ⟨h2, h2'⟩
    · exact Or.inl (h1.trans h2)
    · exact Or.inl (h2 ▸ h1)
    · exact Or.inl (h1 ▸ h2)
    · exact Or.inr ⟨h1.trans h2, h1'.trans h2'⟩
  le_antisymm a b h1 h2 := by
    rcases h1 with h1 | ⟨h1, h1'⟩ <;> rcases h2 with h2 | ⟨h2, h2'⟩
    · exact absurd (h1.trans h2) (lt_irrefl _)
    · exact absurd (h2 ▸ h1) (lt_irrefl _)
    · exact absurd (h1 ▸ h2) (lt_irrefl _)
    · exact LexT.ext h1 (le_antisymm h1' h2')

theorem le_def [PartialOrder T1] [PartialOrder T2] (a b : LexT T1 T2) :
    a ≤ b ↔ a.fst < b.fst ∨ (a.fst = b.fst ∧ a.snd ≤ b.snd) := Iff.rfl

variable [Lattice T1] [DecidableEq T1] [DecidableLT T1] [Lattice T2] [BoundedOrder T2]

theorem le_join_left (a b : LexT T1 T2) : a ≤ join a b := by
  unfold join
  split_ifs with h1 h2 h3
  · exact Or.inr ⟨rfl, le_sup_left⟩
  · exact Or.inl h2
  · exact le_rfl
  · refine Or.inl (lt_of_le_of_ne le_sup_left ?_)
    intro h
    exact h3 (lt_of_le_of_ne (sup_eq_left.1 h.symm) (Ne.symm h1))

theorem le_join_right (a b : LexT T1 T2) : b ≤ join a b := by
  unfold join
  split_ifs with h1 h2 h3
  · exact Or.inr ⟨h1.symm, le_sup_right⟩
  · exact le_rfl
  · exact Or.inl h3
  · refine Or.inl (lt_of_le_of_ne le_sup_right ?_)
    intro h
    exact h2 (lt_of_le_of_ne (sup_eq_right.1 h.symm) h1)

theorem join_le (a b c : LexT T1 T2) (h1 : a ≤ c) (h2 : b ≤ c) : join a b ≤ c := by
  unfold join
  split_ifs with e1 e2 e3
  · rcases h1 with h1 | ⟨h1, h1'⟩ <;> rcases h2 with h2 | ⟨h2, h2'⟩
    · exact Or.inl h1
    · exact Or.inl h1
    · exact absurd (e1 ▸ h1 ▸ h2) (lt_irrefl _)
    · exact Or.inr ⟨h1, sup_le h1' h2'⟩
  · exact h2
  · exact h1
  · have ha : a.fst ≤ c.fst := by rcases h1 with h1 | h1; exacts [h1.le, h1.1.le]
    have hb : b.fst ≤ c.fst := by rcases h2 with h2 | h2; exacts [h2.le, h2.1.le]
    rcases eq_or_lt_of_le (sup_le ha hb) with h | h
    · exact Or.inr ⟨h, bot_le⟩
    · exact Or.inl h

theorem meet_le_left (a b : LexT T1 T2) : meet a b ≤ a := by
  unfold meet
  split_ifs with h1 h2 h3
  · exact Or.inr ⟨rfl, inf_le_left⟩
  · exact le_rfl
  · exact Or.inl h3
  · refine Or.inl (lt_of_le_of_ne inf_le_left ?_)
    intro h
    exact h2 (lt_of_le_of_ne (inf_eq_left.1 h) h1)

theorem meet_le_right (a b : LexT T1 T2) : meet a b ≤ b := by
  unfold meet
  split_ifs with h1 h2 h3
  · exact Or.inr ⟨h1, inf_le_right⟩
  · exact Or.inl h2
  · exact le_rfl
  · refine Or.inl (lt_of_le_of_ne inf_le_right ?_)
    intro h
    exact h3 (lt_of_le_of_ne (inf_eq_right.1 h) (Ne.symm h1))

theorem le_meet (a b c : LexT T1 T2) (h1 : c ≤ a) (h2 : c ≤ b) : c ≤ meet a b := by
  unfold meet
  split_ifs with e1 e2 e3
  · rcases h1 with h1 | ⟨h1, h1'⟩ <;> rcases h2 with h2 | ⟨h2, h2'⟩
    · exact Or.inl h1
    · exact Or.inl h1
    · exact absurd (e1 ▸ h1 ▸ h2) (lt_irrefl _)
    · exact Or.inr ⟨h1, le_inf h1' h2'⟩
  · exact h1
  · exact h2
  · have ha : c.fst ≤ a.fst := by rcases h1 with h1 | h1; exacts [h1.le, h1.1.le]
    have hb : c.fst ≤ b.fst := by rcases h2 with h2 | h2; exacts [h2.le, h2.1.le]
    rcases eq_or_lt_of_le (le_inf ha hb) with h | h
    · exact Or.inr ⟨h, le_top⟩
    · exact Or.inl h

instance : Lattice (LexT T1 T2) where
  sup := join
  inf := meet
  le_sup_left := le_join_left
  le_sup_right := le_join_right
  sup_le := join_le
  inf_le_left := meet_le_left
  inf_le_right := meet_le_right
  le_inf a b c h1 h2 := le_meet b c a h1 h2

end LexT

namespace AltNeu
variable {T : Type*}

instance [PartialOrder T] : PartialOrder (AltNeu T) where
  le := less_equal
  le_refl a := Or.inl ⟨rfl, le_rfl⟩
  le_trans a b c h1 h2 := by
    rcases h1 with ⟨h1, h1'⟩ | ⟨h1, h1'⟩ <;> rcases h2 with ⟨h2, h2'⟩ | ⟨h2, h2'⟩
    · exact Or.inl ⟨h1.trans h2, h1'.trans h2'⟩
    · exact Or.inr ⟨h1 ▸ h2, h1 ▸ h2'⟩
    · exact Or.inr ⟨h2 ▸ h1, h2 ▸ h1'⟩
    · refine Or.inr ⟨fun h => h1 (le_antisymm h1' (h ▸ h2')), h1'.trans h2'⟩
  le_antisymm a b h1 h2 := by
    rcases h1 with ⟨h1, h1'⟩ | ⟨h1, h1'⟩ <;> rcases h2 with ⟨h2, h2'⟩ | ⟨h2, h2'⟩
    · exact AltNeu.ext h1 (le_antisymm h1' h2')
    · exact absurd h1.symm h2
    · exact absurd h2.symm h1
    · exact absurd (le_antisymm h1' h2') h1

theorem le_def [PartialOrder T] (a b : AltNeu T) :
    a ≤ b ↔ (a.time = b.time ∧ a.neu ≤ b.neu) ∨ (a.time ≠ b.time ∧ a.time ≤ b.time) := Iff.rfl

theorem le_iff_lt [PartialOrder T] (a b : AltNeu T) :
    a ≤ b ↔ a.time < b.time ∨ (a.time = b.time ∧ a.neu ≤ b.neu) := by
  rw [le_def, lt_iff_le_and_ne]; tauto

instance [PartialOrder T] [DecidableEq T] [DecidableLE T] : DecidableLE (AltNeu T) :=
  fun a b => inferInstanceAs (Decidable ((a.time = b.time ∧ a.neu ≤ b.neu) ∨ (a.time ≠ b.time ∧ a.time ≤ b.time)))

variable [Lattice T] [DecidableEq T]

instance : Lattice (AltNeu T) where
  sup := join
  inf := meet
  le_sup_left a b := by
    rw [le_iff_lt]; simp only [join]
    by_cases h : a.time ⊔ b.time = a.time
    · right; refine ⟨h.symm, ?_⟩
      simp only [h, if_true]; split_ifs <;> cases a.neu <;> cases b.neu <;> decide
    · left; exact lt_of_le_of_ne le_sup_left (Ne.symm h)
  le_sup_right a b := by
    rw [le_iff_lt]; simp only [join]
    by_cases h : a.time ⊔ b.time = b.time
    · right; refine ⟨h.symm, ?_⟩
      simp only [h, if_true]; split_ifs <;> cases a.neu <;> cases b.neu <;> decide
    · left; exact lt_of_le_of_ne le_sup_right (Ne.symm h)
  sup_le a b c h1 h2 := by
    rw [le_iff_lt] at *; simp only [join]
    have ha : a.time ≤ c.time := by rcases h1 with h1 | h1; exacts [h1.le, h1.1.le]
    have hb : b.time ≤ c.time := by rcases h2 with h2 | h2; exacts [h2.le, h2.1.le]
    rcases eq_or_lt_of_le (sup_le ha hb) with h | h
    · right; refine ⟨h, ?_⟩
      rw [h]
      by_cases e1 : c.time = a.time <;> by_cases e2 : c.time = b.time <;> simp only [e1, e2, if_true, if_false]
      all_goals grind [Bool.le_iff_imp]
    · exact Or.inl h
  inf_le_left a b := by
    rw [le_iff_lt]; simp only [meet]
    by_cases h : a.time ⊓ b.time = a.time
    · right; refine ⟨h, ?_⟩
      simp only [h, if_true]; split_ifs <;> cases a.neu <;> cases b.neu <;> decide
    · left; exact lt_of_le_of_ne inf_le_left h
  inf_le_right a b := by
    rw [le_iff_lt]; simp only [meet]
    by_cases h : a.time ⊓ b.time = b.time
    · right; refine ⟨h, ?_⟩
      simp only [h, if_true]; split_ifs <;> cases a.neu <;> cases b.neu <;> decide
    · left; exact lt_of_le_of_ne inf_le_right h
  le_inf c a b h1 h2 := by
    rw [le_iff_lt] at *; simp only [meet]
    have ha : c.time ≤ a.time := by rcases h1 with h1 | h1; exacts [h1.le, h1.1.le]
    have hb : c.time ≤ b.time := by rcases h2 with h2 | h2; exacts [h2.le, h2.1.le]
    rcases eq_or_lt_of_le (le_inf ha hb) with h | h
    · right; refine ⟨h, ?_⟩
      rw [← h]
      by_cases e1 : c.time = a.time <;> by_cases e2 : c.time = b.time <;> simp only [e1, e2, if_true, if_false]
      all_goals grind [Bool.le_iff_imp]
    · exact Or.inl h

end AltNeu

end DD
