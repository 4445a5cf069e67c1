import Verif.Proofs.Bfs
import Mathlib.Data.Set.Finite.Lemmas

/-!
# Trimming edges between components
-/

namespace DD
variable {N : Type*} [LinearOrder N]

section walks
variable {E E' : N → N → Prop}

omit [LinearOrder N] in
theorem Reaches.refl (a : N) : Reaches E a a := ⟨0, .nil⟩

omit [LinearOrder N] in
theorem Reaches.snoc {a b c : N} (h : Reaches E a b) (he : E b c) : Reaches E a c := h.elim fun l h => ⟨l + 1, h.snoc he⟩

omit [LinearOrder N] in
theorem Reaches.trans {a b c : N} (h : Reaches E a b) (h' : Reaches E b c) : Reaches E a c := by
  obtain ⟨l, h'⟩ := h'
  induction h' with
  | nil => exact h
  | snoc _ he ih => exact ih.snoc he

omit [LinearOrder N] in
theorem Reaches.cons {a b c : N} (he : E a b) (h : Reaches E b c) : Reaches E a c := ((Reaches.refl a).snoc he).trans h

omit [LinearOrder N] in
theorem Reaches.mono {a b : N} (h : Reaches E a b) (hE : ∀ a b, E a b → E' a b) : Reaches E' a b := by
  obtain ⟨l, h⟩ := h
  induction h with
  | nil => exact .refl _
  | snoc _ he ih => exact ih.snoc (hE _ _ he)

omit [LinearOrder N] in
theorem Reaches.flip {a b : N} (h : Reaches E a b) : Reaches (fun a b => E b a) b a := by
  obtain ⟨l, h⟩ := h
  induction h with
  | nil => exact .refl _
  | snoc _ he ih => exact .cons he ih

omit [LinearOrder N] in
/-- A walk is empty or has a last edge. -/
theorem Reaches.last {a b : N} (h : Reaches E a b) : a = b ∨ ∃ c, E c b := by
  obtain ⟨l, h⟩ := h
  cases h with
  | nil => exact .inl rfl
  | snoc _ he => exact .inr ⟨_, he⟩

end walks

/-- The least target that reaches the node. -/
def TargetLabel (E X : N → N → Prop) (x l : N) : Prop := IsLeastLabel X (fun m l => m = l ∧ ∃ a, E a m) x l

/-- The edges of `E` of which both ends have the same label, reversed. -/
def KeptBy (E X : N → N → Prop) (y x : N) : Prop := E x y ∧ ∃ l, TargetLabel E X x l ∧ TargetLabel E X y l

/-- The edges point to finitely many nodes. -/
def FiniteTargets (E : N → N → Prop) : Prop := {m | ∃ a, E a m}.Finite

section keep
variable {E X : N → N → Prop}

theorem TargetLabel.unique {x l l' : N} (h : TargetLabel E X x l) (h' : TargetLabel E X x l') : l = l' := by
  obtain ⟨⟨m, h1, h2⟩, h3⟩ := h
  obtain ⟨⟨m', h1', h2'⟩, h3'⟩ := h'
  exact le_antisymm (h3 m' l' h1' h2') (h3' m l h1 h2)

theorem TargetLabel.exists (hf : FiniteTargets E) {a x : N} (h : E a x) : ∃ l, TargetLabel E X x l := by
  obtain ⟨m, ⟨hm1, hm2⟩, hm3⟩ := Set.exists_min_image {m | (∃ a, E a m) ∧ Reaches X m x} (fun m => m) (hf.subset fun m hm => hm.1) ⟨x, ⟨a, h⟩, .refl x⟩
  exact ⟨m, ⟨m, ⟨rfl, hm1⟩, hm2⟩, fun m' l' ⟨e, h1⟩ h2 => by rw [← e]; exact hm3 m' ⟨h1, h2⟩⟩

theorem TargetLabel.reaches {x l : N} (h : TargetLabel E X x l) : Reaches X l x ∧ ∃ a, E a l := by
  obtain ⟨⟨m, ⟨rfl, h1⟩, h2⟩, -⟩ := h
  exact ⟨h2, h1⟩

theorem TargetLabel.le {x l m : N} (h : TargetLabel E X x l) (hm : ∃ a, E a m) (hr : Reaches X m x) : l ≤ m := h.2 m m ⟨rfl, hm⟩ hr

theorem TargetLabel.of_mutual {x y l : N} (h : TargetLabel E X x l) (h1 : Reaches X x y) (h2 : Reaches X y x) : TargetLabel E X y l := by
  obtain ⟨⟨m, h3, h4⟩, h5⟩ := h
  exact ⟨⟨m, h3, h4.trans h1⟩, fun m' l' h6 h7 => h5 m' l' h6 (h7.trans h2)⟩

/-- Labels do not change along what is kept. -/
theorem kept_label {a b : N} (h : Reaches (KeptBy E X) a b) (l : N) : TargetLabel E X a l ↔ TargetLabel E X b l := by
  obtain ⟨n, h⟩ := h
  induction h with
  | nil => exact Iff.rfl
  | snoc _ he ih =>
    rw [ih]
    obtain ⟨-, l', h1, h2⟩ := he
    constructor
    · intro h
      rw [h.unique h2]
      exact h1
    · intro h
      rw [h.unique h1]
      exact h2

/-- What is kept is less and less. -/
theorem kept_decreases (hf : FiniteTargets E) {a b : N} (h : KeptBy (fun a b => E b a) (KeptBy E X) a b) : KeptBy E X b a := by
  obtain ⟨he, l, h1, h2⟩ := h
  obtain ⟨m, hm⟩ := TargetLabel.exists (X := X) hf he
  exact ⟨he, m, (kept_label h2.reaches.1 m).1 ((kept_label h1.reaches.1 m).2 hm), hm⟩

/-- Edges within components are kept. -/
theorem kept_component (hf : FiniteTargets E) (hX : ∀ a b, E a b → Reaches E b a → X a b) {a b : N} (he : E a b) (hr : Reaches E b a) : KeptBy E X b a := by
  obtain ⟨m, hm⟩ := TargetLabel.exists (X := X) hf he
  have hback : ∀ c, Reaches E b c → Reaches E c a → Reaches X b c := by
    rintro c ⟨n, h⟩
    induction h with
    | nil => exact fun _ => .refl _
    | snoc hw he' ih => exact fun hc => (ih (.cons he' hc)).snoc (hX _ _ he' ((hc.snoc he).trans ⟨_, hw⟩))
  exact ⟨he, m, hm.of_mutual (hback a hr (.refl a)) ((Reaches.refl a).snoc (hX a b he hr)), hm⟩

/-- When no more is removed, only edges within components are left. -/
theorem kept_fixed {Y : N → N → Prop} (hXE : ∀ a b, X a b → E a b) (hY : ∀ a b, Y b a ↔ X a b) (h1 : ∀ a b, Y b a → KeptBy E X b a) (h2 : ∀ a b, X a b → KeptBy (fun a b => E b a) Y a b)
    {a b : N} (h : X a b) : Reaches E b a := by
  obtain ⟨he, m, ma, mb⟩ := h1 a b ((hY a b).2 h)
  obtain ⟨-, r, rb, ra⟩ := h2 a b h
  have flipY : ∀ p q, Reaches Y p q → Reaches X q p := fun p q h => h.flip.mono fun x y hxy => (hY x y).1 hxy
  have flipX : ∀ p q, Reaches X p q → Reaches Y q p := fun p q h => h.flip.mono fun x y hxy => (hY y x).2 hxy
  have hma : Reaches X m a := ma.reaches.1
  have hbr : Reaches X b r := flipY _ _ rb.reaches.1
  have rt : ∃ a, E a r := by
    rcases hbr.last with h | ⟨c, h⟩
    · exact ⟨a, h ▸ he⟩
    · exact ⟨c, hXE _ _ h⟩
  have ms : ∃ a, E m a := by
    rcases (flipX _ _ hma).last with h | ⟨c, h⟩
    · exact ⟨b, h ▸ he⟩
    · exact ⟨c, hXE _ _ ((hY _ _).1 h)⟩
  have mr : TargetLabel E X r m := (kept_label (rb.reaches.1.mono fun p q h => h1 q p h) m).2 mb
  have rm : TargetLabel (fun a b => E b a) Y m r := (kept_label (hma.mono fun p q h => h2 p q h) r).2 ra
  have e : m = r := le_antisymm (mr.le rt (.refl r)) (rm.le ms (.refl m))
  subst e
  exact (hbr.trans hma).mono hXE

end keep

/-- The edges that are left after rounds. -/
def keptRounds (E : N → N → Prop) : Nat → N → N → Prop
  | 0 => E
  | i + 1 => KeptBy (fun a b => E b a) (KeptBy E (keptRounds E i))

section rounds
variable {E : N → N → Prop}

theorem keptRounds_sub (i : Nat) (a b : N) (h : keptRounds E i a b) : E a b := by
  cases i with
  | zero => exact h
  | succ i => exact h.1

theorem keptRounds_mid (hf : FiniteTargets E) (hf' : FiniteTargets fun a b => E b a) (i : Nat) (a b : N) (h : KeptBy E (keptRounds E i) b a) : keptRounds E i a b := by
  cases i with
  | zero => exact h.1
  | succ i => exact kept_decreases (E := fun a b => E b a) hf' h

theorem keptRounds_succ (hf : FiniteTargets E) (hf' : FiniteTargets fun a b => E b a) (i : Nat) (a b : N) (h : keptRounds E (i + 1) a b) : keptRounds E i a b :=
  keptRounds_mid hf hf' i a b (kept_decreases hf h)

theorem keptRounds_component (hf : FiniteTargets E) (hf' : FiniteTargets fun a b => E b a) (i : Nat) : ∀ a b, E a b → Reaches E b a → keptRounds E i a b := by
  induction i with
  | zero => exact fun _ _ h _ => h
  | succ i ih => exact fun a b he hr => kept_component (E := fun a b => E b a) hf' (fun b a he' hr' => kept_component hf ih he' hr'.flip) he hr.flip

open Classical in
theorem keptRounds_stable (S : Finset (N × N)) (hS : ∀ a b, E a b → (a, b) ∈ S) (i : Nat) (hi : S.card < i) (hf : FiniteTargets E) (hf' : FiniteTargets fun a b => E b a) :
    keptRounds E (i + 1) = keptRounds E i := by
  let A : Nat → Finset (N × N) := fun i => S.filter fun x => keptRounds E i x.1 x.2
  have hA : ∀ i, A (i + 1) ⊆ A i := fun i x hx => by
    rw [Finset.mem_filter] at hx ⊢
    exact ⟨hx.1, keptRounds_succ hf hf' i _ _ hx.2⟩
  have key : ∀ i, (∃ j < i, keptRounds E (j + 1) = keptRounds E j) ∨ (A i).card + i ≤ S.card := by
    intro i
    induction i with
    | zero => exact .inr (Finset.card_filter_le _ _)
    | succ i ih =>
      rcases ih with ⟨j, h1, h2⟩ | ih
      · exact .inl ⟨j, by omega, h2⟩
      · by_cases e : A (i + 1) = A i
        · refine .inl ⟨i, by omega, ?_⟩
          funext a b
          refine propext ⟨keptRounds_succ hf hf' i a b, fun h => ?_⟩
          have : (a, b) ∈ A i := Finset.mem_filter.2 ⟨hS _ _ (keptRounds_sub i _ _ h), h⟩
          rw [← e] at this
          exact (Finset.mem_filter.1 this).2
        · have := Finset.card_lt_card (lt_of_le_of_ne (hA i) e)
          exact .inr (by omega)
  rcases key i with ⟨j, h1, h2⟩ | h
  · have : ∀ k, j ≤ k → keptRounds E (k + 1) = keptRounds E k := by
      intro k hk
      induction k, hk using Nat.le_induction with
      | base => exact h2
      | succ k _ ih =>
        show KeptBy _ (KeptBy E (keptRounds E (k + 1))) = keptRounds E (k + 1)
        rw [ih]
        exact ih
    exact this i h1.le
  · omega

/-- After as many rounds as there are edges, the edges within components are left. -/
theorem keptRounds_final (S : Finset (N × N)) (hS : ∀ a b, E a b → (a, b) ∈ S) {i : Nat} (hi : S.card < i) (a b : N) : keptRounds E i a b ↔ E a b ∧ SameComponent E a b := by
  have hf : FiniteTargets E := (S.image Prod.snd).finite_toSet.subset fun m ⟨a, h⟩ => by
    rw [Finset.mem_coe, Finset.mem_image]
    exact ⟨_, hS _ _ h, rfl⟩
  have hf' : FiniteTargets fun a b => E b a := (S.image Prod.fst).finite_toSet.subset fun m ⟨a, h⟩ => by
    rw [Finset.mem_coe, Finset.mem_image]
    exact ⟨_, hS _ _ h, rfl⟩
  have hst := keptRounds_stable S hS i hi hf hf'
  have hmid : ∀ a b, KeptBy E (keptRounds E i) b a ↔ keptRounds E i a b := fun a b => ⟨keptRounds_mid hf hf' i a b, fun h => kept_decreases hf (by
    have : keptRounds E (i + 1) a b := by rw [hst]; exact h
    exact this)⟩
  constructor
  · intro h
    have he := keptRounds_sub i a b h
    refine ⟨he, (Reaches.refl a).snoc he, kept_fixed (X := keptRounds E i) (Y := KeptBy E (keptRounds E i)) (keptRounds_sub i) hmid (fun _ _ h => h) (fun a b h => ?_) h⟩
    have : keptRounds E (i + 1) a b := by rw [hst]; exact h
    exact this
  · rintro ⟨h1, -, h2⟩
    exact keptRounds_component hf hf' i a b h1 h2

end rounds
end DD
