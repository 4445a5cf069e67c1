import Verif.Model.Bijkstra
import Verif.Proofs.Bfs

/-!
# Bidirectional search computes distances
-/

namespace DD
variable {N T : Type*}

section walks
variable {E : N → N → Prop}

theorem Walk.split {a b : N} : ∀ {p q : Nat}, Walk E a (p + q) b → ∃ m, Walk E a p m ∧ Walk E m q b := by
  intro p q
  induction q generalizing b with
  | zero => exact fun h => ⟨b, h, .nil⟩
  | succ q ih =>
    intro h
    cases h with
    | snoc hw he =>
      obtain ⟨m, h1, h2⟩ := ih hw
      exact ⟨m, h1, h2.snoc he⟩

theorem Walk.append {a b c : N} {p q : Nat} (h : Walk E a p b) (h' : Walk E b q c) : Walk E a (p + q) c := by
  induction h' with
  | nil => exact h
  | snoc _ he ih => exact ih.snoc he

theorem Walk.reverse {a b : N} {p : Nat} (h : Walk E a p b) : Walk (fun a b => E b a) b p a := by
  induction h with
  | nil => exact .nil
  | @snoc l b c _ he ih =>
    have := (Walk.nil.snoc (E := fun a b => E b a) he).append ih
    rwa [show 0 + 1 + l = l + 1 by omega] at this

/-- The distance from one node to another. -/
theorem isDistance_one {s x : N} {d : Nat} : IsDistance E (fun r => r = s) x d ↔ Walk E s d x ∧ ∀ d', Walk E s d' x → d ≤ d' := by
  constructor
  · rintro ⟨⟨r, rfl, h1⟩, h2⟩
    exact ⟨h1, fun d' h => h2 r d' rfl h⟩
  · rintro ⟨h1, h2⟩
    exact ⟨⟨s, rfl, h1⟩, fun r d' hr h => h2 d' (hr ▸ h)⟩

theorem isDistance_reverse {s x : N} {d : Nat} : IsDistance (fun a b => E b a) (fun r => r = s) x d ↔ Walk E x d s ∧ ∀ d', Walk E x d' s → d ≤ d' := by
  rw [isDistance_one]
  exact ⟨fun ⟨h1, h2⟩ => ⟨h1.reverse, fun d' h => h2 d' h.reverse⟩, fun ⟨h1, h2⟩ => ⟨h1.reverse, fun d' h => h2 d' h.reverse⟩⟩

/-- A distance is the sum of distances to and from some node between, and there is one at each distance. -/
theorem distance_split {s t : N} {p q : Nat} (h : IsDistance E (fun r => r = s) t (p + q)) :
    ∃ m, IsDistance E (fun r => r = s) m p ∧ IsDistance (fun a b => E b a) (fun r => r = t) m q := by
  rw [isDistance_one] at h
  obtain ⟨m, h1, h2⟩ := h.1.split
  refine ⟨m, isDistance_one.2 ⟨h1, fun d' h' => ?_⟩, isDistance_reverse.2 ⟨h2, fun d' h' => ?_⟩⟩
  · have := h.2 _ (h'.append h2)
    omega
  · have := h.2 _ (h1.append h')
    omega

end walks

section rounds
variable [LinearOrder N]

/-- The collection of the nodes within a radius of each root. -/
def Balls (E : N → N → Prop) (root : N → Prop) (rad : N → Nat) (c : Coll (N × N × Nat)) : Prop :=
  c.Nonneg ∧ ∀ m s d, 0 < weight c (m, (s, d)) ↔ root s ∧ IsDistance E (fun r => r = s) m d ∧ d ≤ rad s

theorem balls_start {E : N → N → Prop} {G : Coll (N × N)} (hG : G.Nonneg) {f : N × N → N} {root : N → Prop} (hr : ∀ s, root s ↔ ∃ g, 0 < weight G g ∧ f g = s) :
    Balls E root (fun _ => 0) (G.map fun x => (f x, (f x, 0))) := by
  refine ⟨hG.map _, fun m s d => ?_⟩
  rw [hG.map_pos]
  constructor
  · rintro ⟨g, h1, h2⟩
    simp only [Prod.mk.injEq] at h2
    obtain ⟨rfl, h3, rfl⟩ := h2
    exact ⟨(hr s).2 ⟨g, h1, h3⟩, isDistance_one.2 ⟨h3 ▸ .nil, fun _ _ => Nat.zero_le _⟩, le_rfl⟩
  · rintro ⟨h1, h2, h3⟩
    obtain rfl : d = 0 := Nat.le_zero.1 h3
    obtain ⟨g, h4, rfl⟩ := (hr s).1 h1
    have := (isDistance_one.1 h2).1
    cases this
    exact ⟨g, h4, rfl⟩

theorem weight_regroup (c : Coll (N × N × Nat)) (x s : N) (d : Nat) : weight (c.map fun x => ((x.1, x.2.1), x.2.2)) ((x, s), d) = weight c (x, (s, d)) :=
  Coll.weight_map_inj (f := fun x : N × N × Nat => ((x.1, x.2.1), x.2.2)) (fun _ _ h => by simp only [Prod.mk.injEq] at h; exact Prod.ext h.1.1 (Prod.ext h.1.2 h.2)) c (x, (s, d))

theorem weight_bidiSelect (c : Coll (N × N × Nat)) (A : Coll N) (m s : N) (d : Nat) : weight (bidiSelect c A) (m, (s, d)) = weight c (m, (s, d)) * weight A s := by
  have hinj : ∀ a b : N × N × Nat, (a.2.1, (a.1, a.2.2)) = (b.2.1, (b.1, b.2.2)) → a = b := by
    intro a b h
    simp only [Prod.mk.injEq] at h
    exact Prod.ext h.2.1 (Prod.ext h.1 h.2.2)
  unfold bidiSelect
  rw [Coll.weight_map_inj (f := fun x : N × N × Nat => (x.2.1, (x.1, x.2.2))) hinj _ (s, (m, d)), Coll.weight_semijoin,
    Coll.weight_map_inj (f := fun x : N × N × Nat => (x.2.1, (x.1, x.2.2))) hinj c (m, (s, d))]

open Classical in
/-- Extending the balls around active roots. -/
theorem balls_step {E : Coll (N × N)} (hE : E.Nonneg) (hm : E.length + 1 < 2 ^ 32) {root : N → Prop} {rad : N → Nat} {c : Coll (N × N × Nat)} (hc : Balls (edgesOf E) root rad c) {A : Coll N}
    (hA : A.Nonneg) (x s : N) (d : Nat) : weight (bidiKeep (bidiExtend (bidiSelect c A) E) c) (x, (s, d)) =
      if root s ∧ IsDistance (edgesOf E) (fun r => r = s) x d ∧ d ≤ (if 0 < weight A s then rad s + 1 else rad s) then 1 else 0 := by
  obtain ⟨hnn, hc⟩ := hc
  have hsel : (bidiSelect c A).Nonneg := fun ⟨m, s, d⟩ => by
    rw [weight_bidiSelect]
    exact mul_nonneg (hnn _) (hA _)
  have hselpos : ∀ m s d, 0 < weight (bidiSelect c A) (m, (s, d)) ↔ (root s ∧ IsDistance (edgesOf E) (fun r => r = s) m d ∧ d ≤ rad s) ∧ 0 < weight A s := by
    intro m s d
    rw [weight_bidiSelect, ← hc]
    constructor
    · intro h
      have h1 : weight c (m, (s, d)) ≠ 0 := fun e => by rw [e, zero_mul] at h; exact lt_irrefl _ h
      have h2 : weight A s ≠ 0 := fun e => by rw [e, mul_zero] at h; exact lt_irrefl _ h
      exact ⟨lt_of_le_of_ne (hnn _) h1.symm, lt_of_le_of_ne (hA _) h2.symm⟩
    · exact fun h => mul_pos h.1 h.2
  have hext : (bidiExtend (bidiSelect c A) E).Nonneg := hsel.join_core hE _
  have hcat := hext.concat hnn
  -- the candidates
  have hcand : ∀ x s v, 0 < weight ((bidiExtend (bidiSelect c A) E).concat c) (x, (s, v)) ↔
      (∃ m d, root s ∧ IsDistance (edgesOf E) (fun r => r = s) m d ∧ d ≤ rad s ∧ 0 < weight A s ∧ edgesOf E m x ∧ v = d + 1) ∨
        root s ∧ IsDistance (edgesOf E) (fun r => r = s) x v ∧ v ≤ rad s := by
    intro x s v
    rw [hext.concat_pos hnn, hc]
    refine or_congr_left ?_
    unfold bidiExtend
    rw [hsel.join_core_pos hE]
    constructor
    · rintro ⟨m, ⟨s', d⟩, w, h1, h2, h3⟩
      simp only [List.mem_singleton, Prod.mk.injEq] at h3
      obtain ⟨rfl, rfl, rfl⟩ := h3
      obtain ⟨⟨h4, h5, h6⟩, h7⟩ := (hselpos _ _ _).1 h1
      refine ⟨m, d, h4, h5, h6, h7, h2, ?_⟩
      have := edgesOf_le_card h5
      unfold addU32
      exact Nat.mod_eq_of_lt (by omega)
    · rintro ⟨m, d, h4, h5, h6, h7, h2, rfl⟩
      refine ⟨m, (s, d), x, (hselpos _ _ _).2 ⟨⟨h4, h5, h6⟩, h7⟩, h2, ?_⟩
      have := edgesOf_le_card h5
      unfold addU32
      rw [Nat.mod_eq_of_lt (by omega)]
      exact List.mem_singleton.2 rfl
  have hwalk : ∀ x s v, 0 < weight ((bidiExtend (bidiSelect c A) E).concat c) (x, (s, v)) →
      root s ∧ Walk (edgesOf E) s v x ∧ v ≤ if 0 < weight A s then rad s + 1 else rad s := by
    intro x s v hv
    rcases (hcand x s v).1 hv with ⟨m, d, h1, h2, h3, h4, h5, rfl⟩ | ⟨h1, h2, h3⟩
    · refine ⟨h1, (isDistance_one.1 h2).1.snoc h5, ?_⟩
      rw [if_pos h4]
      omega
    · refine ⟨h1, (isDistance_one.1 h2).1, ?_⟩
      split_ifs <;> omega
  have hdist : ∀ x s d, root s → IsDistance (edgesOf E) (fun r => r = s) x d → (d ≤ if 0 < weight A s then rad s + 1 else rad s) →
      0 < weight ((bidiExtend (bidiSelect c A) E).concat c) (x, (s, d)) := by
    intro x s d h1 h2 h3
    rw [hcand]
    by_cases hd : d ≤ rad s
    · exact .inr ⟨h1, h2, hd⟩
    · by_cases hs : 0 < weight A s
      · rw [if_pos hs] at h3
        obtain ⟨d', rfl⟩ : ∃ d', d = d' + 1 := ⟨d - 1, by omega⟩
        obtain ⟨k, hk, hkx⟩ := h2.pred
        exact .inl ⟨k, d', h1, hk, by omega, hs, hkx, rfl⟩
      · rw [if_neg hs] at h3
        omega
  have hpos : ∀ y, weight ((bidiExtend (bidiSelect c A) E).concat c) y ≠ 0 ↔ 0 < weight ((bidiExtend (bidiSelect c A) E).concat c) y :=
    fun y => ⟨fun h => lt_of_le_of_ne (hcat _) (Ne.symm h), fun h => ne_of_gt h⟩
  unfold bidiKeep
  have e := Coll.weight_map_inj (f := fun x : (N × N) × Nat => (x.1.1, (x.1.2, x.2))) (fun a b h => by
    simp only [Prod.mk.injEq] at h
    exact Prod.ext (Prod.ext h.1 h.2.1) h.2.2)
    (Coll.reduce keepLeast (((bidiExtend (bidiSelect c A) E).concat c).map fun x => ((x.1, x.2.1), x.2.2))) ((x, s), d)
  rw [e, weight_keepLeast]
  simp only [weight_regroup, hpos]
  refine if_congr ⟨fun ⟨h1, h2⟩ => ?_, fun ⟨h1, h2, h3⟩ => ⟨hdist x s d h1 h2 h3, fun v hv => (isDistance_one.1 h2).2 v (hwalk x s v hv).2.1⟩⟩ rfl rfl
  obtain ⟨hr, hw, hle⟩ := hwalk x s d h1
  obtain ⟨d', hd', hle'⟩ := exists_distance (root := fun r => r = s) rfl hw
  have := h2 d' (hdist x s d' hr hd' (hle'.trans hle))
  obtain rfl : d = d' := by omega
  exact ⟨hr, hd', hle⟩

open Classical in
/-- What the balls have in common. -/
theorem weight_bidiMeet {E : Coll (N × N)} {R : Coll (N × N)} (hR : edgesOf R = fun a b => edgesOf E b a) (hm : 2 * E.length < 2 ^ 32) {rootF rootR : N → Prop} {rf rr : N → Nat}
    {f r : Coll (N × N × Nat)} (hf : Balls (edgesOf E) rootF rf f) (hr : Balls (edgesOf R) rootR rr r) (s t : N) (d : Nat) :
    weight (bidiMeet f r) ((s, t), d) = if rootF s ∧ rootR t ∧ IsDistance (edgesOf E) (fun r => r = s) t d ∧ d ≤ rf s + rr t then 1 else 0 := by
  have hj : (Coll.join_map (fun _ (x y : N × Nat) => ((x.1, y.1), addU32 x.2 y.2)) f r).Nonneg := hf.1.join_core hr.1 _
  have hcand : ∀ s t v, 0 < weight (Coll.join_map (fun _ (x y : N × Nat) => ((x.1, y.1), addU32 x.2 y.2)) f r) ((s, t), v) ↔ ∃ m d1 d2, rootF s ∧ rootR t ∧
      IsDistance (edgesOf E) (fun r => r = s) m d1 ∧ d1 ≤ rf s ∧ IsDistance (fun a b => edgesOf E b a) (fun r => r = t) m d2 ∧ d2 ≤ rr t ∧ v = d1 + d2 := by
    intro s t v
    unfold Coll.join_map
    rw [hf.1.join_core_pos hr.1]
    have hadd : ∀ m d1 d2, IsDistance (edgesOf E) (fun r => r = s) m d1 → IsDistance (fun a b => edgesOf E b a) (fun r => r = t) m d2 → addU32 d1 d2 = d1 + d2 := by
      intro m d1 d2 h1 h2
      have a1 := edgesOf_le_card h1
      have a2 : d2 ≤ E.length := by
        have h3 : IsDistance (edgesOf E) (fun r => r = m) t d2 := isDistance_one.2 (isDistance_reverse.1 h2)
        exact edgesOf_le_card h3
      unfold addU32
      exact Nat.mod_eq_of_lt (by omega)
    constructor
    · rintro ⟨m, ⟨s', d1⟩, ⟨t', d2⟩, h1, h2, h3⟩
      simp only [List.mem_singleton, Prod.mk.injEq] at h3
      obtain ⟨⟨rfl, rfl⟩, rfl⟩ := h3
      rw [hf.2] at h1
      rw [hr.2, hR] at h2
      exact ⟨m, d1, d2, h1.1, h2.1, h1.2.1, h1.2.2, h2.2.1, h2.2.2, hadd m d1 d2 h1.2.1 h2.2.1⟩
    · rintro ⟨m, d1, d2, h1, h2, h3, h4, h5, h6, rfl⟩
      refine ⟨m, (s, d1), (t, d2), (hf.2 _ _ _).2 ⟨h1, h3, h4⟩, (hr.2 _ _ _).2 ⟨h2, by rw [hR]; exact h5, h6⟩, ?_⟩
      rw [List.mem_singleton, ← hadd m d1 d2 h3 h5]
  have hpos : ∀ y, weight (Coll.join_map (fun _ (x y : N × Nat) => ((x.1, y.1), addU32 x.2 y.2)) f r) y ≠ 0 ↔
      0 < weight (Coll.join_map (fun _ (x y : N × Nat) => ((x.1, y.1), addU32 x.2 y.2)) f r) y := fun y => ⟨fun h => lt_of_le_of_ne (hj _) (Ne.symm h), fun h => ne_of_gt h⟩
  have hwalk : ∀ v, 0 < weight (Coll.join_map (fun _ (x y : N × Nat) => ((x.1, y.1), addU32 x.2 y.2)) f r) ((s, t), v) → rootF s ∧ rootR t ∧ Walk (edgesOf E) s v t ∧ v ≤ rf s + rr t := by
    intro v hv
    obtain ⟨m, d1, d2, h1, h2, h3, h4, h5, h6, rfl⟩ := (hcand s t v).1 hv
    exact ⟨h1, h2, (isDistance_one.1 h3).1.append (isDistance_reverse.1 h5).1, by omega⟩
  have hdist : ∀ D, rootF s → rootR t → IsDistance (edgesOf E) (fun r => r = s) t D → D ≤ rf s + rr t →
      0 < weight (Coll.join_map (fun _ (x y : N × Nat) => ((x.1, y.1), addU32 x.2 y.2)) f r) ((s, t), D) := by
    intro D h1 h2 h3 h4
    rw [hcand]
    obtain ⟨m, h5, h6⟩ := distance_split (p := min D (rf s)) (q := D - min D (rf s)) (by rw [Nat.add_sub_cancel' (Nat.min_le_left _ _)]; exact h3)
    exact ⟨m, _, _, h1, h2, h5, Nat.min_le_right _ _, h6, by omega, by omega⟩
  unfold bidiMeet
  rw [weight_keepLeast]
  simp only [hpos]
  refine if_congr ⟨fun ⟨h1, h2⟩ => ?_, fun ⟨h1, h2, h3, h4⟩ => ⟨hdist d h1 h2 h3 h4, fun v hv => (isDistance_one.1 h3).2 v (hwalk v hv).2.2.1⟩⟩ rfl rfl
  obtain ⟨a1, a2, a3, a4⟩ := hwalk d h1
  obtain ⟨D, hD, hle⟩ := exists_distance (root := fun r => r = s) rfl a3
  have := h2 D (hdist D a1 a2 hD (hle.trans a4))
  obtain rfl : d = D := by omega
  exact ⟨a1, a2, hD, a4⟩

/-! ### Radii -/

/-- The search from `s` to `t` is not over. -/
def Searching (E goal : N → N → Prop) (rad : (N → Nat) × (N → Nat)) (s t : N) : Prop := goal s t ∧ ∀ D, IsDistance E (fun r => r = s) t D → rad.1 s + rad.2 t < D

open Classical in
/-- How far the searches from the sources and from the targets have come. -/
noncomputable def radii (E goal : N → N → Prop) : Nat → (N → Nat) × (N → Nat)
  | 0 => (fun _ => 0, fun _ => 0)
  | i + 1 => (fun s => if ∃ t, Searching E goal (radii E goal i) s t then (radii E goal i).1 s + 1 else (radii E goal i).1 s,
      fun t => if ∃ s, Searching E goal (radii E goal i) s t then (radii E goal i).2 t + 1 else (radii E goal i).2 t)

section radii
variable {E goal : N → N → Prop}

omit [LinearOrder N] in
open Classical in
theorem radii_succ (i : Nat) : radii E goal (i + 1) = (fun s => if ∃ t, Searching E goal (radii E goal i) s t then (radii E goal i).1 s + 1 else (radii E goal i).1 s,
    fun t => if ∃ s, Searching E goal (radii E goal i) s t then (radii E goal i).2 t + 1 else (radii E goal i).2 t) := rfl

omit [LinearOrder N] in
theorem radii_mono (i : Nat) (x : N) : (radii E goal i).1 x ≤ (radii E goal (i + 1)).1 x ∧ (radii E goal i).2 x ≤ (radii E goal (i + 1)).2 x := by
  classical
  rw [radii_succ]
  constructor
  · dsimp only
    split_ifs <;> omega
  · dsimp only
    split_ifs <;> omega

omit [LinearOrder N] in
theorem searching_before {i : Nat} {s t : N} (h : Searching E goal (radii E goal (i + 1)) s t) : Searching E goal (radii E goal i) s t :=
  ⟨h.1, fun D hD => by have := h.2 D hD; have := (radii_mono (E := E) (goal := goal) i s).1; have := (radii_mono (E := E) (goal := goal) i t).2; omega⟩

omit [LinearOrder N] in
/-- As long as a search is not over, both of its ends go on. -/
theorem searching_full {i : Nat} {s t : N} (h : Searching E goal (radii E goal i) s t) : (radii E goal i).1 s = i ∧ (radii E goal i).2 t = i := by
  induction i with
  | zero => exact ⟨rfl, rfl⟩
  | succ i ih =>
    have h' := searching_before h
    obtain ⟨h1, h2⟩ := ih h'
    classical
    rw [radii_succ]
    constructor
    · dsimp only
      rw [if_pos ⟨t, h'⟩, h1]
    · dsimp only
      rw [if_pos ⟨s, h'⟩, h2]

omit [LinearOrder N] in
/-- Each search that can succeed has, after as many rounds as half the distance. -/
theorem searches_end {i D : Nat} {s t : N} (hg : goal s t) (hD : IsDistance E (fun r => r = s) t D) (hi : D ≤ i + i) : D ≤ (radii E goal i).1 s + (radii E goal i).2 t := by
  by_contra hn
  have hs : Searching E goal (radii E goal i) s t := ⟨hg, fun D' hD' => by rw [← hD.unique hD']; omega⟩
  obtain ⟨h1, h2⟩ := searching_full hs
  omega

end radii

/-! ### The rounds -/

/-- The goals of a collection. -/
def goalsOf (G : Coll (N × N)) (s t : N) : Prop := 0 < weight G (s, t)

/-- The reversed edges. -/
def reversed (E : Coll (N × N)) : Coll (N × N) := E.map fun x => (x.2, x.1)

theorem edgesOf_reversed (E : Coll (N × N)) : edgesOf (reversed E) = fun a b => edgesOf E b a := by
  funext a b
  show (0 < weight _ _) = _
  have : weight (reversed E) (a, b) = weight E (b, a) :=
    Coll.weight_map_inj (f := fun x : N × N => (x.2, x.1)) (fun _ _ h => Prod.ext (congrArg Prod.snd h) (congrArg Prod.fst h)) E (b, a)
  rw [this]
  rfl

theorem bidiReached_congr {G G' : Coll (N × N)} (hG : Coll.Same G G') {s s' : Coll (N × N × Nat) × Coll (N × N × Nat)} (h1 : Coll.Same s.1 s'.1) (h2 : Coll.Same s.2 s'.2) :
    Coll.Same (bidiReached G s) (bidiReached G' s') := ((h1.join_map h2 _).reduce _).semijoin hG

section iter
variable {E G : Coll (N × N)} (hE : E.Nonneg) (hG : G.Nonneg) (hm : 2 * E.length + 1 < 2 ^ 32)
include hE hG hm

open Classical in
theorem weight_reached {rad : (N → Nat) × (N → Nat)} {st : Coll (N × N × Nat) × Coll (N × N × Nat)} (h1 : Balls (edgesOf E) (fun s => ∃ t, goalsOf G s t) rad.1 st.1)
    (h2 : Balls (edgesOf (reversed E)) (fun t => ∃ s, goalsOf G s t) rad.2 st.2) (s t : N) (d : Nat) :
    weight (bidiReached G st) ((s, t), d) = if IsDistance (edgesOf E) (fun r => r = s) t d ∧ d ≤ rad.1 s + rad.2 t then weight G (s, t) else 0 := by
  unfold bidiReached
  rw [Coll.weight_semijoin, weight_bidiMeet (edgesOf_reversed E) (by omega) h1 h2]
  by_cases hg : goalsOf G s t
  · by_cases h : IsDistance (edgesOf E) (fun r => r = s) t d ∧ d ≤ rad.1 s + rad.2 t
    · rw [if_pos h, if_pos ⟨⟨t, hg⟩, ⟨s, hg⟩, h⟩, one_mul]
    · rw [if_neg h, if_neg fun h' => h h'.2.2, zero_mul]
  · have : weight G (s, t) = 0 := le_antisymm (not_lt.1 hg) (hG _)
    rw [this, mul_zero]
    split_ifs <;> rfl

open Classical in
theorem weight_active {rad : (N → Nat) × (N → Nat)} {st : Coll (N × N × Nat) × Coll (N × N × Nat)} (h1 : Balls (edgesOf E) (fun s => ∃ t, goalsOf G s t) rad.1 st.1)
    (h2 : Balls (edgesOf (reversed E)) (fun t => ∃ s, goalsOf G s t) rad.2 st.2) (s t : N) :
    weight (bidiActive (bidiReached G st) G) (s, t) = if Searching (edgesOf E) (goalsOf G) rad s t then weight G (s, t) else 0 := by
  have hR := weight_reached hE hG hm h1 h2
  have e1 : weight (bidiActive (bidiReached G st) G) (s, t) = weight (((bidiReached G st).negate.map fun x => x.1).concat G) (s, t) := by
    unfold bidiActive
    have h3 := Coll.weight_map_inj (f := (ofLex : N ×ₗ N → N × N)) (fun _ _ h => h) ((((bidiReached G st).negate.map fun x => x.1).concat G).map toLex).consolidate (toLex (s, t))
    have h4 := Coll.weight_map_inj (f := (toLex : N × N → N ×ₗ N)) (fun _ _ h => h) (((bidiReached G st).negate.map fun x => x.1).concat G) (s, t)
    exact h3.trans ((Coll.weight_consolidate _ _).trans h4)
  rw [e1, Coll.weight_concat]
  have e2 : weight ((bidiReached G st).negate.map fun x => x.1) (s, t) = - Coll.lin (fun y => if (s, t) = y.1 then 1 else 0) (bidiReached G st) := by
    rw [Coll.weight_map]
    generalize bidiReached G st = c
    induction c with
    | nil => rfl
    | cons x c ih =>
      have : Coll.negate (x :: c) = (x.1, -x.2) :: Coll.negate c := rfl
      rw [this, Coll.lin_cons, Coll.lin_cons, ih]
      by_cases h : x.1.1 = (s, t)
      · simp [h]; ring
      · rw [if_neg h, if_neg (Ne.symm h)]; ring
  rw [e2]
  -- the number of times the pair is reached
  have e3 : Coll.lin (fun y => if (s, t) = y.1 then (1 : Int) else 0) (bidiReached G st) =
      if ∃ d, IsDistance (edgesOf E) (fun r => r = s) t d ∧ d ≤ rad.1 s + rad.2 t then weight G (s, t) else 0 := by
    have key : ∀ c : Coll ((N × N) × Nat), Coll.lin (fun y => if (s, t) = y.1 then (1 : Int) else 0) c = Coll.lin (fun _ => 1) (c.filter fun y => decide ((s, t) = y.1)) := by
      intro c
      induction c with
      | nil => rfl
      | cons y c ih =>
        have : Coll.filter (fun y : (N × N) × Nat => decide ((s, t) = y.1)) (y :: c) =
            if decide ((s, t) = y.1.1) then y :: Coll.filter (fun y => decide ((s, t) = y.1)) c else Coll.filter (fun y => decide ((s, t) = y.1)) c := by
          unfold Coll.filter
          rw [List.filter_cons]
        rw [this, Coll.lin_cons, ih]
        by_cases h : (s, t) = y.1.1 <;> simp [h]
    rw [key]
    by_cases hd : ∃ d, IsDistance (edgesOf E) (fun r => r = s) t d ∧ d ≤ rad.1 s + rad.2 t
    · rw [if_pos hd]
      obtain ⟨d, hd, hle⟩ := hd
      have : Coll.Same ((bidiReached G st).filter fun y => decide ((s, t) = y.1)) [(((s, t), d), weight G (s, t))] := by
        rintro ⟨⟨s', t'⟩, d'⟩
        rw [Coll.weight_filter, hR, weight_cons, weight_nil]
        by_cases hk : (s, t) = (s', t')
        · obtain ⟨rfl, rfl⟩ := Prod.mk.inj hk
          by_cases h : d = d'
          · subst h
            simp [hd, hle]
          · rw [if_neg (c := _ ∧ _) fun h' => h (hd.unique h'.1)]
            simp [h]
        · have : ¬ ((s, t), d) = ((s', t'), d') := fun h => hk (congrArg Prod.fst h)
          simp only [this, decide_eq_true_eq, hk, if_false, add_zero]
      rw [Coll.lin_congr this]
      simp
    · rw [if_neg hd]
      have : Coll.Same ((bidiReached G st).filter fun y => decide ((s, t) = y.1)) [] := by
        rintro ⟨⟨s', t'⟩, d'⟩
        rw [Coll.weight_filter, hR, weight_nil]
        by_cases hk : (s, t) = (s', t')
        · obtain ⟨rfl, rfl⟩ := Prod.mk.inj hk
          rw [if_neg (c := _ ∧ _) fun h' => hd ⟨d', h'⟩]
          simp
        · simp only [decide_eq_true_eq, hk, if_false]
      rw [Coll.lin_congr this]
      rfl
  rw [e3]
  by_cases hd : ∃ d, IsDistance (edgesOf E) (fun r => r = s) t d ∧ d ≤ rad.1 s + rad.2 t
  · rw [if_pos hd, if_neg]
    · ring
    · rintro ⟨-, h⟩
      obtain ⟨d, hd, hle⟩ := hd
      have := h d hd
      omega
  · rw [if_neg hd]
    by_cases hg : goalsOf G s t
    · rw [if_pos ⟨hg, fun D hD => by by_contra hn; exact hd ⟨D, hD, by omega⟩⟩]
      ring
    · have : weight G (s, t) = 0 := le_antisymm (not_lt.1 hg) (hG _)
      rw [this]
      split_ifs <;> rfl

open Classical in
theorem bidi_step {rad : (N → Nat) × (N → Nat)} {st : Coll (N × N × Nat) × Coll (N × N × Nat)} (h1 : Balls (edgesOf E) (fun s => ∃ t, goalsOf G s t) rad.1 st.1)
    (h2 : Balls (edgesOf (reversed E)) (fun t => ∃ s, goalsOf G s t) rad.2 st.2) (x s : N) (d : Nat) :
    weight (bidiRound E (reversed E) G st).1 (x, (s, d)) = (if (∃ t, goalsOf G s t) ∧ IsDistance (edgesOf E) (fun r => r = s) x d ∧
      d ≤ (if ∃ t, Searching (edgesOf E) (goalsOf G) rad s t then rad.1 s + 1 else rad.1 s) then 1 else 0) ∧
    weight (bidiRound E (reversed E) G st).2 (x, (s, d)) = (if (∃ t, goalsOf G t s) ∧ IsDistance (edgesOf (reversed E)) (fun r => r = s) x d ∧
      d ≤ (if ∃ t, Searching (edgesOf E) (goalsOf G) rad t s then rad.2 s + 1 else rad.2 s) then 1 else 0) := by
  have hA := weight_active hE hG hm h1 h2
  have hAn : (bidiActive (bidiReached G st) G).Nonneg := by
    rintro ⟨s, t⟩
    rw [hA]
    split_ifs
    exacts [hG _, le_rfl]
  have hApos : ∀ s t, 0 < weight (bidiActive (bidiReached G st) G) (s, t) ↔ Searching (edgesOf E) (goalsOf G) rad s t := by
    intro s t
    rw [hA]
    split_ifs with h
    · exact ⟨fun _ => h, fun _ => h.1⟩
    · exact ⟨fun h' => absurd h' (lt_irrefl _), fun h' => absurd h' h⟩
  have hdist : ∀ c : Coll N, c.Nonneg → c.distinct.Nonneg ∧ ∀ x, 0 < weight c.distinct x ↔ 0 < weight c x := by
    intro c hc
    refine ⟨fun x => ?_, fun x => ?_⟩
    · rw [Coll.weight_distinct]
      split_ifs <;> simp
    · rw [Coll.weight_distinct]
      have := hc x
      split_ifs with h
      · rw [h]
      · exact ⟨fun _ => by omega, fun _ => one_pos⟩
  have hs := hdist _ (hAn.map fun x => x.1)
  have ht := hdist _ (hAn.map fun x => x.2)
  have hps : ∀ s, 0 < weight (bidiActiveSources (bidiActive (bidiReached G st) G)) s ↔ ∃ t, Searching (edgesOf E) (goalsOf G) rad s t := by
    intro s
    unfold bidiActiveSources
    rw [hs.2, hAn.map_pos]
    constructor
    · rintro ⟨⟨s', t⟩, h, rfl⟩
      exact ⟨t, (hApos _ _).1 h⟩
    · rintro ⟨t, h⟩
      exact ⟨(s, t), (hApos _ _).2 h, rfl⟩
  have hpt : ∀ t, 0 < weight (bidiActiveTargets (bidiActive (bidiReached G st) G)) t ↔ ∃ s, Searching (edgesOf E) (goalsOf G) rad s t := by
    intro t
    unfold bidiActiveTargets
    rw [ht.2, hAn.map_pos]
    constructor
    · rintro ⟨⟨s, t'⟩, h, rfl⟩
      exact ⟨s, (hApos _ _).1 h⟩
    · rintro ⟨s, h⟩
      exact ⟨(s, t), (hApos _ _).2 h, rfl⟩
  have hlen : (reversed E).length = E.length := List.length_map _
  constructor
  · refine (balls_step hE (by omega) h1 hs.1 x s d).trans ?_
    simp only [bidiActiveSources] at hps
    simp only [hps]
  · refine (balls_step (E := reversed E) (hE.map _) (by rw [hlen]; omega) h2 ht.1 x s d).trans ?_
    simp only [bidiActiveTargets] at hpt
    simp only [hpt]

theorem bidi_balls (i : Nat) : Balls (edgesOf E) (fun s => ∃ t, goalsOf G s t) (radii (edgesOf E) (goalsOf G) i).1 (bidiIter E (reversed E) G i).1 ∧
    Balls (edgesOf (reversed E)) (fun t => ∃ s, goalsOf G s t) (radii (edgesOf E) (goalsOf G) i).2 (bidiIter E (reversed E) G i).2 := by
  classical
  induction i with
  | zero =>
    constructor
    · exact balls_start hG (f := fun x => x.1) fun s => ⟨fun ⟨t, h⟩ => ⟨(s, t), h, rfl⟩, fun ⟨⟨_, t⟩, h, e⟩ => ⟨t, e ▸ h⟩⟩
    · exact balls_start hG (f := fun x => x.2) fun t => ⟨fun ⟨s, h⟩ => ⟨(s, t), h, rfl⟩, fun ⟨⟨s, _⟩, h, e⟩ => ⟨s, e ▸ h⟩⟩
  | succ i ih =>
    have key : ∀ x s d, weight (bidiIter E (reversed E) G (i + 1)).1 (x, (s, d)) = (if (∃ t, goalsOf G s t) ∧ IsDistance (edgesOf E) (fun r => r = s) x d ∧
          d ≤ (radii (edgesOf E) (goalsOf G) (i + 1)).1 s then 1 else 0) ∧
        weight (bidiIter E (reversed E) G (i + 1)).2 (x, (s, d)) = (if (∃ t, goalsOf G t s) ∧ IsDistance (edgesOf (reversed E)) (fun r => r = s) x d ∧
          d ≤ (radii (edgesOf E) (goalsOf G) (i + 1)).2 s then 1 else 0) := by
      intro x s d
      rw [radii_succ]
      exact bidi_step hE hG hm ih.1 ih.2 x s d
    constructor
    · refine ⟨fun ⟨x, s, d⟩ => ?_, fun x s d => ?_⟩
      · refine le_of_le_of_eq ?_ (key x s d).1.symm
        split_ifs <;> simp
      · rw [(key x s d).1]
        by_cases h : (∃ t, goalsOf G s t) ∧ IsDistance (edgesOf E) (fun r => r = s) x d ∧ d ≤ (radii (edgesOf E) (goalsOf G) (i + 1)).1 s
        · exact ⟨fun _ => h, fun _ => by rw [if_pos h]; exact one_pos⟩
        · refine ⟨fun h' => ?_, fun h' => absurd h' h⟩
          rw [if_neg h] at h'
          exact absurd h' (lt_irrefl _)
    · refine ⟨fun ⟨x, s, d⟩ => ?_, fun x s d => ?_⟩
      · refine le_of_le_of_eq ?_ (key x s d).2.symm
        split_ifs <;> simp
      · rw [(key x s d).2]
        by_cases h : (∃ t, goalsOf G t s) ∧ IsDistance (edgesOf (reversed E)) (fun r => r = s) x d ∧ d ≤ (radii (edgesOf E) (goalsOf G) (i + 1)).2 s
        · exact ⟨fun _ => h, fun _ => by rw [if_pos h]; exact one_pos⟩
        · refine ⟨fun h' => ?_, fun h' => absurd h' h⟩
          rw [if_neg h] at h'
          exact absurd h' (lt_irrefl _)

open Classical in
/-- After as many rounds as there are edges, all goals have been reached that can be. -/
theorem bidi_final {i : Nat} (hi : E.length ≤ i) (s t : N) (d : Nat) :
    weight (bidiReached G (bidiIter E (reversed E) G i)) ((s, t), d) = if IsDistance (edgesOf E) (fun r => r = s) t d then weight G (s, t) else 0 := by
  obtain ⟨h1, h2⟩ := bidi_balls hE hG hm i
  rw [weight_reached hE hG hm h1 h2]
  by_cases hg : goalsOf G s t
  · refine if_congr ⟨fun h => h.1, fun h => ⟨h, ?_⟩⟩ rfl rfl
    have := edgesOf_le_card h
    exact searches_end hg h (by omega)
  · have : weight G (s, t) = 0 := le_antisymm (not_lt.1 hg) (hG _)
    rw [this]
    split_ifs <;> rfl

end iter
end rounds

section run
variable [LinearOrder N] [PartialOrder T] [DecidableLE T] [DecidableEq T] {F : BidiFlow N T} {forward reverse goals : Nat → Upds (N × N) T Int}

theorem bidi_holds (h : F.Runs forward reverse goals) {t : T} {E R G : Coll (N × N)} (hE : Holds forward t E) (hR : Holds reverse t R) (hG : Holds goals t G) :
    ∀ i, i ≤ maxRound → (Holds (fun n => (F.forwardNext n).upds) (t, i) (bidiIter E R G (i + 1)).1 ∧ Holds (fun n => (F.reverseNext n).upds) (t, i) (bidiIter E R G (i + 1)).2) ∧
      Holds (fun n => (F.reached n).upds) (t, i) (bidiReached G (bidiIter E R G i)) := by
  have hr : ∀ i, Holds F.forward (t, i) (bidiIter E R G i).1 → Holds F.reverse (t, i) (bidiIter E R G i).2 →
      Holds (fun n => (F.reached n).upds) (t, i) (bidiReached G (bidiIter E R G i)) := fun i h1 h2 => h.reached _ _ _ (h.meet _ _ _ h1 h2) (h.goalsIn t i G hG)
  have step : ∀ i, Holds F.forward (t, i) (bidiIter E R G i).1 → Holds F.reverse (t, i) (bidiIter E R G i).2 →
      Holds (fun n => (F.forwardNext n).upds) (t, i) (bidiIter E R G (i + 1)).1 ∧ Holds (fun n => (F.reverseNext n).upds) (t, i) (bidiIter E R G (i + 1)).2 := by
    intro i h1 h2
    have ha := h.active _ _ _ (hr i h1 h2) (h.goalsIn t i G hG)
    exact ⟨h.forwardNext _ _ _ (h.forwardExtend _ _ _ (h.forwardSelect _ _ _ h1 (h.forwardActive _ _ ha)) (h.forwardEdges t i E hE)) h1,
      h.reverseNext _ _ _ (h.reverseExtend _ _ _ (h.reverseSelect _ _ _ h2 (h.reverseActive _ _ ha)) (h.reverseEdges t i R hR)) h2⟩
  have hall : ∀ i, i ≤ maxRound → Holds F.forward (t, i) (bidiIter E R G i).1 ∧ Holds F.reverse (t, i) (bidiIter E R G i).2 := by
    intro i
    induction i with
    | zero => exact fun _ => ⟨loop_zero h.sourcesTimed h.forward (h.sources t G hG), loop_zero h.targetsTimed h.reverse (h.targets t G hG)⟩
    | succ i ih =>
      intro hi
      obtain ⟨h1, h2⟩ := ih (by omega)
      obtain ⟨h3, h4⟩ := step i h1 h2
      exact ⟨loop_succ h.sourcesTimed h.forward (h.sources t G hG) (by omega) h3, loop_succ h.targetsTimed h.reverse (h.targets t G hG) (by omega) h4⟩
  exact fun i hi => ⟨step i (hall i hi).1 (hall i hi).2, hr i (hall i hi).1 (hall i hi).2⟩

theorem bidi_next (h : F.Runs forward reverse goals) {t : T} {E R G : Coll (N × N)} (hE : Holds forward t E) (hR : Holds reverse t R) (hG : Holds goals t G) (i : Nat) (hi : i ≤ maxRound) :
    Holds (fun n => (F.forwardNext n).upds) (t, i) (bidiIter E R G (i + 1)).1 ∧ Holds (fun n => (F.reverseNext n).upds) (t, i) (bidiIter E R G (i + 1)).2 := (bidi_holds h hE hR hG i hi).1

theorem bidi_out (h : F.Runs forward reverse goals) {t : T} {E R G : Coll (N × N)} (hE : Holds forward t E) (hR : Holds reverse t R) (hG : Holds goals t G) :
    Holds F.out t (bidiReached G (bidiIter E R G maxRound)) := leave_holds (fun n u hu _ => h.rounds n u hu) (bidi_holds h hE hR hG maxRound le_rfl).2

end run
end DD
