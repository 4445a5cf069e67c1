import Verif.Proofs.TriePair
import Verif.Proofs.ColSelect

/-! Operations on chunks that are columnar tries. -/

namespace DD
set_option linter.unusedSectionVars false

/-- Chunks hold, one by one, the lists of updates. -/
abbrev HoldsAll {K V T R : Type*} [LT K] [LT V] (cs : List (ColTrie K V T R)) (us : Chain (K ×ₗ V) T R) : Prop := List.Forall₂ ColTrie.Holds cs us

theorem forall₂_snoc {α β : Type*} {r : α → β → Prop} {as : List α} {bs : List β} {a : α} {b : β} (h : List.Forall₂ r as bs) (h' : r a b) :
    List.Forall₂ r (as ++ [a]) (bs ++ [b]) := by
  induction h with
  | nil => exact .cons h' .nil
  | cons h1 _ ih => exact .cons h1 ih

theorem full_snoc {α : Type*} {cs : List (List α)} {c : List α} (h : Full cs) (hc : c ≠ []) : Full (cs ++ [c]) := by
  intro x hx
  rcases List.mem_append.1 hx with hx | hx
  · exact h x hx
  · rw [List.mem_singleton.1 hx]; exact hc

section
variable {D T R : Type*} [LinearOrder D] [LinearOrder (Lin T)] [AddCommMonoid R] [DecidableEq R]

theorem ltDT_of_not_lt {u w y : D × T × R} (h : ¬ ltDT w u) (h' : ltDT w y) : ltDT u y := by
  simp only [ltDT, not_or, not_and, not_lt] at h
  rcases lt_or_eq_of_le h.1 with h1 | h1
  · exact ltDT_trans (Or.inl h1) h'
  · have h2 := h.2 h1.symm
    rcases h' with h' | ⟨h3, h4⟩
    · exact Or.inl (h1 ▸ h')
    · exact Or.inr ⟨h1.trans h3, h2.trans_lt h4⟩

/-- Merging lists with a common horizon. -/
theorem flatMerge_split (n : Nat) : ∀ (p0 p1 X Y : Upds D T R), p0.length + p1.length ≤ n → (∀ u ∈ p0, ∀ w ∈ Y, ltDT u w) → (∀ u ∈ p1, ∀ w ∈ X, ltDT u w) →
    flatMerge (p0 ++ X) (p1 ++ Y) = flatMerge p0 p1 ++ flatMerge X Y := by
  induction n with
  | zero =>
    intro p0 p1 X Y hl _ _
    have h0 : p0 = [] := List.length_eq_zero_iff.1 (by omega)
    have h1 : p1 = [] := List.length_eq_zero_iff.1 (by omega)
    subst h0; subst h1
    simp [flatMerge]
  | succ n ih =>
    intro p0 p1 X Y hl h0 h1
    cases p0 with
    | nil =>
      cases X with
      | nil => simp [flatMerge]
      | cons x X =>
        rw [List.nil_append, flatMerge_run_right p1 Y x X fun u hu => h1 u hu x (by simp)]
        simp [flatMerge]
    | cons u p0 =>
      cases p1 with
      | nil =>
        cases Y with
        | nil => simp [flatMerge_nil_right]
        | cons y Y =>
          rw [List.nil_append, flatMerge_run_left (u :: p0) X y Y fun u hu => h0 u hu y (by simp), flatMerge_nil_right]
      | cons w p1 =>
        obtain ⟨d1, t1, r1⟩ := u
        obtain ⟨d2, t2, r2⟩ := w
        simp only [List.length_cons] at hl
        have k0 : ∀ u ∈ p0, ∀ w ∈ Y, ltDT u w := fun u hu => h0 u (by simp [hu])
        have k1 : ∀ u ∈ p1, ∀ w ∈ X, ltDT u w := fun u hu => h1 u (by simp [hu])
        rw [List.cons_append, List.cons_append, flatMerge]
        conv_rhs => rw [flatMerge]
        split_ifs
        · have := ih p0 ((d2, t2, r2) :: p1) X Y (by simp only [List.length_cons]; omega) k0 h1
          rw [List.cons_append] at this
          rw [this, List.cons_append]
        · have := ih ((d1, t1, r1) :: p0) p1 X Y (by simp only [List.length_cons]; omega) h0 k1
          rw [List.cons_append] at this
          rw [this, List.cons_append]
        · rw [ih p0 p1 X Y (by omega) k0 k1, List.append_assoc]
        · rw [ih p0 p1 X Y (by omega) k0 k1, List.append_assoc]

end

section
variable {K V T R : Type*} [LinearOrder K] [LinearOrder V] [LinearOrder (Lin T)] [AddCommMonoid R] [DecidableEq R] [DecidableEq T]

theorem dropCancelled_spec (g : Contents K V T (List R)) (hg : Canonical g) (h1 : ∀ k ∈ g, ∀ v ∈ k.2, ∀ x ∈ v.2, x.2.length ≤ 1) :
    ∃ t, ColTrie.dropCancelled (Forest.layout [g]) = some t ∧ t.len = (Forest.upds [g]).length ∧ (Forest.upds [g] ≠ [] → t.Holds (Forest.upds [g])) := by
  rw [ColTrie.dropCancelled]
  split_ifs with h
  · refine ⟨_, rfl, (length_upds [g]).symm, fun hne => ?_⟩
    obtain ⟨c, rfl⟩ : ∃ c : Contents K V T R, g = treeC c := by
      apply treeC_exists
      intro k hk v hv x hx
      have e1 : (Forest.layout [g]).times.values.length = ((g.flatMap Prod.snd).flatMap Prod.snd).length := by
        simp [Forest.layout, Lists.of, List.length_flatMap, Function.comp_def]
      have e2 : (Forest.layout [g]).diffs.values.length = (((g.flatMap Prod.snd).flatMap Prod.snd).map fun x => x.2.length).sum := by
        simp [Forest.layout, Lists.of, List.length_flatten, Function.comp_def]
      rw [e1, e2] at h
      have hall : ∀ (l : List (T × List R)), (∀ x ∈ l, x.2.length ≤ 1) → (l.map fun x => x.2.length).sum = l.length → ∀ x ∈ l, x.2.length = 1 := by
        intro l
        induction l with
        | nil => simp
        | cons y l ih =>
          intro hle hsum x hx
          have hb : (l.map fun x => x.2.length).sum ≤ l.length := by
            have : ∀ (l : List (T × List R)), (∀ x ∈ l, x.2.length ≤ 1) → (l.map fun x => x.2.length).sum ≤ l.length := by
              intro l
              induction l with
              | nil => simp
              | cons z l ih =>
                intro h
                have := h z (by simp)
                have := ih fun x hx => h x (by simp [hx])
                simp only [List.map_cons, List.sum_cons, List.length_cons]
                omega
            exact this l fun z hz => hle z (by simp [hz])
          have hy := hle y (by simp)
          simp only [List.map_cons, List.sum_cons, List.length_cons] at hsum
          rcases List.mem_cons.1 hx with rfl | hx
          · omega
          · exact ih (fun z hz => hle z (by simp [hz])) (by omega) x hx
      have := hall _ (by
        intro x hx
        obtain ⟨v, hv, hx⟩ := List.mem_flatMap.1 hx
        obtain ⟨k, hk, hv⟩ := List.mem_flatMap.1 hv
        exact h1 k hk v hv x hx) h x (List.mem_flatMap.2 ⟨v, List.mem_flatMap.2 ⟨k, hk, hv⟩, hx⟩)
      obtain ⟨r, hr⟩ := List.length_eq_one_iff.1 this
      exact ⟨r, hr⟩
    have hc : c ≠ [] := by
      rintro rfl; exact hne (by simp [Forest.upds, treeC])
    have hf : c.forest = [treeC c] := by rw [Contents.forest, if_neg (by simpa using hc)]; rfl
    rw [canonical_treeC] at hg
    exact ⟨c, hg.1, hg.2, by rw [hf], by rw [← upds_forest, hf]⟩
  · obtain ⟨t, e, ht⟩ := filterZero_spec g hg h1
    exact ⟨t, e, len_layout ht, fun _ => ht⟩

theorem emit_spec {t : ColTrie K V T R} {us : Upds (K ×ₗ V) T R} {out : List (ColTrie K V T R)} {O : Chain (K ×ₗ V) T R} (hl : t.len = us.length) (h : us ≠ [] → t.Holds us)
    (ho : HoldsAll out O) (hf : Full O) : ∃ O', HoldsAll (ColTrie.emit t out) O' ∧ Full O' ∧ O'.flatten = O.flatten ++ us := by
  rw [ColTrie.emit, hl]
  by_cases hu : us = []
  · subst hu
    exact ⟨O, by simpa using ho, hf, by simp⟩
  · rw [if_pos (List.length_pos_iff.2 hu)]
    exact ⟨O ++ [us], forall₂_snoc ho (h hu), full_snoc hf hu, by simp⟩

theorem pushBack_spec {cur : Option (Nat × Nat × Nat)} {c : Contents K V T R} (hn : c ≠ []) {r : Upds (K ×ₗ V) T R} (h : Left cur (layoutC c) r)
    {input : List (ColTrie K V T R)} {U : Chain (K ×ₗ V) T R} (hi : HoldsAll input U) (hf : Full U) :
    ∃ input' U', ColTrie.pushBack cur c.forest.layout input = some input' ∧ HoldsAll input' U' ∧ Full U' ∧ U'.flatten = r ++ U.flatten ∧ U'.length ≤ U.length + 1 ∧ (r = [] → U' = U) := by
  rw [layout_forest hn]
  cases cur with
  | none =>
    have : r = [] := h
    exact ⟨input, U, rfl, hi, hf, by simp [this], by omega, fun _ => rfl⟩
  | some cur =>
    obtain ⟨hr, s, e, hs⟩ := h
    rw [ColTrie.pushBack, e]
    refine ⟨s :: input, r :: U, ?_, .cons hs hi, ?_, by simp, by simp, fun h => absurd h hr⟩
    · rw [Option.map_some, if_pos (by rw [len_layout hs]; exact List.length_pos_iff.2 hr)]
    · intro x hx
      rcases List.mem_cons.1 hx with rfl | hx
      · exact hr
      · exact hf x hx

/-- `merge`. -/
theorem colMerge_spec {in1 in2 out : List (ColTrie K V T R)} {U1 U2 O : Chain (K ×ₗ V) T R} (k1 : HoldsAll in1 U1) (k2 : HoldsAll in2 U2) (ko : HoldsAll out O)
    (n1 : U1 ≠ []) (n2 : U2 ≠ []) (f1 : Full U1) (f2 : Full U2) (fo : Full O) (s1 : Consolidated U1.flatten) (s2 : Consolidated U2.flatten) :
    ∃ in1' in2' out' U1' U2' O' p0 p1, ColTrie.chunkMerge in1 in2 out = some (in1', in2', out') ∧ HoldsAll in1' U1' ∧ HoldsAll in2' U2' ∧ HoldsAll out' O' ∧
      Full U1' ∧ Full U2' ∧ Full O' ∧ U1'.length ≤ U1.length ∧ U2'.length ≤ U2.length ∧ U1'.length + U2'.length < U1.length + U2.length ∧
      U1.flatten = p0 ++ U1'.flatten ∧ U2.flatten = p1 ++ U2'.flatten ∧ O'.flatten = O.flatten ++ flatMerge p0 p1 ∧
      ∀ rest1 rest2, SortedDT (U1.flatten ++ rest1) → SortedDT (U2.flatten ++ rest2) →
        (∀ u ∈ p0, ∀ w ∈ U2'.flatten ++ rest2, ltDT u w) ∧ (∀ u ∈ p1, ∀ w ∈ U1'.flatten ++ rest1, ltDT u w) := by
  cases k1 with
  | nil => exact absurd rfl n1
  | @cons t1 u1 in1 U1 h1 k1 =>
  cases k2 with
  | nil => exact absurd rfl n2
  | @cons t2 u2 in2 U2 h2 k2 =>
  obtain ⟨c0, a0, b0, rfl, rfl⟩ := h1
  obtain ⟨c1, a1, b1, rfl, rfl⟩ := h2
  have hn0 : c0 ≠ [] := fun e => f1 _ List.mem_cons_self ((upds_eq_nil b0).2 e)
  have hn1 : c1 ≠ [] := fun e => f2 _ List.mem_cons_self ((upds_eq_nil b1).2 e)
  rw [List.flatten_cons] at s1 s2
  obtain ⟨cur0, cur1, g, p0, r0, p1, r1, e, hg, ng, e0, e1, hf, l0, l1, hr, q0, q1, q2, q3⟩ :=
    mergePair_spec ⟨a0, b0⟩ ⟨a1, b1⟩ (consolidated_prefix s1) (consolidated_prefix s2) hn0 hn1
  obtain ⟨t, et, ht1, ht2⟩ := dropCancelled_spec g hg ng.one
  rw [hf] at ht1 ht2
  obtain ⟨O', ko', fo', eo'⟩ := emit_spec ht1 ht2 ko fo
  obtain ⟨in1', U1', x1, x2, x3, x4, x5, x6⟩ := pushBack_spec hn0 l0 k1 (fun c hc => f1 c (by simp [hc]))
  obtain ⟨in2', U2', y1, y2, y3, y4, y5, y6⟩ := pushBack_spec hn1 l1 k2 (fun c hc => f2 c (by simp [hc]))
  refine ⟨in1', in2', _, U1', U2', O', p0, p1, ?_, x2, y2, ko', x3, y3, fo', by simpa using x5, by simpa using y5, ?_, ?_, ?_, eo', ?_⟩
  · rw [ColTrie.chunkMerge]
    rw [layout_forest hn0] at x1 ⊢
    rw [layout_forest hn1] at y1 ⊢
    rw [e, Option.bind_some, et, Option.bind_some, x1, Option.bind_some, y1, Option.map_some]
  · simp only [List.length_cons]
    rcases hr with hr | hr
    · rw [x6 hr]; omega
    · rw [y6 hr]; omega
  · rw [List.flatten_cons, e0, x4, List.append_assoc]
  · rw [List.flatten_cons, e1, y4, List.append_assoc]
  · intro rest1 rest2 z1 z2
    rw [List.flatten_cons, List.append_assoc] at z1 z2
    constructor
    · intro u hu w hw
      rw [y4, List.append_assoc] at hw
      rcases List.mem_append.1 hw with hw | hw
      · exact q1 w hw u (by rw [e0]; simp [hu])
      · obtain ⟨v, hv, hvu⟩ := q2 u hu
        exact ltDT_of_not_lt hvu ((List.pairwise_append.1 z2).2.2 v hv w hw)
    · intro u hu w hw
      rw [x4, List.append_assoc] at hw
      rcases List.mem_append.1 hw with hw | hw
      · exact q0 w hw u (by rw [e1]; simp [hu])
      · obtain ⟨v, hv, hvu⟩ := q3 u hu
        exact ltDT_of_not_lt hvu ((List.pairwise_append.1 z1).2.2 v hv w hw)

end

section
variable {K V T R : Type*} [LinearOrder K] [LinearOrder V]

/-- `extract`. -/
theorem colExtract_spec [PartialOrder T] [DecidableLE T] {c : ColTrie K V T R} {input keep ship : List (ColTrie K V T R)} {us : Upds (K ×ₗ V) T R} {KP SH : Chain (K ×ₗ V) T R}
    (hc : c.Holds us) (kk : HoldsAll keep KP) (ks : HoldsAll ship SH) (fk : Full KP) (fs : Full SH) (frontier residual : List T) :
    ∃ keep' ship' KP' SH', ColTrie.chunkExtract (c :: input) frontier residual keep ship =
        some (input, us.foldl (fun r u => if lessEqual frontier u.2.1 then acInsert r u.2.1 else r) residual, keep', ship') ∧
      HoldsAll keep' KP' ∧ HoldsAll ship' SH' ∧ Full KP' ∧ Full SH' ∧
      KP' = KP ++ (if us.filter (fun u => lessEqual frontier u.2.1) = [] then [] else [us.filter fun u => lessEqual frontier u.2.1]) ∧
      SH' = SH ++ (if us.filter (fun u => !lessEqual frontier u.2.1) = [] then [] else [us.filter fun u => !lessEqual frontier u.2.1]) := by
  obtain ⟨s, k, e, h1, h2, h3, h4⟩ := extract_spec hc frontier residual
  have key : ∀ (o : Option (ColTrie K V T R)) (ws : Upds (K ×ₗ V) T R) (out : List (ColTrie K V T R)) (O : Chain (K ×ₗ V) T R), (∀ s, o = some s → s.Holds ws) → (o = none → ws = []) →
      HoldsAll out O → Full O → HoldsAll (match o with | none => out | some c => ColTrie.emit c out) (O ++ if ws = [] then [] else [ws]) ∧ Full (O ++ if ws = [] then [] else [ws]) := by
    intro o ws out O g1 g2 g3 g4
    cases o with
    | none => simpa [g2 rfl] using ⟨g3, g4⟩
    | some c =>
      have hw := g1 c rfl
      have hl := len_layout hw
      simp only [ColTrie.emit, hl]
      by_cases he : ws = []
      · subst he; simpa using ⟨g3, g4⟩
      · rw [if_pos (List.length_pos_iff.2 he), if_neg he]
        exact ⟨forall₂_snoc g3 hw, full_snoc g4 he⟩
  obtain ⟨x1, x2⟩ := key k _ keep KP h3 h4 kk fk
  obtain ⟨y1, y2⟩ := key s _ ship SH h1 h2 ks fs
  refine ⟨_, _, _, _, ?_, x1, y1, x2, y2, rfl, rfl⟩
  rw [ColTrie.chunkExtract, e]
  rfl

/-! ### Settling -/

theorem peel_prefix {D T R : Type*} (cap : Nat) : ∀ (n : Nat) (rest : Upds D T R) (out : Chain D T R), out <+: (peel cap n rest out).out := by
  intro n
  induction n with
  | zero => intro rest out; exact List.prefix_rfl
  | succ n ih =>
    intro rest out
    rw [peel]
    split_ifs
    · exact (List.prefix_append _ _).trans (ih _ _)
    · exact List.prefix_append _ _
    · exact List.prefix_append _ _

theorem packAbsorb_prefix {D T R : Type*} (cap : Nat) (chunk : Upds D T R) (out : Chain D T R) : out <+: (packAbsorb cap chunk out).out := by
  rw [packAbsorb]
  split_ifs
  · exact List.prefix_append _ _
  · exact List.prefix_rfl
  · exact peel_prefix _ _ _ _

theorem packStep_prefix {D T R : Type*} (cap : Nat) (v : PackVars D T R) (chunk : Upds D T R) : v.out <+: (packStep cap v chunk).out := by
  obtain ⟨carry, out⟩ := v
  cases carry with
  | none => exact packAbsorb_prefix cap chunk out
  | some c =>
    simp only [packStep]
    split_ifs
    · exact List.prefix_append _ _
    · exact List.prefix_rfl
    · exact (List.prefix_append _ _).trans (packAbsorb_prefix _ _ _)

theorem chunkSettle_prefix {D T R : Type*} (cap : Nat) (input : Chain D T R) (done : Bool) (out : Chain D T R) : out <+: (chunkSettle cap input done out).2 := by
  have key : ∀ (input : Chain D T R) (v : PackVars D T R), v.out <+: (input.foldl (packStep cap) v).out := by
    intro input
    induction input with
    | nil => intro v; exact List.prefix_rfl
    | cons c input ih => intro v; exact (packStep_prefix cap v c).trans (ih _)
  have h := key input ⟨none, out⟩
  rw [chunkSettle]
  generalize input.foldl (packStep cap) ⟨none, out⟩ = v at h
  obtain ⟨carry, out'⟩ := v
  cases carry with
  | none => exact h
  | some c =>
    cases done with
    | true => exact h.trans (List.prefix_append _ _)
    | false => exact h

/-- Related variables of `pack`. -/
structure PackRel (s : Option (ColTrie K V T R) × List (ColTrie K V T R)) (v : PackVars (K ×ₗ V) T R) : Prop where
  carry : Option.Rel ColTrie.Holds s.1 v.carry
  out : HoldsAll s.2 v.out

theorem peel_rel {cap : Nat} (hcap : 0 < cap) : ∀ (n : Nat) {t : ColTrie K V T R} {us : Upds (K ×ₗ V) T R} {out : List (ColTrie K V T R)} {O : Chain (K ×ₗ V) T R},
    t.Holds us → HoldsAll out O → cap ≤ us.length → us.length ≤ n →
    ∃ s, peelWith ColTrie.len ColTrie.splitAt cap n t out = some s ∧ PackRel s (peel cap n us O) ∧ ((peel cap n us O).carry.getD []).Sublist us := by
  intro n
  induction n with
  | zero => intro t us out O h ho h1 h2; omega
  | succ n ih =>
    intro t us out O h ho h1 h2
    obtain ⟨a, b, e, ha, hb⟩ := splitAt_spec h cap
    rw [peelWith, e, Option.bind_some, peel]
    simp only [len_layout hb]
    split_ifs with h3 h4
    · obtain ⟨s, x1, x2, x3⟩ := ih hb (forall₂_snoc ho ha) h3 (by rw [List.length_drop]; omega)
      exact ⟨s, x1, x2, x3.trans (List.drop_sublist _ _)⟩
    · exact ⟨_, rfl, ⟨.some hb, forall₂_snoc ho ha⟩, List.drop_sublist _ _⟩
    · exact ⟨_, rfl, ⟨.none, forall₂_snoc ho ha⟩, List.nil_sublist _⟩

theorem packAbsorb_rel {cap : Nat} (hcap : 0 < cap) {t : ColTrie K V T R} {us : Upds (K ×ₗ V) T R} {out : List (ColTrie K V T R)} {O : Chain (K ×ₗ V) T R}
    (h : t.Holds us) (ho : HoldsAll out O) :
    ∃ s, packAbsorbWith ColTrie.len ColTrie.splitAt cap t out = some s ∧ PackRel s (packAbsorb cap us O) ∧ ((packAbsorb cap us O).carry.getD []).Sublist us := by
  rw [packAbsorbWith, packAbsorb, len_layout h]
  split_ifs with h1 h2
  · exact ⟨_, rfl, ⟨.none, forall₂_snoc ho h⟩, List.nil_sublist _⟩
  · exact ⟨_, rfl, ⟨.some h, ho⟩, List.Sublist.refl _⟩
  · exact peel_rel hcap _ h ho (by omega) le_rfl

theorem packStep_rel {cap : Nat} (hcap : 0 < cap) {s : Option (ColTrie K V T R) × List (ColTrie K V T R)} {v : PackVars (K ×ₗ V) T R} {t : ColTrie K V T R} {us : Upds (K ×ₗ V) T R}
    (hs : PackRel s v) (h : t.Holds us) (hle : ∀ u ∈ v.carry.getD [], ∀ w ∈ us, u.1 ≤ w.1) :
    ∃ s', packStepWith ColTrie.len ColTrie.melded ColTrie.splitAt cap s t = some s' ∧ PackRel s' (packStep cap v us) ∧
      ((packStep cap v us).carry.getD []).Sublist (v.carry.getD [] ++ us) := by
  obtain ⟨carry, O⟩ := v
  obtain ⟨sc, out⟩ := s
  obtain ⟨h1, h2⟩ := hs
  cases h1 with
  | none => exact packAbsorb_rel hcap h h2
  | @some c x hc =>
    simp only [Option.getD_some] at hle ⊢
    obtain ⟨m, em, hm⟩ := melded_spec hc h hle
    simp only [packStepWith, packStep, len_layout hc, len_layout h]
    by_cases h3 : x.length + us.length ≤ cap
    · rw [if_pos h3, if_pos h3, em, Option.map_some, len_layout hm]
      split_ifs
      · exact ⟨_, rfl, ⟨.none, forall₂_snoc h2 hm⟩, List.nil_sublist _⟩
      · exact ⟨_, rfl, ⟨.some hm, h2⟩, List.Sublist.refl _⟩
    · rw [if_neg h3, if_neg h3]
      obtain ⟨s', y1, y2, y3⟩ := packAbsorb_rel hcap h (forall₂_snoc h2 hc)
      exact ⟨s', y1, y2, y3.trans (List.sublist_append_right _ _)⟩

theorem packFold_rel {cap : Nat} (hcap : 0 < cap) {input : List (ColTrie K V T R)} {U : Chain (K ×ₗ V) T R} (h : HoldsAll input U) :
    ∀ {s : Option (ColTrie K V T R) × List (ColTrie K V T R)} {v : PackVars (K ×ₗ V) T R}, PackRel s v → SortedD (v.carry.getD [] ++ U.flatten) →
    ∃ s', input.foldlM (packStepWith ColTrie.len ColTrie.melded ColTrie.splitAt cap) s = some s' ∧ PackRel s' (U.foldl (packStep cap) v) := by
  induction h with
  | nil => intro s v hs _; exact ⟨s, rfl, hs⟩
  | @cons t us input U ht _ ih =>
    intro s v hs hd
    rw [List.flatten_cons, ← List.append_assoc] at hd
    have hd1 := (List.pairwise_append.1 (List.pairwise_append.1 hd).1).2.2
    obtain ⟨s', e, hs', hsub⟩ := packStep_rel hcap hs ht hd1
    obtain ⟨s'', e', hs''⟩ := ih hs' (hd.sublist (hsub.append_right _))
    exact ⟨s'', by rw [List.foldlM_cons, e]; exact e', hs''⟩

/-- `settle` does what the same function does on lists of updates. -/
theorem colSettle_rel {cap : Nat} (hcap : 0 < cap) {input out : List (ColTrie K V T R)} {U O : Chain (K ×ₗ V) T R} (h : HoldsAll input U) (ho : HoldsAll out O) (hd : SortedD U.flatten) (done : Bool) :
    ∃ r, ColTrie.chunkSettle cap input done out = some r ∧ HoldsAll r.1 (chunkSettle cap U done O).1 ∧ HoldsAll r.2 (chunkSettle cap U done O).2 := by
  obtain ⟨s, e, hs⟩ := packFold_rel (s := (none, out)) (v := ⟨none, O⟩) hcap h ⟨.none, ho⟩ (by simpa using hd)
  rw [ColTrie.chunkSettle, packWith, e, Option.map_some, chunkSettle]
  refine ⟨_, rfl, ?_⟩
  generalize U.foldl (packStep cap) ⟨none, O⟩ = v at hs
  obtain ⟨carry, O'⟩ := v
  obtain ⟨sc, out'⟩ := s
  obtain ⟨h1, h2⟩ := hs
  cases h1 with
  | none => exact ⟨.nil, h2⟩
  | some hc => cases done <;> simp <;> first | exact ⟨hc, h2⟩ | exact forall₂_snoc h2 hc

end

end DD
