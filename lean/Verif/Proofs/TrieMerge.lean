import Verif.Proofs.TrieMerged

/-! Merging two tries until one is exhausted. -/

namespace DD
set_option linter.unusedSectionVars false
variable {α β γ δ κ : Type*}

section
variable [LinearOrder κ] (key : α → κ)

/-- Where the first list is cut. -/
theorem cutWith_cases (f : α → α → α) {xs ys : List α} {y : α} (h0 : xs.Pairwise fun a b => key a < key b) (hy : ys.getLast? = some y) :
    (∃ P Y, xs = P ++ Y ∧ cutWith key f xs ys = P ∧ ∀ z ∈ Y, key y < key z) ∨
      ∃ P x Y, xs = P ++ x :: Y ∧ key x = key y ∧ cutWith key f xs ys = P ++ [f x y] ∧ ∀ z ∈ Y, key y < key z := by
  obtain ⟨lo, hi, rfl, _, ht, hd, hc⟩ := sorted_split key xs (key y) h0
  have e : cutWith key f (lo ++ hi) ys = lo ++ cutHead key f y hi := by
    rw [cutWith, hy]; simp only; rw [ht, hd]
  rcases hc with hc | ⟨x, hi', rfl, hx, hc⟩
  · left
    refine ⟨lo, hi, rfl, ?_, hc⟩
    rw [e]
    cases hi with
    | nil => simp [cutHead]
    | cons x hi => rw [cutHead, if_neg (ne_of_gt (hc x (by simp)))]; simp
  · right
    refine ⟨lo, x, hi', rfl, hx, ?_, hc⟩
    rw [e, cutHead, if_pos hx]

theorem cutWith_out (f : α → α → α) (out : α → γ) (ho : ∀ a b, out (f a b) = out a) {xs : List α} (ys : List α) (h0 : xs.Pairwise fun a b => key a < key b) :
    (cutWith key f xs ys).map out <+: xs.map out := by
  cases hy : ys.getLast? with
  | none => rw [cutWith, hy]; simp
  | some y =>
    rcases cutWith_cases key f h0 hy with ⟨P, Y, rfl, e, _⟩ | ⟨P, x, Y, rfl, _, e, _⟩
    · rw [e]; exact ⟨Y.map out, by simp⟩
    · rw [e]; exact ⟨Y.map out, by simp [ho]⟩

theorem mem_cutWith (f : α → α → α) {xs ys : List α} (h0 : xs.Pairwise fun a b => key a < key b) {z : α} (hz : z ∈ cutWith key f xs ys) : z ∈ xs ∨ ∃ x ∈ xs, ∃ y ∈ ys, z = f x y := by
  cases hy : ys.getLast? with
  | none => rw [cutWith, hy] at hz; simp at hz
  | some y =>
    rcases cutWith_cases key f h0 hy with ⟨P, Y, rfl, e, _⟩ | ⟨P, x, Y, rfl, _, e, _⟩
    · rw [e] at hz; left; simp [hz]
    · rw [e] at hz
      rcases List.mem_append.1 hz with hz | hz
      · left; simp [hz]
      · right; exact ⟨x, by simp, y, List.mem_of_getLast? hy, by simpa using hz⟩

theorem cutWith_self {xs ys : List α} (h0 : xs.Pairwise fun a b => key a < key b) (hn : ys ≠ []) :
    ∃ X, xs = cutWith key (fun a _ => a) xs ys ++ X ∧ ∀ x ∈ X, ∀ y, ys.getLast? = some y → key y < key x := by
  obtain ⟨y, hy⟩ : ∃ y, ys.getLast? = some y := ⟨ys.getLast hn, List.getLast?_eq_some_getLast hn⟩
  rcases cutWith_cases key (fun a _ => a) h0 hy with ⟨P, Y, e1, e, hc⟩ | ⟨P, x, Y, e1, _, e, hc⟩
  · exact ⟨Y, by rw [e, ← e1], fun x hx z hz => by rw [hy] at hz; obtain rfl := Option.some.inj hz; exact hc x hx⟩
  · exact ⟨Y, by rw [e, e1]; simp, fun x hx z hz => by rw [hy] at hz; obtain rfl := Option.some.inj hz; exact hc x hx⟩

end

theorem replaceLast_self (rs : List (Rep α)) : replaceLast (fun a _ => a) rs = rs := by
  induction rs using List.reverseRecOn with
  | nil => rfl
  | append_singleton P r _ =>
    cases r with
    | this l => rw [replaceLast_this]
    | that l => rw [replaceLast_that]
    | both a b => rw [replaceLast_both]

theorem mem_replaceLast_this {f : α → α → α} {rs : List (Rep α)} {l : List α} (h : Rep.this l ∈ replaceLast f (trim rs)) : Rep.this l ∈ rs := by
  have h1 : Rep.this l ∈ trim rs := by
    revert h
    induction trim rs using List.reverseRecOn with
    | nil => intro h; exact h
    | append_singleton P r _ =>
      cases r with
      | this l => rw [replaceLast_this]; exact id
      | that l => rw [replaceLast_that]; exact id
      | both a b => rw [replaceLast_both]; intro h; rcases List.mem_append.1 h with h | h <;> simp_all
  obtain ⟨ls, h2⟩ := trim_split rs
  rw [h2]; exact List.mem_append_left _ h1

theorem lefts_trim (rs : List (Rep α)) : ∃ X, lefts rs = lefts (trim rs) ++ X := by
  obtain ⟨ls, h⟩ := trim_split rs
  exact ⟨ls.flatten, by conv_lhs => rw [h, lefts_append, lefts_this]⟩

section
variable {K V T R : Type*} [LinearOrder K] [LinearOrder V] [LinearOrder (Lin T)] [AddCommMonoid R] [DecidableEq R]

/-- The times up to the last one of the second list. -/
def cutT (xs ys : List (T × R)) : List (T × R) := cutWith timeKey (fun a _ => a) xs ys
def cutV (xs ys : List (V × List (T × R))) : List (V × List (T × R)) := cutWith Prod.fst (fun a b => (a.1, cutT a.2 b.2)) xs ys
/-- The contents up to the last update of the second. -/
def cutK (c0 c1 : Contents K V T R) : Contents K V T R := cutWith Prod.fst (fun a b => (a.1, cutV a.2 b.2)) c0 c1

def valsC (c : Contents K V T R) : List (V × List (T × R)) := c.flatMap Prod.snd
def timesC (c : Contents K V T R) : List (T × R) := (valsC c).flatMap Prod.snd

def surveyK (c0 c1 : Contents K V T R) := align Prod.fst c0 c1
def surveyV (c0 c1 : Contents K V T R) := (surveyK c0 c1).flatMap (Rep.down Prod.snd Prod.fst)
def surveyT (c0 c1 : Contents K V T R) := (surveyV c0 c1).flatMap (Rep.down Prod.snd timeKey)

theorem lefts_surveyK (c0 c1 : Contents K V T R) : lefts (surveyK c0 c1) = c0 := lefts_align _ _ _
theorem rights_surveyK (c0 c1 : Contents K V T R) : rights (surveyK c0 c1) = c1 := rights_align _ _ _
theorem lefts_surveyV (c0 c1 : Contents K V T R) : lefts (surveyV c0 c1) = valsC c0 := by rw [surveyV, lefts_downs, lefts_surveyK, valsC]
theorem rights_surveyV (c0 c1 : Contents K V T R) : rights (surveyV c0 c1) = valsC c1 := by rw [surveyV, rights_downs, rights_surveyK, valsC]
theorem lefts_surveyT (c0 c1 : Contents K V T R) : lefts (surveyT c0 c1) = timesC c0 := by rw [surveyT, lefts_downs, lefts_surveyV, timesC]
theorem rights_surveyT (c0 c1 : Contents K V T R) : rights (surveyT c0 c1) = timesC c1 := by rw [surveyT, rights_downs, rights_surveyV, timesC]

theorem neat_valsC {c : Contents K V T R} (h : Neat c) : ∀ v ∈ valsC c, v.2.Pairwise fun a b => timeKey a < timeKey b := by
  intro v hv
  obtain ⟨k, hk, hv⟩ := List.mem_flatMap.1 hv
  exact h.times k hk v hv

theorem noEmpty_valsC {c : Contents K V T R} (h : NoEmpty c) : ∀ v ∈ valsC c, v.2 ≠ [] := by
  intro v hv
  obtain ⟨k, hk, hv⟩ := List.mem_flatMap.1 hv
  exact (h k hk).2 v hv

/-- The surveys without their last ranges are those of the contents cut. -/
theorem survey_cut {c0 c1 : Contents K V T R} (n0 : Neat c0) (n1 : Neat c1) (e1 : NoEmpty c1) (hn : c1 ≠ []) :
    surveyK (cutK c0 c1) c1 = replaceLast (fun a b => (a.1, cutV a.2 b.2)) (trim (surveyK c0 c1)) ∧
    surveyV (cutK c0 c1) c1 = replaceLast (fun a b => (a.1, cutT a.2 b.2)) (trim (surveyV c0 c1)) ∧
    surveyT (cutK c0 c1) c1 = trim (surveyT c0 c1) := by
  obtain ⟨s0, t0⟩ := contentsSorted_iff.1 n0.sorted
  obtain ⟨s1, t1⟩ := contentsSorted_iff.1 n1.sorted
  have hK := align_cut Prod.fst (fun a b : K × List (V × List (T × R)) => (a.1, cutV a.2 b.2)) (fun _ _ => rfl) c0 c1 s0 s1 hn
  have hV := replaceLast_downs (Prod.fst : V × List (T × R) → V) (fun a b => (a.1, cutT a.2 b.2)) (fun _ _ => rfl) (trim (surveyK c0 c1)) (trimmed_trim _) hK.2
    (by
      intro a ha
      obtain ⟨X, hX⟩ := lefts_trim (surveyK c0 c1)
      rw [lefts_surveyK] at hX
      exact t0 a (by rw [hX]; simp [ha]))
    (by
      intro a ha
      rw [rights_trim, rights_surveyK] at ha
      exact ⟨t1 a ha, (e1 a ha).1⟩)
  have hV1 : surveyV (cutK c0 c1) c1 = replaceLast (fun a b => (a.1, cutT a.2 b.2)) (trim (surveyV c0 c1)) := by
    rw [surveyV, surveyK, cutK, hK.1, surveyV, trim_downs]; exact hV.1
  have hV2 : trim (surveyV c0 c1) ≠ [] := by rw [surveyV, trim_downs]; exact hV.2
  have hT := replaceLast_downs (timeKey : T × R → Lin T) (fun a _ => a) (fun _ _ => rfl) (trim (surveyV c0 c1)) (trimmed_trim _) hV2
    (by
      intro a ha
      obtain ⟨X, hX⟩ := lefts_trim (surveyV c0 c1)
      rw [lefts_surveyV] at hX
      exact neat_valsC n0 a (by rw [hX]; simp [ha]))
    (by
      intro a ha
      rw [rights_trim, rights_surveyV] at ha
      exact ⟨neat_valsC n1 a ha, noEmpty_valsC e1 a ha⟩)
  refine ⟨hK.1, hV1, ?_⟩
  rw [surveyT, hV1, surveyT, trim_downs]
  rw [replaceLast_self] at hT
  exact hT.1

/-- What the surveys left tell when the first contents are cut. -/
structure CutFacts (c0 c1 c0' : Contents K V T R) : Prop where
  repsK : reps 0 0 (trim (surveyK c0 c1)) = reps 0 0 (surveyK c0' c1)
  repsV : reps 0 0 (trim (surveyV c0 c1)) = reps 0 0 (surveyV c0' c1)
  repsT : reps 0 0 (trim (surveyT c0 c1)) = reps 0 0 (surveyT c0' c1)
  lenK : (lefts (trim (surveyK c0 c1))).length = c0'.length
  lenV : (lefts (trim (surveyV c0 c1))).length = (valsC c0').length
  lenT : (lefts (trim (surveyT c0 c1))).length = (timesC c0').length
  readsK : LayerReads id Prod.fst [.both c0' c1] [c0.map Prod.fst] [c1.map Prod.fst]
  readsV : LayerReads Prod.snd Prod.fst (surveyK c0' c1) (c0.map (itemsOf Prod.snd Prod.fst)) (c1.map (itemsOf Prod.snd Prod.fst))
  readsT : LayerReads Prod.snd Prod.fst (surveyV c0' c1) ((valsC c0).map (itemsOf Prod.snd Prod.fst)) ((valsC c1).map (itemsOf Prod.snd Prod.fst))
  left : ∃ X, timesC c0 = timesC c0' ++ X
  thisK : ∀ l, Rep.this l ∈ surveyK c0' c1 → Rep.this l ∈ surveyK c0 c1
  thisV : ∀ l, Rep.this l ∈ surveyV c0' c1 → Rep.this l ∈ surveyV c0 c1

theorem cutT_out {xs : List (T × R)} (ys : List (T × R)) (h : xs.Pairwise fun a b => timeKey a < timeKey b) : (cutT xs ys).map Prod.fst <+: xs.map Prod.fst :=
  cutWith_out _ _ _ (fun _ _ => rfl) ys h

theorem cutV_out {xs : List (V × List (T × R))} (ys : List (V × List (T × R))) (h : xs.Pairwise fun a b => a.1 < b.1) : (cutV xs ys).map Prod.fst <+: xs.map Prod.fst :=
  cutWith_out Prod.fst (fun a b => (a.1, cutT a.2 b.2)) Prod.fst (fun _ _ => rfl) ys h

theorem cutK_out {xs : Contents K V T R} (ys : Contents K V T R) (h : xs.Pairwise fun a b => a.1 < b.1) : (cutK xs ys).map Prod.fst <+: xs.map Prod.fst :=
  cutWith_out Prod.fst (fun a b => (a.1, cutV a.2 b.2)) Prod.fst (fun _ _ => rfl) ys h

/-- A version of `reads_replaceLast` for the items at hand. -/
theorem reads_replaceLast' (sub : α → List β) (out : β → γ) (f : α → α → α) (rs : List (Rep α)) (hf : ∀ a ∈ lefts rs, ∀ b, itemsOf sub out (f a b) <+: itemsOf sub out a) (X0 X1 : List α) :
    LayerReads sub out (replaceLast f rs) ((lefts rs ++ X0).map (itemsOf sub out)) ((rights rs ++ X1).map (itemsOf sub out)) := by
  induction rs using List.reverseRecOn with
  | nil => trivial
  | append_singleton P r _ =>
    cases r with
    | this l => rw [replaceLast_this]; exact reads_exact sub out _ X0 X1
    | that l => rw [replaceLast_that]; exact reads_exact sub out _ X0 X1
    | both a b =>
      classical
      have := reads_replaceLast sub out (fun a' b' => if a' = a then f a' b' else a') (fun a' b' => by
        split_ifs with h
        · subst h; exact hf a' (by simp [lefts, Rep.left]) b'
        · exact List.prefix_rfl) (P ++ [.both a b]) X0 X1
      rw [replaceLast_both] at this ⊢
      simpa using this

theorem cut_facts {c0 c1 : Contents K V T R} (n0 : Neat c0) (n1 : Neat c1) (e1 : NoEmpty c1) (hn : c1 ≠ []) : CutFacts c0 c1 (cutK c0 c1) := by
  obtain ⟨hK, hV, hT⟩ := survey_cut n0 n1 e1 hn
  obtain ⟨s0, t0⟩ := contentsSorted_iff.1 n0.sorted
  obtain ⟨XK, xK⟩ := lefts_trim (surveyK c0 c1)
  obtain ⟨XV, xV⟩ := lefts_trim (surveyV c0 c1)
  obtain ⟨XT, xT⟩ := lefts_trim (surveyT c0 c1)
  rw [lefts_surveyK] at xK
  rw [lefts_surveyV] at xV
  rw [lefts_surveyT] at xT
  constructor
  · rw [hK, reps_replaceLast]
  · rw [hV, reps_replaceLast]
  · rw [hT]
  · rw [← length_lefts_replaceLast (fun a b => (a.1, cutV a.2 b.2)), ← hK, lefts_surveyK]
  · rw [← length_lefts_replaceLast (fun a b => (a.1, cutT a.2 b.2)), ← hV, lefts_surveyV]
  · rw [← hT, lefts_surveyT]
  · obtain ⟨e, he⟩ := cutK_out c1 s0
    exact ⟨e, [], [], [], by rw [← he]; rfl, by simp [itemsOf], Or.inl rfl, trivial⟩
  · rw [hK]
    have := reads_replaceLast' Prod.snd Prod.fst (fun a b => (a.1, cutV a.2 b.2)) (trim (surveyK c0 c1)) (fun a ha b => cutV_out b.2 (t0 a (by rw [xK]; simp [ha]))) XK []
    rw [List.append_nil, rights_trim, rights_surveyK, ← xK] at this
    exact this
  · rw [hV]
    have := reads_replaceLast' Prod.snd Prod.fst (fun a b => (a.1, cutT a.2 b.2)) (trim (surveyV c0 c1)) (fun a ha b => cutT_out b.2 (neat_valsC n0 a (by rw [xV]; simp [ha]))) XV []
    rw [List.append_nil, rights_trim, rights_surveyV, ← xV] at this
    exact this
  · refine ⟨XT, ?_⟩
    rw [xT, ← hT, lefts_surveyT]
  · intro l hl; rw [hK] at hl; exact mem_replaceLast_this hl
  · intro l hl; rw [hV] at hl; exact mem_replaceLast_this hl

theorem diffs_layoutC (c : Contents K V T R) : (layoutC c).diffs = .of ((timesC c).map fun u => [u.2]) := rfl

/-- Writing what the surveys left tell. -/
theorem write_cut {c0 c1 c0' : Contents K V T R} (h : CutFacts c0 c1 c0') :
    ColTrie.writeFromSurveys (layoutC c0) (layoutC c1) [.both 0 0] (reps 0 0 (surveyK c0' c1)) (reps 0 0 (surveyV c0' c1)) (reps 0 0 (surveyT c0' c1)) =
      some (Forest.layout [mergedC c0' c1]) := by
  obtain ⟨X, hX⟩ := h.left
  exact writeFromSurveys_spec c0' c1 (layoutC c0) (layoutC c1) _ _ _ _ _ _ rfl rfl rfl rfl rfl rfl _ _ _ rfl rfl rfl h.readsK h.readsV h.readsT X []
    (by rw [diffs_layoutC, hX]; exact congrArg (fun l => Lists.of (List.map (fun u : T × R => [u.2]) (l ++ X))) (lefts_surveyT c0' c1).symm)
    (by rw [diffs_layoutC, List.append_nil]; exact congrArg (fun l => Lists.of (List.map (fun u : T × R => [u.2]) l)) (rights_surveyT c0' c1).symm)

theorem pairwise_of_prefix [LinearOrder κ] (out : α → κ) {a b : List α} (h : a.map out <+: b.map out) (hb : b.Pairwise fun x y => out x < out y) :
    a.Pairwise fun x y => out x < out y := by
  rw [← List.pairwise_map (f := out) (R := (· < ·))] at hb ⊢
  exact hb.sublist h.sublist

theorem neat_cutK {c0 : Contents K V T R} (c1 : Contents K V T R) (n0 : Neat c0) : Neat (cutK c0 c1) := by
  obtain ⟨s0, t0⟩ := contentsSorted_iff.1 n0.sorted
  have hmT : ∀ {xs : List (T × R)} (ys : List (T × R)), xs.Pairwise (fun a b => timeKey a < timeKey b) → ∀ u ∈ cutT xs ys, u ∈ xs := by
    intro xs ys hs u hu
    rcases mem_cutWith timeKey _ hs hu with h | ⟨x, hx, _, _, rfl⟩
    · exact h
    · exact hx
  have hV : ∀ {xs : List (V × List (T × R))} (ys : List (V × List (T × R))), xs.Pairwise (fun a b => a.1 < b.1) → (∀ v ∈ xs, v.2.Pairwise fun a b => timeKey a < timeKey b) →
      (∀ v ∈ xs, ∀ u ∈ v.2, u.2 ≠ 0) → ∀ v ∈ cutV xs ys, (v.2.Pairwise fun a b => timeKey a < timeKey b) ∧ ∀ u ∈ v.2, u.2 ≠ 0 := by
    intro xs ys hs ht hz v hv
    rcases mem_cutWith Prod.fst _ hs hv with h | ⟨x, hx, y, _, rfl⟩
    · exact ⟨ht v h, hz v h⟩
    · exact ⟨pairwise_of_prefix timeKey (cutWith_out _ _ _ (fun _ _ => rfl) y.2 (ht x hx)) (ht x hx), fun u hu => hz x hx u (hmT y.2 (ht x hx) u hu)⟩
  have main : ∀ k ∈ cutK c0 c1, (k.2.Pairwise fun a b => a.1 < b.1) ∧ ∀ v ∈ k.2, (v.2.Pairwise fun a b => timeKey a < timeKey b) ∧ ∀ u ∈ v.2, u.2 ≠ 0 := by
    intro k hk
    rcases mem_cutWith Prod.fst _ s0 hk with h | ⟨x, hx, y, _, rfl⟩
    · exact ⟨t0 k h, fun v hv => ⟨n0.times k h v hv, n0.nonzero k h v hv⟩⟩
    · exact ⟨pairwise_of_prefix Prod.fst (cutV_out y.2 (t0 x hx)) (t0 x hx), hV y.2 (t0 x hx) (n0.times x hx) (n0.nonzero x hx)⟩
  exact ⟨contentsSorted_iff.2 ⟨pairwise_of_prefix Prod.fst (cutK_out c1 s0) s0, fun k hk => (main k hk).1⟩, fun k hk v hv => ((main k hk).2 v hv).1, fun k hk v hv => ((main k hk).2 v hv).2⟩

end

end DD
