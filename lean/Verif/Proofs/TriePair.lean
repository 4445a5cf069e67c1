import Verif.Proofs.TrieSuffix

/-! Merging a pair of tries. -/

namespace DD
set_option linter.unusedSectionVars false
variable {α β γ δ κ : Type*}

section
variable {K V T R : Type*} [LinearOrder K] [LinearOrder V] [LinearOrder (Lin T)] [AddCommMonoid R] [DecidableEq R]

theorem canonical_owner {c rest : Contents K V T R} {nk nv nt : Nat} (hc : Canonical c) (h : Owner c nk nv nt rest) : Canonical rest ∧ rest ≠ [] := by
  obtain ⟨P, k, vs, v, ts, X, Z, Y, rfl, hX, rfl, _⟩ := h
  obtain ⟨_, h2, _, h4, _, h6, _, h8⟩ := canonical_mid.1 hc
  refine ⟨?_, by simp⟩
  have := canonical_mid (g0 := ([] : Contents K V T R)) (h0 := Y) (k := k) (vs := (v, X) :: Z)
  rw [List.nil_append] at this
  refine this.2 ⟨⟨⟨by simp, by simp⟩, by simp [NoEmpty]⟩, h2, by simp, h4, by simp, ?_, by simp, ?_⟩
  · have := (List.pairwise_append.1 h6).2.1
    rw [List.pairwise_cons] at this ⊢
    exact this
  · intro w hw
    rcases List.mem_cons.1 hw with rfl | hw
    · exact hX
    · exact h8 w (by simp [hw])

omit [LinearOrder K] [LinearOrder V] [LinearOrder (Lin T)] [AddCommMonoid R] [DecidableEq R] in
theorem upds_mid (P : Contents K V T R) (k : K) (vs : List (V × List (T × R))) (Y : Contents K V T R) :
    Contents.upds (P ++ (k, vs) :: Y) = Contents.upds P ++ ((vs.flatMap fun v => v.2.map fun u => (toLex (k, v.1), u)) ++ Contents.upds Y) := by
  rw [Contents.upds_append, Contents.upds_cons]

omit [LinearOrder K] [LinearOrder V] [LinearOrder (Lin T)] [AddCommMonoid R] [DecidableEq R] in
theorem mem_upds {c : Contents K V T R} {u : (K ×ₗ V) × T × R} (h : u ∈ c.upds) : ∃ k ∈ c, ∃ v ∈ k.2, ∃ x ∈ v.2, u = (toLex (k.1, v.1), x) := by
  obtain ⟨k, hk, h⟩ := List.mem_flatMap.1 h
  obtain ⟨v, hv, h⟩ := List.mem_flatMap.1 h
  obtain ⟨x, hx, rfl⟩ := List.mem_map.1 h
  exact ⟨k, hk, v, hv, x, hx, rfl⟩

/-- What is cut off comes after the last update of the second contents. -/
theorem cutK_owner {c0 c1 : Contents K V T R} (n0 : Neat c0) (e0 : NoEmpty c0) (n1 : Neat c1) (e1 : NoEmpty c1) (hn : c1 ≠ []) :
    cutK c0 c1 = c0 ∨ ∃ rest, Owner c0 (cutK c0 c1).length (valsC (cutK c0 c1)).length (timesC (cutK c0 c1)).length rest ∧
      c0.upds = (cutK c0 c1).upds ++ rest.upds ∧ ∀ r ∈ rest.upds, ∀ w ∈ c1.upds, ltDT w r := by
  obtain ⟨s0, t0⟩ := contentsSorted_iff.1 n0.sorted
  obtain ⟨s1, t1⟩ := contentsSorted_iff.1 n1.sorted
  obtain ⟨Q, ky, Qv, vy, bts, rfl, hb⟩ := split_last hn e1
  obtain ⟨Qt, uy, rfl⟩ : ∃ Qt uy, bts = Qt ++ [uy] := ⟨bts.dropLast, bts.getLast hb, (List.dropLast_append_getLast hb).symm⟩
  -- every update of the second is at most the last
  have last : ∀ w ∈ Contents.upds (Q ++ [(ky, Qv ++ [(vy, Qt ++ [uy])])]), w = (toLex (ky, vy), uy) ∨ ltDT w (toLex (ky, vy), uy) := by
    intro w hw
    obtain ⟨k, hk, v, hv, x, hx, rfl⟩ := mem_upds hw
    rcases List.mem_append.1 hk with hk | hk
    · right; left
      exact Prod.Lex.toLex_lt_toLex.2 (Or.inl ((List.pairwise_append.1 s1).2.2 k hk (ky, Qv ++ [(vy, Qt ++ [uy])]) (by simp)))
    · have hk : k = (ky, Qv ++ [(vy, Qt ++ [uy])]) := by simpa using hk
      subst hk
      rcases List.mem_append.1 hv with hv' | hv'
      · right; left
        have := (List.pairwise_append.1 (t1 _ (by simp : (ky, Qv ++ [(vy, Qt ++ [uy])]) ∈ Q ++ [(ky, Qv ++ [(vy, Qt ++ [uy])])]))).2.2 v hv' _ (by simp : (vy, Qt ++ [uy]) ∈ [(vy, Qt ++ [uy])])
        exact Prod.Lex.toLex_lt_toLex.2 (Or.inr ⟨rfl, this⟩)
      · have hv' : v = (vy, Qt ++ [uy]) := by simpa using hv'
        subst hv'
        rcases List.mem_append.1 hx with hx' | hx'
        · right; right
          have := (List.pairwise_append.1 (n1.times _ (by simp : (ky, Qv ++ [(vy, Qt ++ [uy])]) ∈ Q ++ [(ky, Qv ++ [(vy, Qt ++ [uy])])]) _ hv)).2.2 x hx' _ (by simp : uy ∈ [uy])
          exact ⟨rfl, this⟩
        · left
          have : x = uy := by simpa using hx'
          rw [this]
  have after : ∀ rest : Contents K V T R, (∀ r ∈ rest.upds, ltDT (toLex (ky, vy), uy) r) → ∀ r ∈ rest.upds, ∀ w ∈ Contents.upds (Q ++ [(ky, Qv ++ [(vy, Qt ++ [uy])])]), ltDT w r := by
    intro rest h r hr w hw
    rcases last w hw with rfl | hw
    · exact h r hr
    · exact ltDT_trans hw (h r hr)
  have afterK : ∀ Y : Contents K V T R, (∀ z ∈ Y, ky < z.1) → ∀ r ∈ Y.upds, ltDT (toLex (ky, vy), uy) r := by
    intro Y h r hr
    obtain ⟨k, hk, v, _, x, _, rfl⟩ := mem_upds hr
    exact Or.inl (Prod.Lex.toLex_lt_toLex.2 (Or.inl (h k hk)))
  have afterV : ∀ (Z : List (V × List (T × R))) (Y : Contents K V T R), (∀ z ∈ Z, vy < z.1) → (∀ z ∈ Y, ky < z.1) → ∀ r ∈ Contents.upds ((ky, Z) :: Y), ltDT (toLex (ky, vy), uy) r := by
    intro Z Y hZ hY r hr
    rw [Contents.upds_cons] at hr
    rcases List.mem_append.1 hr with hr | hr
    · obtain ⟨v, hv, hr⟩ := List.mem_flatMap.1 hr
      obtain ⟨x, _, rfl⟩ := List.mem_map.1 hr
      exact Or.inl (Prod.Lex.toLex_lt_toLex.2 (Or.inr ⟨rfl, hZ v hv⟩))
    · exact afterK Y hY r hr
  generalize hc1 : Q ++ [(ky, Qv ++ [(vy, Qt ++ [uy])])] = c1 at *
  have hlast : c1.getLast? = some (ky, Qv ++ [(vy, Qt ++ [uy])]) := by rw [← hc1]; simp
  have noE : ∀ {A B : Contents K V T R}, NoEmpty (A ++ B) → NoEmpty B := fun h k hk => h k (by simp [hk])
  rcases cutWith_cases Prod.fst (fun a b => (a.1, cutV a.2 b.2)) s0 hlast with ⟨P, Y, rfl, e, hY⟩ | ⟨P, x, Y, rfl, hx, e, hY⟩
  · have e : cutK (P ++ Y) c1 = P := e
    rw [e]
    by_cases hYn : Y = []
    · subst hYn; left; simp
    · right
      exact ⟨Y, ownerK hYn (noE e0), Contents.upds_append _ _, after Y (afterK Y hY)⟩
  · obtain ⟨k, xs⟩ := x
    have hx : k = ky := hx
    subst hx
    have e : cutK (P ++ (k, xs) :: Y) c1 = P ++ [(k, cutV xs (Qv ++ [(vy, Qt ++ [uy])]))] := e
    have hmem : (k, xs) ∈ P ++ (k, xs) :: Y := by simp
    have sx := t0 _ hmem
    have ex := e0 _ hmem
    have hlv : (Qv ++ [(vy, Qt ++ [uy])]).getLast? = some (vy, Qt ++ [uy]) := by simp
    -- all of the key is taken
    have whole : cutV xs (Qv ++ [(vy, Qt ++ [uy])]) = xs → (cutK (P ++ (k, xs) :: Y) c1 = P ++ (k, xs) :: Y ∨ ∃ rest,
        Owner (P ++ (k, xs) :: Y) (cutK (P ++ (k, xs) :: Y) c1).length (valsC (cutK (P ++ (k, xs) :: Y) c1)).length (timesC (cutK (P ++ (k, xs) :: Y) c1)).length rest ∧
        Contents.upds (P ++ (k, xs) :: Y) = (cutK (P ++ (k, xs) :: Y) c1).upds ++ rest.upds ∧ ∀ r ∈ rest.upds, ∀ w ∈ Contents.upds c1, ltDT w r) := by
      intro hw
      rw [e, hw]
      by_cases hYn : Y = []
      · subst hYn; left; rfl
      · right
        have := ownerK (P := P ++ [(k, xs)]) hYn (noE (A := P ++ [(k, xs)]) (by simpa using e0))
        refine ⟨Y, by simpa using this, ?_, after Y (afterK Y hY)⟩
        rw [← Contents.upds_append]; simp
    rcases cutWith_cases Prod.fst (fun a b => (a.1, cutT a.2 b.2)) sx hlv with ⟨Pv, Z, rfl, ev, hZ⟩ | ⟨Pv, w, Z, rfl, hw, ev, hZ⟩
    · have ev : cutV (Pv ++ Z) (Qv ++ [(vy, Qt ++ [uy])]) = Pv := ev
      by_cases hZn : Z = []
      · subst hZn; exact whole (by rw [ev]; simp)
      · right
        rw [e, ev]
        have := ownerV (P := P) (Y := Y) k Pv hZn (fun v hv => ex.2 v (by simp [hv]))
        refine ⟨(k, Z) :: Y, ?_, ?_, after _ (afterV Z Y hZ hY)⟩
        · simpa [valsC_append, timesC_append, valsC_cons, timesC_cons, valsC, timesC] using this
        · rw [upds_mid, upds_mid, Contents.upds_cons, List.flatMap_append]; simp [Contents.upds]
    · obtain ⟨v, ws⟩ := w
      have hw : v = vy := hw
      subst hw
      have ev : cutV (Pv ++ (v, ws) :: Z) (Qv ++ [(v, Qt ++ [uy])]) = Pv ++ [(v, cutT ws (Qt ++ [uy]))] := ev
      obtain ⟨X, hX, hXl⟩ := cutWith_self timeKey (n0.times _ hmem (v, ws) (by simp)) (show Qt ++ [uy] ≠ [] by simp)
      have hX : ws = cutT ws (Qt ++ [uy]) ++ X := hX
      by_cases hXn : X = []
      · have hcw : cutT ws (Qt ++ [uy]) = ws := by rw [hXn, List.append_nil] at hX; exact hX.symm
        rw [hcw] at ev
        by_cases hZn : Z = []
        · subst hZn; exact whole ev
        · right
          rw [e, ev]
          have := ownerV (P := P) (Y := Y) k (Pv ++ [(v, ws)]) hZn (fun v hv => ex.2 v (by simp [hv]))
          refine ⟨(k, Z) :: Y, ?_, ?_, after _ (afterV Z Y hZ hY)⟩
          · simpa [valsC_append, timesC_append, valsC_cons, timesC_cons, valsC, timesC] using this
          · rw [upds_mid, upds_mid, Contents.upds_cons, show Pv ++ (v, ws) :: Z = (Pv ++ [(v, ws)]) ++ Z by simp, List.flatMap_append]; simp [Contents.upds]
      · right
        rw [e, ev]
        refine ⟨(k, (v, X) :: Z) :: Y, ⟨P, k, Pv, v, cutT ws (Qt ++ [uy]), X, Z, Y, by rw [← hX], hXn, rfl, Or.inr (by simp), Or.inr ?_, ?_⟩, ?_, after _ ?_⟩
        · simp [valsC, Nat.add_assoc]
        · simp [timesC, valsC, Nat.add_assoc]
        · rw [upds_mid, upds_mid, Contents.upds_cons]
          conv_lhs => rw [hX]
          simp [Contents.upds]
        · intro r hr
          rw [Contents.upds_cons, List.flatMap_cons, List.append_assoc] at hr
          rcases List.mem_append.1 hr with hr | hr
          · obtain ⟨x, hx, rfl⟩ := List.mem_map.1 hr
            exact Or.inr ⟨rfl, hXl x hx uy (by simp)⟩
          · exact afterV Z Y hZ hY r (by rw [Contents.upds_cons]; exact hr)

theorem cutWith_below [LinearOrder κ] (key : α → κ) (f : α → α → α) {xs ys : List α} {y : α} (h0 : xs.Pairwise fun a b => key a < key b) (hy : ys.getLast? = some y) :
    ∀ z ∈ cutWith key f xs ys, key z < key y ∨ ∃ x ∈ xs, key x = key y ∧ z = f x y := by
  obtain ⟨lo, hi, rfl, hlo, ht, hd, hc⟩ := sorted_split key xs (key y) h0
  have e : cutWith key f (lo ++ hi) ys = lo ++ cutHead key f y hi := by
    rw [cutWith, hy]; simp only; rw [ht, hd]
  intro z hz
  rw [e] at hz
  rcases List.mem_append.1 hz with hz | hz
  · exact Or.inl (hlo z hz)
  · cases hi with
    | nil => simp [cutHead] at hz
    | cons x hi =>
      rw [cutHead] at hz
      split_ifs at hz with hx
      · exact Or.inr ⟨x, by simp, hx, by simpa using hz⟩
      · simp at hz

/-- What is not cut off comes no later than the last update of the second contents. -/
theorem cutK_below {c0 c1 : Contents K V T R} (n0 : Neat c0) (e1 : NoEmpty c1) (hn : c1 ≠ []) : ∀ u ∈ (cutK c0 c1).upds, ∃ w ∈ c1.upds, ¬ ltDT w u := by
  obtain ⟨s0, t0⟩ := contentsSorted_iff.1 n0.sorted
  obtain ⟨Q, ky, Qv, vy, bts, rfl, hb⟩ := split_last hn e1
  obtain ⟨Qt, uy, rfl⟩ : ∃ Qt uy, bts = Qt ++ [uy] := ⟨bts.dropLast, bts.getLast hb, (List.dropLast_append_getLast hb).symm⟩
  intro u hu
  refine ⟨(toLex (ky, vy), uy), by simp [Contents.upds], ?_⟩
  obtain ⟨k, hk, v, hv, x, hx, rfl⟩ := mem_upds hu
  have hlt : ∀ {a b : K ×ₗ V} {x y : T × R}, (a < b ∨ a = b ∧ toLin x.1 ≤ toLin y.1) → ¬ ltDT (b, y) (a, x) := by
    rintro a b x y h (h' | ⟨h1, h2⟩)
    · rcases h with h | ⟨rfl, h⟩
      · exact absurd (h.trans h') (lt_irrefl _)
      · exact lt_irrefl _ h'
    · rcases h with h | ⟨h3, h⟩
      · exact absurd h1.symm (ne_of_lt h)
      · exact absurd (h.trans_lt h2) (lt_irrefl _)
  rcases cutWith_below Prod.fst (fun a b => (a.1, cutV a.2 b.2)) s0 (by simp : (Q ++ [(ky, Qv ++ [(vy, Qt ++ [uy])])]).getLast? = some (ky, Qv ++ [(vy, Qt ++ [uy])])) k hk with h | ⟨k', hk', ek, rfl⟩
  · exact hlt (Or.inl (Prod.Lex.toLex_lt_toLex.2 (Or.inl h)))
  · have ek : k'.1 = ky := ek
    rcases cutWith_below Prod.fst (fun a b => (a.1, cutT a.2 b.2)) (t0 k' hk') (by simp : (Qv ++ [(vy, Qt ++ [uy])]).getLast? = some (vy, Qt ++ [uy])) v hv with h | ⟨v', hv', ev, rfl⟩
    · exact hlt (Or.inl (Prod.Lex.toLex_lt_toLex.2 (Or.inr ⟨ek, h⟩)))
    · have ev : v'.1 = vy := ev
      refine hlt (Or.inr ⟨by simp [ek, ev], ?_⟩)
      rcases cutWith_below timeKey (fun a _ => a) (n0.times k' hk' v' hv') (by simp : (Qt ++ [uy]).getLast? = some uy) x hx with h | ⟨x', hx', ex, rfl⟩
      · exact le_of_lt h
      · exact le_of_eq ex

/-! ### Swapping the inputs -/

def Rep.swap : Rep α → Rep α
  | .this l => .that l
  | .that l => .this l
  | .both a b => .both b a

def Report.swap : Report → Report
  | .this l u => .that l u
  | .that l u => .this l u
  | .both a b => .both b a

theorem swap_swap (r : Rep α) : r.swap.swap = r := by cases r <;> rfl
theorem report_swap_swap (r : Report) : r.swap.swap = r := by cases r <;> rfl

theorem map_swap_swap (rs : List Report) : (rs.map Report.swap).map Report.swap = rs := by
  rw [List.map_map, show Report.swap ∘ Report.swap = id from funext report_swap_swap, List.map_id]

theorem align_swap [LinearOrder κ] (key : α → κ) (n : Nat) : ∀ (xs ys : List α), xs.length + ys.length ≤ n → align key ys xs = (align key xs ys).map Rep.swap := by
  induction n with
  | zero =>
    intro xs ys h
    have h1 : xs = [] := List.length_eq_zero_iff.1 (by omega)
    have h2 : ys = [] := List.length_eq_zero_iff.1 (by omega)
    subst h1; subst h2
    simp [align]
  | succ n ih =>
    intro xs ys h
    match xs, ys with
    | [], [] => simp [align]
    | x :: xs, [] => simp [align, Rep.swap]
    | [], y :: ys => simp [align, Rep.swap]
    | x :: xs, y :: ys =>
      simp only [List.length_cons] at h
      rw [align]
      conv_rhs => rw [align]
      rcases lt_trichotomy (key x) (key y) with hlt | he | hlt
      · have hl := (List.dropWhile_sublist (fun z => decide (key z < key y)) (l := xs)).length_le
        rw [if_neg (not_lt.2 hlt.le), if_neg (ne_of_gt hlt), if_pos hlt, List.map_cons, ← ih _ _ (by simp only [List.length_cons]; omega)]; rfl
      · have h1 : ¬ key y < key x := not_lt.2 he.le
        have h2 : ¬ key x < key y := not_lt.2 he.ge
        rw [if_neg h1, if_pos he.symm, if_neg h2, if_pos he, List.map_cons, ← ih _ _ (by omega)]; rfl
      · have hl := (List.dropWhile_sublist (fun z => decide (key z < key x)) (l := ys)).length_le
        rw [if_pos hlt, if_neg (not_lt.2 hlt.le), if_neg (ne_of_gt hlt), List.map_cons, ← ih _ _ (by simp only [List.length_cons]; omega)]; rfl

theorem align_comm [LinearOrder κ] (key : α → κ) (xs ys : List α) : align key ys xs = (align key xs ys).map Rep.swap := align_swap key _ xs ys le_rfl

theorem down_swap [LinearOrder κ] (sub : α → List β) (key : β → κ) (r : Rep α) : r.swap.down sub key = (r.down sub key).map Rep.swap := by
  cases r with
  | this l => rfl
  | that l => rfl
  | both a b => exact align_comm key _ _

theorem downs_swap [LinearOrder κ] (sub : α → List β) (key : β → κ) (rs : List (Rep α)) :
    (rs.map Rep.swap).flatMap (Rep.down sub key) = (rs.flatMap (Rep.down sub key)).map Rep.swap := by
  rw [List.flatMap_map, List.map_flatMap]
  exact congrArg (fun f => List.flatMap f rs) (funext fun r => down_swap sub key r)

theorem left_swap (r : Rep α) : r.swap.left = r.right := by cases r <;> rfl
theorem right_swap (r : Rep α) : r.swap.right = r.left := by cases r <;> rfl

theorem reps_swap (rs : List (Rep α)) : ∀ (o0 o1 : Nat), reps o1 o0 (rs.map Rep.swap) = (reps o0 o1 rs).map Report.swap := by
  induction rs with
  | nil => intros; rfl
  | cons r rs ih =>
    intro o0 o1
    simp only [List.map_cons, reps, left_swap, right_swap, ih]
    congr 1
    cases r <;> rfl

theorem popThat_swap (rs : List Report) : ∀ l : Nat, popThat rs l = ((popThis (rs.map Report.swap) l).1.map Report.swap, (popThis (rs.map Report.swap) l).2) := by
  induction rs with
  | nil => intro l; rfl
  | cons r rs ih =>
    intro l
    cases r with
    | this a b => simp only [popThat, List.map_cons, Report.swap, popThis]; rw [List.map_reverse, List.map_cons, map_swap_swap]; rfl
    | that a b => simp only [popThat, List.map_cons, Report.swap, popThis]; exact ih a
    | both a b => simp only [popThat, List.map_cons, Report.swap, popThis]; rw [List.map_reverse, List.map_cons, map_swap_swap]; rfl

theorem popThat_reps (rs rs' : List (Rep α)) (h : rs' = rs.map Rep.swap) (l : Nat) (hl : l = (lefts rs').length) :
    popThat (reps 0 0 rs).reverse l = ((reps 0 0 (trim rs')).map Report.swap, (lefts (trim rs')).length) := by
  rw [popThat_swap, List.map_reverse, ← reps_swap, ← h, popThis_reps rs' l hl]

theorem reads_swap (sub : α → List β) (out : β → γ) (rs : List (Rep α)) : ∀ (R0 R1 : List (List γ)), LayerReads sub out rs R0 R1 → LayerReads sub out (rs.map Rep.swap) R1 R0 := by
  induction rs with
  | nil => intros; trivial
  | cons r rs ih =>
    intro R0 R1 h
    cases r with
    | this l => obtain ⟨X, e, h⟩ := h; exact ⟨X, e, ih _ _ h⟩
    | that l => obtain ⟨X, e, h⟩ := h; exact ⟨X, e, ih _ _ h⟩
    | both a b =>
      obtain ⟨e0, X0, e1, X1, h0, h1, hc, h⟩ := h
      refine ⟨e1, X1, e0, X0, h1, h0, ?_, ih _ _ h⟩
      rcases hc with rfl | hc
      · exact Or.inl rfl
      · exact Or.inr hc.symm

theorem surveyK_swap (c0 c1 : Contents K V T R) : surveyK c0 c1 = (surveyK c1 c0).map Rep.swap := align_comm _ _ _
theorem surveyV_swap (c0 c1 : Contents K V T R) : surveyV c0 c1 = (surveyV c1 c0).map Rep.swap := by rw [surveyV, surveyK_swap, downs_swap]; rfl
theorem surveyT_swap (c0 c1 : Contents K V T R) : surveyT c0 c1 = (surveyT c1 c0).map Rep.swap := by rw [surveyT, surveyV_swap, downs_swap]; rfl

theorem nodesT_swap {r : Rep (T × R)} (h : ∀ a b, r = .both a b → a.1 = b.1) : nodesT r.swap = nodesT r := by
  cases r with
  | this l => rfl
  | that l => rfl
  | both a b => simp only [Rep.swap, nodesT]; rw [h a b rfl, add_comm]

theorem mergedT_comm (xs ys : List (T × R)) : (align timeKey xs ys).flatMap nodesT = (align timeKey ys xs).flatMap nodesT := by
  rw [align_comm timeKey ys xs, List.flatMap_map]
  apply List.flatMap_congr
  intro r hr
  apply nodesT_swap
  rintro a b rfl
  exact (key_of_both timeKey hr)

theorem mergedV_comm (xs ys : List (V × List (T × R))) : (align Prod.fst xs ys).flatMap nodesV = (align Prod.fst ys xs).flatMap nodesV := by
  rw [align_comm Prod.fst ys xs, List.flatMap_map]
  apply List.flatMap_congr
  intro r hr
  cases r with
  | this l => rfl
  | that l => rfl
  | both a b => simp only [Rep.swap, nodesV]; rw [mergedT_comm, key_of_both Prod.fst hr]

theorem mergedC_comm (c0 c1 : Contents K V T R) : mergedC c0 c1 = mergedC c1 c0 := by
  rw [mergedC, mergedC, align_comm Prod.fst c1 c0, List.flatMap_map]
  apply List.flatMap_congr
  intro r hr
  cases r with
  | this l => rfl
  | that l => rfl
  | both a b => simp only [Rep.swap, nodesK]; rw [mergedV_comm, key_of_both Prod.fst hr]

/-- Writing when the second contents are cut. -/
theorem write_cut' {c0 c1 c1' : Contents K V T R} (h : CutFacts c1 c0 c1') :
    ColTrie.writeFromSurveys (layoutC c0) (layoutC c1) [.both 0 0] (reps 0 0 (surveyK c0 c1')) (reps 0 0 (surveyV c0 c1')) (reps 0 0 (surveyT c0 c1')) =
      some (Forest.layout [mergedC c0 c1']) := by
  obtain ⟨X, hX⟩ := h.left
  refine writeFromSurveys_spec c0 c1' (layoutC c0) (layoutC c1) _ _ _ _ _ _ rfl rfl rfl rfl rfl rfl _ _ _ rfl rfl rfl ?_ ?_ ?_ [] X
    (by rw [diffs_layoutC, List.append_nil]; exact congrArg (fun l => Lists.of (List.map (fun u : T × R => [u.2]) l)) (lefts_surveyT c0 c1').symm)
    (by rw [diffs_layoutC, hX]; exact congrArg (fun l => Lists.of (List.map (fun u : T × R => [u.2]) (l ++ X))) (rights_surveyT c0 c1').symm)
  · exact reads_swap _ _ _ _ _ h.readsK
  · rw [surveyK_swap]; exact reads_swap _ _ _ _ _ h.readsV
  · rw [surveyV_swap]; exact reads_swap _ _ _ _ _ h.readsT

/-! ### The surveys -/

theorem full_down [LinearOrder κ] (sub : α → List β) (key : β → κ) {r : Rep α} (hr : r.Full) (h0 : ∀ a ∈ r.left, sub a ≠ []) (h1 : ∀ a ∈ r.right, sub a ≠ []) :
    ∀ q ∈ r.down sub key, q.Full := by
  intro q hq
  cases r with
  | this l =>
    simp only [Rep.down, List.mem_singleton] at hq
    subst hq
    obtain ⟨x, l, rfl⟩ := List.exists_cons_of_ne_nil hr
    have := h0 x (by simp [Rep.left])
    simp [Rep.Full, this]
  | that l =>
    simp only [Rep.down, List.mem_singleton] at hq
    subst hq
    obtain ⟨x, l, rfl⟩ := List.exists_cons_of_ne_nil hr
    have := h1 x (by simp [Rep.right])
    simp [Rep.Full, this]
  | both a b => exact full_align key _ _ q hq

theorem full_surveyV {c0 c1 : Contents K V T R} (e0 : NoEmpty c0) (e1 : NoEmpty c1) : ∀ r ∈ surveyV c0 c1, r.Full := by
  intro r hr
  obtain ⟨q, hq, hr⟩ := List.mem_flatMap.1 hr
  refine full_down _ _ (full_align _ _ _ q hq) ?_ ?_ r hr
  · intro a ha
    have : a ∈ lefts (surveyK c0 c1) := List.mem_flatMap.2 ⟨q, hq, ha⟩
    rw [lefts_surveyK] at this; exact (e0 a this).1
  · intro a ha
    have : a ∈ rights (surveyK c0 c1) := List.mem_flatMap.2 ⟨q, hq, ha⟩
    rw [rights_surveyK] at this; exact (e1 a this).1

theorem full_surveyT {c0 c1 : Contents K V T R} (e0 : NoEmpty c0) (e1 : NoEmpty c1) : ∀ r ∈ surveyT c0 c1, r.Full := by
  intro r hr
  obtain ⟨q, hq, hr⟩ := List.mem_flatMap.1 hr
  refine full_down _ _ (full_surveyV e0 e1 q hq) ?_ ?_ r hr
  · intro a ha
    have : a ∈ lefts (surveyV c0 c1) := List.mem_flatMap.2 ⟨q, hq, ha⟩
    rw [lefts_surveyV] at this; exact noEmpty_valsC e0 a this
  · intro a ha
    have : a ∈ rights (surveyV c0 c1) := List.mem_flatMap.2 ⟨q, hq, ha⟩
    rw [rights_surveyV] at this; exact noEmpty_valsC e1 a this

theorem linTimes_layoutC (c : Contents K V T R) : (layoutC c).linTimes = .of ((valsC c).map (itemsOf Prod.snd timeKey)) := by
  have e : ∀ (n : Nat) (l : List (V × List (T × R))), ends n (l.map fun v => v.2.map Prod.fst) = ends n (l.map (itemsOf Prod.snd timeKey)) := by
    intro n l
    induction l generalizing n with
    | nil => rfl
    | cons v l ih => simp only [List.map_cons, ends, itemsOf, List.length_map]; rw [ih]
  apply Lists.ext
  · simp only [ColTrie.linTimes, layoutC, Lists.of, List.map_flatten, List.map_map]; congr 1
    simp only [valsC]
    congr 1
    funext v
    simp only [Function.comp, List.map_map]
    rfl
  · exact e 0 _

theorem surveys {c0 c1 : Contents K V T R} (n0 : Neat c0) (e0 : NoEmpty c0) (n1 : Neat c1) (e1 : NoEmpty c1) :
    survey (layoutC c0).keys (layoutC c1).keys [.both 0 0] = some (reps 0 0 (surveyK c0 c1)) ∧
    survey (layoutC c0).vals (layoutC c1).vals (reps 0 0 (surveyK c0 c1)) = some (reps 0 0 (surveyV c0 c1)) ∧
    survey (layoutC c0).linTimes (layoutC c1).linTimes (reps 0 0 (surveyV c0 c1)) = some (reps 0 0 (surveyT c0 c1)) := by
  obtain ⟨s0, t0⟩ := contentsSorted_iff.1 n0.sorted
  obtain ⟨s1, t1⟩ := contentsSorted_iff.1 n1.sorted
  refine ⟨?_, ?_, ?_⟩
  · have := survey_spec id Prod.fst [Rep.both c0 c1] (by simp [Rep.Full]) (by simpa [lefts, Rep.left] using s0) (by simpa [rights, Rep.right] using s1)
    simpa [lefts, rights, Rep.left, Rep.right, Rep.down, itemsOf, layoutC, surveyK, reps, Rep.report] using this
  · have := survey_spec Prod.snd Prod.fst (surveyK c0 c1) (full_align _ _ _) (by rw [lefts_surveyK]; exact t0) (by rw [rights_surveyK]; exact t1)
    rw [lefts_surveyK, rights_surveyK] at this
    exact this
  · have := survey_spec Prod.snd timeKey (surveyV c0 c1) (full_surveyV e0 e1) (by rw [lefts_surveyV]; exact neat_valsC n0) (by rw [rights_surveyV]; exact neat_valsC n1)
    rw [lefts_surveyV, rights_surveyV, ← linTimes_layoutC, ← linTimes_layoutC] at this
    exact this

/-! ### `merge_pair` -/

theorem noEmpty_cut {c0 c1 c0' : Contents K V T R} (e0 : NoEmpty c0) (e1 : NoEmpty c1) (h : CutFacts c0 c1 c0') : NoEmpty (mergedC c0' c1) := by
  refine noEmpty_mergedC e1 ?_ ?_
  · intro l hl k hk
    exact e0 k (mem_of_this _ (h.thisK l hl) hk)
  · intro l hl v hv
    have : v ∈ lefts (surveyV c0 c1) := List.mem_flatMap.2 ⟨_, h.thisV l hl, hv⟩
    rw [lefts_surveyV] at this
    exact noEmpty_valsC e0 v this

/-- What a cursor returned by `merge_pair` stands for. -/
def Left (cur : Option (Nat × Nat × Nat)) (t : ColTrie K V T R) (r : Upds (K ×ₗ V) T R) : Prop :=
  match cur with
  | none => r = []
  | some cur => r ≠ [] ∧ ∃ s, ColTrie.suffixChunk cur t = some s ∧ s.Holds r

variable [DecidableEq T]

theorem upds_mergedC {c0 c1 : Contents K V T R} (h0 : Neat c0) (h1 : Neat c1) (s0 : Consolidated c0.upds) (s1 : Consolidated c1.upds) :
    Forest.upds [mergedC c0 c1] = flatMerge c0.upds c1.upds := by
  refine consolidatedU_unique (consolidated_neatL (neat_mergedC h0 h1)) (consolidated_flatMerge _ _ s0 s1) fun d t => ?_
  rw [total_mergedC, total_flatMerge]

omit [DecidableEq T] [DecidableEq R] in
theorem consolidated_prefix {D : Type*} [LinearOrder D] {a b : Upds D T R} (h : Consolidated (a ++ b)) : Consolidated a :=
  ⟨(List.pairwise_append.1 h.1).1, fun u hu => h.2 u (by simp [hu])⟩

/-- What the reports about the first input that are last lead to. -/
theorem merge_this {c0 c1 : Contents K V T R} (h0 : Canonical c0) (h1 : Canonical c1) (s0 : Consolidated c0.upds) (s1 : Consolidated c1.upds) (hn : c1 ≠ [])
    {P : List (Rep (T × R))} {l : List (T × R)} (hl : surveyT c0 c1 = P ++ [.this l]) :
    ∃ p r k v, CutFacts c0 c1 (cutK c0 c1) ∧ c0.upds = p ++ r ∧ Forest.upds [mergedC (cutK c0 c1) c1] = flatMerge p c1.upds ∧ (∀ u ∈ r, ∀ w ∈ c1.upds, ltDT w u) ∧ (∀ u ∈ p, ∃ w ∈ c1.upds, ¬ ltDT w u) ∧
      nudge (layoutC c0).times (valsC (cutK c0 c1)).length (timesC (cutK c0 c1)).length = some v ∧ nudge (layoutC c0).vals (cutK c0 c1).length v = some k ∧
      Left (some (k, v, (timesC (cutK c0 c1)).length)) (layoutC c0) r ∧ Canonical (mergedC (cutK c0 c1) c1) ∧ NeatL (mergedC (cutK c0 c1) c1) := by
  have n0 := neat_of_consolidated h0.1 s0
  have n1 := neat_of_consolidated h1.1 s1
  have hcut := cut_facts n0 n1 h1.2 hn
  have hl' : l ≠ [] := full_surveyT h0.2 h1.2 (.this l) (by rw [hl]; simp)
  rcases cutK_owner n0 h0.2 n1 h1.2 hn with he | ⟨rest, ho, hu, hr⟩
  · exfalso
    have h2 := hcut.lenT
    rw [he, ← lefts_surveyT c0 c1, hl, trim_this, lefts_append] at h2
    obtain ⟨X, hX⟩ := lefts_trim P
    rw [hX] at h2
    have : (lefts [Rep.this l]).length = l.length := by simp [lefts, Rep.left]
    rw [List.length_append, List.length_append, this] at h2
    have := List.length_pos_iff.2 hl'
    omega
  · obtain ⟨k, v, hv, hk, hs⟩ := suffix_spec ho
    obtain ⟨cr, nr⟩ := canonical_owner h0 ho
    have sp : Consolidated (cutK c0 c1).upds := by rw [hu] at s0; exact consolidated_prefix s0
    have np := neat_cutK c1 n0
    refine ⟨(cutK c0 c1).upds, rest.upds, k, v, hcut, hu, upds_mergedC np n1 sp s1, hr, cutK_below n0 h1.2 hn, hv, hk, ⟨?_, layoutC rest, hs, ?_⟩, ?_, neat_mergedC np n1⟩
    · exact fun h => nr ((upds_eq_nil cr.2).1 h)
    · exact ⟨rest, cr.1, cr.2, (layout_forest nr).symm, rfl⟩
    · exact ⟨(neat_mergedC np n1).sorted, noEmpty_cut h0.2 h1.2 hcut⟩

omit [DecidableEq T] in
theorem ltDT_asymm {D : Type*} [LinearOrder D] {a b : D × T × R} (h : ltDT a b) : ¬ ltDT b a := by
  rintro (h' | ⟨h1, h2⟩)
  · rcases h with h | ⟨h3, h⟩
    · exact lt_asymm h h'
    · exact absurd h3.symm (ne_of_lt h')
  · rcases h with h | ⟨h3, h⟩
    · exact absurd h1.symm (ne_of_lt h)
    · exact lt_asymm h h2

/-- When the last report is about both inputs. -/
theorem below_both {c0 c1 : Contents K V T R} (h0 : Canonical c0) (h1 : Canonical c1) (s0 : Consolidated c0.upds) (s1 : Consolidated c1.upds) (hn : c1 ≠ [])
    {P : List (Rep (T × R))} {a b : T × R} (hl : surveyT c0 c1 = P ++ [.both a b]) : ∀ u ∈ c0.upds, ∃ w ∈ c1.upds, ¬ ltDT w u := by
  have n0 := neat_of_consolidated h0.1 s0
  have n1 := neat_of_consolidated h1.1 s1
  have hcut := cut_facts n0 n1 h1.2 hn
  have hb := cutK_below (c0 := c0) n0 h1.2 hn
  rcases cutK_owner n0 h0.2 n1 h1.2 hn with he | ⟨rest, ho, hu, hr⟩
  · rw [he] at hb; exact hb
  · exfalso
    obtain ⟨cr, nr⟩ := canonical_owner h0 ho
    have h2 := hcut.lenT
    rw [hl, trim_both, ← hl, lefts_surveyT] at h2
    have e : ∀ c : Contents K V T R, (timesC c).length = c.upds.length := by
      intro c; simp [timesC, valsC, Contents.upds, List.length_flatMap, List.flatMap_assoc, Function.comp_def]
    rw [e, e, hu, List.length_append] at h2
    have : rest.upds.length ≠ 0 := fun h => nr ((upds_eq_nil cr.2).1 (List.length_eq_zero_iff.1 h))
    omega

/-- `merge_pair`: each input splits into a part merged and a part left. -/
theorem mergePair_spec {c0 c1 : Contents K V T R} (h0 : Canonical c0) (h1 : Canonical c1) (s0 : Consolidated c0.upds) (s1 : Consolidated c1.upds) (hn0 : c0 ≠ []) (hn1 : c1 ≠ []) :
    ∃ cur0 cur1 g p0 r0 p1 r1, ColTrie.mergePair (layoutC c0) (layoutC c1) = some (cur0, cur1, Forest.layout [g]) ∧ Canonical g ∧ NeatL g ∧
      c0.upds = p0 ++ r0 ∧ c1.upds = p1 ++ r1 ∧ Forest.upds [g] = flatMerge p0 p1 ∧ Left cur0 (layoutC c0) r0 ∧ Left cur1 (layoutC c1) r1 ∧ (r0 = [] ∨ r1 = []) ∧
      (∀ u ∈ r0, ∀ w ∈ c1.upds, ltDT w u) ∧ (∀ u ∈ r1, ∀ w ∈ c0.upds, ltDT w u) ∧
      (∀ u ∈ p0, ∃ w ∈ c1.upds, ¬ ltDT w u) ∧ ∀ u ∈ p1, ∃ w ∈ c0.upds, ¬ ltDT w u := by
  have n0 := neat_of_consolidated h0.1 s0
  have n1 := neat_of_consolidated h1.1 s1
  obtain ⟨q1, q2, q3⟩ := surveys n0 h0.2 n1 h1.2
  rw [ColTrie.mergePair, q1, Option.bind_some, q2, Option.bind_some, q3, Option.bind_some]
  have hne : surveyT c0 c1 ≠ [] := by
    intro he
    have := lefts_surveyT c0 c1
    rw [he] at this
    obtain ⟨P, k, vs, v, ts, rfl, hts⟩ := split_last hn0 h0.2
    apply hts
    have h := congrArg List.length this
    simp [lefts, timesC, valsC] at h
    exact List.length_eq_zero_iff.1 (by omega)
  obtain ⟨P, r, hr⟩ := List.eq_nil_or_concat (surveyT c0 c1) |>.resolve_left hne
  rw [List.concat_eq_append] at hr
  have hlast : (reps 0 0 (surveyT c0 c1)).getLast? = some (r.report (lefts P).length (rights P).length) := by
    rw [hr, reps_append]; simp [reps]
  have lk : ∀ c : Contents K V T R, (layoutC c).keys.values.length = c.length := by intro c; simp [layoutC, Lists.of]
  have lv : ∀ c : Contents K V T R, (layoutC c).vals.values.length = (valsC c).length := by
    intro c
    have : (layoutC c).vals.values = (c.flatMap Prod.snd).map Prod.fst := flatten_itemsOf Prod.snd Prod.fst _
    rw [this, List.length_map, valsC]
  have lt : ∀ c : Contents K V T R, (layoutC c).times.values.length = (timesC c).length := by
    intro c
    have : (layoutC c).times.values = ((c.flatMap Prod.snd).flatMap Prod.snd).map Prod.fst := flatten_itemsOf Prod.snd Prod.fst _
    rw [this, List.length_map, timesC, valsC]
  simp only
  rw [hlast]
  cases r with
  | both a b =>
    simp only [Rep.report]
    have hk : LayerReads id Prod.fst [.both c0 c1] [c0.map Prod.fst] [c1.map Prod.fst] := ⟨[], [], [], [], by simp [itemsOf], by simp [itemsOf], Or.inl rfl, trivial⟩
    have hv := reads_exact Prod.snd Prod.fst (surveyK c0 c1) [] []
    rw [List.append_nil, List.append_nil, lefts_surveyK, rights_surveyK] at hv
    have ht := reads_exact Prod.snd Prod.fst (surveyV c0 c1) [] []
    rw [List.append_nil, List.append_nil, lefts_surveyV, rights_surveyV] at ht
    have hw := writeFromSurveys_spec c0 c1 (layoutC c0) (layoutC c1) _ _ _ _ _ _ rfl rfl rfl rfl rfl rfl (surveyK c0 c1) (surveyV c0 c1) (surveyT c0 c1) rfl rfl rfl hk hv ht [] []
      (by rw [diffs_layoutC, List.append_nil]; exact congrArg (fun l => Lists.of (List.map (fun u : T × R => [u.2]) l)) (lefts_surveyT c0 c1).symm)
      (by rw [diffs_layoutC, List.append_nil]; exact congrArg (fun l => Lists.of (List.map (fun u : T × R => [u.2]) l)) (rights_surveyT c0 c1).symm)
    rw [hw]
    have ng := neat_mergedC n0 n1
    refine ⟨none, none, mergedC c0 c1, c0.upds, [], c1.upds, [], rfl, ⟨ng.sorted, ?_⟩, ng, by simp, by simp, upds_mergedC n0 n1 s0 s1, rfl, rfl, Or.inl rfl, by simp, by simp,
      below_both h0 h1 s0 s1 hn1 hr, below_both h1 h0 s1 s0 hn0 (P := P.map Rep.swap) (a := b) (b := a) (by rw [surveyT_swap, hr]; simp [Rep.swap])⟩
    exact noEmpty_mergedC h1.2 (fun l hl k hk => h0.2 k (mem_of_this _ hl hk)) (fun l hl v hv => by
      have : v ∈ lefts (surveyV c0 c1) := List.mem_flatMap.2 ⟨_, hl, hv⟩
      rw [lefts_surveyV] at this
      exact noEmpty_valsC h0.2 v this)
  | this l =>
    obtain ⟨p, r, k, v, hc, hu, hf, hlt, hb, hv, hk, hL, hg, ng⟩ := merge_this h0 h1 s0 s1 hn1 hr
    simp only [Rep.report]
    rw [popThis_reps (surveyT c0 c1) _ (by rw [lt, lefts_surveyT]), popThis_reps (surveyV c0 c1) _ (by rw [lv, lefts_surveyV]), popThis_reps (surveyK c0 c1) _ (by rw [lk, lefts_surveyK])]
    simp only
    rw [hc.lenK, hc.lenV, hc.lenT, hv, Option.bind_some, hk, Option.bind_some, hc.repsK, hc.repsV, hc.repsT, write_cut hc]
    refine ⟨_, none, _, p, r, c1.upds, [], rfl, hg, ng, hu, by simp, hf, hL, rfl, Or.inr rfl, hlt, by simp, hb, fun w hw => ?_⟩
    obtain ⟨x, r, rfl⟩ := List.exists_cons_of_ne_nil hL.1
    exact ⟨x, by rw [hu]; simp, ltDT_asymm (hlt x (by simp) w hw)⟩
  | that l =>
    have hr' : surveyT c1 c0 = P.map Rep.swap ++ [.this l] := by rw [surveyT_swap, hr]; simp [Rep.swap]
    obtain ⟨p, r, k, v, hc, hu, hf, hlt, hb, hv, hk, hL, hg, ng⟩ := merge_this h1 h0 s1 s0 hn0 hr'
    simp only [Rep.report]
    rw [popThat_reps (surveyT c0 c1) (surveyT c1 c0) (surveyT_swap c1 c0) _ (by rw [lt, lefts_surveyT]),
      popThat_reps (surveyV c0 c1) (surveyV c1 c0) (surveyV_swap c1 c0) _ (by rw [lv, lefts_surveyV]),
      popThat_reps (surveyK c0 c1) (surveyK c1 c0) (surveyK_swap c1 c0) _ (by rw [lk, lefts_surveyK])]
    simp only
    rw [hc.lenK, hc.lenV, hc.lenT, hv, Option.bind_some, hk, Option.bind_some, hc.repsK, hc.repsV, hc.repsT, ← reps_swap, ← reps_swap, ← reps_swap, ← surveyK_swap, ← surveyV_swap,
      ← surveyT_swap, write_cut' hc, mergedC_comm]
    refine ⟨none, _, _, c0.upds, [], p, r, rfl, hg, ng, by simp, hu, ?_, rfl, hL, Or.inl rfl, by simp, hlt, fun w hw => ?_, hb⟩
    swap
    · obtain ⟨x, r, rfl⟩ := List.exists_cons_of_ne_nil hL.1
      exact ⟨x, by rw [hu]; simp, ltDT_asymm (hlt x (by simp) w hw)⟩
    have sp : Consolidated p := by rw [hu] at s1; exact consolidated_prefix s1
    rw [hf]
    refine consolidatedU_unique (consolidated_flatMerge _ _ sp s0) (consolidated_flatMerge _ _ s0 sp) fun d t => ?_
    rw [total_flatMerge, total_flatMerge, add_comm]

end

end DD
