import Verif.Proofs.CursorUnion

/-! # `CursorList` presents the union of what its cursors present -/

namespace DD

/-! ## Indices of minima -/

section
variable {A : Type*} [LinearOrder A]

/-- The indices in `I` whose key is the least. -/
def minIdx (f : Nat → Option A) (I : List Nat) : List Nat :=
  match (I.filterMap f).min? with
  | none => []
  | some m => I.filter fun i => f i = some m

theorem min?_concat (l : List A) (a : A) : (l ++ [a]).min? = some (match l.min? with | none => a | some m => min m a) := by
  cases hl : l.min? with
  | none => rw [List.min?_eq_none_iff] at hl; subst hl; rfl
  | some m =>
    have h := (List.min?_eq_some_iff).mp hl
    rw [List.min?_eq_some_iff]
    refine ⟨?_, fun b hb => ?_⟩
    · rcases le_total m a with h1 | h1
      · simp only [min_eq_left h1]; exact List.mem_append_left _ h.1
      · simp only [min_eq_right h1]; simp
    · rcases List.mem_append.mp hb with hb | hb
      · exact (min_le_left _ _).trans (h.2 b hb)
      · rw [List.mem_singleton] at hb; subst hb; exact min_le_right _ _

theorem minStep_fold {get : Nat → Option (Option A)} {f : Nat → Option A} (I : List Nat) (hget : ∀ i ∈ I, get i = some (f i)) :
    I.foldlM (minStep get) ([], none) = some (minIdx f I, (I.filterMap f).min?) := by
  induction I using List.reverseRecOn with
  | nil => rfl
  | append_singleton I i ih =>
    rw [List.foldlM_append, ih fun j hj => hget j (List.mem_append_left _ hj)]
    simp only [List.foldlM_cons, List.foldlM_nil, Option.bind_eq_bind, Option.bind_some]
    rw [minStep, hget i (by simp)]
    cases hfi : f i with
    | none =>
      have e1 : (I ++ [i]).filterMap f = I.filterMap f := by simp [hfi]
      simp only
      rw [e1]
      refine congrArg some (Prod.ext ?_ rfl)
      simp only [minIdx]
      rw [e1]
      cases (I.filterMap f).min? with
      | none => rfl
      | some m => simp [List.filter_append, hfi]
    | some key =>
      have e1 : (I ++ [i]).filterMap f = I.filterMap f ++ [key] := by simp [hfi]
      have e2 := min?_concat (I.filterMap f) key
      rw [← e1] at e2
      have e3 : minIdx f (I ++ [i]) = (I ++ [i]).filter fun j => f j = some (match (I.filterMap f).min? with | none => key | some m => min m key) := by
        simp only [minIdx]; rw [e2]
      rw [e2, e3]
      cases hm : (I.filterMap f).min? with
      | none =>
        simp only
        refine congrArg some (Prod.ext ?_ rfl)
        rw [List.min?_eq_none_iff, List.filterMap_eq_nil_iff] at hm
        have h0 : minIdx f I = [] := by
          simp only [minIdx]
          rw [show (I.filterMap f).min? = none from by rw [List.min?_eq_none_iff, List.filterMap_eq_nil_iff]; exact hm]
        have h1 : I.filter (fun j => decide (f j = some key)) = [] := by
          rw [List.filter_eq_nil_iff]
          intro j hj
          rw [hm j hj]; simp
        simp [h0, List.filter_append, hfi, h1]
      | some m =>
        have hmin := (List.min?_eq_some_iff).mp hm
        have h0 : minIdx f I = I.filter fun j => f j = some m := by simp only [minIdx, hm]
        simp only
        rw [h0]
        rcases lt_trichotomy key m with h | h | h
        · rw [if_pos h]
          simp only [Option.pure_def, Option.bind_some, Option.some.injEq, Prod.mk.injEq, min_eq_right h.le, and_true]
          have h1 : I.filter (fun j => decide (f j = some key)) = [] := by
            rw [List.filter_eq_nil_iff]
            intro j hj
            simp only [decide_eq_true_eq]
            intro hc
            exact absurd (hmin.2 key (List.mem_filterMap.mpr ⟨j, hj, hc⟩)) (not_le.mpr h)
          simp [List.filter_append, hfi, h1]
        · subst h
          rw [if_neg (lt_irrefl _), if_pos rfl]
          simp [List.filter_append, hfi]
        · rw [if_neg (not_lt.mpr h.le), if_neg (ne_of_gt h)]
          simp only [Option.pure_def, Option.bind_some, Option.some.injEq, Prod.mk.injEq, min_eq_left h.le, and_true]
          simp [List.filter_append, hfi, (ne_of_gt h)]

end

/-! ## Lists and indices -/

section
variable {X Y : Type*}

/-- The positions of the elements of `xs` that satisfy `q`. -/
def idxOf (q : X → Bool) (xs : List X) : List Nat := (List.range xs.length).filter fun i => (xs[i]?).any q

theorem idxOf_concat (q : X → Bool) (xs : List X) (x : X) : idxOf q (xs ++ [x]) = idxOf q xs ++ (if q x then [xs.length] else []) := by
  rw [idxOf, List.length_append, List.length_singleton, List.range_succ, List.filter_append]
  congr 1
  · apply List.filter_congr
    intro i hi
    rw [List.getElem?_append_left (by simpa using hi)]
  · by_cases h : q x <;> simp [h]

theorem mem_idxOf {q : X → Bool} {xs : List X} {i : Nat} : i ∈ idxOf q xs ↔ ∃ x, xs[i]? = some x ∧ q x = true := by
  rw [idxOf, List.mem_filter, List.mem_range]
  constructor
  · rintro ⟨h1, h2⟩
    rw [List.getElem?_eq_getElem h1] at h2 ⊢
    exact ⟨_, rfl, by simpa using h2⟩
  · rintro ⟨x, h1, h2⟩
    exact ⟨(List.getElem?_eq_some_iff.mp h1).1, by rw [h1]; simpa using h2⟩

theorem nodup_idxOf (q : X → Bool) (xs : List X) : (idxOf q xs).Nodup := List.nodup_range.filter _

theorem filterMap_idxOf (q : X → Bool) (g : X → Option Y) (xs : List X) :
    (idxOf q xs).filterMap (fun i => (xs[i]?).bind g) = (xs.filter q).filterMap g := by
  induction xs using List.reverseRecOn with
  | nil => rfl
  | append_singleton xs x ih =>
    rw [idxOf_concat, List.filterMap_append, List.filter_append, List.filterMap_append, ← ih]
    congr 1
    · apply List.filterMap_congr
      intro i hi
      obtain ⟨y, hy, -⟩ := mem_idxOf.mp hi
      rw [List.getElem?_append_left (List.getElem?_eq_some_iff.mp hy).1]
    · by_cases h : q x
      · have e : (xs ++ [x])[xs.length]? = some x := by simp
        simp only [h, ↓reduceIte, List.filter_cons, List.filter_nil, List.filterMap_cons, List.filterMap_nil, e, Option.bind_some]
      · simp [h]

theorem idxOf_true (xs : List X) : idxOf (fun _ => true) xs = List.range xs.length := by
  rw [idxOf, List.filter_eq_self]
  intro i hi
  rw [List.getElem?_eq_getElem (by simpa using hi)]; rfl

theorem filter_idxOf (q q' : X → Bool) (xs : List X) :
    (idxOf q xs).filter (fun i => (xs[i]?).any q') = idxOf (fun x => q x && q' x) xs := by
  rw [idxOf, List.filter_filter, idxOf]
  apply List.filter_congr
  intro i hi
  rw [List.getElem?_eq_getElem (by simpa using hi)]
  simp [Bool.and_comm]

theorem head?_idxOf (q : X → Bool) (xs : List X) : ((idxOf q xs)[0]?).bind (fun i => xs[i]?) = (xs.filter q).head? := by
  have h := filterMap_idxOf q some xs
  rw [List.filterMap_some] at h
  rw [← h]
  cases hi : idxOf q xs with
  | nil => rfl
  | cons i I =>
    obtain ⟨x, hx, -⟩ := mem_idxOf.mp (show i ∈ idxOf q xs by rw [hi]; simp)
    simp [hx]

end

/-! ## Moving several cursors -/

section
variable {C S K V T R : Type*} [LinearOrder K] [LinearOrder V]

structure Cell (C S K V T R : Type*) where
  s : S
  t : Contents K V T R
  c : C
  p : Pos K V T R

variable {ops : CursorOps C S K V T R} {Rel : S → Contents K V T R → C → Pos K V T R → Prop} {back : Bool}

structure Good (ops : CursorOps C S K V T R) (Rel : S → Contents K V T R → C → Pos K V T R → Prop) (back : Bool) (x : Cell C S K V T R) : Prop where
  sim : Presents ops x.s x.t (Rel x.s x.t) back
  rel : Rel x.s x.t x.c x.p
  sorted : ContentsSorted x.t

theorem Good.keys_sorted {x : Cell C S K V T R} (h : Good ops Rel back x) : SortedKeys x.p.keys :=
  SortedKeys.suffix h.sorted.keys (h.sim.inside _ _ h.rel).keys

theorem callAt_cell {Z : Type*} (xs : List (Cell C S K V T R)) (method : S → C → Option Z) (i : Nat) {x : Cell C S K V T R} (h : xs[i]? = some x) :
    callAt (xs.map (·.c)) (xs.map (·.s)) method i = method x.s x.c := by
  rw [callAt, List.getElem?_map, List.getElem?_map, h]; rfl

theorem moveAt_spec {method : S → C → Option C} {f : Pos K V T R → Pos K V T R} (I : List Nat) :
    ∀ xs : List (Cell C S K V T R), I.Nodup → (∀ x ∈ xs, Good ops Rel back x) →
    (∀ i ∈ I, ∃ x, xs[i]? = some x ∧ ∃ c', method x.s x.c = some c' ∧ Rel x.s x.t c' (f x.p)) →
    ∃ xs' : List (Cell C S K V T R), moveAt (xs.map (·.s)) method I (xs.map (·.c)) = some (xs'.map (·.c)) ∧ xs'.map (·.s) = xs.map (·.s) ∧
      xs'.map (·.t) = xs.map (·.t) ∧ (∀ x ∈ xs', Good ops Rel back x) ∧
      ∀ j, (xs'[j]?).map (·.p) = (xs[j]?).map fun x => if j ∈ I then f x.p else x.p := by
  induction I with
  | nil => intro xs _ hg _; exact ⟨xs, rfl, rfl, rfl, hg, fun j => by simp⟩
  | cons i I ih =>
    intro xs hnd hg hm
    obtain ⟨x, hx, c', hc, hrel⟩ := hm i List.mem_cons_self
    have hi : i < xs.length := (List.getElem?_eq_some_iff.mp hx).1
    rw [List.nodup_cons] at hnd
    have hgx := hg x (List.mem_of_getElem? hx)
    let ys := xs.set i { x with c := c', p := f x.p }
    have es : ys.map (·.s) = xs.map (·.s) := by
      apply List.ext_getElem?
      intro j
      simp only [ys, List.getElem?_map, List.getElem?_set]
      by_cases h1 : i = j
      · subst h1; rw [if_pos rfl, if_pos hi, hx]; rfl
      · rw [if_neg h1]
    have et : ys.map (·.t) = xs.map (·.t) := by
      apply List.ext_getElem?
      intro j
      simp only [ys, List.getElem?_map, List.getElem?_set]
      by_cases h1 : i = j
      · subst h1; rw [if_pos rfl, if_pos hi, hx]; rfl
      · rw [if_neg h1]
    have ec : ys.map (·.c) = (xs.map (·.c)).set i c' := by simp [ys, List.map_set]
    have hgy : ∀ y ∈ ys, Good ops Rel back y := by
      intro y hy
      rcases List.mem_or_eq_of_mem_set hy with h | h
      · exact hg y h
      · subst h; exact ⟨hgx.sim, hrel, hgx.sorted⟩
    obtain ⟨xs', g1, g2, g3, g4, g5⟩ := ih ys hnd.2 hgy (by
      intro j hj
      obtain ⟨y, hy, h⟩ := hm j (List.mem_cons_of_mem _ hj)
      refine ⟨y, ?_, h⟩
      have : i ≠ j := fun h => hnd.1 (h ▸ hj)
      rw [List.getElem?_set_ne this, hy])
    refine ⟨xs', ?_, g2.trans es, g3.trans et, g4, fun j => ?_⟩
    · rw [moveAt, List.foldlM_cons, callAt_cell xs method i hx, hc]
      rw [es, ec] at g1
      exact g1
    · rw [g5 j]
      simp only [ys, List.getElem?_set]
      by_cases hij : i = j
      · subst hij
        rw [if_pos rfl, if_pos hi, hx]
        simp [hnd.1]
      · rw [if_neg hij]
        have : j ≠ i := fun h => hij h.symm
        simp [List.mem_cons, this]

theorem moveAt_map {method : S → C → Option C} {f : Pos K V T R → Pos K V T R} (q : Pos K V T R → Bool) (xs : List (Cell C S K V T R))
    (hg : ∀ x ∈ xs, Good ops Rel back x)
    (hm : ∀ x ∈ xs, q x.p = true → ∃ c', method x.s x.c = some c' ∧ Rel x.s x.t c' (f x.p)) :
    ∃ xs' : List (Cell C S K V T R), moveAt (xs.map (·.s)) method (idxOf (fun x => q x.p) xs) (xs.map (·.c)) = some (xs'.map (·.c)) ∧ xs'.map (·.s) = xs.map (·.s) ∧
      xs'.map (·.t) = xs.map (·.t) ∧ (∀ x ∈ xs', Good ops Rel back x) ∧
      xs'.map (·.p) = (xs.map (·.p)).map fun p => if q p then f p else p := by
  obtain ⟨xs', g1, g2, g3, g4, g5⟩ := moveAt_spec (ops := ops) (Rel := Rel) (method := method) (f := f) (idxOf (fun x => q x.p) xs) xs (nodup_idxOf _ _) hg (by
    intro i hi
    obtain ⟨x, hx, hq⟩ := mem_idxOf.mp hi
    exact ⟨x, hx, hm x (List.mem_of_getElem? hx) hq⟩)
  refine ⟨xs', g1, g2, g3, g4, ?_⟩
  apply List.ext_getElem?
  intro j
  rw [List.getElem?_map, g5 j, List.getElem?_map, List.getElem?_map]
  cases hx : xs[j]? with
  | none => rfl
  | some x =>
    simp only [Option.map_some, mem_idxOf, hx, Option.some.injEq, exists_eq_left']

theorem moveAll_map' {method : S → C → Option C} {f : Contents K V T R → Pos K V T R → Pos K V T R} (xs : List (Cell C S K V T R))
    (hg : ∀ x ∈ xs, Good ops Rel back x)
    (hm : ∀ x ∈ xs, ∃ c', method x.s x.c = some c' ∧ Rel x.s x.t c' (f x.t x.p)) :
    ∃ xs' : List (Cell C S K V T R), moveAll (xs.map (·.s)) method (xs.map (·.c)) = some (xs'.map (·.c)) ∧ xs'.map (·.s) = xs.map (·.s) ∧
      xs'.map (·.t) = xs.map (·.t) ∧ (∀ x ∈ xs', Good ops Rel back x) ∧ xs'.map (·.p) = xs.map fun x => f x.t x.p := by
  have h : ∃ xs' : List (Cell C S K V T R), (((xs.map (·.c)).zip (xs.map (·.s))).mapM fun x => method x.2 x.1) = some (xs'.map (·.c)) ∧ xs'.map (·.s) = xs.map (·.s) ∧
      xs'.map (·.t) = xs.map (·.t) ∧ (∀ x ∈ xs', Good ops Rel back x) ∧ xs'.map (·.p) = xs.map fun x => f x.t x.p := by
    induction xs with
    | nil => exact ⟨[], rfl, rfl, rfl, by simp, rfl⟩
    | cons x xs ih =>
      obtain ⟨xs', g1, g2, g3, g4, g5⟩ := ih (fun y hy => hg y (List.mem_cons_of_mem _ hy)) (fun y hy => hm y (List.mem_cons_of_mem _ hy))
      obtain ⟨c', hc, hrel⟩ := hm x List.mem_cons_self
      have hgx := hg x List.mem_cons_self
      refine ⟨⟨x.s, x.t, c', f x.t x.p⟩ :: xs', ?_, by simp [g2], by simp [g3], ?_, by simp [g5]⟩
      · simp only [List.map_cons, List.zip_cons_cons, List.mapM_cons, hc, g1]
        rfl
      · intro y hy
        rcases List.mem_cons.mp hy with rfl | hy
        · exact ⟨hgx.sim, hrel, hgx.sorted⟩
        · exact g4 y hy
  obtain ⟨xs', g1, g2, g3, g4, g5⟩ := h
  refine ⟨xs', ?_, g2, g3, g4, g5⟩
  rw [moveAll, g1]
  simp

theorem moveAll_map {method : S → C → Option C} {f : Pos K V T R → Pos K V T R} (xs : List (Cell C S K V T R))
    (hg : ∀ x ∈ xs, Good ops Rel back x)
    (hm : ∀ x ∈ xs, ∃ c', method x.s x.c = some c' ∧ Rel x.s x.t c' (f x.p)) :
    ∃ xs' : List (Cell C S K V T R), moveAll (xs.map (·.s)) method (xs.map (·.c)) = some (xs'.map (·.c)) ∧ xs'.map (·.s) = xs.map (·.s) ∧
      xs'.map (·.t) = xs.map (·.t) ∧ (∀ x ∈ xs', Good ops Rel back x) ∧ xs'.map (·.p) = (xs.map (·.p)).map f := by
  obtain ⟨xs', g1, g2, g3, g4, g5⟩ := moveAll_map' (f := fun _ => f) xs hg hm
  exact ⟨xs', g1, g2, g3, g4, by rw [g5, List.map_map]; rfl⟩

/-! ## The merged position -/

theorem headKey_keys (p : Pos K V T R) : headKey p.keys = p.key? := rfl
theorem headKey_vals (p : Pos K V T R) : headKey p.vals = p.val? := rfl

/-- The least current key. -/
def leastKey (ps : List (Pos K V T R)) : Option K := minHead (ps.map (·.keys))

/-- Whether a position is at the least current key. -/
def atMin (ps : List (Pos K V T R)) (p : Pos K V T R) : Bool := p.key?.isSome && decide (p.key? = leastKey ps)

/-- The least current value among positions at the least key. -/
def leastVal (ps : List (Pos K V T R)) : Option V := minHead ((ps.filter (atMin ps)).map (·.vals))

def atMinVal (ps : List (Pos K V T R)) (p : Pos K V T R) : Bool := atMin ps p && (p.val?.isSome && decide (p.val? = leastVal ps))

def merged (ps : List (Pos K V T R)) : Pos K V T R :=
  ⟨unionContents (ps.map (·.keys)), unionVals ((ps.filter (atMin ps)).map (·.vals))⟩

def Fresh (ps : List (Pos K V T R)) : Prop := ∀ p ∈ ps, atMin ps p = false → p = Pos.start p.keys ∨ p.keys = []

theorem leastKey_none {ps : List (Pos K V T R)} (h : leastKey ps = none) : ∀ p ∈ ps, p.keys = [] :=
  fun _ hp => minHead_none h _ (List.mem_map_of_mem hp)

theorem atMin_none {ps : List (Pos K V T R)} (h : leastKey ps = none) (p : Pos K V T R) : atMin ps p = false := by
  rw [atMin, h]
  cases p.key? <;> simp

theorem atMin_iff {ps : List (Pos K V T R)} {k : K} (h : leastKey ps = some k) (p : Pos K V T R) : atMin ps p = true ↔ p.key? = some k := by
  rw [atMin, h]
  cases p.key? <;> simp

theorem keys_ne_nil_of_atMin {ps : List (Pos K V T R)} {p : Pos K V T R} (h : atMin ps p = true) : p.keys ≠ [] := by
  intro hc
  rw [atMin, Pos.key?, hc] at h
  simp at h

theorem merged_key? (ps : List (Pos K V T R)) : (merged ps).key? = leastKey ps := by
  rw [Pos.key?, merged, unionContents]
  cases h : leastKey ps with
  | none => simp only; rw [unionBy_none h]; rfl
  | some k => simp only; rw [unionBy_cons zipVals [] zipVals_nil h]; rfl

theorem merged_val? (ps : List (Pos K V T R)) : (merged ps).val? = leastVal ps := by
  rw [Pos.val?, merged, unionVals]
  cases h : leastVal ps with
  | none => simp only; rw [unionBy_none h]; rfl
  | some k => simp only; rw [unionBy_cons (· ++ ·) [] (by simp) h]; rfl

theorem start_nil : (Pos.start [] : Pos K V T R) = ⟨[], []⟩ := rfl

theorem headsAt_keys {k : K} (ps : List (Pos K V T R)) (hf : ∀ p ∈ ps, p.key? = some k → p = Pos.start p.keys) :
    headsAt k (ps.map (·.keys)) = (ps.filter fun p => decide (p.key? = some k)).map (·.vals) := by
  induction ps with
  | nil => rfl
  | cons p ps ih =>
    have ih := ih fun x hx => hf x (List.mem_cons_of_mem _ hx)
    rw [headsAt] at ih ⊢
    rw [List.map_cons, List.filterMap_cons, List.filter_cons, ih, headKey_keys]
    by_cases h : p.key? = some k
    · rw [if_pos h, if_pos (by simpa using h)]
      have hs := hf p List.mem_cons_self h
      obtain ⟨keys, vals⟩ := p
      cases keys with
      | nil => simp [Pos.key?] at h
      | cons kv keys =>
        have : vals = kv.2 := congrArg Pos.vals hs
        subst this
        rfl
    · rw [if_neg h, if_neg (by simpa using h)]

theorem merged_start {ps : List (Pos K V T R)} (hf : ∀ p ∈ ps, p = Pos.start p.keys ∨ p.keys = []) :
    merged ps = Pos.start (unionContents (ps.map (·.keys))) := by
  cases h : leastKey ps with
  | none =>
    have h0 : unionContents (ps.map (·.keys)) = [] := unionBy_none h
    have h1 : ps.filter (atMin ps) = [] := by rw [List.filter_eq_nil_iff]; intro p _; rw [atMin_none h]; simp
    rw [merged, h0, h1]; rfl
  | some k =>
    have h0 : unionContents (ps.map (·.keys)) = _ := unionBy_cons zipVals [] zipVals_nil h
    rw [merged, h0, Pos.start]
    simp only [List.head?_cons, Option.map_some, Option.getD_some, Pos.mk.injEq, true_and]
    have h1 : ps.filter (atMin ps) = ps.filter fun p => decide (p.key? = some k) := by
      apply List.filter_congr
      intro p _
      rw [Bool.eq_iff_iff, atMin_iff h]; simp
    rw [h1, headsAt_keys]
    · rfl
    · intro p hp hk
      rcases hf p hp with h | h
      · exact h
      · rw [Pos.key?, h] at hk; simp at hk

theorem Pos.start_start (t : Contents K V T R) : (Pos.start t).keys = t := rfl

theorem merged_stepKey {ps : List (Pos K V T R)} (hf : Fresh ps) :
    merged (ps.map fun p => if atMin ps p then p.stepKey else p) = (merged ps).stepKey := by
  rw [merged_start]
  · rw [Pos.stepKey]
    congr 1
    rw [merged]
    simp only
    cases h : leastKey ps with
    | none =>
      have h0 : unionContents (ps.map (·.keys)) = [] := unionBy_none h
      have h1 : (ps.map fun p => if atMin ps p then p.stepKey else p) = ps := by
        conv_rhs => rw [← List.map_id ps]
        apply List.map_congr_left
        intro p _
        rw [atMin_none h]; rfl
      rw [h1, h0]; rfl
    | some k =>
      have h0 : unionContents (ps.map (·.keys)) = _ := unionBy_cons zipVals [] zipVals_nil h
      rw [h0, List.tail_cons, unionContents]
      congr 1
      rw [List.map_map, List.map_map]
      apply List.map_congr_left
      intro p _
      simp only [Function.comp]
      rw [popIf, headKey_keys]
      by_cases hp : atMin ps p = true
      · rw [if_pos hp, if_pos ((atMin_iff h p).mp hp)]; rfl
      · rw [if_neg hp, if_neg (fun hc => hp ((atMin_iff h p).mpr hc))]
  · intro p hp
    obtain ⟨p0, h0, rfl⟩ := List.mem_map.mp hp
    by_cases hp : atMin ps p0 = true
    · rw [if_pos hp]; left; rfl
    · rw [if_neg hp]; exact hf p0 h0 (by simpa using hp)

theorem fresh_of_start {ps : List (Pos K V T R)} (hf : ∀ p ∈ ps, p = Pos.start p.keys ∨ p.keys = []) : Fresh ps := fun p hp _ => hf p hp

theorem stepKey_start {ps : List (Pos K V T R)} (hf : Fresh ps) :
    ∀ p ∈ (ps.map fun p => if atMin ps p then p.stepKey else p), p = Pos.start p.keys ∨ p.keys = [] := by
  intro p hp
  obtain ⟨p0, h0, rfl⟩ := List.mem_map.mp hp
  by_cases hp : atMin ps p0 = true
  · rw [if_pos hp]; left; rfl
  · rw [if_neg hp]; exact hf p0 h0 (by simpa using hp)

theorem rewindVals_start {ps : List (Pos K V T R)} (hf : Fresh ps) :
    ∀ p ∈ (ps.map fun p => if atMin ps p then p.rewindVals else p), p = Pos.start p.keys ∨ p.keys = [] := by
  intro p hp
  obtain ⟨p0, h0, rfl⟩ := List.mem_map.mp hp
  by_cases hp : atMin ps p0 = true
  · rw [if_pos hp]; left; rfl
  · rw [if_neg hp]; exact hf p0 h0 (by simpa using hp)

theorem merged_rewindVals {ps : List (Pos K V T R)} (hf : Fresh ps) :
    merged (ps.map fun p => if atMin ps p then p.rewindVals else p) = (merged ps).rewindVals := by
  rw [merged_start (rewindVals_start hf), Pos.rewindVals]
  congr 2
  rw [List.map_map]
  apply List.map_congr_left
  intro p _
  simp only [Function.comp]
  split_ifs <;> rfl

theorem merged_seekKey {ps : List (Pos K V T R)} (k : K) (hs : ∀ p ∈ ps, SortedKeys p.keys) :
    merged (ps.map fun p => p.seekKey k) = (merged ps).seekKey k := by
  rw [merged_start]
  · rw [Pos.seekKey]
    congr 1
    rw [merged]
    simp only [unionContents]
    rw [← unionBy_dropWhile zipVals k (by
      intro l hl
      obtain ⟨p, hp, rfl⟩ := List.mem_map.mp hl
      exact hs p hp)]
    rw [List.map_map, List.map_map]
    rfl
  · intro p hp
    obtain ⟨p0, h0, rfl⟩ := List.mem_map.mp hp
    left; rfl

/-- Moves that keep the keys keep what is at the least key. -/
theorem leastKey_congr {ps : List (Pos K V T R)} (g : Pos K V T R → Pos K V T R) (hg : ∀ p, (g p).keys = p.keys) :
    leastKey (ps.map g) = leastKey ps := by
  rw [leastKey, List.map_map]
  have : ((fun p => p.keys) ∘ g : Pos K V T R → Contents K V T R) = fun p => p.keys := funext hg
  rw [this]; rfl

theorem atMin_congr {ps : List (Pos K V T R)} (g : Pos K V T R → Pos K V T R) (hg : ∀ p, (g p).keys = p.keys) (p : Pos K V T R) :
    atMin (ps.map g) (g p) = atMin ps p := by
  rw [atMin, atMin, leastKey_congr g hg, Pos.key?, hg]; rfl

theorem filter_atMin_congr {ps : List (Pos K V T R)} (g : Pos K V T R → Pos K V T R) (hg : ∀ p, (g p).keys = p.keys) :
    (ps.map g).filter (atMin (ps.map g)) = (ps.filter (atMin ps)).map g := by
  rw [List.filter_map]
  congr 1
  apply List.filter_congr
  intro p _
  exact atMin_congr g hg p

theorem merged_stepVal {ps : List (Pos K V T R)} :
    merged (ps.map fun p => if atMinVal ps p then p.stepVal else p) = (merged ps).stepVal := by
  have hk : ∀ p, (if atMinVal ps p then p.stepVal else p).keys = p.keys := by intro p; split_ifs <;> rfl
  rw [merged, Pos.stepVal, merged, filter_atMin_congr _ hk]
  simp only [Pos.mk.injEq]
  constructor
  · congr 1
    rw [List.map_map]
    apply List.map_congr_left
    intro p _
    exact hk p
  · rw [unionVals, unionVals]
    cases h : leastVal ps with
    | none =>
      rw [unionBy_none h]
      have h1 : ((ps.filter (atMin ps)).map fun p => if atMinVal ps p then p.stepVal else p) = ps.filter (atMin ps) := by
        conv_rhs => rw [← List.map_id (ps.filter (atMin ps))]
        apply List.map_congr_left
        intro p _
        rw [if_neg]; rfl
        rw [atMinVal, h]; cases p.val? <;> simp
      rw [h1, unionBy_none h]; rfl
    | some v =>
      rw [unionBy_cons (· ++ ·) [] (by simp) h, List.tail_cons]
      congr 1
      rw [List.map_map, List.map_map]
      apply List.map_congr_left
      intro p hp
      simp only [Function.comp]
      rw [popIf, headKey_vals]
      have hm := (List.mem_filter.mp hp).2
      by_cases hv : p.val? = some v
      · rw [if_pos (by rw [atMinVal, hm, h, hv]; simp), if_pos hv]; rfl
      · rw [if_neg (by rw [atMinVal, hm, h]; cases hq : p.val? <;> simp; intro hc; exact hv (hq.trans (congrArg some hc))), if_neg hv]

theorem fresh_stepVal {ps : List (Pos K V T R)} (hf : Fresh ps) : Fresh (ps.map fun p => if atMinVal ps p then p.stepVal else p) := by
  have hk : ∀ p, (if atMinVal ps p then p.stepVal else p).keys = p.keys := by intro p; split_ifs <;> rfl
  intro p hp hm
  obtain ⟨p0, h0, rfl⟩ := List.mem_map.mp hp
  rw [atMin_congr _ hk] at hm
  rw [if_neg (by rw [atMinVal, hm]; simp)]
  exact hf p0 h0 hm

end

end DD
