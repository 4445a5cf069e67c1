import Verif.Proofs.CursorList

/-! # `CursorList` meets the contract of cursors -/

namespace DD
variable {C S K V T R : Type*} [LinearOrder K] [LinearOrder V]
variable {ops : CursorOps C S K V T R} {Rel : S → Contents K V T R → C → Pos K V T R → Prop} {back : Bool}

/-- A list of cursors that presents the union of the contents of its parts. -/
def ListRel (ops : CursorOps C S K V T R) (Rel : S → Contents K V T R → C → Pos K V T R → Prop) (back : Bool) (ss : List S) (ts : List (Contents K V T R))
    (l : CursorList C) (p : Pos K V T R) : Prop :=
  ∃ xs : List (Cell C S K V T R), xs.map (·.s) = ss ∧ xs.map (·.t) = ts ∧ xs.map (·.c) = l.cursors ∧ (∀ x ∈ xs, Good ops Rel back x) ∧
    Fresh (xs.map (·.p)) ∧ l.min_key = idxOf (fun x => atMin (xs.map (·.p)) x.p) xs ∧
    l.min_val = idxOf (fun x => atMinVal (xs.map (·.p)) x.p) xs ∧ p = merged (xs.map (·.p)) ∧ p.In (unionContents ts)

theorem filter_map_p (q : Pos K V T R → Bool) (xs : List (Cell C S K V T R)) :
    (xs.map (·.p)).filter q = (xs.filter fun x => q x.p).map (·.p) := by rw [List.filter_map]; rfl

theorem minimize_vals_spec {ss : List S} {l : CursorList C} (xs : List (Cell C S K V T R)) (hs : xs.map (·.s) = ss)
    (hc : xs.map (·.c) = l.cursors) (hg : ∀ x ∈ xs, Good ops Rel back x)
    (hk : l.min_key = idxOf (fun x => atMin (xs.map (·.p)) x.p) xs) :
    l.minimize_vals ops ss = some { l with min_val := idxOf (fun x => atMinVal (xs.map (·.p)) x.p) xs } := by
  set ps := xs.map (·.p) with hps
  have h1 := minStep_fold (get := callAt l.cursors ss ops.get_val) (f := fun i => (xs[i]?).bind fun x => x.p.val?)
    (idxOf (fun x => atMin ps x.p) xs) (by
      intro i hi
      obtain ⟨x, hx, hq⟩ := mem_idxOf.mp hi
      have hgx := hg x (List.mem_of_getElem? hx)
      rw [← hs, ← hc, callAt_cell xs _ i hx, hgx.sim.get_val _ _ hgx.rel (keys_ne_nil_of_atMin hq), hx]; rfl)
  rw [CursorList.minimize_vals, hk, h1]
  simp only [Option.map_some, Option.some.injEq]
  congr 1
  simp only [minIdx]
  rw [filterMap_idxOf]
  have e : (xs.filter fun x => atMin ps x.p).filterMap (fun x => x.p.val?) = ((ps.filter (atMin ps)).map (·.vals)).filterMap headKey := by
    rw [hps, filter_map_p, List.map_map, List.filterMap_map]; rfl
  rw [e]
  have hl : leastVal ps = (((ps.filter (atMin ps)).map (·.vals)).filterMap headKey).min? := rfl
  rw [← hl]
  cases h : leastVal ps with
  | none =>
    simp only
    symm
    rw [idxOf, List.filter_eq_nil_iff]
    intro i hi
    rw [List.getElem?_eq_getElem (by simpa using hi)]
    simp only [Option.any_some, atMinVal, h]
    cases (xs[i]'(by simpa using hi)).p.val? <;> simp
  | some v =>
    simp only
    have h2 : (fun i : Nat => decide (((xs[i]?).bind fun x : Cell C S K V T R => x.p.val?) = some v)) =
        fun i : Nat => (xs[i]?).any fun x : Cell C S K V T R => decide (x.p.val? = some v) := by
      funext i
      cases xs[i]? <;> simp
    rw [h2, filter_idxOf, idxOf, idxOf]
    apply List.filter_congr
    intro i hi
    rw [List.getElem?_eq_getElem (by simpa using hi)]
    simp only [Option.any_some, atMinVal, h]
    cases hv : (xs[i]'(by simpa using hi)).p.val? <;> simp

theorem minimize_keys_spec {ss : List S} {l : CursorList C} (xs : List (Cell C S K V T R)) (hs : xs.map (·.s) = ss)
    (hc : xs.map (·.c) = l.cursors) (hg : ∀ x ∈ xs, Good ops Rel back x) :
    l.minimize_keys ops ss = some { l with min_key := idxOf (fun x => atMin (xs.map (·.p)) x.p) xs,
                                           min_val := idxOf (fun x => atMinVal (xs.map (·.p)) x.p) xs } := by
  set ps := xs.map (·.p) with hps
  have hlen : l.cursors.length = xs.length := by rw [← hc, List.length_map]
  have h1 := minStep_fold (get := callAt l.cursors ss ops.get_key) (f := fun i => (xs[i]?).bind fun x => x.p.key?)
    (List.range xs.length) (by
      intro i hi
      have hi : i < xs.length := by simpa using hi
      have hx := List.getElem?_eq_getElem hi
      have hgx := hg _ (List.mem_of_getElem? hx)
      rw [← hs, ← hc, callAt_cell xs _ i hx, hgx.sim.get_key _ _ hgx.rel, hx]; rfl)
  rw [CursorList.minimize_keys, hlen, h1]
  simp only
  have e : (List.range xs.length).filterMap (fun i => (xs[i]?).bind fun x => x.p.key?) = (ps.map (·.keys)).filterMap headKey := by
    rw [← idxOf_true, filterMap_idxOf, List.filter_eq_self.mpr (by simp), hps, List.map_map, List.filterMap_map]; rfl
  have hm : minIdx (fun i => (xs[i]?).bind fun x => x.p.key?) (List.range xs.length) = idxOf (fun x => atMin ps x.p) xs := by
    simp only [minIdx]
    rw [e]
    have hl : leastKey ps = ((ps.map (·.keys)).filterMap headKey).min? := rfl
    rw [← hl]
    cases h : leastKey ps with
    | none =>
      simp only
      symm
      rw [idxOf, List.filter_eq_nil_iff]
      intro i hi
      rw [List.getElem?_eq_getElem (by simpa using hi)]
      simp [atMin_none h]
    | some k =>
      simp only
      rw [idxOf]
      apply List.filter_congr
      intro i hi
      have hx := List.getElem?_eq_getElem (show i < xs.length by simpa using hi)
      rw [Bool.eq_iff_iff, decide_eq_true_eq, hx, Option.any_some, atMin_iff h]; rfl
  rw [hm]
  exact minimize_vals_spec xs hs hc hg rfl

theorem Pos.in_start {t t' : Contents K V T R} (h : t' <:+ t) : (Pos.start t').In t := by
  refine ⟨h, ?_⟩
  intro kv hkv
  have hkv : t'.head? = some kv := hkv
  simp [Pos.start, hkv]

theorem Pos.In.stepKey {t : Contents K V T R} {p : Pos K V T R} (h : p.In t) : p.stepKey.In t := Pos.in_start ((List.tail_suffix _).trans h.keys)
theorem Pos.In.seekKey {t : Contents K V T R} {p : Pos K V T R} (h : p.In t) (k : K) : (p.seekKey k).In t :=
  Pos.in_start ((List.dropWhile_suffix _).trans h.keys)
theorem Pos.In.rewindVals {t : Contents K V T R} {p : Pos K V T R} (h : p.In t) : p.rewindVals.In t := Pos.in_start h.keys
theorem Pos.In.stepVal {t : Contents K V T R} {p : Pos K V T R} (h : p.In t) : p.stepVal.In t :=
  ⟨h.keys, fun kv hkv => (List.tail_suffix _).trans (h.vals kv hkv)⟩
theorem Pos.In.seekVal {t : Contents K V T R} {p : Pos K V T R} (h : p.In t) (v : V) : (p.seekVal v).In t :=
  ⟨h.keys, fun kv hkv => (List.dropWhile_suffix _).trans (h.vals kv hkv)⟩

/-- Rebuilding the index sets after the cursors moved. -/
theorem relist_keys {ss : List S} {ts : List (Contents K V T R)} {l : CursorList C} {p : Pos K V T R} (xs : List (Cell C S K V T R))
    (hs : xs.map (·.s) = ss) (ht : xs.map (·.t) = ts) (hc : xs.map (·.c) = l.cursors) (hg : ∀ x ∈ xs, Good ops Rel back x)
    (hf : Fresh (xs.map (·.p))) (hp : merged (xs.map (·.p)) = p) (hin : p.In (unionContents ts)) :
    ∃ l', l.minimize_keys ops ss = some l' ∧ ListRel ops Rel back ss ts l' p :=
  ⟨_, minimize_keys_spec xs hs hc hg, xs, hs, ht, hc, hg, hf, rfl, rfl, hp.symm, hin⟩

theorem head_mem_filter {X : Type*} {q : X → Bool} {xs : List X} {x : X} (h : (xs.filter q).head? = some x) : x ∈ xs ∧ q x = true :=
  List.mem_filter.mp (List.mem_of_head? h)

theorem exists_atMin {ps : List (Pos K V T R)} {k : K} (h : leastKey ps = some k) : ∃ p ∈ ps, atMin ps p = true := by
  obtain ⟨l, hl, he⟩ := minHead_mem h
  obtain ⟨p, hp, rfl⟩ := List.mem_map.mp hl
  exact ⟨p, hp, (atMin_iff h p).mpr he⟩

theorem exists_atMinVal {ps : List (Pos K V T R)} {v : V} (h : leastVal ps = some v) : ∃ p ∈ ps, atMinVal ps p = true := by
  obtain ⟨l, hl, he⟩ := minHead_mem h
  obtain ⟨p, hp, rfl⟩ := List.mem_map.mp hl
  obtain ⟨h1, h2⟩ := List.mem_filter.mp hp
  refine ⟨p, h1, ?_⟩
  have he : p.val? = some v := he
  rw [atMinVal, h2, h, he]; simp

/-- The first index of a set of indices of elements with property `q`. -/
theorem first_idx (q : Cell C S K V T R → Bool) (xs : List (Cell C S K V T R)) :
    ((idxOf q xs)[0]? = none ∧ ∀ x ∈ xs, q x = false) ∨ ∃ i x, (idxOf q xs)[0]? = some i ∧ xs[i]? = some x ∧ q x = true := by
  cases h : (idxOf q xs)[0]? with
  | none =>
    left
    refine ⟨rfl, fun x hx => ?_⟩
    have hnil : idxOf q xs = [] := by
      cases hi : idxOf q xs with
      | nil => rfl
      | cons i I => rw [hi] at h; simp at h
    by_contra hq
    obtain ⟨i, hi⟩ := List.getElem?_of_mem hx
    have : i ∈ idxOf q xs := mem_idxOf.mpr ⟨x, hi, by simpa using hq⟩
    rw [hnil] at this; simp at this
  | some i =>
    right
    obtain ⟨x, hx, hq⟩ := mem_idxOf.mp (List.mem_of_getElem? h)
    exact ⟨i, x, rfl, hx, hq⟩

theorem isEmpty_idx (q : Cell C S K V T R → Bool) (xs : List (Cell C S K V T R)) : (idxOf q xs).isEmpty = !xs.any q := by
  rw [Bool.eq_iff_iff]
  simp only [List.isEmpty_iff, Bool.not_eq_true', List.any_eq_false]
  constructor
  · intro h x hx hq
    obtain ⟨i, hi⟩ := List.getElem?_of_mem hx
    have : i ∈ idxOf q xs := mem_idxOf.mpr ⟨x, hi, hq⟩
    rw [h] at this; simp at this
  · intro h
    rw [List.eq_nil_iff_forall_not_mem]
    intro i hi
    obtain ⟨x, hx, hq⟩ := mem_idxOf.mp hi
    exact h x (List.mem_of_getElem? hx) hq

theorem any_atMin (xs : List (Cell C S K V T R)) :
    xs.any (fun x => atMin (xs.map (·.p)) x.p) = (leastKey (xs.map (·.p))).isSome := by
  cases h : leastKey (xs.map (·.p)) with
  | none => simp [atMin_none h]
  | some k =>
    obtain ⟨p, hp, hq⟩ := exists_atMin h
    obtain ⟨x, hx, rfl⟩ := List.mem_map.mp hp
    simp only [Option.isSome_some, List.any_eq_true]
    exact ⟨x, hx, hq⟩

theorem any_atMinVal (xs : List (Cell C S K V T R)) :
    xs.any (fun x => atMinVal (xs.map (·.p)) x.p) = (leastVal (xs.map (·.p))).isSome := by
  cases h : leastVal (xs.map (·.p)) with
  | none =>
    simp only [Option.isSome_none, List.any_eq_false, Bool.not_eq_true]
    intro x _
    rw [atMinVal, h]; cases x.p.val? <;> simp
  | some k =>
    obtain ⟨p, hp, hq⟩ := exists_atMinVal h
    obtain ⟨x, hx, rfl⟩ := List.mem_map.mp hp
    simp only [Option.isSome_some, List.any_eq_true]
    exact ⟨x, hx, hq⟩

theorem val_of_atMinVal {ps : List (Pos K V T R)} {p : Pos K V T R} (h : atMinVal ps p = true) :
    atMin ps p = true ∧ p.vals ≠ [] ∧ p.val? = leastVal ps := by
  rw [atMinVal] at h
  simp only [Bool.and_eq_true, decide_eq_true_eq] at h
  refine ⟨h.1, ?_, h.2.2⟩
  intro hc
  rw [Pos.val?, hc] at h; simp at h

theorem key_of_atMin {ps : List (Pos K V T R)} {p : Pos K V T R} (h : atMin ps p = true) : p.key? = leastKey ps := by
  rw [atMin] at h
  simp only [Bool.and_eq_true, decide_eq_true_eq] at h
  exact h.2

theorem mapM_idxOf {Z : Type*} (q : Cell C S K V T R → Bool) (xs : List (Cell C S K V T R)) (method : S → C → Option Z) (g : Cell C S K V T R → Z)
    (h : ∀ x ∈ xs, q x = true → method x.s x.c = some (g x)) :
    (idxOf q xs).mapM (callAt (xs.map (·.c)) (xs.map (·.s)) method) = some ((xs.filter q).map g) := by
  have h1 : ∀ I : List Nat, (∀ i ∈ I, ∃ x, xs[i]? = some x ∧ q x = true) →
      I.mapM (callAt (xs.map (·.c)) (xs.map (·.s)) method) = some (I.filterMap fun i => (xs[i]?).bind fun x => some (g x)) := by
    intro I
    induction I with
    | nil => intro _; rfl
    | cons i I ih =>
      intro hI
      obtain ⟨x, hx, hq⟩ := hI i List.mem_cons_self
      rw [List.mapM_cons, callAt_cell xs method i hx, h x (List.mem_of_getElem? hx) hq, ih fun j hj => hI j (List.mem_cons_of_mem _ hj)]
      simp [hx]
  rw [h1 _ fun i hi => mem_idxOf.mp hi, filterMap_idxOf]
  simp

theorem seekBase_in {t : Contents K V T R} {p : Pos K V T R} (h : p.In t) (back : Bool) : (p.seekBase t back).In t := by
  cases back with
  | false => exact h
  | true => exact Pos.in_start (List.suffix_refl _)

theorem merged_starts (xs : List (Cell C S K V T R)) : merged (xs.map fun x => Pos.start x.t) = Pos.start (unionContents (xs.map (·.t))) := by
  rw [merged_start]
  · rw [List.map_map]; rfl
  · intro q hq
    obtain ⟨x, _, rfl⟩ := List.mem_map.mp hq
    left; rfl

theorem merged_seekBase (xs : List (Cell C S K V T R)) (back : Bool) :
    merged (xs.map fun x => x.p.seekBase x.t back) = (merged (xs.map (·.p))).seekBase (unionContents (xs.map (·.t))) back := by
  cases back with
  | false => rfl
  | true => exact merged_starts xs


/-- `CursorList` meets the contract, except for `seek_val`. -/
theorem cursorList_presents (ss : List S) (ts : List (Contents K V T R)) :
    Presents (CursorList.ops ops) ss (unionContents ts) (ListRel ops Rel back ss ts) back where
  inside := by rintro c p ⟨xs, -, -, -, -, -, -, -, -, h⟩; exact h
  key_valid := by
    rintro l p ⟨xs, h1, h2, h3, h4, h5, h6, h7, rfl, h9⟩
    show some l.key_valid = _
    rw [CursorList.key_valid, h6, isEmpty_idx, Bool.not_not, any_atMin, merged_key?]
  get_key := by
    rintro l p ⟨xs, h1, h2, h3, h4, h5, h6, h7, rfl, h9⟩
    show CursorList.get_key ops ss l = _
    rw [CursorList.get_key, h6, merged_key?]
    rcases first_idx (fun x => atMin (xs.map (·.p)) x.p) xs with ⟨g1, g2⟩ | ⟨i, x, g1, g2, g3⟩
    · rw [g1]
      simp only
      have := any_atMin xs
      rw [List.any_eq_false.mpr (fun x hx => by simp [g2 x hx])] at this
      cases h : leastKey (xs.map (·.p)) with
      | none => rfl
      | some k => rw [h] at this; simp at this
    · rw [g1]
      simp only
      have hx := h4 x (List.mem_of_getElem? g2)
      rw [← h1, ← h3, callAt_cell xs _ i g2, hx.sim.key _ _ hx.rel, key_of_atMin g3]
      obtain ⟨k, hk⟩ : ∃ k, leastKey (xs.map (·.p)) = some k := by
        rw [← key_of_atMin g3]
        cases hk : x.p.key? with
        | none => rw [atMin, hk] at g3; simp at g3
        | some k => exact ⟨k, rfl⟩
      rw [hk]; rfl
  key := by
    rintro l p ⟨xs, h1, h2, h3, h4, h5, h6, h7, rfl, h9⟩
    show CursorList.key ops ss l = _
    rw [CursorList.key, h6, merged_key?]
    rcases first_idx (fun x => atMin (xs.map (·.p)) x.p) xs with ⟨g1, g2⟩ | ⟨i, x, g1, g2, g3⟩
    · rw [g1]
      simp only
      have := any_atMin xs
      rw [List.any_eq_false.mpr (fun x hx => by simp [g2 x hx])] at this
      cases h : leastKey (xs.map (·.p)) with
      | none => rfl
      | some k => rw [h] at this; simp at this
    · rw [g1]
      simp only
      have hx := h4 x (List.mem_of_getElem? g2)
      rw [← h1, ← h3, callAt_cell xs _ i g2, callAt_cell xs _ i g2, hx.sim.key_valid _ _ hx.rel, hx.sim.key _ _ hx.rel, key_of_atMin g3]
      obtain ⟨k, hk⟩ : ∃ k, leastKey (xs.map (·.p)) = some k := by
        rw [← key_of_atMin g3]
        cases hk : x.p.key? with
        | none => rw [atMin, hk] at g3; simp at g3
        | some k => exact ⟨k, rfl⟩
      rw [hk]; rfl
  val_valid := by
    rintro l p ⟨xs, h1, h2, h3, h4, h5, h6, h7, rfl, h9⟩ _
    show some l.val_valid = _
    rw [CursorList.val_valid, h7, isEmpty_idx, Bool.not_not, any_atMinVal, merged_val?]
  get_val := by
    rintro l p ⟨xs, h1, h2, h3, h4, h5, h6, h7, rfl, h9⟩ _
    show CursorList.get_val ops ss l = _
    rw [CursorList.get_val, h7, merged_val?]
    rcases first_idx (fun x => atMinVal (xs.map (·.p)) x.p) xs with ⟨g1, g2⟩ | ⟨i, x, g1, g2, g3⟩
    · rw [g1]
      simp only
      have := any_atMinVal xs
      rw [List.any_eq_false.mpr (fun x hx => by simp [g2 x hx])] at this
      cases h : leastVal (xs.map (·.p)) with
      | none => rfl
      | some k => rw [h] at this; simp at this
    · rw [g1]
      simp only
      have hx := h4 x (List.mem_of_getElem? g2)
      obtain ⟨g4, g5, g6⟩ := val_of_atMinVal g3
      rw [← h1, ← h3, callAt_cell xs _ i g2, hx.sim.val _ _ hx.rel (keys_ne_nil_of_atMin g4) g5, ← g6]
      cases hv : x.p.val? with
      | none => rw [Pos.val?] at hv; cases hh : x.p.vals <;> simp_all
      | some v => rfl
  val := by
    rintro l p ⟨xs, h1, h2, h3, h4, h5, h6, h7, rfl, h9⟩ hk0 hv0
    show CursorList.val ops ss l = _
    rw [CursorList.val, CursorList.key_valid, h6, isEmpty_idx, Bool.not_not, any_atMin, ← merged_key?]
    have hks : (merged (xs.map (·.p))).key?.isSome = true := by
      rw [Pos.key?]
      cases h : (merged (xs.map (·.p))).keys with
      | nil => exact absurd h hk0
      | cons a l => rfl
    rw [if_pos hks, h7]
    rcases first_idx (fun x => atMinVal (xs.map (·.p)) x.p) xs with ⟨g1, g2⟩ | ⟨i, x, g1, g2, g3⟩
    · exfalso
      have := any_atMinVal xs
      rw [List.any_eq_false.mpr (fun x hx => by simp [g2 x hx]), ← merged_val?, Pos.val?] at this
      cases h : (merged (xs.map (·.p))).vals with
      | nil => exact absurd h hv0
      | cons a l => rw [h] at this; simp at this
    · rw [g1]
      simp only
      have hx := h4 x (List.mem_of_getElem? g2)
      obtain ⟨g4, g5, g6⟩ := val_of_atMinVal g3
      rw [← h1, ← h3, callAt_cell xs _ i g2, callAt_cell xs _ i g2, hx.sim.val_valid _ _ hx.rel (keys_ne_nil_of_atMin g4),
        hx.sim.val _ _ hx.rel (keys_ne_nil_of_atMin g4) g5, merged_val?, ← g6]
      cases hv : x.p.val? with
      | none => rw [Pos.val?] at hv; cases hh : x.p.vals <;> simp_all
      | some v => rfl
  map_times := by
    rintro l p ⟨xs, h1, h2, h3, h4, h5, h6, h7, rfl, h9⟩ hk0 hv0
    show CursorList.map_times ops ss l = _
    rw [CursorList.map_times, h7, ← h1, ← h3, mapM_idxOf _ _ _ (fun x => (x.p.upds?).getD [])]
    · simp only [Option.map_some]
      rw [Pos.upds?]
      cases h : leastVal (xs.map (·.p)) with
      | none =>
        rw [← merged_val?, Pos.val?] at h
        cases hh : (merged (xs.map (·.p))).vals with
        | nil => exact absurd hh hv0
        | cons a l => rw [hh] at h; simp at h
      | some v =>
        rw [merged, unionVals, unionBy_cons (· ++ ·) [] (by simp) h, foldr_append]
        simp only [List.head?_cons, Option.map_some, Option.some.injEq]
        congr 1
        rw [headsAt, filter_map_p, List.map_map, List.filterMap_map]
        have : ∀ ys : List (Cell C S K V T R), (ys.filter fun x => atMinVal (xs.map (·.p)) x.p).map (fun x => (x.p.upds?).getD []) =
            (ys.filter fun x => atMin (xs.map (·.p)) x.p).filterMap
              ((fun l => if headKey l = some v then l.head?.map Prod.snd else none) ∘ ((fun p => p.vals) ∘ fun x => x.p)) := by
          intro ys
          induction ys with
          | nil => rfl
          | cons y ys ih =>
            rw [List.filter_cons, List.filter_cons]
            by_cases ha : atMin (xs.map (·.p)) y.p = true
            · rw [if_pos ha, List.filterMap_cons]
              simp only [Function.comp]
              rw [headKey_vals]
              by_cases hv : y.p.val? = some v
              · rw [if_pos (by rw [atMinVal, ha, h, hv]; simp), if_pos hv, List.map_cons, ih]
                rw [Pos.upds?]
                cases hy : y.p.vals with
                | nil => rw [Pos.val?, hy] at hv; simp at hv
                | cons a l => rfl
              · rw [if_neg (by rw [atMinVal, ha, h]; cases hq : y.p.val? <;> simp; intro hc; exact hv (hq.trans (congrArg some hc))), if_neg hv, ih]
                rfl
            · rw [if_neg ha, if_neg (by rw [atMinVal]; simp [ha]), ih]
        exact this xs
    · intro x hx hq
      have hgx := h4 x hx
      obtain ⟨g4, g5, g6⟩ := val_of_atMinVal hq
      rw [hgx.sim.map_times _ _ hgx.rel (keys_ne_nil_of_atMin g4) g5, Pos.upds?]
      cases hy : x.p.vals with
      | nil => exact absurd hy g5
      | cons a l => rfl
  step_key := by
    rintro l p ⟨xs, h1, h2, h3, h4, h5, h6, h7, rfl, h9⟩
    obtain ⟨xs', g1, g2, g3, g4, g5⟩ := moveAt_map (ops := ops) (Rel := Rel) (method := ops.step_key) (f := Pos.stepKey)
      (atMin (xs.map (·.p))) xs h4 (fun x hx _ => (h4 x hx).sim.step_key _ _ (h4 x hx).rel)
    show ∃ l', CursorList.step_key ops ss l = some l' ∧ _
    rw [CursorList.step_key, h6, ← h3, ← h1, g1]
    simp only
    rw [h1]
    exact relist_keys (l := { l with cursors := xs'.map (·.c) }) xs' (g2.trans h1) (g3.trans h2) rfl g4
      (by rw [g5]; exact fresh_of_start (stepKey_start h5)) (by rw [g5]; exact merged_stepKey h5) h9.stepKey
  seek_key := by
    rintro l p k ⟨xs, h1, h2, h3, h4, h5, h6, h7, rfl, h9⟩
    obtain ⟨xs', g1, g2, g3, g4, g5⟩ := moveAll_map' (ops := ops) (Rel := Rel) (method := fun s c => ops.seek_key s c k) (f := fun t p => (p.seekBase t back).seekKey k)
      xs h4 (fun x hx => (h4 x hx).sim.seek_key _ _ k (h4 x hx).rel)
    show ∃ l', CursorList.seek_key ops ss l k = some l' ∧ _
    rw [CursorList.seek_key, ← h3, ← h1, g1]
    simp only
    rw [h1]
    refine relist_keys (l := { l with cursors := xs'.map (·.c) }) xs' (g2.trans h1) (g3.trans h2) rfl g4 ?_ ?_ ((seekBase_in h9 back).seekKey k)
    · rw [g5]
      apply fresh_of_start
      intro q hq
      obtain ⟨q0, _, rfl⟩ := List.mem_map.mp hq
      left; rfl
    · have e : (xs.map fun x => (x.p.seekBase x.t back).seekKey k) = (xs.map fun x => x.p.seekBase x.t back).map fun p => p.seekKey k := by
        rw [List.map_map]; rfl
      rw [g5, e, merged_seekKey]
      · rw [merged_seekBase, h2]
      · intro q hq
        obtain ⟨x, hx, rfl⟩ := List.mem_map.mp hq
        cases back with
        | false => exact (h4 x hx).keys_sorted
        | true => exact (h4 x hx).sorted.keys
  step_val := by
    rintro l p ⟨xs, h1, h2, h3, h4, h5, h6, h7, rfl, h9⟩ _
    obtain ⟨xs', g1, g2, g3, g4, g5⟩ := moveAt_map (ops := ops) (Rel := Rel) (method := ops.step_val) (f := Pos.stepVal)
      (atMinVal (xs.map (·.p))) xs h4 (fun x hx hq => (h4 x hx).sim.step_val _ _ (h4 x hx).rel (keys_ne_nil_of_atMin (val_of_atMinVal hq).1))
    show ∃ l', CursorList.step_val ops ss l = some l' ∧ _
    rw [CursorList.step_val, h7, ← h3, ← h1, g1]
    simp only
    rw [h1]
    have hk : ∀ p : Pos K V T R, (if atMinVal (xs.map (·.p)) p then p.stepVal else p).keys = p.keys := by intro p; split_ifs <;> rfl
    have hmk : l.min_key = idxOf (fun x => atMin (xs'.map (·.p)) x.p) xs' := by
      rw [h6, idxOf, idxOf]
      have hlen : xs'.length = xs.length := by rw [← List.length_map (f := (·.s)) (as := xs'), g2, List.length_map]
      rw [hlen]
      apply List.filter_congr
      intro i hi
      have hi : i < xs.length := by simpa using hi
      rw [List.getElem?_eq_getElem hi, List.getElem?_eq_getElem (by omega : i < xs'.length)]
      simp only [Option.any_some]
      have hp : (xs'[i]'(by omega)).p = (if atMinVal (xs.map (·.p)) (xs[i]).p then (xs[i]).p.stepVal else (xs[i]).p) := by
        have := congrArg (fun l => l[i]?) g5
        simp only [List.getElem?_map, List.getElem?_eq_getElem hi, List.getElem?_eq_getElem (by omega : i < xs'.length), Option.map_some,
          Option.some.injEq] at this
        exact this
      rw [g5, hp, atMin_congr _ hk]
    refine ⟨_, minimize_vals_spec (l := { l with cursors := xs'.map (·.c) }) xs' (g2.trans h1) rfl g4 hmk, xs', g2.trans h1, g3.trans h2, rfl, g4,
      by rw [g5]; exact fresh_stepVal h5, hmk, rfl, by rw [g5]; exact merged_stepVal.symm, h9.stepVal⟩
  rewind_keys := by
    rintro l p ⟨xs, h1, h2, h3, h4, h5, h6, h7, rfl, h9⟩
    have hm : ∃ xs' : List (Cell C S K V T R), moveAll (xs.map (·.s)) ops.rewind_keys (xs.map (·.c)) = some (xs'.map (·.c)) ∧
        xs'.map (·.s) = xs.map (·.s) ∧ xs'.map (·.t) = xs.map (·.t) ∧ (∀ x ∈ xs', Good ops Rel back x) ∧
        xs'.map (·.p) = xs.map fun x => Pos.start x.t := by
      have : ∃ xs' : List (Cell C S K V T R), (((xs.map (·.c)).zip (xs.map (·.s))).mapM fun x => ops.rewind_keys x.2 x.1) = some (xs'.map (·.c)) ∧
          xs'.map (·.s) = xs.map (·.s) ∧ xs'.map (·.t) = xs.map (·.t) ∧ (∀ x ∈ xs', Good ops Rel back x) ∧
          xs'.map (·.p) = xs.map fun x => Pos.start x.t := by
        clear h1 h2 h3 h5 h6 h7 h9
        induction xs with
        | nil => exact ⟨[], rfl, rfl, rfl, by simp, rfl⟩
        | cons x xs ih =>
          obtain ⟨xs', g1, g2, g3, g4, g5⟩ := ih fun y hy => h4 y (List.mem_cons_of_mem _ hy)
          have hgx := h4 x List.mem_cons_self
          obtain ⟨c', hc, hrel⟩ := hgx.sim.rewind_keys _ _ hgx.rel
          refine ⟨⟨x.s, x.t, c', Pos.start x.t⟩ :: xs', ?_, by simp [g2], by simp [g3], ?_, by simp [g5]⟩
          · simp only [List.map_cons, List.zip_cons_cons, List.mapM_cons, hc, g1]
            rfl
          · intro y hy
            rcases List.mem_cons.mp hy with rfl | hy
            · exact ⟨hgx.sim, hrel, hgx.sorted⟩
            · exact g4 y hy
      obtain ⟨xs', g1, g⟩ := this
      refine ⟨xs', ?_, g⟩
      rw [moveAll, g1]; simp
    obtain ⟨xs', g1, g2, g3, g4, g5⟩ := hm
    show ∃ l', CursorList.rewind_keys ops ss l = some l' ∧ _
    rw [CursorList.rewind_keys, ← h3, ← h1, g1]
    simp only
    rw [h1]
    have hst : ∀ q ∈ xs'.map (·.p), q = Pos.start q.keys ∨ q.keys = [] := by
      rw [g5]
      intro q hq
      obtain ⟨x, _, rfl⟩ := List.mem_map.mp hq
      left; rfl
    refine relist_keys (l := { l with cursors := xs'.map (·.c) }) xs' (g2.trans h1) (g3.trans h2) rfl g4 (fresh_of_start hst) ?_
      (Pos.in_start (List.suffix_refl _))
    rw [merged_start hst, g5, List.map_map, ← h2]
    rfl
  rewind_vals := by
    rintro l p ⟨xs, h1, h2, h3, h4, h5, h6, h7, rfl, h9⟩ _
    obtain ⟨xs', g1, g2, g3, g4, g5⟩ := moveAt_map (ops := ops) (Rel := Rel) (method := ops.rewind_vals) (f := Pos.rewindVals)
      (atMin (xs.map (·.p))) xs h4 (fun x hx hq => (h4 x hx).sim.rewind_vals _ _ (h4 x hx).rel (keys_ne_nil_of_atMin hq))
    show ∃ l', CursorList.rewind_vals ops ss l = some l' ∧ _
    rw [CursorList.rewind_vals, h6, ← h3, ← h1, g1]
    simp only
    rw [h1]
    have hk : ∀ p : Pos K V T R, (if atMin (xs.map (·.p)) p then p.rewindVals else p).keys = p.keys := by intro p; split_ifs <;> rfl
    have hmk : l.min_key = idxOf (fun x => atMin (xs'.map (·.p)) x.p) xs' := by
      rw [h6, idxOf, idxOf]
      have hlen : xs'.length = xs.length := by rw [← List.length_map (f := (·.s)) (as := xs'), g2, List.length_map]
      rw [hlen]
      apply List.filter_congr
      intro i hi
      have hi : i < xs.length := by simpa using hi
      rw [List.getElem?_eq_getElem hi, List.getElem?_eq_getElem (by omega : i < xs'.length)]
      simp only [Option.any_some]
      have hp : (xs'[i]'(by omega)).p = (if atMin (xs.map (·.p)) (xs[i]).p then (xs[i]).p.rewindVals else (xs[i]).p) := by
        have := congrArg (fun l => l[i]?) g5
        simp only [List.getElem?_map, List.getElem?_eq_getElem hi, List.getElem?_eq_getElem (by omega : i < xs'.length), Option.map_some,
          Option.some.injEq] at this
        exact this
      rw [g5, hp, atMin_congr _ hk]
    rw [← h6]
    refine ⟨_, minimize_vals_spec (l := { l with cursors := xs'.map (·.c) }) xs' (g2.trans h1) rfl g4 hmk, xs', g2.trans h1, g3.trans h2, rfl, g4,
      by rw [g5]; exact fresh_of_start (rewindVals_start h5), hmk, rfl, by rw [g5]; exact (merged_rewindVals h5).symm, h9.rewindVals⟩

/-- A new cursor list is at the start of the union. -/
theorem cursorList_new (xs : List (Cell C S K V T R)) (hg : ∀ x ∈ xs, Good ops Rel back x) (hp : ∀ x ∈ xs, x.p = Pos.start x.t) :
    ∃ l, CursorList.new ops (xs.map (·.c)) (xs.map (·.s)) = some l ∧
      ListRel ops Rel back (xs.map (·.s)) (xs.map (·.t)) l (Pos.start (unionContents (xs.map (·.t)))) := by
  have hst : ∀ q ∈ xs.map (·.p), q = Pos.start q.keys ∨ q.keys = [] := by
    intro q hq
    obtain ⟨x, hx, rfl⟩ := List.mem_map.mp hq
    left; rw [hp x hx]; rfl
  refine relist_keys (l := ⟨xs.map (·.c), [], []⟩) xs rfl rfl rfl hg (fresh_of_start hst) ?_ (Pos.in_start (List.suffix_refl _))
  rw [merged_start hst, List.map_map]
  congr 2
  apply List.map_congr_left
  intro x hx
  simp only [Function.comp]
  rw [hp x hx]; rfl

end DD
