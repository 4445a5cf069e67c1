import Verif.Proofs.CursorBatch

/-! # Sequences of moves -/

namespace DD
variable {C S K V T R : Type*} [LinearOrder K] [LinearOrder V]
variable {ops : CursorOps C S K V T R} {s : S} {t : Contents K V T R} {Rel : C → Pos K V T R → Prop} {back : Bool}

theorem keys_of_key? {p : Pos K V T R} (h : p.key? ≠ none) : p.keys ≠ [] := by
  intro hc; rw [Pos.key?, hc] at h; exact h rfl

theorem vals_of_val? {p : Pos K V T R} (h : p.val? ≠ none) : p.vals ≠ [] := by
  intro hc; rw [Pos.val?, hc] at h; exact h rfl

theorem Presents.shows (hp : Presents ops s t Rel back) {c : C} {p : Pos K V T R} (h : Rel c p) : Shows ops s c p where
  key_valid := hp.key_valid c p h
  get_key := hp.get_key c p h
  key := hp.key c p h
  val_valid hk := hp.val_valid c p h (keys_of_key? hk)
  get_val hk := hp.get_val c p h (keys_of_key? hk)
  val hk hv := hp.val c p h (keys_of_key? hk) (vals_of_val? hv)
  map_times hk hv := hp.map_times c p h (keys_of_key? hk) (vals_of_val? hv)

theorem Presents.move (hp : Presents ops s t Rel) {c : C} {p p' : Pos K V T R} (h : Rel c p) (m : Move K V)
    (hm : (∀ v, m ≠ .seekVal v) ∨ SeeksVals ops s Rel) (hmove : Pos.move t p m = some p') : ∃ c', ops.move s c m = some c' ∧ Rel c' p' := by
  cases m with
  | stepKey => cases hmove; exact hp.step_key c p h
  | seekKey k => cases hmove; exact hp.seek_key c p k h
  | stepVal =>
    rw [Pos.move] at hmove
    split_ifs at hmove with hk
    cases hmove; exact hp.step_val c p h hk
  | seekVal v =>
    rw [Pos.move] at hmove
    split_ifs at hmove with hk
    cases hmove
    rcases hm with hm | hm
    · exact absurd rfl (hm v)
    · exact hm c p v h hk
  | rewindKeys => cases hmove; exact hp.rewind_keys c p h
  | rewindVals =>
    rw [Pos.move] at hmove
    split_ifs at hmove with hk
    cases hmove; exact hp.rewind_vals c p h hk

theorem Presents.run (hp : Presents ops s t Rel) (ms : List (Move K V)) : ∀ {c : C} {p p' : Pos K V T R}, Rel c p →
    (∀ m ∈ ms, (∀ v, m ≠ .seekVal v) ∨ SeeksVals ops s Rel) → Pos.run t p ms = some p' → ∃ c', ops.run s c ms = some c' ∧ Rel c' p' := by
  induction ms with
  | nil => intro c p p' h _ hr; cases hr; exact ⟨c, rfl, h⟩
  | cons m ms ih =>
    intro c p p' h hm hr
    rw [Pos.run] at hr
    cases hp1 : Pos.move t p m with
    | none => rw [hp1] at hr; cases hr
    | some p1 =>
      rw [hp1] at hr
      obtain ⟨c1, g1, g2⟩ := hp.move h m (hm m List.mem_cons_self) hp1
      obtain ⟨c2, g3, g4⟩ := ih g2 (fun x hx => hm x (List.mem_cons_of_mem _ hx)) hr
      exact ⟨c2, by rw [CursorOps.run, g1]; exact g3, g4⟩

/-! ## The union -/

theorem posRun_append' (p : Pos K V T R) (ms ms' : List (Move K V)) :
    Pos.run t p (ms ++ ms') = (Pos.run t p ms).bind fun p => Pos.run t p ms' := by
  induction ms generalizing p with
  | nil => rfl
  | cons m ms ih =>
    rw [List.cons_append, Pos.run, Pos.run]
    cases Pos.move t p m with
    | none => rfl
    | some p1 => exact ih p1

/-- The same for a cursor that also seeks backwards. -/
theorem Presents.run_back (hp : Presents ops s t Rel true) (ms : List (Move K V)) : ∀ {c : C} {p p' : Pos K V T R}, Rel c p →
    (∀ m ∈ ms, (∀ v, m ≠ .seekVal v) ∨ SeeksVals ops s Rel) → Pos.run t p (ms.flatMap Move.fromStart) = some p' → ∃ c', ops.run s c ms = some c' ∧ Rel c' p' := by
  induction ms with
  | nil => intro c p p' h _ hr; cases hr; exact ⟨c, rfl, h⟩
  | cons m ms ih =>
    intro c p p' h hm hr
    rw [List.flatMap_cons, posRun_append'] at hr
    cases hp1 : Pos.run t p m.fromStart with
    | none => rw [hp1] at hr; cases hr
    | some p1 =>
      rw [hp1] at hr
      have : ∃ c', ops.move s c m = some c' ∧ Rel c' p1 := by
        cases m with
        | stepKey => cases hp1; exact hp.step_key c p h
        | seekKey k => cases hp1; exact hp.seek_key c p k h
        | stepVal =>
          simp only [Move.fromStart, Pos.run, Pos.move] at hp1
          split_ifs at hp1 with hk
          cases hp1; exact hp.step_val c p h hk
        | seekVal v =>
          simp only [Move.fromStart, Pos.run, Pos.move] at hp1
          split_ifs at hp1 with hk
          cases hp1
          rcases hm _ List.mem_cons_self with hm | hm
          · exact absurd rfl (hm v)
          · exact hm c p v h hk
        | rewindKeys => cases hp1; exact hp.rewind_keys c p h
        | rewindVals =>
          simp only [Move.fromStart, Pos.run, Pos.move] at hp1
          split_ifs at hp1 with hk
          cases hp1; exact hp.rewind_vals c p h hk
      obtain ⟨c1, g1, g2⟩ := this
      obtain ⟨c2, g3, g4⟩ := ih g2 (fun x hx => hm x (List.mem_cons_of_mem _ hx)) hr
      exact ⟨c2, by rw [CursorOps.run, g1]; exact g3, g4⟩

theorem dropWhile_of_suffix {A : Type*} (f : A → Bool) {l m : List A} (hl : l <:+ m) (hf : ∀ a ∈ m, a ∉ l → f a = true) (hn : m.Nodup) : m.dropWhile f = l.dropWhile f := by
  obtain ⟨r, rfl⟩ := hl
  rw [List.dropWhile_append_of_pos]
  intro a ha
  exact hf a (List.mem_append_left _ ha) fun h => (List.disjoint_of_nodup_append hn) ha h

/-- If all seeks go forwards, where they start from does not matter. -/
theorem run_fromStart (hs : ContentsSorted t) (ms : List (Move K V)) : ∀ {p : Pos K V T R}, p.In t → SeeksForward t p ms →
    Pos.run t p (ms.flatMap Move.fromStart) = Pos.run t p ms := by
  induction ms with
  | nil => intro p _ _; rfl
  | cons m ms ih =>
    intro p hin hfw
    rw [List.flatMap_cons, posRun_append', Pos.run]
    have e : Pos.run t p m.fromStart = Pos.move t p m := by
      cases m with
      | seekKey k =>
        have hn : t.Nodup := List.Pairwise.imp (fun h e => by rw [e] at h; exact lt_irrefl _ h) hs.keys
        have := dropWhile_of_suffix (fun kv : K × List (V × List (T × R)) => decide (kv.1 < k)) hin.keys (fun a ha hna => by simpa using hfw.1 k rfl a ha hna) hn
        show some ((Pos.start t).seekKey k) = some (p.seekKey k)
        rw [Pos.seekKey, Pos.seekKey]
        show some (Pos.start (t.dropWhile _)) = _
        rw [this]
      | stepKey => rfl
      | stepVal => simp only [Move.fromStart, Pos.run]; cases Pos.move t p .stepVal <;> rfl
      | seekVal v => simp only [Move.fromStart, Pos.run]; cases Pos.move t p (.seekVal v) <;> rfl
      | rewindKeys => rfl
      | rewindVals => simp only [Move.fromStart, Pos.run]; cases Pos.move t p .rewindVals <;> rfl
    rw [e]
    cases hm : Pos.move t p m with
    | none => rfl
    | some p1 =>
      refine ih ?_ (hfw.2 p1 hm)
      cases m with
      | stepKey => cases hm; exact hin.stepKey
      | seekKey k => cases hm; exact hin.seekKey k
      | stepVal =>
        rw [Pos.move] at hm
        split_ifs at hm
        cases hm
        exact ⟨hin.keys, fun kv hkv => (List.tail_suffix _).trans (hin.vals kv hkv)⟩
      | seekVal v =>
        rw [Pos.move] at hm
        split_ifs at hm
        cases hm
        exact ⟨hin.keys, fun kv hkv => (List.dropWhile_suffix _).trans (hin.vals kv hkv)⟩
      | rewindKeys => cases hm; exact Pos.in_start (List.suffix_refl _)
      | rewindVals =>
        rw [Pos.move] at hm
        split_ifs at hm
        cases hm
        exact Pos.in_start hin.keys

theorem exists_cons {A : Type*} (P : A → Prop) (a : A) (l : List A) : (∃ x ∈ a :: l, P x) ↔ P a ∨ ∃ x ∈ l, P x := by simp

theorem zipMerge_exists {A B : Type*} [LinearOrder A] (comb : B → B → B) (P : A → B → Prop)
    (hP : ∀ a b b', P a (comb b b') ↔ P a b ∨ P a b') (l1 l2 : List (A × B)) :
    (∃ x ∈ zipMerge comb l1 l2, P x.1 x.2) ↔ (∃ x ∈ l1, P x.1 x.2) ∨ ∃ x ∈ l2, P x.1 x.2 := by
  fun_induction zipMerge comb l1 l2 with
  | case1 => simp
  | case2 => simp
  | case3 a1 b1 l1 a2 b2 l2 hlt ih => rw [exists_cons, ih, exists_cons (l := l1), or_assoc]
  | case4 =>
    rename_i ih
    rw [exists_cons, ih, exists_cons, exists_cons, hP]
    constructor
    · rintro ((h | h) | h | h)
      · exact Or.inl (Or.inl h)
      · exact Or.inr (Or.inl h)
      · exact Or.inl (Or.inr h)
      · exact Or.inr (Or.inr h)
    · rintro ((h | h) | h | h)
      · exact Or.inl (Or.inl h)
      · exact Or.inr (Or.inl h)
      · exact Or.inl (Or.inr h)
      · exact Or.inr (Or.inr h)
  | case5 =>
    rename_i ih
    rw [exists_cons, ih]
    conv_rhs => enter [2]; rw [exists_cons]
    rw [← or_assoc, ← or_assoc, or_comm (a := P _ _)]

theorem unionBy_exists {A B : Type*} [LinearOrder A] (comb : B → B → B) (P : A → B → Prop)
    (hP : ∀ a b b', P a (comb b b') ↔ P a b ∨ P a b') (ls : List (List (A × B))) :
    (∃ x ∈ unionBy comb ls, P x.1 x.2) ↔ ∃ l ∈ ls, ∃ x ∈ l, P x.1 x.2 := by
  induction ls with
  | nil => simp [unionBy]
  | cons l ls ih =>
    have : unionBy comb (l :: ls) = zipMerge comb l (unionBy comb ls) := rfl
    rw [this, zipMerge_exists comb P hP, ih, exists_cons]

/-- What an association list has for a key, if anything. -/
theorem zipMerge_find {A B M : Type*} [LinearOrder A] (comb : B → B → B) (f : B → List M) (hf : ∀ b b', f (comb b b') = f b ++ f b')
    (l1 l2 : List (A × B)) (h1 : SortedKeys l1) (h2 : SortedKeys l2) (a : A) :
    ((zipMerge comb l1 l2).flatMap fun x => if x.1 = a then f x.2 else []) =
      (l1.flatMap fun x => if x.1 = a then f x.2 else []) ++ (l2.flatMap fun x => if x.1 = a then f x.2 else []) := by
  have none_of_lt : ∀ (l : List (A × B)) (a1 : A), (∀ x ∈ l, a1 < x.1) → a ≤ a1 → (l.flatMap fun x => if x.1 = a then f x.2 else []) = [] := by
    intro l a1 hl hle
    rw [List.flatMap_eq_nil_iff]
    intro x hx
    rw [if_neg (ne_of_gt (hle.trans_lt (hl x hx)))]
  fun_induction zipMerge comb l1 l2 with
  | case1 => simp
  | case2 => simp
  | case3 a1 b1 l1 a2 b2 l2 hlt ih =>
    rw [List.flatMap_cons, ih (List.Pairwise.of_cons h1) h2, List.flatMap_cons (xs := l1), List.append_assoc]
  | case4 =>
    rename_i b1 l1 a1 b2 l2 hlt ih
    rw [List.flatMap_cons, ih (List.Pairwise.of_cons h1) (List.Pairwise.of_cons h2), List.flatMap_cons, List.flatMap_cons]
    by_cases ha : a1 = a
    · rw [if_pos ha, if_pos ha, if_pos ha, hf]
      have e1 := none_of_lt l1 a1 (fun x hx => List.rel_of_pairwise_cons h1 hx) ha.symm.le
      rw [e1]; simp
    · rw [if_neg ha, if_neg ha, if_neg ha]; simp
  | case5 =>
    rename_i a1 b1 l1 a2 b2 l2 hlt hne ih
    rw [List.flatMap_cons, ih h1 (List.Pairwise.of_cons h2)]
    conv_rhs => enter [2]; rw [List.flatMap_cons]
    by_cases ha : a2 = a
    · have hlt' : a2 < a1 := lt_of_le_of_ne (not_lt.mp hlt) (fun h => hne h.symm)
      have e1 := none_of_lt ((a1, b1) :: l1) a2 (by
        intro x hx
        rcases List.mem_cons.mp hx with rfl | hx
        · exact hlt'
        · exact hlt'.trans (List.rel_of_pairwise_cons h1 hx)) ha.symm.le
      rw [e1]; simp
    · rw [if_neg ha]; simp

theorem unionBy_all {A B : Type*} [LinearOrder A] (comb : B → B → B) (P : B → Prop) (hP : ∀ b b', P b → P b' → P (comb b b'))
    (ls : List (List (A × B))) (h : ∀ l ∈ ls, ∀ x ∈ l, P x.2) : ∀ x ∈ unionBy comb ls, P x.2 := by
  induction ls with
  | nil => intro x hx; cases hx
  | cons l ls ih =>
    exact zipMerge_forall comb P hP l _ (h l List.mem_cons_self) (ih fun l' hl' => h l' (List.mem_cons_of_mem _ hl'))

theorem unionContents_sorted (ts : List (Contents K V T R)) (h : ∀ t ∈ ts, ContentsSorted t) : ContentsSorted (unionContents ts) := by
  constructor
  · exact unionBy_sorted zipVals fun t ht => (h t ht).keys
  · exact unionBy_all zipVals (fun vs => vs.Pairwise fun x y => x.1 < y.1) (fun b b' hb hb' => zipMerge_sorted _ b b' hb hb') ts
      (fun t ht => (h t ht).vals)

theorem unionContents_union (ts : List (Contents K V T R)) (h : ∀ t ∈ ts, ContentsSorted t) : IsUnion ts (unionContents ts) := by
  refine ⟨unionContents_sorted ts h, ?_, ?_, ?_⟩
  · intro k
    have := unionBy_exists zipVals (fun k' (_ : List (V × List (T × R))) => k' = k) (by simp) ts
    constructor
    · rintro ⟨vs, h⟩
      obtain ⟨t, ht, ⟨k', vs'⟩, hx, rfl⟩ := this.mp ⟨_, h, rfl⟩
      exact ⟨t, ht, vs', hx⟩
    · rintro ⟨t, ht, vs, h⟩
      obtain ⟨⟨k', vs'⟩, hx, rfl⟩ := this.mpr ⟨t, ht, _, h, rfl⟩
      exact ⟨vs', hx⟩
  · intro k v
    have := unionBy_exists zipVals (fun k' (vs : List (V × List (T × R))) => k' = k ∧ ∃ x ∈ vs, x.1 = v) (by
      intro a b b'
      have := zipMerge_exists (· ++ ·) (fun v' (_ : List (T × R)) => v' = v) (by simp) b b'
      rw [zipVals, this, and_or_left]) ts
    constructor
    · rintro ⟨vs, us, h, h'⟩
      obtain ⟨t, ht, ⟨k', vs'⟩, hx, rfl, ⟨v', us'⟩, hv, rfl⟩ := this.mp ⟨_, h, rfl, _, h', rfl⟩
      exact ⟨t, ht, vs', us', hx, hv⟩
    · rintro ⟨t, ht, vs, us, h, h'⟩
      obtain ⟨⟨k', vs'⟩, hx, rfl, ⟨v', us'⟩, hv, rfl⟩ := this.mpr ⟨t, ht, _, h, rfl, _, h', rfl⟩
      exact ⟨vs', us', hx, hv⟩
  · intro k v
    induction ts with
    | nil => rfl
    | cons t ts ih =>
      have : unionContents (t :: ts) = zipMerge zipVals t (unionContents ts) := rfl
      have ht := h t List.mem_cons_self
      have hts : ∀ t ∈ ts, ContentsSorted t := fun x hx => h x (List.mem_cons_of_mem _ hx)
      rw [this, List.flatMap_cons, ← ih hts]
      -- the values of both sides are sorted, so reading a value distributes
      have key : ∀ (t u : Contents K V T R), ContentsSorted t → ContentsSorted u →
          Contents.at (zipMerge zipVals t u) k v = Contents.at t k v ++ Contents.at u k v := by
        intro t u ht hu
        let g : List (V × List (T × R)) → List (T × R) := fun vs => vs.flatMap fun vu => if vu.1 = v then vu.2 else []
        have none_of_lt : ∀ (l : Contents K V T R) (a1 : K), (∀ x ∈ l, a1 < x.1) → k ≤ a1 → Contents.at l k v = [] := by
          intro l a1 hl hle
          rw [Contents.at, List.flatMap_eq_nil_iff]
          intro x hx
          rw [if_neg (ne_of_gt (hle.trans_lt (hl x hx)))]
        fun_induction zipMerge zipVals t u with
        | case1 => simp [Contents.at]
        | case2 => simp [Contents.at]
        | case3 a1 b1 l1 a2 b2 l2 hlt ih =>
          have := ih ⟨List.Pairwise.of_cons ht.keys, fun x hx => ht.vals x (List.mem_cons_of_mem _ hx)⟩ hu
          simp only [Contents.at] at this ⊢
          rw [List.flatMap_cons, this, List.flatMap_cons (xs := l1), List.append_assoc]
        | case4 =>
          rename_i b1 l1 a1 b2 l2 hlt ih
          have := ih ⟨List.Pairwise.of_cons ht.keys, fun x hx => ht.vals x (List.mem_cons_of_mem _ hx)⟩
            ⟨List.Pairwise.of_cons hu.keys, fun x hx => hu.vals x (List.mem_cons_of_mem _ hx)⟩
          have e1 := none_of_lt l1 a1 (fun x hx => List.rel_of_pairwise_cons ht.keys hx)
          simp only [Contents.at] at this e1 ⊢
          rw [List.flatMap_cons, this, List.flatMap_cons, List.flatMap_cons]
          by_cases ha : a1 = k
          · rw [if_pos ha, if_pos ha, if_pos ha, e1 ha.symm.le]
            have hf := zipMerge_find (· ++ ·) id (fun _ _ => rfl) b1 b2 (ht.vals _ List.mem_cons_self) (hu.vals _ List.mem_cons_self) v
            simp only [id] at hf
            simp only [zipVals, hf]
            simp
          · rw [if_neg ha, if_neg ha, if_neg ha]; simp
        | case5 =>
          rename_i a1 b1 l1 a2 b2 l2 hlt hne ih
          have := ih ht ⟨List.Pairwise.of_cons hu.keys, fun x hx => hu.vals x (List.mem_cons_of_mem _ hx)⟩
          have hlt' : a2 < a1 := lt_of_le_of_ne (not_lt.mp hlt) (fun h => hne h.symm)
          have e1 := none_of_lt ((a1, b1) :: l1) a2 (by
            intro x hx
            rcases List.mem_cons.mp hx with rfl | hx
            · exact hlt'
            · exact hlt'.trans (List.rel_of_pairwise_cons ht.keys hx))
          have hc : ∀ (x : K × List (V × List (T × R))) (l : Contents K V T R), Contents.at (x :: l) k v =
            (if x.1 = k then x.2.flatMap fun vu => if vu.1 = v then vu.2 else [] else []) ++ Contents.at l k v := by
            intro x l; rw [Contents.at, List.flatMap_cons]; rfl
          rw [hc, this, hc (a2, b2)]
          by_cases ha : a2 = k
          · rw [e1 ha.symm.le]; simp
          · rw [if_neg ha]; simp
      exact key t _ ht (unionContents_sorted ts hts)

theorem flatten_unionContents (ts : List (Contents K V T R)) : (unionContents ts).flatten.Perm (ts.flatMap Contents.flatten) := by
  induction ts with
  | nil => exact List.Perm.refl _
  | cons t ts ih =>
    rw [List.flatMap_cons]
    refine List.Perm.trans ?_ (List.Perm.append_left _ ih)
    refine zipMerge_perm zipVals (fun k vs => vs.flatMap fun vu => vu.2.map fun u => ((k, vu.1), u.1, u.2)) ?_ t (unionContents ts)
    intro k b b'
    refine zipMerge_perm (· ++ ·) (fun v us => us.map fun u : T × R => ((k, v), u.1, u.2)) ?_ b b'
    intro v b b'
    simp

/-! ## Seeking values when every batch is on the key -/

/-- All cursors are on the current key. -/
def AllOnKey (ops : CursorOps C S K V T R) (Rel : S → Contents K V T R → C → Pos K V T R → Prop) (back : Bool) (ss : List S) (ts : List (Contents K V T R))
    (l : CursorList C) (p : Pos K V T R) : Prop :=
  ListRel ops Rel back ss ts l p ∧ p.keys ≠ [] ∧ l.min_key = List.range ss.length

variable {Rel : S → Contents K V T R → C → Pos K V T R → Prop} {ss : List S} {ts : List (Contents K V T R)}

theorem minimize_vals_min_key {l l' : CursorList C} (h : l.minimize_vals ops ss = some l') : l'.min_key = l.min_key := by
  rw [CursorList.minimize_vals] at h
  cases hf : l.min_key.foldlM (minStep (callAt l.cursors ss ops.get_val)) ([], none) with
  | none => rw [hf] at h; cases h
  | some r => rw [hf] at h; cases h; rfl

theorem AllOnKey.step_val {l : CursorList C} {p : Pos K V T R} (h : AllOnKey ops Rel back ss ts l p) :
    ∃ l', CursorList.step_val ops ss l = some l' ∧ AllOnKey ops Rel back ss ts l' p.stepVal := by
  obtain ⟨l', g1, g2⟩ := (cursorList_presents (ops := ops) (Rel := Rel) ss ts).step_val l p h.1 h.2.1
  refine ⟨l', g1, g2, h.2.1, ?_⟩
  have g1 : CursorList.step_val ops ss l = some l' := g1
  rw [CursorList.step_val] at g1
  cases hm : moveAt ss ops.step_val l.min_val l.cursors with
  | none => rw [hm] at g1; cases g1
  | some cs => rw [hm] at g1; rw [minimize_vals_min_key g1]; exact h.2.2

theorem AllOnKey.rewind_vals {l : CursorList C} {p : Pos K V T R} (h : AllOnKey ops Rel back ss ts l p) :
    ∃ l', CursorList.rewind_vals ops ss l = some l' ∧ AllOnKey ops Rel back ss ts l' p.rewindVals := by
  obtain ⟨l', g1, g2⟩ := (cursorList_presents (ops := ops) (Rel := Rel) ss ts).rewind_vals l p h.1 h.2.1
  refine ⟨l', g1, g2, h.2.1, ?_⟩
  have g1 : CursorList.rewind_vals ops ss l = some l' := g1
  rw [CursorList.rewind_vals] at g1
  cases hm : moveAt ss ops.rewind_vals l.min_key l.cursors with
  | none => rw [hm] at g1; cases g1
  | some cs => rw [hm] at g1; rw [minimize_vals_min_key g1]; exact h.2.2

theorem all_of_idxOf_range {X : Type*} {q : X → Bool} {xs : List X} (h : idxOf q xs = List.range xs.length) : ∀ x ∈ xs, q x = true := by
  intro x hx
  obtain ⟨i, hi⟩ := List.getElem?_of_mem hx
  have : i ∈ idxOf q xs := by
    rw [h, List.mem_range]
    exact (List.getElem?_eq_some_iff.mp hi).1
  obtain ⟨y, hy, hq⟩ := mem_idxOf.mp this
  rw [hi] at hy; cases hy
  exact hq

theorem AllOnKey.seek_val {l : CursorList C} {p : Pos K V T R} (h : AllOnKey ops Rel back ss ts l p)
    (hsv : ∀ s t, Presents ops s t (Rel s t) back → ContentsSorted t → SeeksVals ops s (Rel s t)) (v : V) :
    ∃ l', CursorList.seek_val ops ss l v = some l' ∧ AllOnKey ops Rel back ss ts l' (p.seekVal v) := by
  obtain ⟨⟨xs, h1, h2, h3, h4, h5, h6, h7, rfl, h9⟩, hk, hall⟩ := h
  have hlen0 : ss.length = xs.length := by rw [← h1, List.length_map]
  have hat : ∀ x ∈ xs, atMin (xs.map (·.p)) x.p = true := by
    rw [h6, hlen0] at hall
    exact all_of_idxOf_range hall
  have hne : ∀ x ∈ xs, x.p.keys ≠ [] := fun x hx => keys_ne_nil_of_atMin (hat x hx)
  obtain ⟨xs', g1, g2, g3, g4, g5⟩ := moveAll_map (ops := ops) (Rel := Rel) (method := fun s c => ops.seek_val s c v) (f := fun p => p.seekVal v)
    xs h4 (fun x hx => hsv _ _ (h4 x hx).sim (h4 x hx).sorted _ _ v (h4 x hx).rel (hne x hx))
  rw [CursorList.seek_val, ← h3, ← h1, g1]
  simp only
  rw [h1]
  have hkk : ∀ p : Pos K V T R, (p.seekVal v).keys = p.keys := fun _ => rfl
  have hlen : xs'.length = xs.length := by rw [← List.length_map (f := (·.s)) (as := xs'), g2, List.length_map]
  have hmk : l.min_key = idxOf (fun x => atMin (xs'.map (·.p)) x.p) xs' := by
    rw [h6, idxOf, idxOf, hlen]
    apply List.filter_congr
    intro i hi
    have hi : i < xs.length := by simpa using hi
    rw [List.getElem?_eq_getElem hi, List.getElem?_eq_getElem (by omega : i < xs'.length)]
    simp only [Option.any_some]
    have hp : (xs'[i]'(by omega)).p = (xs[i]).p.seekVal v := by
      have := congrArg (fun l => l[i]?) g5
      simp only [List.getElem?_map, List.getElem?_eq_getElem hi, List.getElem?_eq_getElem (by omega : i < xs'.length), Option.map_some,
        Option.some.injEq] at this
      exact this
    rw [g5, hp, atMin_congr _ hkk]
  have hmerged : merged ((xs.map (·.p)).map fun p => p.seekVal v) = (merged (xs.map (·.p))).seekVal v := by
    rw [merged, Pos.seekVal, merged, filter_atMin_congr _ hkk]
    simp only [Pos.mk.injEq]
    constructor
    · congr 1
      rw [List.map_map]
      rfl
    · rw [unionVals, unionVals]
      rw [← unionBy_dropWhile]
      · congr 1
        rw [List.map_map, List.map_map]; rfl
      · intro l hl
        obtain ⟨q, hq, rfl⟩ := List.mem_map.mp hl
        obtain ⟨x, hx, rfl⟩ := List.mem_map.mp (List.mem_of_mem_filter hq)
        have hin := (h4 x hx).sim.inside _ _ (h4 x hx).rel
        obtain ⟨kv, hkv⟩ : ∃ kv, x.p.keys.head? = some kv := by
          cases hh : x.p.keys with
          | nil => exact absurd hh (hne x hx)
          | cons a l => exact ⟨a, rfl⟩
        have hmem : kv ∈ x.t := hin.keys.subset (List.mem_of_head? hkv)
        exact SortedKeys.suffix ((h4 x hx).sorted.vals kv hmem) (hin.vals kv hkv)
  refine ⟨_, minimize_vals_spec (l := { l with cursors := xs'.map (·.c) }) xs' (g2.trans h1) rfl g4 hmk,
    ⟨xs', g2.trans h1, g3.trans h2, rfl, g4, ?_, hmk, rfl, by rw [g5, hmerged], h9.seekVal v⟩, hk, hall⟩
  intro q hq hm
  rw [g5] at hq hm
  obtain ⟨q0, hq0, rfl⟩ := List.mem_map.mp hq
  obtain ⟨y, hy, rfl⟩ := List.mem_map.mp hq0
  rw [atMin_congr _ hkk, hat y hy] at hm
  cases hm

/-- After rewinding and seeking a key all batches have, all cursors are on it. -/
theorem allOnKey_seek {l : CursorList C} {p : Pos K V T R} (h : ListRel ops Rel back ss ts l p) (k : K) (hne : ts ≠ [])
    (hk : ∀ t ∈ ts, ∃ vs, (k, vs) ∈ t) :
    ∃ l1 l2, CursorList.rewind_keys ops ss l = some l1 ∧ CursorList.seek_key ops ss l1 k = some l2 ∧
      AllOnKey ops Rel back ss ts l2 ((Pos.start (unionContents ts)).seekKey k) := by
  obtain ⟨xs, h1, h2, h3, h4, h5, h6, h7, h8, h9⟩ := h
  -- rewinding
  have hm : ∃ xs' : List (Cell C S K V T R), moveAll (xs.map (·.s)) ops.rewind_keys (xs.map (·.c)) = some (xs'.map (·.c)) ∧
      xs'.map (·.s) = xs.map (·.s) ∧ xs'.map (·.t) = xs.map (·.t) ∧ (∀ x ∈ xs', Good ops Rel back x) ∧ ∀ x ∈ xs', x.p = Pos.start x.t := by
    have : ∃ xs' : List (Cell C S K V T R), (((xs.map (·.c)).zip (xs.map (·.s))).mapM fun x => ops.rewind_keys x.2 x.1) = some (xs'.map (·.c)) ∧
        xs'.map (·.s) = xs.map (·.s) ∧ xs'.map (·.t) = xs.map (·.t) ∧ (∀ x ∈ xs', Good ops Rel back x) ∧ ∀ x ∈ xs', x.p = Pos.start x.t := by
      clear h1 h2 h3 h5 h6 h7 h8 h9
      induction xs with
      | nil => exact ⟨[], rfl, rfl, rfl, by simp, by simp⟩
      | cons x xs ih =>
        obtain ⟨xs', g1, g2, g3, g4, g5⟩ := ih fun y hy => h4 y (List.mem_cons_of_mem _ hy)
        have hgx := h4 x List.mem_cons_self
        obtain ⟨c', hc, hrel⟩ := hgx.sim.rewind_keys _ _ hgx.rel
        refine ⟨⟨x.s, x.t, c', Pos.start x.t⟩ :: xs', ?_, by simp [g2], by simp [g3], ?_, ?_⟩
        · simp only [List.map_cons, List.zip_cons_cons, List.mapM_cons, hc, g1]
          rfl
        · intro y hy
          rcases List.mem_cons.mp hy with rfl | hy
          · exact ⟨hgx.sim, hrel, hgx.sorted⟩
          · exact g4 y hy
        · intro y hy
          rcases List.mem_cons.mp hy with rfl | hy
          · rfl
          · exact g5 y hy
    obtain ⟨xs', g1, g⟩ := this
    exact ⟨xs', by rw [moveAll, g1]; simp, g⟩
  obtain ⟨ys, g1, g2, g3, g4, g5⟩ := hm
  have hst : ∀ q ∈ ys.map (·.p), q = Pos.start q.keys ∨ q.keys = [] := by
    intro q hq
    obtain ⟨x, hx, rfl⟩ := List.mem_map.mp hq
    left; rw [g5 x hx]; rfl
  have hms : merged (ys.map (·.p)) = Pos.start (unionContents ts) := by
    rw [merged_start hst, List.map_map, ← h2, ← g3]
    congr 2
    apply List.map_congr_left
    intro x hx
    simp only [Function.comp]
    rw [g5 x hx]; rfl
  obtain ⟨l1, r1, r2⟩ := relist_keys (ops := ops) (Rel := Rel) (l := { l with cursors := ys.map (·.c) }) ys (g2.trans h1) (g3.trans h2) rfl g4
    (fresh_of_start hst) hms (Pos.in_start (List.suffix_refl _))
  have hl1 : l1.cursors = ys.map (·.c) := by
    have := minimize_keys_spec (ops := ops) (Rel := Rel) (l := { l with cursors := ys.map (·.c) }) ys (g2.trans h1) rfl g4
    rw [r1] at this; cases this; rfl
  -- seeking
  obtain ⟨zs, k1, k2, k3, k4, k5⟩ := moveAll_map (ops := ops) (Rel := Rel) (method := fun s c => ops.seek_key s c k) (f := fun p => p.seekKey k)
    ys g4 (fun x hx => by
      obtain ⟨c', w1, w2⟩ := (g4 x hx).sim.seek_key _ _ k (g4 x hx).rel
      refine ⟨c', w1, ?_⟩
      cases back with
      | false => exact w2
      | true => rw [g5 x hx]; exact w2)
  have hmz : merged (zs.map (·.p)) = (Pos.start (unionContents ts)).seekKey k := by
    rw [k5, merged_seekKey, hms]
    intro q hq
    obtain ⟨x, hx, rfl⟩ := List.mem_map.mp hq
    exact (g4 x hx).keys_sorted
  have hfz : Fresh (zs.map (·.p)) := by
    rw [k5]
    apply fresh_of_start
    intro q hq
    obtain ⟨q0, _, rfl⟩ := List.mem_map.mp hq
    left; rfl
  have hzs : zs.map (·.s) = ss := (k2.trans g2).trans h1
  have hzk : ∀ z ∈ zs, z.p.key? = some k := by
    intro z hz
    have : z.p ∈ zs.map (·.p) := List.mem_map_of_mem hz
    rw [k5, List.map_map] at this
    obtain ⟨y, hy, he⟩ := List.mem_map.mp this
    simp only [Function.comp] at he
    rw [← he, g5 y hy, Pos.seekKey, Pos.key?]
    have hyt : y.t ∈ ts := by rw [← h2, ← g3]; exact List.mem_map_of_mem hy
    obtain ⟨vs, hvs⟩ := hk y.t hyt
    show ((y.t.dropWhile fun kv => decide (kv.1 < k)).head?).map Prod.fst = some k
    have hsorted := (g4 y hy).sorted.keys
    clear * - hvs hsorted
    generalize y.t = t at hvs hsorted
    induction t with
    | nil => cases hvs
    | cons x t ih =>
      rw [List.dropWhile_cons]
      rcases List.mem_cons.mp hvs with rfl | hvs
      · simp
      · have hlt := List.rel_of_pairwise_cons hsorted hvs
        rw [if_pos (by simpa using hlt)]
        exact ih hvs (List.Pairwise.of_cons hsorted)
  have hzne : zs ≠ [] := by
    intro hc
    have : ts.length = zs.length := by rw [← h2, ← g3, ← k3, List.length_map]
    rw [hc] at this
    exact hne (List.length_eq_zero_iff.mp this)
  have hlz : leastKey (zs.map (·.p)) = some k := by
    cases hz : leastKey (zs.map (·.p)) with
    | none =>
      cases zs with
      | nil => exact absurd rfl hzne
      | cons z zs =>
        have := leastKey_none hz z.p (by simp)
        have h2 := hzk z List.mem_cons_self
        rw [Pos.key?, this] at h2; cases h2
    | some k' =>
      obtain ⟨q, hq, he⟩ := exists_atMin hz
      obtain ⟨z, hz', rfl⟩ := List.mem_map.mp hq
      have := key_of_atMin he
      rw [hzk z hz', hz] at this
      exact this.symm
  have hmin := minimize_keys_spec (ops := ops) (Rel := Rel) (l := { l1 with cursors := zs.map (·.c) }) zs hzs rfl k4
  refine ⟨l1, { l1 with cursors := zs.map (·.c), min_key := idxOf (fun x => atMin (zs.map (·.p)) x.p) zs, min_val := idxOf (fun x => atMinVal (zs.map (·.p)) x.p) zs }, ?_, ?_, ?_, ?_, ?_⟩
  · rw [CursorList.rewind_keys, ← h3, ← h1, g1, h1]; exact r1
  · rw [CursorList.seek_key, hl1, ← h1, ← g2, k1]
    simp only
    rw [g2, h1]
    exact hmin
  · exact ⟨zs, hzs, (k3.trans g3).trans h2, rfl, k4, hfz, rfl, rfl, hmz.symm, (Pos.in_start (List.suffix_refl _)).seekKey k⟩
  · rw [← hmz]
    apply keys_of_key?
    rw [merged_key?, hlz]; simp
  · show idxOf _ zs = _
    have hlz' : ss.length = zs.length := by rw [← hzs, List.length_map]
    rw [hlz', idxOf, List.filter_eq_self]
    intro i hi
    have hi : i < zs.length := by simpa using hi
    rw [List.getElem?_eq_getElem hi]
    simp only [Option.any_some]
    exact (atMin_iff hlz _).mpr (hzk _ (List.getElem_mem hi))

/-- Moves among values when all cursors are on the key. -/
theorem AllOnKey.run (hsv : ∀ s t, Presents ops s t (Rel s t) back → ContentsSorted t → SeeksVals ops s (Rel s t)) (ms : List (Move K V)) :
    ∀ {l : CursorList C} {p p' : Pos K V T R}, AllOnKey ops Rel back ss ts l p →
      (∀ m ∈ ms, m = .stepVal ∨ m = .rewindVals ∨ ∃ v, m = .seekVal v) →
      Pos.run (unionContents ts) p ms = some p' → ∃ l', (CursorList.ops ops).run ss l ms = some l' ∧ ListRel ops Rel back ss ts l' p' := by
  induction ms with
  | nil => intro l p p' h _ hr; cases hr; exact ⟨l, rfl, h.1⟩
  | cons m ms ih =>
    intro l p p' h hm hr
    rw [Pos.run] at hr
    have key : ∃ p1 l1, Pos.move (unionContents ts) p m = some p1 ∧ (CursorList.ops ops).move ss l m = some l1 ∧ AllOnKey ops Rel back ss ts l1 p1 := by
      rcases hm m List.mem_cons_self with rfl | rfl | ⟨v, rfl⟩
      · obtain ⟨l1, g1, g2⟩ := h.step_val
        exact ⟨_, l1, by rw [Pos.move, if_neg h.2.1], g1, g2⟩
      · obtain ⟨l1, g1, g2⟩ := h.rewind_vals
        exact ⟨_, l1, by rw [Pos.move, if_neg h.2.1], g1, g2⟩
      · obtain ⟨l1, g1, g2⟩ := h.seek_val hsv v
        exact ⟨_, l1, by rw [Pos.move, if_neg h.2.1], g1, g2⟩
    obtain ⟨p1, l1, g1, g2, g3⟩ := key
    rw [g1] at hr
    obtain ⟨l2, g4, g5⟩ := ih g3 (fun x hx => hm x (List.mem_cons_of_mem _ hx)) hr
    exact ⟨l2, by rw [CursorOps.run, g2]; exact g4, g5⟩

end DD
