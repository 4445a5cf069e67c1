import Verif.Spec.Upsert
import Verif.Proofs.Lattice
import Verif.Proofs.SpineRun
import Verif.Proofs.CursorUnion
import Mathlib.Tactic.Abel

/-! # Lemmas about the model of `upsert.rs` -/

namespace DD
variable {K V T : Type*} [LinearOrder K] [LinearOrder V] [LinearOrder T]

/-! ### Orders -/

theorem optionLe_iff (a b : Option V) : optionLe a b = true ↔ (a = none ∨ ∃ x y, a = some x ∧ b = some y ∧ x ≤ y) := by
  cases a <;> cases b <;> simp [optionLe]

theorem optionLe_total (a b : Option V) : optionLe a b = true ∨ optionLe b a = true := by
  cases a <;> cases b <;> simp [optionLe, le_total]

theorem optionLe_trans {a b c : Option V} (h : optionLe a b = true) (h' : optionLe b c = true) : optionLe a c = true := by
  cases a <;> cases b <;> cases c <;> simp_all [optionLe]
  exact h.trans h'

theorem optionLe_antisymm {a b : Option V} (h : optionLe a b = true) (h' : optionLe b a = true) : a = b := by
  cases a <;> cases b <;> simp_all [optionLe]
  exact le_antisymm h h'

instance listLe_total : Std.Total (fun a b : T × Option V => listLe a b = true) where
  total a b := by
    rcases lt_trichotomy a.1 b.1 with h | h | h
    · left; simp [listLe, h.ne, h]
    · simp only [listLe, h, if_true]; exact optionLe_total _ _
    · right; simp [listLe, h.ne, h]

instance listLe_trans : IsTrans (T × Option V) (fun a b => listLe a b = true) where
  trans a b c h h' := by
    have key : ∀ x y : T × Option V, listLe x y = true ↔ x.1 < y.1 ∨ x.1 = y.1 ∧ optionLe y.2 x.2 = true := by
      intro x y
      by_cases e : x.1 = y.1
      · simp [listLe, e]
      · simp [listLe, e]
    rw [key] at *
    rcases h with h | ⟨e, h⟩ <;> rcases h' with h' | ⟨e', h'⟩
    · exact Or.inl (h.trans h')
    · exact Or.inl (e' ▸ h)
    · exact Or.inl (e ▸ h')
    · exact Or.inr ⟨e.trans e', optionLe_trans h' h⟩

theorem heapLe_fst {a b : T × K × Option V} (h : heapLe a b = true) : a.1 ≤ b.1 := by
  simp only [heapLe] at h
  by_cases e : a.1 = b.1
  · exact e.le
  · rw [if_neg e] at h; exact (by simpa using h : a.1 < b.1).le

theorem fst_of_not_heapLe {a b : T × K × Option V} (h : ¬ heapLe a b = true) : b.1 ≤ a.1 := by
  by_contra hc
  have hc := not_le.mp hc
  apply h
  simp [heapLe, hc.ne, hc]

instance updLe_total : Std.Total (fun a b : (K × V) × T × Int => updLe a b = true) where
  total a b := by simp only [updLe, decide_eq_true_eq]; exact le_total _ _

instance updLe_trans : IsTrans ((K × V) × T × Int) (fun a b => updLe a b = true) where
  trans a b c h h' := by simp only [updLe, decide_eq_true_eq] at *; exact h.trans h'

/-! ### The heap -/

theorem heapPush_perm (q : List (T × K × Option V)) (x) : (heapPush q x).Perm (x :: q) := List.perm_orderedInsert _ _ _

theorem heapPush_sorted (q : List (T × K × Option V)) (x) (h : q.Pairwise fun a b => a.1 ≤ b.1) : (heapPush q x).Pairwise fun a b => a.1 ≤ b.1 := by
  unfold heapPush
  induction q with
  | nil => simp
  | cons b q ih =>
    rw [List.pairwise_cons] at h
    rw [List.orderedInsert_cons]
    by_cases hx : heapLe x b = true
    · rw [if_pos hx, List.pairwise_cons, List.pairwise_cons]
      refine ⟨?_, h⟩
      intro y hy
      rcases List.mem_cons.mp hy with rfl | hy
      · exact heapLe_fst hx
      · exact (heapLe_fst hx).trans (h.1 y hy)
    · rw [if_neg hx, List.pairwise_cons]
      refine ⟨?_, ih h.2⟩
      intro y hy
      rcases List.mem_cons.mp ((List.perm_orderedInsert _ x q).mem_iff.mp hy) with rfl | hy
      · exact fst_of_not_heapLe hx
      · exact h.1 y hy

theorem takeWhile_eq_filter_of_down {α : Type*} {le : α → α → Prop} {p : α → Bool} (hp : ∀ a b, le a b → p b = true → p a = true) :
    ∀ {l : List α}, l.Pairwise le → l.takeWhile p = l.filter p ∧ l.dropWhile p = l.filter fun x => !p x := by
  intro l
  induction l with
  | nil => simp
  | cons a l ih =>
    intro h
    rw [List.pairwise_cons] at h
    obtain ⟨i1, i2⟩ := ih h.2
    by_cases ha : p a = true
    · rw [List.takeWhile_cons_of_pos ha, List.dropWhile_cons_of_pos ha, i1, i2]
      simp [ha]
    · rw [List.takeWhile_cons_of_neg ha, List.dropWhile_cons_of_neg ha]
      have hn : ∀ b ∈ l, ¬ p b = true := fun b hb hpb => ha (hp a b (h.1 b hb) hpb)
      constructor
      · rw [List.filter_cons_of_neg ha, eq_comm, List.filter_eq_nil_iff]; exact hn
      · have : ∀ b ∈ a :: l, (!p b) = true := by
          intro b hb
          rcases List.mem_cons.mp hb with rfl | hb
          · simpa using ha
          · simpa using hn b hb
        rw [List.filter_eq_self.mpr this]

/-! ### The map of upserts by key -/

/-- What is recorded for `k`. -/
def entriesOf {X : Type*} (m : List (K × List X)) (k : K) : List X := m.flatMap fun e => if e.1 = k then e.2 else []

theorem entriesOf_of_lt {X : Type*} {m : List (K × List X)} {k : K} (h : ∀ e ∈ m, k < e.1) : entriesOf m k = [] := by
  rw [entriesOf, List.flatMap_eq_nil_iff]
  intro e he
  simp [(h e he).ne']

theorem entryPush_spec {X : Type*} (m : List (K × List X)) (key : K) (x : X) (h : m.Pairwise fun a b => a.1 < b.1) :
    (entryPush m key x).Pairwise (fun a b => a.1 < b.1) ∧ (∀ e ∈ entryPush m key x, e.1 = key ∨ ∃ e' ∈ m, e'.1 = e.1) ∧
    ∀ k, entriesOf (entryPush m key x) k = entriesOf m k ++ if key = k then [x] else [] := by
  induction m with
  | nil =>
    refine ⟨by simp [entryPush], by simp [entryPush], fun k => ?_⟩
    simp [entryPush, entriesOf]
  | cons e m ih =>
    have hh := h
    rw [List.pairwise_cons] at h
    obtain ⟨i1, i2, i3⟩ := ih h.2
    rcases lt_trichotomy key e.1 with hlt | heq | hgt
    · have e1 : entryPush (e :: m) key x = (key, [x]) :: e :: m := by simp [entryPush, hlt]
      have hall : ∀ e' ∈ e :: m, key < e'.1 := by
        intro e' he'
        rcases List.mem_cons.mp he' with rfl | he'
        · exact hlt
        · exact hlt.trans (h.1 e' he')
      rw [e1]
      refine ⟨List.pairwise_cons.mpr ⟨hall, hh⟩, ?_, fun k => ?_⟩
      · intro e' he'
        rcases List.mem_cons.mp he' with rfl | he'
        · exact Or.inl rfl
        · exact Or.inr ⟨e', he', rfl⟩
      · by_cases hk : key = k
        · subst hk
          have := entriesOf_of_lt hall
          simp only [entriesOf] at this ⊢
          rw [List.flatMap_cons, this]; simp
        · simp [entriesOf, hk]
    · have e1 : entryPush (e :: m) key x = (e.1, e.2 ++ [x]) :: m := by simp [entryPush, heq]
      rw [e1]
      refine ⟨List.pairwise_cons.mpr ⟨h.1, h.2⟩, ?_, fun k => ?_⟩
      · intro e' he'
        rcases List.mem_cons.mp he' with rfl | he'
        · exact Or.inl heq.symm
        · exact Or.inr ⟨e', List.mem_cons_of_mem _ he', rfl⟩
      · by_cases hk : key = k
        · subst hk
          have := entriesOf_of_lt (k := key) (m := m) (fun e' he' => heq ▸ h.1 e' he')
          simp only [entriesOf] at this ⊢
          rw [List.flatMap_cons, List.flatMap_cons, this]; simp [heq]
        · simp [entriesOf, hk, ← heq]
    · have e1 : entryPush (e :: m) key x = e :: entryPush m key x := by simp [entryPush, hgt.not_gt, hgt.ne']
      rw [e1]
      refine ⟨List.pairwise_cons.mpr ⟨?_, i1⟩, ?_, fun k => ?_⟩
      · intro e' he'
        rcases i2 e' he' with h1 | ⟨e'', h1, h2⟩
        · rw [h1]; exact hgt
        · rw [← h2]; exact h.1 e'' h1
      · intro e' he'
        rcases List.mem_cons.mp he' with rfl | he'
        · exact Or.inr ⟨e', by simp, rfl⟩
        · rcases i2 e' he' with h1 | ⟨e'', h1, h2⟩
          · exact Or.inl h1
          · exact Or.inr ⟨e'', List.mem_cons_of_mem _ h1, h2⟩
      · have := i3 k
        simp only [entriesOf] at this ⊢
        rw [List.flatMap_cons, List.flatMap_cons, this, List.append_assoc]

theorem entries_fold {X Y : Type*} (f : Y → K) (g : Y → X) (ys : List Y) :
    (ys.foldl (fun m y => entryPush m (f y) (g y)) []).Pairwise (fun a b => a.1 < b.1) ∧
    ∀ k, entriesOf (ys.foldl (fun m y => entryPush m (f y) (g y)) []) k = (ys.filter fun y => f y = k).map g := by
  induction ys using List.reverseRecOn with
  | nil => simp [entriesOf]
  | append_singleton ys y ih =>
    rw [List.foldl_append, List.foldl_cons, List.foldl_nil]
    obtain ⟨i1, i2⟩ := ih
    obtain ⟨h1, -, h3⟩ := entryPush_spec _ (f y) (g y) i1
    refine ⟨h1, fun k => ?_⟩
    rw [h3, i2]
    by_cases hk : f y = k <;> simp [hk]

/-! ### The prior value -/

theorem findPrev_spec (o : Option V) : ∀ (vals : List (V × List (T × Int))) (prev : Option V), vals.Pairwise (fun x y => x.1 < y.1) →
    (∀ vu ∈ vals, (vu.2.map Prod.snd).sum = if o = some vu.1 then 1 else 0) → (prev = none ∨ ∀ vu ∈ vals, o ≠ some vu.1) →
    findPrev vals prev = some (if ∃ vu ∈ vals, o = some vu.1 then o else prev) := by
  intro vals
  induction vals with
  | nil => intro prev _ _ _; simp [findPrev]
  | cons vu vals ih =>
    intro prev hp hc hn
    rw [List.pairwise_cons] at hp
    have h0 := hc vu (by simp)
    have hc' : ∀ vu ∈ vals, (vu.2.map Prod.snd).sum = if o = some vu.1 then 1 else 0 := fun x hx => hc x (List.mem_cons_of_mem _ hx)
    by_cases ho : o = some vu.1
    · rw [if_pos ho] at h0
      have hrest : ∀ x ∈ vals, o ≠ some x.1 := by
        intro x hx hx'
        have := hp.1 x hx
        rw [ho] at hx'
        rw [Option.some.injEq] at hx'
        exact this.ne hx'
      have hpn : prev = none := by
        rcases hn with h | h
        · exact h
        · exact absurd ho (h vu (by simp))
      subst hpn
      have : findPrev (vu :: vals) none = findPrev vals (some vu.1) := by simp [findPrev, h0]
      rw [this, ih _ hp.2 hc' (Or.inr hrest)]
      rw [if_neg (by rintro ⟨x, hx, h⟩; exact hrest x hx h), if_pos ⟨vu, by simp, ho⟩, ho]
    · rw [if_neg ho] at h0
      have : findPrev (vu :: vals) prev = findPrev vals prev := by simp [findPrev, h0]
      rw [this, ih _ hp.2 hc']
      · congr 1
        have e : (∃ x ∈ vals, o = some x.1) ↔ ∃ x ∈ vu :: vals, o = some x.1 := by
          constructor
          · rintro ⟨x, hx, h⟩; exact ⟨x, List.mem_cons_of_mem _ hx, h⟩
          · rintro ⟨x, hx, h⟩
            rcases List.mem_cons.mp hx with rfl | hx
            · exact absurd h ho
            · exact ⟨x, hx, h⟩
        simp only [e]
      · rcases hn with h | h
        · exact Or.inl h
        · exact Or.inr fun x hx => h x (List.mem_cons_of_mem _ hx)

/-- The sum of the differences recorded for a key and value. -/
def viewSum (t : Contents K V T Int) (k : K) (v : V) : Int := ((t.at k v).map Prod.snd).sum

theorem at_single {t : Contents K V T Int} (h : ContentsSorted t) {kv} (hkv : kv ∈ t) (v : V) :
    t.at kv.1 v = kv.2.flatMap fun vu => if vu.1 = v then vu.2 else [] := by
  obtain ⟨a, b, rfl⟩ := List.append_of_mem hkv
  have hp := h.keys
  rw [List.pairwise_append, List.pairwise_cons] at hp
  have ha : (a.flatMap fun kv' => if kv'.1 = kv.1 then kv'.2.flatMap fun vu => if vu.1 = v then vu.2 else [] else []) = [] := by
    rw [List.flatMap_eq_nil_iff]
    intro x hx
    rw [if_neg (hp.2.2 x hx kv (by simp)).ne]
  have hb : (b.flatMap fun kv' => if kv'.1 = kv.1 then kv'.2.flatMap fun vu => if vu.1 = v then vu.2 else [] else []) = [] := by
    rw [List.flatMap_eq_nil_iff]
    intro x hx
    rw [if_neg (hp.2.1.1 x hx).ne']
  rw [Contents.at, List.flatMap_append, List.flatMap_cons, ha, hb]
  simp

theorem vals_single {vals : List (V × List (T × Int))} (h : vals.Pairwise fun x y => x.1 < y.1) {vu} (hvu : vu ∈ vals) :
    (vals.flatMap fun x => if x.1 = vu.1 then x.2 else []) = vu.2 := by
  obtain ⟨a, b, rfl⟩ := List.append_of_mem hvu
  rw [List.pairwise_append, List.pairwise_cons] at h
  have ha : (a.flatMap fun x => if x.1 = vu.1 then x.2 else []) = [] := by
    rw [List.flatMap_eq_nil_iff]
    intro x hx
    rw [if_neg (h.2.2 x hx vu (by simp)).ne]
  have hb : (b.flatMap fun x => if x.1 = vu.1 then x.2 else []) = [] := by
    rw [List.flatMap_eq_nil_iff]
    intro x hx
    rw [if_neg (h.2.1.1 x hx).ne']
  rw [List.flatMap_append, List.flatMap_cons, ha, hb]
  simp

/-- The cursor has passed no key at or after `key`. -/
def NotPast (t : Contents K V T Int) (cursor : Pos K V T Int) (key : K) : Prop := ∃ pre, t = pre ++ cursor.keys ∧ ∀ kv ∈ pre, kv.1 < key

theorem priorValue_spec {t : Contents K V T Int} (ht : ContentsSorted t) {cursor : Pos K V T Int} {key : K} (hc : NotPast t cursor key) {o : Option V}
    (ho : ∀ v, viewSum t key v = if o = some v then 1 else 0) :
    ∃ cursor', priorValue cursor key = some (o, cursor') ∧ ∀ key', key < key' → NotPast t cursor' key' := by
  obtain ⟨pre, h1, h2⟩ := hc
  set d := cursor.keys.dropWhile fun kv => decide (kv.1 < key) with hd
  have hsk : cursor.seekKey key = Pos.start d := rfl
  have htd : t = pre ++ (cursor.keys.takeWhile fun kv => decide (kv.1 < key)) ++ d := by
    rw [h1, List.append_assoc, hd, List.takeWhile_append_dropWhile]
  have hpre : ∀ kv ∈ pre ++ (cursor.keys.takeWhile fun kv => decide (kv.1 < key)), kv.1 < key := by
    intro kv hkv
    rcases List.mem_append.mp hkv with h | h
    · exact h2 kv h
    · have := List.all_eq_true.mp List.all_takeWhile kv h
      simpa using this
  have hdp : d.Pairwise fun x y => x.1 < y.1 := (List.pairwise_append.mp (htd ▸ ht.keys)).2.1
  cases hd' : d with
  | nil =>
    have hk : (Pos.start d).key? ≠ some key := by rw [hd']; simp [Pos.start, Pos.key?]
    refine ⟨Pos.start d, ?_, fun key' hlt => ⟨_, by rw [hd'] at htd ⊢; exact htd, fun kv hkv => (hpre kv hkv).trans hlt⟩⟩
    have hnone : o = none := by
      cases o with
      | none => rfl
      | some v =>
        have := ho v
        rw [if_pos rfl, viewSum, Contents.at] at this
        rw [htd, hd', List.append_nil] at this
        have h0 : ((pre ++ (cursor.keys.takeWhile fun kv => decide (kv.1 < key))).flatMap fun kv => if kv.1 = key then kv.2.flatMap fun vu => if vu.1 = v then vu.2 else [] else []) = [] := by
          rw [List.flatMap_eq_nil_iff]
          intro x hx
          rw [if_neg (hpre x hx).ne]
        rw [h0] at this
        simp at this
    rw [priorValue, hsk, if_neg hk, hnone]
  | cons kv d' =>
    have hge : key ≤ kv.1 := by
      have := List.head?_dropWhile_not (fun kv : K × List (V × List (T × Int)) => decide (kv.1 < key)) cursor.keys
      rw [← hd, hd'] at this
      simpa using this
    by_cases hk : kv.1 = key
    · have hkv : kv ∈ t := by rw [htd, hd']; simp
      have hkey : (Pos.start d).key? = some key := by rw [hd']; simp [Pos.start, Pos.key?, hk]
      have hv := ht.vals kv hkv
      have hcounts : ∀ vu ∈ kv.2, (vu.2.map Prod.snd).sum = if o = some vu.1 then 1 else 0 := by
        intro vu hvu
        rw [← ho vu.1, viewSum, ← hk, at_single ht hkv, vals_single hv hvu]
      refine ⟨(Pos.start d).stepKey, ?_, ?_⟩
      · rw [priorValue, hsk, if_pos hkey]
        have hvals : (Pos.start d).vals = kv.2 := by rw [hd']; simp [Pos.start]
        rw [hvals, findPrev_spec o kv.2 none hv hcounts (Or.inl rfl), Option.map_some]
        congr 2
        by_cases hex : ∃ vu ∈ kv.2, o = some vu.1
        · rw [if_pos hex]
        · rw [if_neg hex]
          cases o with
          | none => rfl
          | some v =>
            have := ho v
            rw [if_pos rfl, viewSum, ← hk, at_single ht hkv] at this
            have h0 : (kv.2.flatMap fun vu => if vu.1 = v then vu.2 else []) = [] := by
              rw [List.flatMap_eq_nil_iff]
              intro x hx
              rw [if_neg]
              intro hxv
              exact hex ⟨x, hx, by rw [hxv]⟩
            rw [h0] at this
            simp at this
      · intro key' hlt
        refine ⟨pre ++ (cursor.keys.takeWhile fun kv => decide (kv.1 < key)) ++ [kv], ?_, ?_⟩
        · have : (Pos.start d).stepKey.keys = d' := by rw [hd']; simp [Pos.start, Pos.stepKey]
          rw [this]
          conv_lhs => rw [htd, hd']
          simp
        · intro x hx
          rcases List.mem_append.mp hx with h | h
          · exact (hpre x h).trans hlt
          · rw [List.mem_singleton] at h; rw [h, hk]; exact hlt
    · have hlt : key < kv.1 := lt_of_le_of_ne hge (Ne.symm hk)
      have hkey : (Pos.start d).key? ≠ some key := by rw [hd']; simp [Pos.start, Pos.key?, hk]
      refine ⟨Pos.start d, ?_, fun key' hlt => ⟨_, by rw [show (Pos.start d).keys = d from rfl]; exact htd, fun kv hkv => (hpre kv hkv).trans hlt⟩⟩
      have hnone : o = none := by
        cases o with
        | none => rfl
        | some v =>
          have := ho v
          rw [if_pos rfl, viewSum, Contents.at] at this
          have h0 : (t.flatMap fun kv => if kv.1 = key then kv.2.flatMap fun vu => if vu.1 = v then vu.2 else [] else []) = [] := by
            rw [List.flatMap_eq_nil_iff]
            intro x hx
            rw [if_neg]
            rw [htd, hd'] at hx
            rcases List.mem_append.mp hx with h | h
            · exact (hpre x h).ne
            · rcases List.mem_cons.mp h with rfl | h
              · exact hk
              · rw [hd', List.pairwise_cons] at hdp
                exact (hlt.trans (hdp.1 x h)).ne'
          rw [h0] at this
          simp at this
      rw [priorValue, hsk, if_neg hkey, hnone]

/-! ### The upserts of one key -/

/-- The value after the upserts at or before `q`. -/
def lastVal (q : T) : Option V → List (T × Option V) → Option V
  | prev, [] => prev
  | prev, x :: L => if x.1 ≤ q then lastVal q x.2 L else prev

theorem lastVal_of_gt {q : T} {prev : Option V} {L : List (T × Option V)} (h : ∀ x ∈ L, ¬ x.1 ≤ q) : lastVal q prev L = prev := by
  cases L with
  | nil => rfl
  | cons x L => rw [lastVal, if_neg (h x (by simp))]

theorem applyUpserts_cons (key : K) (prev : Option V) (time : T) (next : Option V) (L : List (T × Option V)) :
    applyUpserts key prev ((time, next) :: L) = if prev ≠ next then
      (match prev with | some prev => [((key, prev), time, -1)] | none => []) ++
      (match next with | some next => [((key, next), time, 1)] | none => []) ++ applyUpserts key next L
    else applyUpserts key prev L := by
  rw [applyUpserts.eq_def]
  by_cases h : prev = next
  · simp only [h, ne_eq, not_true, if_false]
  · simp only [h, ne_eq, not_false_eq_true, if_true]
    cases prev <;> cases next <;> rfl

theorem applyUpserts_key (key : K) : ∀ (L : List (T × Option V)) (prev : Option V), ∀ u ∈ applyUpserts key prev L,
    u.1.1 = key ∧ u.2.2 ≠ 0 ∧ ∃ x ∈ L, x.1 = u.2.1 := by
  intro L
  induction L with
  | nil => intro prev u hu; simp [applyUpserts] at hu
  | cons x L ih =>
    obtain ⟨time, next⟩ := x
    intro prev u hu
    rw [applyUpserts_cons] at hu
    by_cases h : prev ≠ next
    · rw [if_pos h] at hu
      rcases List.mem_append.mp hu with hu | hu
      · rcases List.mem_append.mp hu with hu | hu
        · cases prev <;> simp at hu
          subst hu; simp
        · cases next <;> simp at hu
          subst hu; simp
      · obtain ⟨a, b, x, hx, e⟩ := ih _ u hu
        exact ⟨a, b, x, List.mem_cons_of_mem _ hx, e⟩
    · rw [if_neg h] at hu
      obtain ⟨a, b, x, hx, e⟩ := ih _ u hu
      exact ⟨a, b, x, List.mem_cons_of_mem _ hx, e⟩

theorem accum_zero_of {D R : Type*} [DecidableEq D] [AddCommMonoid R] {us : Upds D T R} {d : D} {q : T} (h : ∀ u ∈ us, u.1 = d → ¬ u.2.1 ≤ q) : accum us d q = 0 := by
  rw [accum]
  apply List.sum_eq_zero
  intro x hx
  rw [List.mem_map] at hx
  obtain ⟨u, hu, rfl⟩ := hx
  rw [if_neg]
  rintro ⟨h1, h2⟩
  exact h u hu h1 h2

theorem accum_applyUpserts (key : K) (v : V) (q : T) : ∀ (L : List (T × Option V)) (prev : Option V), L.Pairwise (fun a b => a.1 < b.1) →
    accum (applyUpserts key prev L) (key, v) q + (if prev = some v then 1 else 0) = if lastVal q prev L = some v then 1 else 0 := by
  intro L
  induction L with
  | nil => intro prev _; by_cases h : prev = some v <;> simp [applyUpserts, lastVal, accum, h]
  | cons x L ih =>
    obtain ⟨time, next⟩ := x
    intro prev hp
    rw [List.pairwise_cons] at hp
    by_cases hq : time ≤ q
    · rw [lastVal, if_pos hq, ← ih next hp.2, applyUpserts_cons]
      by_cases h : prev ≠ next
      · rw [if_pos h, accum_append, accum_append]
        have e1 : accum (match prev with | some prev => [((key, prev), time, (-1 : Int))] | none => []) (key, v) q = if prev = some v then -1 else 0 := by
          cases prev <;> simp [accum, hq]
        have e2 : accum (match next with | some next => [((key, next), time, (1 : Int))] | none => []) (key, v) q = if next = some v then 1 else 0 := by
          cases next <;> simp [accum, hq]
        rw [e1, e2]
        by_cases h1 : prev = some v <;> by_cases h2 : next = some v <;> simp [h1, h2]
        abel
      · push Not at h
        rw [if_neg (by simpa using h), h]
    · rw [lastVal, if_neg hq]
      have : accum (applyUpserts key prev ((time, next) :: L)) (key, v) q = 0 := by
        apply accum_zero_of
        intro u hu _
        obtain ⟨_, _, x, hx, e⟩ := applyUpserts_key key _ _ u hu
        rw [← e]
        rcases List.mem_cons.mp hx with rfl | hx
        · exact hq
        · exact fun hle => hq ((hp.1 x hx).le.trans hle)
      rw [this, zero_add]

theorem applyUpserts_distinct (key : K) : ∀ (L : List (T × Option V)) (prev : Option V), L.Pairwise (fun a b => a.1 < b.1) →
    (applyUpserts key prev L).Pairwise fun a b => a.1 = b.1 → a.2.1 ≠ b.2.1 := by
  intro L
  induction L with
  | nil => intro prev _; simp [applyUpserts]
  | cons x L ih =>
    obtain ⟨time, next⟩ := x
    intro prev hp
    rw [List.pairwise_cons] at hp
    rw [applyUpserts_cons]
    by_cases h : prev ≠ next
    · rw [if_pos h, List.pairwise_append]
      refine ⟨?_, ih _ hp.2, ?_⟩
      · cases prev <;> cases next <;> simp
        rintro rfl
        exact h rfl
      · intro a ha b hb _
        have hat : a.2.1 = time := by
          rcases List.mem_append.mp ha with ha | ha
          · cases prev <;> simp at ha
            rw [ha]
          · cases next <;> simp at ha
            rw [ha]
        obtain ⟨_, _, x, hx, e⟩ := applyUpserts_key key _ _ b hb
        rw [hat, ← e]
        exact (hp.1 x hx).ne
    · rw [if_neg h]; exact ih _ hp.2

theorem dedupAfter_spec : ∀ (xs : List (T × Option V)) (t : T), xs.Pairwise (fun a b => listLe a b = true) → (∀ x ∈ xs, t ≤ x.1) →
    (dedupAfter t xs).Pairwise (fun a b => a.1 < b.1) ∧ (∀ x ∈ dedupAfter t xs, t < x.1) ∧
    ∀ x, x ∈ dedupAfter t xs ↔ x ∈ xs ∧ t < x.1 ∧ ∀ y ∈ xs, y.1 = x.1 → optionLe y.2 x.2 = true := by
  intro xs
  induction xs with
  | nil => intro t _ _; simp [dedupAfter]
  | cons a xs ih =>
    intro t hp ht
    rw [List.pairwise_cons] at hp
    have hle : ∀ x ∈ xs, a.1 ≤ x.1 := by
      intro x hx
      have := hp.1 x hx
      rw [listLe] at this
      by_cases e : a.1 = x.1
      · exact e.le
      · rw [if_neg e] at this; exact (by simpa using this : a.1 < x.1).le
    have ha := ht a (by simp)
    rw [dedupAfter]
    by_cases h : a.1 = t
    · rw [if_pos h]
      obtain ⟨i1, i2, i3⟩ := ih t hp.2 fun x hx => h ▸ hle x hx
      refine ⟨i1, i2, fun x => ?_⟩
      rw [i3]
      constructor
      · rintro ⟨h1, h2, h3⟩
        refine ⟨List.mem_cons_of_mem _ h1, h2, fun y hy hyx => ?_⟩
        rcases List.mem_cons.mp hy with rfl | hy
        · exact absurd (h.symm.trans hyx) h2.ne
        · exact h3 y hy hyx
      · rintro ⟨h1, h2, h3⟩
        rcases List.mem_cons.mp h1 with rfl | h1
        · exact absurd h h2.ne'
        · exact ⟨h1, h2, fun y hy => h3 y (List.mem_cons_of_mem _ hy)⟩
    · rw [if_neg h]
      have hlt : t < a.1 := lt_of_le_of_ne ha (Ne.symm h)
      obtain ⟨i1, i2, i3⟩ := ih a.1 hp.2 hle
      refine ⟨List.pairwise_cons.mpr ⟨i2, i1⟩, ?_, fun x => ?_⟩
      · intro x hx
        rcases List.mem_cons.mp hx with rfl | hx
        · exact hlt
        · exact hlt.trans (i2 x hx)
      · rw [List.mem_cons, i3]
        constructor
        · rintro (rfl | ⟨h1, h2, h3⟩)
          · refine ⟨by simp, hlt, fun y hy hyx => ?_⟩
            rcases List.mem_cons.mp hy with rfl | hy
            · rcases optionLe_total y.2 y.2 with h | h <;> exact h
            · have := hp.1 y hy
              rw [listLe, if_pos hyx.symm] at this
              exact this
          · refine ⟨List.mem_cons_of_mem _ h1, hlt.trans h2, fun y hy hyx => ?_⟩
            rcases List.mem_cons.mp hy with rfl | hy
            · exact absurd hyx h2.ne
            · exact h3 y hy hyx
        · rintro ⟨h1, h2, h3⟩
          by_cases e : a.1 = x.1
          · left
            rcases List.mem_cons.mp h1 with rfl | h1
            · rfl
            · have g1 := hp.1 x h1
              rw [listLe, if_pos e] at g1
              exact Prod.ext e.symm (optionLe_antisymm g1 (h3 a (by simp) e))
          · right
            rcases List.mem_cons.mp h1 with rfl | h1
            · exact absurd rfl e
            · exact ⟨h1, lt_of_le_of_ne (hle x h1) e, fun y hy => h3 y (List.mem_cons_of_mem _ hy)⟩

theorem dedupTimes_spec (xs : List (T × Option V)) (hp : xs.Pairwise fun a b => listLe a b = true) :
    (dedupTimes xs).Pairwise (fun a b => a.1 < b.1) ∧ ∀ x, x ∈ dedupTimes xs ↔ x ∈ xs ∧ ∀ y ∈ xs, y.1 = x.1 → optionLe y.2 x.2 = true := by
  cases xs with
  | nil => simp [dedupTimes]
  | cons a xs =>
    rw [List.pairwise_cons] at hp
    have hle : ∀ x ∈ xs, a.1 ≤ x.1 := by
      intro x hx
      have := hp.1 x hx
      rw [listLe] at this
      by_cases e : a.1 = x.1
      · exact e.le
      · rw [if_neg e] at this; exact (by simpa using this : a.1 < x.1).le
    obtain ⟨i1, i2, i3⟩ := dedupAfter_spec xs a.1 hp.2 hle
    refine ⟨List.pairwise_cons.mpr ⟨i2, i1⟩, fun x => ?_⟩
    rw [dedupTimes, List.mem_cons, i3]
    constructor
    · rintro (rfl | ⟨h1, h2, h3⟩)
      · refine ⟨by simp, fun y hy hyx => ?_⟩
        rcases List.mem_cons.mp hy with rfl | hy
        · rcases optionLe_total y.2 y.2 with h | h <;> exact h
        · have := hp.1 y hy
          rw [listLe, if_pos hyx.symm] at this
          exact this
      · refine ⟨List.mem_cons_of_mem _ h1, fun y hy hyx => ?_⟩
        rcases List.mem_cons.mp hy with rfl | hy
        · exact absurd hyx h2.ne
        · exact h3 y hy hyx
    · rintro ⟨h1, h3⟩
      by_cases e : a.1 = x.1
      · left
        rcases List.mem_cons.mp h1 with rfl | h1
        · rfl
        · have g1 := hp.1 x h1
          rw [listLe, if_pos e] at g1
          exact Prod.ext e.symm (optionLe_antisymm g1 (h3 a (by simp) e))
      · right
        rcases List.mem_cons.mp h1 with rfl | h1
        · exact absurd rfl e
        · exact ⟨h1, lt_of_le_of_ne (hle x h1) e, fun y hy => h3 y (List.mem_cons_of_mem _ hy)⟩

/-- The upserts of a key as the loop sees them: strictly increasing times, and at each time the greatest value offered. -/
theorem sorted_spec (list : List (T × Option V)) :
    (dedupTimes (list.insertionSort fun a b => listLe a b = true)).Pairwise (fun a b => a.1 < b.1) ∧
    ∀ x, x ∈ dedupTimes (list.insertionSort fun a b => listLe a b = true) ↔ x ∈ list ∧ ∀ y ∈ list, y.1 = x.1 → optionLe y.2 x.2 = true := by
  obtain ⟨h1, h2⟩ := dedupTimes_spec _ (List.pairwise_insertionSort (fun a b : T × Option V => listLe a b = true) list)
  refine ⟨h1, fun x => ?_⟩
  have hm : ∀ y, y ∈ list.insertionSort (fun a b => listLe a b = true) ↔ y ∈ list := fun y => (List.perm_insertionSort _ list).mem_iff
  rw [h2, hm]
  simp only [hm]

theorem keyUpserts_perm (key : K) (prev : Option V) (list : List (T × Option V)) :
    (keyUpserts key prev list).Perm (applyUpserts key prev (dedupTimes (list.insertionSort fun a b => listLe a b = true))) :=
  List.perm_insertionSort _ _

theorem keyUpserts_spec (key : K) (prev : Option V) (list : List (T × Option V)) :
    (∀ u ∈ keyUpserts key prev list, u.1.1 = key ∧ u.2.2 ≠ 0 ∧ ∃ x ∈ list, x.1 = u.2.1) ∧
    (keyUpserts key prev list).Pairwise (fun u v => toLex u.1 < toLex v.1 ∨ u.1 = v.1 ∧ u.2.1 < v.2.1) ∧
    ∀ v q, accum (keyUpserts key prev list) (key, v) q + (if prev = some v then 1 else 0) =
      if lastVal q prev (dedupTimes (list.insertionSort fun a b => listLe a b = true)) = some v then 1 else 0 := by
  obtain ⟨h1, h2⟩ := sorted_spec list
  refine ⟨?_, ?_, ?_⟩
  · intro u hu
    obtain ⟨a, b, x, hx, e⟩ := applyUpserts_key key _ _ u ((keyUpserts_perm key prev list).mem_iff.mp hu)
    exact ⟨a, b, x, ((h2 x).mp hx).1, e⟩
  · have hd := applyUpserts_distinct key _ prev h1
    have hd' : (keyUpserts key prev list).Pairwise fun a b => a.1 = b.1 → a.2.1 ≠ b.2.1 :=
      (List.Perm.pairwise_iff (fun {a b} h e => (h e.symm).symm) (keyUpserts_perm key prev list)).mpr hd
    have hs : (keyUpserts key prev list).Pairwise fun a b => updLe a b = true := List.pairwise_insertionSort (fun a b => updLe a b = true) _
    refine (hs.and hd').imp ?_
    rintro a b ⟨hle, hne⟩
    simp only [updLe, decide_eq_true_eq] at hle
    rw [Prod.Lex.toLex_le_toLex] at hle
    rcases hle with h | ⟨e, h⟩
    · exact Or.inl h
    · rw [Prod.Lex.toLex_le_toLex] at h
      have e' : a.1 = b.1 := e
      rcases h with h | ⟨e2, _⟩
      · exact Or.inr ⟨e', h⟩
      · exact absurd e2 (hne e')
  · intro v q
    rw [accum_perm (keyUpserts_perm key prev list)]
    exact accum_applyUpserts key v q _ prev h1

/-! ### All keys -/

theorem upsertKeys_spec {t : Contents K V T Int} (ht : ContentsSorted t) (o : K → Option V) (ho : ∀ k v, viewSum t k v = if o k = some v then 1 else 0) :
    ∀ (m : List (K × List (T × Option V))) (cursor : Pos K V T Int), m.Pairwise (fun a b => a.1 < b.1) → (∀ e ∈ m, NotPast t cursor e.1) →
    upsertKeys cursor m = some (m.flatMap fun e => keyUpserts e.1 (o e.1) e.2) := by
  intro m
  induction m with
  | nil => intro _ _ _; rfl
  | cons e m ih =>
    obtain ⟨key, list⟩ := e
    intro cursor hp hc
    rw [List.pairwise_cons] at hp
    obtain ⟨c', h1, h2⟩ := priorValue_spec ht (hc (key, list) (by simp)) (ho key)
    rw [upsertKeys, h1]
    have := ih c' hp.2 fun e he => h2 _ (hp.1 e he)
    simp [this]

theorem pairwise_flatMap_keys {m : List (K × List (T × Option V))} (hm : m.Pairwise fun a b => a.1 < b.1) (o : K → Option V) :
    (m.flatMap fun e => keyUpserts e.1 (o e.1) e.2).Pairwise (fun u v => toLex u.1 < toLex v.1 ∨ u.1 = v.1 ∧ u.2.1 < v.2.1) := by
  induction m with
  | nil => simp
  | cons e m ih =>
    rw [List.pairwise_cons] at hm
    rw [List.flatMap_cons, List.pairwise_append]
    refine ⟨(keyUpserts_spec _ _ _).2.1, ih hm.2, ?_⟩
    intro a ha b hb
    rw [List.mem_flatMap] at hb
    obtain ⟨e', he', hb⟩ := hb
    left
    rw [Prod.Lex.toLex_lt_toLex, ((keyUpserts_spec _ _ _).1 a ha).1, ((keyUpserts_spec _ _ _).1 b hb).1]
    exact Or.inl (hm.1 e' he')

theorem accum_flatMap_keys {m : List (K × List (T × Option V))} (hm : m.Pairwise fun a b => a.1 < b.1) (o : K → Option V) (k : K) (v : V) (q : T) :
    accum (m.flatMap fun e => keyUpserts e.1 (o e.1) e.2) (k, v) q + (if o k = some v then 1 else 0) =
      if lastVal q (o k) (dedupTimes ((entriesOf m k).insertionSort fun a b => listLe a b = true)) = some v then 1 else 0 := by
  induction m with
  | nil => simp [accum, entriesOf, dedupTimes, lastVal]
  | cons e m ih =>
    rw [List.pairwise_cons] at hm
    rw [List.flatMap_cons, accum_append]
    by_cases hk : e.1 = k
    · have h0 : accum (m.flatMap fun e => keyUpserts e.1 (o e.1) e.2) (k, v) q = 0 := by
        apply accum_zero_of
        intro u hu hd
        rw [List.mem_flatMap] at hu
        obtain ⟨e', he', hu⟩ := hu
        have := ((keyUpserts_spec _ _ _).1 u hu).1
        rw [hd] at this
        have h2 := hm.1 e' he'
        rw [hk, ← this] at h2
        exact absurd h2 (lt_irrefl _)
      have he : entriesOf (e :: m) k = e.2 := by
        have := entriesOf_of_lt (k := k) (m := m) (fun e' he' => hk ▸ hm.1 e' he')
        simp only [entriesOf] at this ⊢
        rw [List.flatMap_cons, this]; simp [hk]
      rw [h0, add_zero, he, ← hk]
      exact (keyUpserts_spec e.1 (o e.1) e.2).2.2 v q
    · have h0 : accum (keyUpserts e.1 (o e.1) e.2) (k, v) q = 0 := by
        apply accum_zero_of
        intro u hu hd
        have := ((keyUpserts_spec _ _ _).1 u hu).1
        rw [hd] at this
        exact absurd this.symm hk
      have he : entriesOf (e :: m) k = entriesOf m k := by simp [entriesOf, hk]
      rw [h0, zero_add, he]
      exact ih hm.2

end DD
