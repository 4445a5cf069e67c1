import Verif.Proofs.ColRetain
import Verif.Proofs.VecCursor

/-! # Tries: uniqueness, pushing, filtering and building -/

namespace DD
set_option linter.unusedSectionVars false
open ColTrie
variable {K V T R : Type*}

section unique
variable [LinearOrder K] [LinearOrder V]

theorem groupOn_const {U A : Type*} [LinearOrder A] (f : U → A) (a : A) (us : List U) (h : us ≠ []) (hf : ∀ u ∈ us, f u = a) : groupOn f us = [(a, us)] := by
  cases us with
  | nil => exact absurd rfl h
  | cons u us =>
    have e : f u = a := hf u (by simp)
    have h1 : us.takeWhile (fun v => f v = f u) = us := by
      rw [List.takeWhile_eq_self_iff]; intro x hx
      simp [hf x (by simp [hx]), e]
    have h2 : us.dropWhile (fun v => f v = f u) = [] := by
      rw [List.dropWhile_eq_nil_iff]; intro x hx
      simp [hf x (by simp [hx]), e]
    rw [groupOn, h1, h2, groupOn_nil, e]

theorem valsOf_upds (k : K) (vs : List (V × List (T × R))) (hs : vs.Pairwise fun x y => x.1 < y.1) (hn : ∀ v ∈ vs, v.2 ≠ []) :
    valsOf (vs.flatMap fun v => v.2.map fun u => (toLex (k, v.1), u)) = vs := by
  induction vs with
  | nil => simp [valsOf, groupOn_nil]
  | cons v vs ih =>
    rw [List.pairwise_cons] at hs
    rw [List.flatMap_cons, valsOf, groupOn_append, List.map_append]
    · rw [groupOn_const valOf v.1 _ (by simpa using hn v (by simp)) (by intro u hu; obtain ⟨x, -, rfl⟩ := List.mem_map.1 hu; rfl)]
      have := ih hs.2 fun w hw => hn w (by simp [hw])
      rw [valsOf] at this
      rw [this]; simp
    · intro x hx y hy
      simp only [List.mem_map, List.mem_flatMap] at hx hy
      obtain ⟨u, -, rfl⟩ := hx
      obtain ⟨w, hw, u', -, rfl⟩ := hy
      exact (hs.1 w hw).ne

theorem toContents_upds {c : Contents K V T R} (h : Canonical c) : toContents c.upds = c := by
  induction c with
  | nil => simp [toContents, groupOn_nil]
  | cons kv c ih =>
    obtain ⟨k, vs⟩ := kv
    rw [← List.nil_append ((k, vs) :: c), canonical_mid] at h
    obtain ⟨-, b2, -, b4, -, b6, b7, b8⟩ := h
    have hne : (vs.flatMap fun v => v.2.map fun u => (toLex (k, v.1), u)) ≠ [] := by
      intro he
      rw [List.flatMap_eq_nil_iff] at he
      obtain ⟨v, hv⟩ := List.exists_mem_of_ne_nil _ b7
      exact b8 v hv (by simpa using he v hv)
    rw [Contents.upds_cons, toContents, groupOn_append, List.map_append]
    · have h2 := ih b2
      rw [toContents] at h2
      rw [groupOn_const rowKey k _ hne, h2]
      · simp only [List.map_cons, List.map_nil, List.singleton_append, valsOf_upds k vs b6 b8]
      · intro u hu
        simp only [List.mem_map, List.mem_flatMap] at hu
        obtain ⟨v, -, u', -, rfl⟩ := hu; rfl
    · intro x hx y hy
      simp only [List.mem_map, List.mem_flatMap, Contents.upds] at hx hy
      obtain ⟨v, -, u', -, rfl⟩ := hx
      obtain ⟨k', hk', v', -, u', -, rfl⟩ := hy
      exact (b4 k' hk').ne

/-- What a trie holds determines it. -/
theorem holds_layout {t : ColTrie K V T R} {us : Upds (K ×ₗ V) T R} (h : t.Holds us) : t = (toContents us).forest.layout := by
  obtain ⟨c, h1, h2, rfl, rfl⟩ := h
  rw [toContents_upds ⟨h1, h2⟩]

theorem holds_unique {t t' : ColTrie K V T R} {us : Upds (K ×ₗ V) T R} (h : t.Holds us) (h' : t'.Holds us) : t = t' := by rw [holds_layout h, holds_layout h']

theorem holds_nil {t : ColTrie K V T R} : t.Holds [] ↔ t = ColTrie.empty := by
  constructor
  · intro h; rw [holds_layout h]; simp [toContents, groupOn_nil]; rfl
  · rintro rfl; exact ⟨[], ⟨by simp, by simp⟩, by simp [NoEmpty], rfl, rfl⟩

theorem upds_eq_nil {c : Contents K V T R} (h : NoEmpty c) : c.upds = [] ↔ c = [] := by
  constructor
  · intro he
    by_contra hc
    obtain ⟨k, v, ts, vs, h0, rfl, hts⟩ := split_first hc h
    obtain ⟨x, xs, rfl⟩ := List.exists_cons_of_ne_nil hts
    simp [Contents.upds] at he
  · rintro rfl; rfl

theorem len_layout {t : ColTrie K V T R} {us : Upds (K ×ₗ V) T R} (h : t.Holds us) : t.len = us.length := by
  obtain ⟨c, h1, h2, rfl, rfl⟩ := h
  rw [← upds_forest, length_upds]; rfl

theorem iter_holds {t : ColTrie K V T R} {us : Upds (K ×ₗ V) T R} (h : t.Holds us) : t.iter = some us := by
  obtain ⟨c, h1, h2, rfl, rfl⟩ := h
  rw [← upds_forest]
  by_cases hc : c = []
  · subst hc; rfl
  · obtain ⟨k, v, ts, vs, h0, rfl, hts⟩ := split_first hc h2
    apply iter_layout
    · simp [Contents.forest]
    · simp [Contents.forest, hts]

/-- Filtering a canonical trie by time and difference. -/
theorem holds_filter {us : Upds (K ×ₗ V) T R} {t : ColTrie K V T R} (h : t.Holds us) (p : T × R → Bool) :
    ∃ c, Canonical c ∧ t = c.forest.layout ∧ c.upds = us ∧ Canonical (pruneK p c) ∧ Contents.upds (pruneK p c) = us.filter fun u => p u.2 := by
  obtain ⟨c, h1, h2, rfl, rfl⟩ := h
  exact ⟨c, ⟨h1, h2⟩, rfl, rfl, canonical_pruneK p ⟨h1, h2⟩, upds_pruneK p c⟩

end unique

/-! ### Pushing -/

/-- A forest of one group per update. -/
def pushedF (us : Upds (K ×ₗ V) T R) : Forest K V T R := us.map fun u => [((ofLex u.1).1, [((ofLex u.1).2, [(u.2.1, [u.2.2])])])]

theorem push_layout (us : Upds (K ×ₗ V) T R) (u : (K ×ₗ V) × T × R) : (pushedF us).layout.push u = (pushedF (us ++ [u])).layout := by
  have e : pushedF (us ++ [u]) = pushedF us ++ [[((ofLex u.1).1, [((ofLex u.1).2, [(u.2.1, [u.2.2])])])]] := by simp [pushedF]
  rw [e]
  simp only [ColTrie.push, Forest.layout, Lists.push_of, Lists.close_opened, List.map_append, List.flatten_append, List.flatMap_append]
  rfl

theorem pushed_layout (us : Upds (K ×ₗ V) T R) : us.foldl ColTrie.push ColTrie.empty = (pushedF us).layout := by
  induction us using List.reverseRecOn with
  | nil => rfl
  | append_singleton us u ih => rw [List.foldl_append, ih]; exact push_layout us u

theorem upds_pushedF (us : Upds (K ×ₗ V) T R) : (pushedF us).upds = us := by
  induction us with
  | nil => rfl
  | cons u us ih =>
    simp only [Forest.upds, pushedF, List.map_cons, List.flatten_cons, List.flatMap_append] at ih ⊢
    rw [ih]; rfl

theorem iter_pushed (us : Upds (K ×ₗ V) T R) : (us.foldl ColTrie.push ColTrie.empty).iter = some us := by
  rw [pushed_layout, iter_layout, upds_pushedF]
  · cases us <;> simp [pushedF]
  · cases us <;> simp [pushedF]

/-! ### Forming -/

section form
variable [LinearOrder K] [LinearOrder V] [LinearOrder (Lin T)] [AddCommMonoid R] [DecidableEq R]

theorem formUnsorted_spec [DecidableEq T] (us : Upds (K ×ₗ V) T R) :
    ∃ t ws, formUnsorted us = some t ∧ t.Holds ws ∧ Consolidated ws ∧ ∀ d q, total ws d q = total us d q := by
  have hs := sortedU_sort us
  obtain ⟨t, h1, h2⟩ := form_holds hs
  refine ⟨t, _, h1, h2, consolidated_consolidating hs, fun d q => ?_⟩
  rw [total_consolidating]
  exact List.Perm.sum_eq ((List.perm_insertionSort updLe us).map _)

end form

/-! ### Filtering -/

theorem single_of (l : List R) : Lists.single l l.length = .of (l.map fun x => [x]) := by
  have : ∀ (l : List R) (n : Nat), ends n (l.map fun x => [x]) = (List.range l.length).map (· + 1 + n) := by
    intro l
    induction l with
    | nil => intro; rfl
    | cons x l ih =>
      intro n
      rw [List.map_cons, ends, ih, List.length_cons, List.length_cons, List.range_succ_eq_map, List.map_cons, List.map_map, List.length_nil]
      congr 1
      · omega
      · apply List.map_congr_left; intro a _; simp only [Function.comp_apply]; omega
  simp only [Lists.single, Lists.of, this, ← List.flatMap_def]
  simp

theorem marks_of {α : Type*} (ls : List (List α)) :
    ((List.range ls.length).mapM fun i => ((Lists.of ls).range i).map fun b => decide (b.1 < b.2)) = some (ls.map fun l => !l.isEmpty) := by
  have : ∀ n ≤ ls.length, ((List.range n).mapM fun i => ((Lists.of ls).range i).map fun b => decide (b.1 < b.2)) = some ((ls.take n).map fun l => !l.isEmpty) := by
    intro n hn
    induction n with
    | zero => rfl
    | succ n ih =>
      rw [List.range_succ, List.mapM_append, ih (by omega)]
      have hl : n < ls.length := by omega
      have e : decide (startAt ls n < startAt ls (n + 1)) = !(ls[n]).isEmpty := by
        rw [startAt_succ ls hl, Bool.eq_iff_iff]
        simp [List.length_pos_iff]
      rw [List.take_succ_eq_append_getElem hl, List.map_append, List.mapM_cons, Lists.range_of ls n hl]
      simp [e]
  have := this _ (le_refl _)
  rwa [List.take_length] at this

theorem strided_one {α : Type*} (ls : List (List α)) (n : Nat) (h : ends n ls = (List.range ls.length).map (· + 1 + n)) : ∀ l ∈ ls, l.length = 1 := by
  induction ls generalizing n with
  | nil => simp
  | cons l ls ih =>
    rw [ends, List.length_cons, List.range_succ_eq_map, List.map_cons, List.map_map, List.cons.injEq] at h
    have hl : l.length = 1 := by omega
    intro x hx
    rcases List.mem_cons.1 hx with rfl | hx
    · exact hl
    · refine ih (n + l.length) ?_ x hx
      rw [h.2]; apply List.map_congr_left; intro a _; simp only [Function.comp_apply]; omega

theorem treeC_exists (g : Contents K V T (List R)) (h : ∀ k ∈ g, ∀ v ∈ k.2, ∀ x ∈ v.2, ∃ r, x.2 = [r]) : ∃ c : Contents K V T R, g = treeC c := by
  have h0 : ∀ xs : List (T × List R), (∀ x ∈ xs, ∃ r, x.2 = [r]) → ∃ us : List (T × R), xs = us.map fun u => (u.1, [u.2]) := by
    intro xs hx
    induction xs with
    | nil => exact ⟨[], rfl⟩
    | cons x xs ih =>
      obtain ⟨us, hu⟩ := ih fun y hy => hx y (by simp [hy])
      obtain ⟨r, hr⟩ := hx x (by simp)
      exact ⟨(x.1, r) :: us, by rw [List.map_cons, ← hu, ← hr]⟩
  have h1 : ∀ vs : List (V × List (T × List R)), (∀ v ∈ vs, ∀ x ∈ v.2, ∃ r, x.2 = [r]) → ∃ ws : List (V × List (T × R)), vs = ws.map fun v => (v.1, v.2.map fun u => (u.1, [u.2])) := by
    intro vs hv
    induction vs with
    | nil => exact ⟨[], rfl⟩
    | cons v vs ih =>
      obtain ⟨ws, hw⟩ := ih fun y hy => hv y (by simp [hy])
      obtain ⟨us, hu⟩ := h0 v.2 (hv v (by simp))
      exact ⟨(v.1, us) :: ws, by rw [List.map_cons, ← hw, ← hu]⟩
  induction g with
  | nil => exact ⟨[], rfl⟩
  | cons k g ih =>
    obtain ⟨c, hc⟩ := ih fun y hy => h y (by simp [hy])
    obtain ⟨ws, hw⟩ := h1 k.2 (h k (by simp))
    refine ⟨(k.1, ws) :: c, ?_⟩
    rw [treeC, List.map_cons, ← treeC, ← hc]
    simp only [← hw]

section
variable [LinearOrder K] [LinearOrder V]

theorem flatMap_filter_of_nil {X Y : Type*} (xs : List X) (q : X → Bool) (F : X → List Y) (h : ∀ x ∈ xs, q x = false → F x = []) : (xs.filter q).flatMap F = xs.flatMap F := by
  induction xs with
  | nil => rfl
  | cons x xs ih =>
    have := ih fun y hy => h y (by simp [hy])
    rw [List.filter_cons]
    split_ifs with hx
    · simp [this]
    · simp [this, h x (by simp) (by simpa using hx)]

theorem flatMap_pruneK {X Y : Type*} (p : X → Bool) (c : List (K × List (V × List X))) (F : K → V → X → List Y) (hF : ∀ k v x, p x = false → F k v x = []) :
    ((pruneK p c).flatMap fun k => k.2.flatMap fun v => v.2.flatMap (F k.1 v.1)) = c.flatMap fun k => k.2.flatMap fun v => v.2.flatMap (F k.1 v.1) := by
  have h0 : ∀ k v (xs : List X), (xs.filter p).flatMap (F k v) = xs.flatMap (F k v) := fun k v xs => flatMap_filter_of_nil xs p _ fun x _ hx => hF k v x hx
  have h1 : ∀ k v (xs : List X), xs.any p = false → xs.flatMap (F k v) = [] := by
    intro k v xs hx
    rw [List.flatMap_eq_nil_iff]
    intro x hx'
    refine hF k v x ?_
    rw [List.any_eq_false] at hx; simpa using hx x hx'
  have h2 : ∀ k (vs : List (V × List X)), ((pruneV p vs).flatMap fun v => v.2.flatMap (F k v.1)) = vs.flatMap fun v => v.2.flatMap (F k v.1) := by
    intro k vs
    rw [pruneV, List.flatMap_map]
    simp only [h0]
    exact flatMap_filter_of_nil vs _ _ fun v _ hv => h1 k v.1 v.2 hv
  rw [pruneK, List.flatMap_map]
  simp only [h2]
  refine flatMap_filter_of_nil c _ _ fun k _ hk => ?_
  rw [List.flatMap_eq_nil_iff]
  intro v hv
  rw [List.any_eq_false] at hk
  exact h1 _ _ _ (by simpa using hk v hv)

theorem contentsSorted_iff {g : Contents K V T R} : ContentsSorted g ↔ (g.Pairwise fun x y => x.1 < y.1) ∧ ∀ kv ∈ g, kv.2.Pairwise fun x y => x.1 < y.1 :=
  ⟨fun h => ⟨h.1, h.2⟩, fun h => ⟨h.1, h.2⟩⟩

theorem canonical_treeC {c : Contents K V T R} : Canonical (treeC c) ↔ Canonical c := by
  simp only [Canonical, contentsSorted_iff, NoEmpty, treeC, List.pairwise_map, List.forall_mem_map, ne_eq, List.map_eq_nil_iff]

theorem filterZero_spec (g : Contents K V T (List R)) (hg : Canonical g) (h1 : ∀ k ∈ g, ∀ v ∈ k.2, ∀ x ∈ v.2, x.2.length ≤ 1) :
    ∃ t, filterZero (Forest.layout [g]) = some t ∧ t.Holds (Forest.upds [g]) := by
  rw [filterZero]
  split_ifs with h
  · refine ⟨_, rfl, ?_⟩
    obtain ⟨c, rfl⟩ : ∃ c : Contents K V T R, g = treeC c := by
      apply treeC_exists
      intro k hk v hv x hx
      have := h.2
      have hb : (Forest.layout [g]).diffs.bounds = ends 0 (((g.flatMap Prod.snd).flatMap Prod.snd).map Prod.snd) := by
        simp [Forest.layout, Lists.of]
      rw [hb, length_ends] at this
      have := strided_one _ 0 (by simpa using this) x.2 (List.mem_map_of_mem (List.mem_flatMap.2 ⟨v, List.mem_flatMap.2 ⟨k, hk, hv⟩, hx⟩))
      obtain ⟨r, hr⟩ := List.length_eq_one_iff.1 this
      exact ⟨r, hr⟩
    have hc : c ≠ [] := by
      rintro rfl; exact h.1 (by simp [Forest.layout, Lists.of, treeC])
    have hf : c.forest = [treeC c] := by rw [Contents.forest, if_neg (by simpa using hc)]; rfl
    rw [canonical_treeC] at hg
    exact ⟨c, hg.1, hg.2, by rw [hf], by rw [← upds_forest, hf]⟩
  · let p : T × List R → Bool := fun x => !x.2.isEmpty
    have hp : Canonical (pruneK p g) := canonical_pruneK p hg
    obtain ⟨c, hc⟩ : ∃ c : Contents K V T R, pruneK p g = treeC c := by
      apply treeC_exists
      intro k hk v hv x hx
      simp only [pruneK, List.mem_map, List.mem_filter] at hk
      obtain ⟨k', ⟨hk', -⟩, rfl⟩ := hk
      simp only [pruneV, List.mem_map, List.mem_filter] at hv
      obtain ⟨v', ⟨hv', -⟩, rfl⟩ := hv
      simp only [List.mem_filter] at hx
      have := h1 k' hk' v' hv' x hx.1
      have hne : x.2 ≠ [] := by simpa [p] using hx.2
      have : x.2.length = 1 := by have := List.length_pos_iff.2 hne; omega
      obtain ⟨r, hr⟩ := List.length_eq_one_iff.1 this
      exact ⟨r, hr⟩
    have hmarks : ((List.range (Forest.layout [g]).times.values.length).mapM fun i => ((Forest.layout [g]).diffs.range i).map fun b => decide (b.1 < b.2)) =
        some (((g.flatMap Prod.snd).flatMap Prod.snd).map p) := by
      have := marks_of (((g.flatMap Prod.snd).flatMap Prod.snd).map Prod.snd)
      rw [List.map_map] at this
      rw [show ((g.flatMap Prod.snd).flatMap Prod.snd).map p = ((g.flatMap Prod.snd).flatMap Prod.snd).map ((fun l => !l.isEmpty) ∘ Prod.snd) from rfl, ← this]
      have e1 : (Forest.layout [g]).times.values.length = (((g.flatMap Prod.snd).flatMap Prod.snd).map Prod.snd).length := by
        simp [Forest.layout, Lists.of, List.length_flatMap, Function.comp_def]
      have e2 : (Forest.layout [g]).diffs = .of (((g.flatMap Prod.snd).flatMap Prod.snd).map Prod.snd) := by simp [Forest.layout]
      rw [e1, e2]
    rw [hmarks, Option.bind_some]
    have hr := retain_spec p (Prod.fst : T × List R → T) [g] (Forest.layout [g]).diffs
    rw [List.flatten_singleton] at hr
    have e3 : (⟨.of ([g].map fun g => g.map Prod.fst), .of (g.map fun k => k.2.map Prod.fst), .of ((g.flatMap Prod.snd).map fun v => v.2.map Prod.fst), (Forest.layout [g]).diffs⟩ : ColTrie K V T R) = Forest.layout [g] := by
      simp [Forest.layout]
    rw [e3] at hr
    rw [hr, Option.map_some]
    refine ⟨_, rfl, c, (canonical_treeC.1 (hc ▸ hp)).1, (canonical_treeC.1 (hc ▸ hp)).2, ?_, ?_⟩
    · have hd : (Forest.layout [g]).diffs.values = ((c.flatMap Prod.snd).flatMap Prod.snd).map Prod.snd := by
        have : (((pruneK p g).flatMap Prod.snd).flatMap Prod.snd).map Prod.snd = (((c.flatMap Prod.snd).flatMap Prod.snd).map fun u => [u.2]) := by
          rw [hc]; simp [treeC, List.flatMap_map, List.map_flatMap, List.flatMap_assoc, Function.comp_def]
        have h2 : ((((pruneK p g).flatMap Prod.snd).flatMap Prod.snd).map Prod.snd).flatten = (((g.flatMap Prod.snd).flatMap Prod.snd).map Prod.snd).flatten := by
          rw [pruneK_snd, pruneV_snd]
          generalize (g.flatMap Prod.snd).flatMap Prod.snd = xs
          induction xs with
          | nil => rfl
          | cons x xs ih =>
            rw [List.filter_cons]
            split_ifs with hx
            · simp [ih]
            · have : x.2 = [] := by simpa [p] using hx
              simp [ih, this]
        rw [this, ← List.flatMap_def] at h2
        simp only [Forest.layout, List.flatten_singleton, Lists.of]
        rw [← h2]; simp [List.map_eq_flatMap]
      rw [hd, single_of]
      by_cases hcn : c = []
      · subst hcn
        have hg0 : pruneK p g = [] := hc
        have hg1 : pruneV p (g.flatMap Prod.snd) = [] := by rw [← pruneK_snd, hg0]; rfl
        simp only [List.map_cons, List.map_nil, hg0, hg1]
        rfl
      · rw [layout_forest hcn, layoutC, ← pruneK_snd, hc]
        have hne : (treeC c).map Prod.fst ≠ [] := by simpa [treeC] using hcn
        simp only [List.map_cons, List.map_nil, hc]
        rw [List.filter_cons_of_pos (by simpa using hne)]
        simp [treeC, List.flatMap_map, List.map_flatMap, Function.comp_def]
    · have hu : Forest.upds [treeC c] = c.upds := by
        by_cases hcn : c = []
        · subst hcn; rfl
        · rw [← upds_forest, Contents.forest, if_neg (by simpa using hcn)]; rfl
      rw [← hu, ← hc]
      simp only [Forest.upds, List.flatten_singleton]
      exact (flatMap_pruneK p g (fun k v t => t.2.map fun d => (toLex (k, v), t.1, d)) (by
        intro k v x hx
        have : x.2 = [] := by simpa [p] using hx
        rw [this]; rfl))

/-! ### Building -/

/-- What a builder holds: nothing, or a trie with its last lists open. -/
def Builds (b : ColTrie K V T R) (us : Upds (K ×ₗ V) T R) : Prop :=
  (us = [] ∧ b = ColTrie.empty) ∨ ∃ c, Canonical c ∧ c ≠ [] ∧ c.upds = us ∧ b = (layoutC c).reopen

theorem builderFrom_spec {t : ColTrie K V T R} {us : Upds (K ×ₗ V) T R} (h : t.Holds us) : Builds (builderFrom t) us := by
  obtain ⟨c, h1, h2, rfl, rfl⟩ := h
  by_cases hc : c = []
  · subst hc; exact .inl ⟨rfl, rfl⟩
  · refine .inr ⟨c, ⟨h1, h2⟩, hc, rfl, ?_⟩
    rw [builderFrom, layout_forest hc, if_pos (by simpa [layoutC, Lists.of] using List.length_pos_iff.2 hc)]

theorem builderDone_spec {b : ColTrie K V T R} {us : Upds (K ×ₗ V) T R} (h : Builds b us) : (builderDone b).Holds us := by
  rcases h with ⟨rfl, rfl⟩ | ⟨c, h1, h2, rfl, rfl⟩
  · exact holds_nil.2 rfl
  · refine ⟨c, h1.1, h1.2, ?_, rfl⟩
    obtain ⟨g0, k, vs0, v, ts, rfl, -⟩ := split_last h2 h1.2
    rw [layout_forest h2, reopen_layoutC, builderDone, if_pos (by simp [openC, Lists.opened])]
    exact close_openC _ _ _ _ _

theorem builds_meld {b t : ColTrie K V T R} {us ws : Upds (K ×ₗ V) T R} (h : Builds b us) (ht : t.Holds ws) (hle : ∀ u ∈ us, ∀ w ∈ ws, u.1 ≤ w.1) :
    ∃ b', meld b t = some b' ∧ Builds b' (us ++ ws) := by
  have hlen := len_layout ht
  obtain ⟨d, d1, d2, rfl, rfl⟩ := ht
  by_cases hd : d = []
  · subst hd
    refine ⟨b, ?_, by simpa using h⟩
    rw [meld, if_pos (by rw [hlen]; rfl)]
  · have hu : Contents.upds d ≠ [] := fun he => hd ((upds_eq_nil d2).1 he)
    have hl0 : ¬ (Forest.layout d.forest).len = 0 := by rw [hlen]; exact (List.length_pos_iff.2 hu).ne'
    rcases h with ⟨rfl, rfl⟩ | ⟨c, h1, h2, rfl, rfl⟩
    · refine ⟨_, by rw [meld, if_neg hl0, if_pos (by rfl)], .inr ⟨d, ⟨d1, d2⟩, hd, rfl, by rw [layout_forest hd]⟩⟩
    · obtain ⟨e, e1, e2, e3, e4⟩ := meld_spec c d h1 ⟨d1, d2⟩ h2 hd hle
      rw [layout_forest hd]
      exact ⟨_, e4, .inr ⟨e, e1, e2, e3, rfl⟩⟩

/-- Melding tries one after the other. -/
theorem builder_spec {t : ColTrie K V T R} {us : Upds (K ×ₗ V) T R} (h : t.Holds us) (ts : List (ColTrie K V T R × Upds (K ×ₗ V) T R)) (ht : ∀ x ∈ ts, x.1.Holds x.2)
    (hle : (us :: ts.map Prod.snd).Pairwise fun a b => ∀ u ∈ a, ∀ w ∈ b, u.1 ≤ w.1) :
    ∃ b, (ts.map Prod.fst).foldlM meld (builderFrom t) = some b ∧ (builderDone b).Holds (us ++ (ts.map Prod.snd).flatten) := by
  have key : ∀ (ts : List (ColTrie K V T R × Upds (K ×ₗ V) T R)) (us : Upds (K ×ₗ V) T R) (b : ColTrie K V T R), Builds b us → (∀ x ∈ ts, x.1.Holds x.2) →
      ((us :: ts.map Prod.snd).Pairwise fun a b => ∀ u ∈ a, ∀ w ∈ b, u.1 ≤ w.1) → ∃ b', (ts.map Prod.fst).foldlM meld b = some b' ∧ Builds b' (us ++ (ts.map Prod.snd).flatten) := by
    intro ts
    induction ts with
    | nil => intro us b hb _ _; exact ⟨b, rfl, by simpa using hb⟩
    | cons x ts ih =>
      intro us b hb ht hle
      rw [List.map_cons, List.pairwise_cons, List.pairwise_cons] at hle
      obtain ⟨b1, m1, m2⟩ := builds_meld hb (ht x (by simp)) (hle.1 x.2 (by simp))
      obtain ⟨b2, n1, n2⟩ := ih (us ++ x.2) b1 m2 (fun y hy => ht y (by simp [hy])) (by
        rw [List.pairwise_cons]
        refine ⟨fun l hl u hu w hw => ?_, hle.2.2⟩
        rcases List.mem_append.1 hu with hu | hu
        · exact hle.1 l (by simp [List.mem_map.1 hl]) u hu w hw
        · exact hle.2.1 l hl u hu w hw)
      refine ⟨b2, ?_, ?_⟩
      · rw [List.map_cons, List.foldlM_cons, m1]; exact n1
      · rw [List.map_cons, List.flatten_cons, ← List.append_assoc]; exact n2
  obtain ⟨b, h1, h2⟩ := key ts us _ (builderFrom_spec h) ht hle
  exact ⟨b, h1, builderDone_spec h2⟩

end

/-! ### Copying keys -/

/-- A forest with its last group of keys open. -/
def openF (f : Forest K V T R) (g : List (K × List (V × List (T × List R)))) : ColTrie K V T R :=
  { Forest.layout (f ++ [g]) with keys := (Forest.layout (f ++ [g])).keys.reopen }

theorem slice_flatMap {A B : Type*} (H : List A) (f : A → List B) {i j : Nat} (h : i ≤ j) :
    slice (H.flatMap f) (startAt (H.map f) i) (startAt (H.map f) j) = (slice H i j).flatMap f := by
  rw [List.flatMap_def, slice_flatten _ h, ← map_slice, ← List.flatMap_def]

theorem startAt_map {A B C : Type*} (H : List A) (f : A → List B) (g : B → C) (i : Nat) : startAt (H.map fun a => (f a).map g) i = startAt (H.map f) i := by
  simp [startAt, ← List.map_take, Function.comp_def]

theorem startAt_le_flatMap {A B : Type*} (H : List A) (f : A → List B) (i : Nat) : startAt (H.map f) i ≤ (H.flatMap f).length := by
  rw [List.flatMap_def]; exact startAt_le_length _ _

/-- Copying the lists `i .. j` of one column, and those below them. -/
theorem extend_level {A B C : Type*} (as : List (List C)) (H : List A) (f : A → List B) (g : B → C) {i j : Nat} (hij : i ≤ j) (hj : j ≤ H.length) :
    (Lists.of as).extendFromSelf (.of (H.map fun a => (f a).map g)) i j = some (.of (as ++ (slice H i j).map fun a => (f a).map g)) := by
  rw [Lists.extend_of _ _ hij (by simpa using hj), map_slice]

theorem translate_level {A B C : Type*} (H : List A) (f : A → List B) (g : B → C) {i j : Nat} (hij : i ≤ j) (hj : j ≤ H.length) :
    ∃ i' j', (Lists.of (H.map fun a => (f a).map g)).translate (i, j) = some (i', j') ∧ i' ≤ j' ∧ (j' ≤ (H.flatMap f).length ∨ i' = j') ∧ slice (H.flatMap f) i' j' = (slice H i j).flatMap f := by
  rw [Lists.translate]
  by_cases h : i < j
  · rw [if_pos h, Lists.range_of _ _ (by simp; omega), Lists.range_of _ _ (by simp; omega)]
    simp only [show j - 1 + 1 = j by omega]
    refine ⟨_, _, rfl, startAt_mono _ hij, ?_, ?_⟩
    · rw [startAt_map]; exact .inl (startAt_le_flatMap _ _ _)
    · rw [startAt_map, startAt_map]; exact slice_flatMap H f hij
  · obtain rfl : i = j := by omega
    rw [if_neg (by simp)]
    exact ⟨i, i, rfl, le_refl _, .inr rfl, by simp⟩

theorem extend_level' {A B C : Type*} (as : List (List C)) (H : List A) (f : A → List B) (g : B → C) {i j : Nat} (hij : i ≤ j) (hj : j ≤ H.length ∨ i = j) :
    (Lists.of as).extendFromSelf (.of (H.map fun a => (f a).map g)) i j = some (.of (as ++ (slice H i j).map fun a => (f a).map g)) := by
  rcases hj with hj | rfl
  · exact extend_level as H f g hij hj
  · rw [Lists.extendFromSelf, if_neg (by simp)]; simp

theorem translate_level' {A B C : Type*} (H : List A) (f : A → List B) (g : B → C) {i j : Nat} (hij : i ≤ j) (hj : j ≤ H.length ∨ i = j) :
    ∃ i' j', (Lists.of (H.map fun a => (f a).map g)).translate (i, j) = some (i', j') ∧ i' ≤ j' ∧ (j' ≤ (H.flatMap f).length ∨ i' = j') ∧ slice (H.flatMap f) i' j' = (slice H i j).flatMap f := by
  rcases hj with hj | rfl
  · exact translate_level H f g hij hj
  · rw [Lists.translate, if_neg (by simp)]
    exact ⟨i, i, rfl, le_refl _, .inr rfl, by simp⟩

theorem extendFromKeys_spec (f h : Forest K V T R) (g : List (K × List (V × List (T × List R)))) (lo hi : Nat) (hl : lo ≤ hi) (hh : hi ≤ h.flatten.length) :
    extendFromKeys (openF f g) h.layout lo hi = some (openF f (g ++ slice h.flatten lo hi)) := by
  have hkv : h.layout.keys.values = h.flatten.map Prod.fst := by simp [Forest.layout, Lists.of, List.map_flatten]
  have hv : h.layout.vals = .of (h.flatten.map fun k => (k.2).map Prod.fst) := rfl
  have ht : h.layout.times = .of ((h.flatten.flatMap Prod.snd).map fun v => v.2.map Prod.fst) := rfl
  have hd : h.layout.diffs = .of (((h.flatten.flatMap Prod.snd).flatMap Prod.snd).map fun t => t.2.map id) := by simp [Forest.layout]
  generalize h.flatten = H at *
  obtain ⟨v0, v1, e1, e2, e3, e4⟩ := translate_level H (Prod.snd : _ → List (V × List (T × List R))) Prod.fst hl hh
  obtain ⟨t0, t1, e5, e6, e7, e8⟩ := translate_level' (H.flatMap Prod.snd) (Prod.snd : _ → List (T × List R)) Prod.fst e2 e3
  rw [extendFromKeys]
  have ov : (openF f g).vals = .of ((f ++ [g]).flatten.map fun k => k.2.map Prod.fst) := rfl
  have ot : (openF f g).times = .of (((f ++ [g]).flatten.flatMap Prod.snd).map fun v => v.2.map Prod.fst) := rfl
  have od : (openF f g).diffs = .of ((((f ++ [g]).flatten.flatMap Prod.snd).flatMap Prod.snd).map Prod.snd) := rfl
  simp only [ov, ot, od, hv, ht, hd, e1, e5, extend_level _ H _ _ hl hh, extend_level' _ _ _ _ e2 e3, extend_level' _ _ _ _ e6 e7, Option.bind_some, Option.map_some, e4, e8]
  simp only [Lists.extendValues, hkv, ← map_slice]
  simp [openF, Forest.layout, Lists.reopen, Lists.of, ends_append, ends_singleton, List.flatMap_append]

end DD
