import Verif.Proofs.ColForm

/-! # Retaining some of the leaves of a trie -/

namespace DD
set_option linter.unusedSectionVars false
open ColTrie

section lists
variable {α β X : Type*}

theorem last_bound (ls : List (List α)) : (Lists.of ls).bounds.getLast?.getD 0 = ls.flatten.length := by
  rcases List.eq_nil_or_concat ls with rfl | ⟨ls, l, rfl⟩
  · rfl
  · simp [Lists.of, ends_append, ends_singleton]

theorem retainList_spec (lists : Lists α) (keep : List Bool) (X : List (α × Bool)) (h1 : lists.values = X.map Prod.fst) (h2 : keep = X.map Prod.snd)
    (n lo : Nat) (h : lo + n ≤ X.length) (output : Lists α) :
    retainList lists keep output lo (lo + n) = some ⟨output.values ++ ((slice X lo (lo + n)).filter Prod.snd).map Prod.fst, output.bounds⟩ := by
  rw [retainList, Nat.add_sub_cancel_left]
  induction n generalizing lo output with
  | zero => simp
  | succ n ih =>
    rw [List.range'_succ, List.foldlM_cons]
    have hlo : lo < X.length := by omega
    have e1 : keep[lo]? = some (X[lo]).2 := by simp [h2, hlo]
    have e2 : lists.values[lo]? = some (X[lo]).1 := by simp [h1, hlo]
    simp only [e1, e2, Option.bind_eq_bind, Option.bind_some]
    rw [ih (lo + 1) (by omega)]
    have e3 : slice X lo (lo + (n + 1)) = X[lo] :: slice X (lo + 1) (lo + 1 + n) := by
      rw [← slice_append X (j := lo + 1) (by omega) (by omega)]
      rw [show lo + (n + 1) = lo + 1 + n by omega]
      have : slice X lo (lo + 1) = [X[lo]] := by rw [slice, List.drop_eq_getElem_cons hlo, Nat.add_sub_cancel_left]; rfl
      rw [this]; rfl
    rw [e3, List.filter_cons]
    split_ifs with hb
    · simp [Lists.push]
    · simp

/-- The items marked, list by list, without the lists of which nothing is left. -/
def kept (ls : List (List (α × Bool))) : List (List α) := (ls.map fun l => (l.filter Prod.snd).map Prod.fst).filter fun l => !l.isEmpty

theorem kept_append (a b : List (List (α × Bool))) : kept (a ++ b) = kept a ++ kept b := by simp [kept]

theorem retainStep_spec (ls : List (List (α × Bool))) (done : List (List (α × Bool))) (l : List (α × Bool)) (rest : List (List (α × Bool))) (h : ls = done ++ l :: rest) :
    retainStep (.of (ls.map fun l => l.map Prod.fst)) (ls.flatten.map Prod.snd) (.of (kept done), done.map fun l => l.any Prod.snd) done.length =
      some (.of (kept (done ++ [l])), (done ++ [l]).map fun l => l.any Prod.snd) := by
  have hlen : done.length < (ls.map fun l => l.map Prod.fst).length := by simp [h]
  have ho : ∀ i, startAt (ls.map fun l => l.map Prod.fst) i = startAt ls i := by
    intro i; simp [startAt, ← List.map_take, ← List.map_flatten]
  rw [retainStep, Lists.range_of _ _ hlen]
  simp only [ho]
  have hl : done.length < ls.length := by simpa using hlen
  have hi : ls[done.length] = l := by simp [h]
  have hs : startAt ls (done.length + 1) = startAt ls done.length + l.length := by rw [startAt_succ ls hl, hi]
  have hsl : slice ls.flatten (startAt ls done.length) (startAt ls done.length + l.length) = l := by
    rw [← hs, slice_flatten ls (Nat.le_succ _), slice_succ ls (le_refl _) hl, slice_self, hi]; simp
  rw [hs, retainList_spec _ _ ls.flatten (by simp [Lists.of, List.map_flatten]) rfl l.length _ (by rw [← hs]; exact startAt_le_length _ _), hsl]
  simp only
  rw [last_bound]
  simp only [Lists.of, List.length_append, List.length_map]
  rw [kept_append, List.map_append]
  by_cases hf : l.filter Prod.snd = []
  · have hany : l.any Prod.snd = false := by
      rw [← Bool.not_eq_true, List.any_eq_true]
      rintro ⟨x, hx, hp⟩
      have : x ∈ l.filter Prod.snd := by simp [hx, hp]
      rw [hf] at this; simp at this
    have hk : kept [l] = [] := by simp [kept, hf]
    simp [hf, hany, hk]
  · have hany : l.any Prod.snd = true := by
      obtain ⟨x, hx⟩ := List.exists_mem_of_ne_nil _ hf
      rw [List.any_eq_true]
      exact ⟨x, List.mem_of_mem_filter hx, (List.mem_filter.1 hx).2⟩
    have hk : kept [l] = [(l.filter Prod.snd).map Prod.fst] := by simp [kept, hf]
    rw [if_pos (by have := List.length_pos_iff.2 hf; omega), hk]
    simp [Lists.close, ends_append, ends_singleton, hany]

/-- `retain_items` keeps the items marked and drops the lists of which nothing is left; the marks it returns tell which lists have anything left. -/
theorem retainItems_spec (ls : List (List (α × Bool))) :
    retainItems (.of (ls.map fun l => l.map Prod.fst)) (ls.flatten.map Prod.snd) = some (.of (kept ls), ls.map fun l => l.any Prod.snd) := by
  rw [retainItems, if_pos (by simp [Lists.of, Function.comp_def])]
  have key : ∀ n, n ≤ ls.length → (List.range n).foldlM (retainStep (.of (ls.map fun l => l.map Prod.fst)) (ls.flatten.map Prod.snd)) (Lists.empty, []) =
      some (.of (kept (ls.take n)), (ls.take n).map fun l => l.any Prod.snd) := by
    intro n hn
    induction n with
    | zero => rfl
    | succ n ih =>
      rw [List.range_succ, List.foldlM_append, ih (by omega)]
      have hl : n < ls.length := by omega
      have h1 : (ls.take n).length = n := by simp; omega
      have := retainStep_spec ls (ls.take n) ls[n] (ls.drop (n + 1)) (by rw [← List.drop_eq_getElem_cons hl, List.take_append_drop])
      rw [h1, ← List.take_succ_eq_append_getElem hl] at this
      rw [Option.bind_eq_bind, Option.bind_some, List.foldlM_cons, this]; rfl
  have := key ls.length (le_refl _)
  rw [List.take_length] at this
  simpa [Lists.of] using this

theorem filter_flatMap_any (c : List α) (f : α → List β) (q : β → Bool) :
    (c.flatMap f).filter q = (c.filter fun k => (f k).any q).flatMap fun k => (f k).filter q := by
  induction c with
  | nil => rfl
  | cons k c ih =>
    rw [List.flatMap_cons, List.filter_append, List.filter_cons, ih]
    split_ifs with h
    · simp
    · have : (f k).filter q = [] := by
        rw [List.filter_eq_nil_iff]; intro x hx hq
        exact h (List.any_eq_true.2 ⟨x, hx, hq⟩)
      rw [this]; rfl

end lists

section prune
variable {K V T R X : Type*}

/-- The leaves that satisfy `p`, without the values and keys of which nothing is left. -/
def pruneV (p : X → Bool) (vs : List (V × List X)) : List (V × List X) := (vs.filter fun v => v.2.any p).map fun v => (v.1, v.2.filter p)
/-- The leaves that satisfy `p`, without the values and keys of which nothing is left. -/
def pruneK (p : X → Bool) (c : List (K × List (V × List X))) : List (K × List (V × List X)) :=
  (c.filter fun k => k.2.any fun v => v.2.any p).map fun k => (k.1, pruneV p k.2)

theorem pruneK_snd (p : X → Bool) (c : List (K × List (V × List X))) : (pruneK p c).flatMap Prod.snd = pruneV p (c.flatMap Prod.snd) := by
  rw [pruneK, pruneV, filter_flatMap_any, List.flatMap_map, List.map_flatMap]; rfl

theorem pruneV_snd (p : X → Bool) (vs : List (V × List X)) : (pruneV p vs).flatMap Prod.snd = (vs.flatMap Prod.snd).filter p := by
  rw [pruneV, filter_flatMap_any, List.flatMap_map]

theorem isEmpty_filter_any (l : List X) (p : X → Bool) : (!(l.filter p).isEmpty) = l.any p := by
  rw [Bool.eq_iff_iff, List.any_eq_true]
  simp

/-- Retaining leaves in the columns. -/
theorem retain_spec (p : X → Bool) (τ : X → T) (gs : List (List (K × List (V × List X)))) (diffs : Lists R) :
    ColTrie.retain ⟨.of (gs.map fun g => g.map Prod.fst), .of (gs.flatten.map fun k => k.2.map Prod.fst), .of ((gs.flatten.flatMap Prod.snd).map fun v => v.2.map τ), diffs⟩
        (((gs.flatten.flatMap Prod.snd).flatMap Prod.snd).map p) =
      some ⟨.of ((gs.map fun g => (pruneK p g).map Prod.fst).filter fun l => !l.isEmpty), .of ((pruneK p gs.flatten).map fun k => k.2.map Prod.fst),
        .of ((pruneV p (gs.flatten.flatMap Prod.snd)).map fun v => v.2.map τ), .empty⟩ := by
  generalize hc : gs.flatten = c
  have t1 : retainItems (.of ((c.flatMap Prod.snd).map fun v => v.2.map τ)) (((c.flatMap Prod.snd).flatMap Prod.snd).map p) =
      some (.of ((pruneV p (c.flatMap Prod.snd)).map fun v => v.2.map τ), (c.flatMap Prod.snd).map fun v => v.2.any p) := by
    have := retainItems_spec ((c.flatMap Prod.snd).map fun v => v.2.map fun x => (τ x, p x))
    rw [List.map_map] at this
    have e1 : (((c.flatMap Prod.snd).map fun v => v.2.map fun x => (τ x, p x)).flatten.map Prod.snd) = ((c.flatMap Prod.snd).flatMap Prod.snd).map p := by
      generalize c.flatMap Prod.snd = vs
      simp [List.flatMap_def, List.map_flatten, Function.comp_def]
    have e2 : kept ((c.flatMap Prod.snd).map fun v => v.2.map fun x => (τ x, p x)) = (pruneV p (c.flatMap Prod.snd)).map fun v => v.2.map τ := by
      generalize c.flatMap Prod.snd = vs
      rw [kept, pruneV, List.map_map, List.map_map, List.filter_map]
      congr 1
      · funext v; simp [List.filter_map, Function.comp_def]
      · congr 1; funext v
        simp only [Function.comp_apply, List.filter_map, List.isEmpty_map]
        exact isEmpty_filter_any v.2 p
    have e3 : (((c.flatMap Prod.snd).map fun v => v.2.map fun x => (τ x, p x)).map fun l => l.any Prod.snd) = (c.flatMap Prod.snd).map fun v => v.2.any p := by
      rw [List.map_map]; congr 1; funext v; simp [List.any_map, Function.comp_def]
    rw [e1, e2, e3] at this
    rw [← this]; congr 3; funext v; simp
  have v1 : retainItems (.of (c.map fun k => k.2.map Prod.fst)) ((c.flatMap Prod.snd).map fun v => v.2.any p) =
      some (.of ((pruneK p c).map fun k => k.2.map Prod.fst), c.map fun k => k.2.any fun v => v.2.any p) := by
    have := retainItems_spec (c.map fun k => k.2.map fun v => (v.1, v.2.any p))
    rw [List.map_map] at this
    have e1 : ((c.map fun k => k.2.map fun v => (v.1, v.2.any p)).flatten.map Prod.snd) = (c.flatMap Prod.snd).map fun v => v.2.any p := by
      simp [List.flatMap_def, List.map_flatten, Function.comp_def]
    have e2 : kept (c.map fun k => k.2.map fun v => (v.1, v.2.any p)) = (pruneK p c).map fun k => k.2.map Prod.fst := by
      rw [kept, pruneK, List.map_map, List.map_map, List.filter_map]
      congr 1
      · funext k; simp [List.filter_map, Function.comp_def, pruneV]
      · congr 1; funext k
        simp only [Function.comp_apply, List.filter_map, List.isEmpty_map]
        exact isEmpty_filter_any k.2 _
    have e3 : ((c.map fun k => k.2.map fun v => (v.1, v.2.any p)).map fun l => l.any Prod.snd) = c.map fun k => k.2.any fun v => v.2.any p := by
      rw [List.map_map]; congr 1; funext v; simp [List.any_map, Function.comp_def]
    rw [e1, e2, e3] at this
    rw [← this]; congr 3; funext k; simp
  have k1 : retainItems (.of (gs.map fun g => g.map Prod.fst)) (c.map fun k => k.2.any fun v => v.2.any p) =
      some (.of ((gs.map fun g => (pruneK p g).map Prod.fst).filter fun l => !l.isEmpty), gs.map fun g => g.any fun k => k.2.any fun v => v.2.any p) := by
    have := retainItems_spec (gs.map fun g => g.map fun k => (k.1, k.2.any fun v => v.2.any p))
    rw [List.map_map] at this
    have e1 : ((gs.map fun g => g.map fun k => (k.1, k.2.any fun v => v.2.any p)).flatten.map Prod.snd) = c.map fun k => k.2.any fun v => v.2.any p := by
      rw [← hc]; simp [List.map_flatten, Function.comp_def]
    have e2 : kept (gs.map fun g => g.map fun k => (k.1, k.2.any fun v => v.2.any p)) = (gs.map fun g => (pruneK p g).map Prod.fst).filter fun l => !l.isEmpty := by
      rw [kept, List.map_map]
      congr 2; funext g; simp [List.filter_map, Function.comp_def, pruneK]
    have e3 : ((gs.map fun g => g.map fun k => (k.1, k.2.any fun v => v.2.any p)).map fun l => l.any Prod.snd) = gs.map fun g => g.any fun k => k.2.any fun v => v.2.any p := by
      rw [List.map_map]; congr 1; funext v; simp [List.any_map, Function.comp_def]
    rw [e1, e2, e3] at this
    rw [← this]; congr 3; funext k; simp
  rw [ColTrie.retain]
  simp only [t1, v1, k1, Option.bind_some, Option.map_some]

end prune

section
variable {K V T R : Type*} [LinearOrder K] [LinearOrder V]

theorem canonical_pruneK (p : T × R → Bool) {c : Contents K V T R} (h : Canonical c) : Canonical (pruneK p c) := by
  refine ⟨⟨?_, ?_⟩, ?_⟩
  · rw [pruneK, List.pairwise_map]
    exact h.1.keys.sublist List.filter_sublist
  · intro kv hkv
    simp only [pruneK, List.mem_map, List.mem_filter] at hkv
    obtain ⟨k, ⟨hk, -⟩, rfl⟩ := hkv
    simp only [pruneV, List.pairwise_map]
    exact (h.1.vals k hk).sublist List.filter_sublist
  · intro kv hkv
    simp only [pruneK, List.mem_map, List.mem_filter] at hkv
    obtain ⟨k, ⟨hk, ha⟩, rfl⟩ := hkv
    simp only [List.any_eq_true] at ha
    obtain ⟨v, hv, x, hx, hp⟩ := ha
    refine ⟨?_, ?_⟩
    · intro he
      simp only [pruneV, List.map_eq_nil_iff, List.filter_eq_nil_iff] at he
      exact he v hv (List.any_eq_true.2 ⟨x, hx, hp⟩)
    · intro vu hvu
      simp only [pruneV, List.mem_map, List.mem_filter, List.any_eq_true] at hvu
      obtain ⟨w, ⟨-, y, hy, hpy⟩, rfl⟩ := hvu
      intro he
      exact (List.filter_eq_nil_iff.1 he) y hy hpy

theorem upds_pruneK (p : T × R → Bool) (c : Contents K V T R) : Contents.upds (pruneK p c) = c.upds.filter fun u => p u.2 := by
  have h1 : ∀ (k : K) (vs : List (V × List (T × R))), ((pruneV p vs).flatMap fun v => v.2.map fun u => (toLex (k, v.1), u)) =
      (vs.flatMap fun v => v.2.map fun u => (toLex (k, v.1), u)).filter fun u => p u.2 := by
    intro k vs
    rw [filter_flatMap_any, pruneV, List.flatMap_map]
    congr 1
    · funext v; simp [List.filter_map, Function.comp_def]
    · congr 1; funext v; simp [List.any_map, Function.comp_def]
  rw [Contents.upds, Contents.upds, filter_flatMap_any, pruneK, List.flatMap_map]
  congr 1
  · funext k; exact h1 k.1 k.2
  · congr 1; funext k
    simp only [List.any_flatMap, List.any_map, Function.comp_def]

end

end DD
