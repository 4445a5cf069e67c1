import Verif.Proofs.OrdValMerge

namespace DD

section
variable {α K R : Type*} [LinearOrder K] [AddCommMonoid R] [DecidableEq R] (L : Layout α K R)

theorem length_runScan (xs : List α) : ∀ (last : α) (acc : R), (runScan L last acc xs).length ≤ xs.length + 1 := by
  induction xs with
  | nil => intro last acc; rw [runScan]; split_ifs <;> simp
  | cons x xs ih =>
    intro last acc
    rw [runScan]
    split_ifs with h1 h2
    · have := ih x (acc + L.diff x); simp; omega
    · have := ih x (L.diff x); simp; omega
    · have := ih x (L.diff x); simp; omega

theorem length_consolidatedL (s : List α) : (consolidatedL L s).length ≤ s.length := by
  rw [consolidatedL, ← List.length_insertionSort (fun x y => L.key x ≤ L.key y) s]
  cases s.insertionSort (fun x y => L.key x ≤ L.key y) with
  | nil => rw [scanned]
  | cons x xs => rw [scanned]; exact length_runScan L xs _ _

end

section
variable {K V T R : Type*} [LinearOrder K] [LinearOrder V] [DecidableEq T] [LinearOrder (Lin T)] [AddCommMonoid R] [DecidableEq R]

theorem length_consTimes (l : List (T × R)) : (consTimes l).length ≤ l.length := length_consolidatedL _ _

theorem consTimes_of_canon {l : List (T × R)} (h : ConsolidatedPairs (D := Lin T) l) : consTimes l = l := consolidated_of_canon (K := Lin T) h

/-! ## Builder -/

structure BInv (b : ValBuilder K V T R) (t : Trie K V T R) (k : K) (vs : List (V × List (T × R))) (v : V) (st : List (T × R)) : Prop where
  keys : b.result.keys = t.map Prod.fst ++ [k]
  vals : b.result.vals.vals = (Trie.vals t ++ vs).map Prod.fst ++ [v]
  voffs : b.result.vals.offs = (List.range (t.length + 1)).map t.off
  upds : UpdsOk b.result.upds ((Trie.vals t ++ vs).map Prod.snd)
  stash : b.staging.stash = st
  total : b.staging.total = sizeVals (Trie.vals t ++ vs)
  wf : TrieWf (t ++ [(k, vs ++ [(v, st)])])

theorem trieWf_concat {t : Trie K V T R} {k : K} {vs : List (V × List (T × R))} :
    TrieWf (t ++ [(k, vs)]) ↔ TrieWf t ∧ (∀ x ∈ t, x.1 < k) ∧ vs ≠ [] ∧ ValsWf vs := by
  constructor
  · rintro ⟨h1, h2⟩
    rw [List.pairwise_append] at h1
    refine ⟨⟨h1.1, fun x hx => h2 x (by simp [hx])⟩, fun x hx => h1.2.2 x hx (k, vs) (by simp), h2 (k, vs) (by simp)⟩
  · rintro ⟨h1, h2, h3⟩
    refine ⟨List.pairwise_append.mpr ⟨h1.1, List.pairwise_singleton _ _, ?_⟩, ?_⟩
    · intro x hx y hy; simp at hy; subst hy; exact h2 x hx
    · intro x hx
      rcases List.mem_append.mp hx with hx | hx
      · exact h1.2 x hx
      · simp at hx; subst hx; exact h3

theorem valsWf_concat {vs : List (V × List (T × R))} {v : V} {st : List (T × R)} :
    ValsWf (vs ++ [(v, st)]) ↔ ValsWf vs ∧ (∀ x ∈ vs, x.1 < v) ∧ st ≠ [] ∧ ConsolidatedPairs (D := Lin T) st := by
  constructor
  · rintro ⟨h1, h2⟩
    rw [List.pairwise_append] at h1
    refine ⟨⟨h1.1, fun x hx => h2 x (by simp [hx])⟩, fun x hx => h1.2.2 x hx (v, st) (by simp), h2 (v, st) (by simp)⟩
  · rintro ⟨h1, h2, h3⟩
    refine ⟨List.pairwise_append.mpr ⟨h1.1, List.pairwise_singleton _ _, ?_⟩, ?_⟩
    · intro x hx y hy; simp at hy; subst hy; exact h2 x hx
    · intro x hx
      rcases List.mem_append.mp hx with hx | hx
      · exact h1.2 x hx
      · simp at hx; subst hx; exact h3

theorem consPairs_concat {st : List (T × R)} {u : T × R} :
    ConsolidatedPairs (D := Lin T) (st ++ [u]) ↔ ConsolidatedPairs (D := Lin T) st ∧ (∀ s ∈ st, toLin s.1 < toLin u.1) ∧ u.2 ≠ 0 := by
  constructor
  · rintro ⟨h1, h2⟩
    have h1 := (List.pairwise_append (α := Lin T × R)).mp h1
    exact ⟨⟨h1.1, fun x hx => h2 x (List.mem_append_left _ hx)⟩, fun x hx => h1.2.2 x hx u List.mem_cons_self, h2 u (List.mem_append_right _ List.mem_cons_self)⟩
  · rintro ⟨h1, h2, h3⟩
    refine ⟨List.pairwise_append.mpr ⟨h1.1, List.pairwise_singleton _ _, ?_⟩, ?_⟩
    · intro x hx y hy; rw [List.mem_singleton.mp hy]; exact h2 x hx
    · intro x hx
      rcases List.mem_append.mp hx with hx | hx
      · exact h1.2 x hx
      · rw [List.mem_singleton.mp hx]; exact h3

theorem consPairs_singleton {u : T × R} (h : u.2 ≠ 0) : ConsolidatedPairs (D := Lin T) [u] :=
  ⟨List.pairwise_singleton _ _, by intro x hx; rw [List.mem_singleton.mp hx]; exact h⟩

theorem flattenTrie_open (t : Trie K V T R) (k : K) (vs : List (V × List (T × R))) (v : V) (st : List (T × R)) :
    flattenTrie (t ++ [(k, vs ++ [(v, st)])]) = flattenTrie t ++ flatVals k vs ++ st.map fun u => (toLex (k, v), u.1, u.2) := by
  rw [flattenTrie_append, flattenTrie_cons, flatVals_append]
  simp [flattenTrie, flatVals]

theorem BInv.sealed {b : ValBuilder K V T R} {t : Trie K V T R} {k : K} {vs : List (V × List (T × R))} {v : V} {st : List (T × R)}
    (h : BInv b t k vs v st) : ∃ l', b.staging.seal b.result.upds = some (⟨[], sizeVals (Trie.vals t ++ (vs ++ [(v, st)]))⟩, l', true) ∧
      UpdsOk l' ((Trie.vals t ++ (vs ++ [(v, st)])).map Prod.snd) := by
  have hst := (valsWf_concat.mp (trieWf_concat.mp h.wf).2.2.2).2.2
  rcases seal_spec h.upds b.staging with ⟨h1, _⟩ | ⟨_, l', h2, h3⟩
  · rw [h.stash, consTimes_of_canon hst.2] at h1; exact absurd h1 hst.1
  · rw [h.stash, consTimes_of_canon hst.2] at h2 h3
    refine ⟨l', ?_, by simpa using h3⟩
    rw [h2, h.total, ← List.append_assoc, show sizeVals ((Trie.vals t ++ vs) ++ [(v, st)]) = sizeVals (Trie.vals t ++ vs) + st.length from by simp [sizeVals, Nat.add_assoc]]

theorem pushItem_first {b : ValBuilder K V T R} (hb : b = ⟨ValStorage.init, ⟨[], 0⟩⟩) (item : (K ×ₗ V) × T × R) (hr : item.2.2 ≠ 0) :
    ∃ b', b.pushItem item = some b' ∧ BInv b' [] (ofLex item.1).1 [] (ofLex item.1).2 [(item.2.1, item.2.2)] := by
  subst hb
  refine ⟨_, rfl, rfl, rfl, rfl, updsOk_init, rfl, rfl, ?_⟩
  refine trieWf_concat.mpr ⟨⟨List.Pairwise.nil, by simp⟩, by simp, by simp, ?_⟩
  exact valsWf_concat.mpr ⟨⟨List.Pairwise.nil, by simp⟩, by simp, by simp, consPairs_singleton hr⟩

theorem pushItem_spec {b : ValBuilder K V T R} {t : Trie K V T R} {k : K} {vs : List (V × List (T × R))} {v : V} {st : List (T × R)}
    (h : BInv b t k vs v st) (item : (K ×ₗ V) × T × R)
    (hc : Consolidated (flattenTrie (t ++ [(k, vs ++ [(v, st)])]) ++ [item])) :
    ∃ b' t' k' vs' v' st', b.pushItem item = some b' ∧ BInv b' t' k' vs' v' st' ∧
      flattenTrie (t' ++ [(k', vs' ++ [(v', st')])]) = flattenTrie (t ++ [(k, vs ++ [(v, st)])]) ++ [item] := by
  obtain ⟨d', t', r'⟩ := item
  obtain ⟨⟨k', v'⟩, rfl⟩ : ∃ d : K × V, d' = toLex d := ⟨ofLex d', rfl⟩
  have hr : r' ≠ 0 := hc.2 _ (List.mem_append_right _ List.mem_cons_self)
  have hlt : ∀ s ∈ st, toLex (k, v) < toLex (k', v') ∨ (toLex (k, v) = toLex (k', v') ∧ toLin s.1 < toLin t') := by
    intro s hs
    have := (List.pairwise_append.mp hc.1).2.2 (toLex (k, v), s.1, s.2) (by
      rw [flattenTrie_open]; exact List.mem_append_right _ (List.mem_map_of_mem hs)) _ List.mem_cons_self
    exact this
  have hwf := trieWf_concat.mp h.wf
  have hvf := valsWf_concat.mp hwf.2.2.2
  obtain ⟨s0, hs0⟩ := List.exists_mem_of_ne_nil st hvf.2.2.1
  have hcmp : k < k' ∨ (k = k' ∧ v < v') ∨ (k = k' ∧ v = v') := by
    rcases hlt s0 hs0 with h0 | ⟨h0, _⟩
    · rcases Prod.Lex.toLex_lt_toLex.mp h0 with h0 | h0
      · exact Or.inl h0
      · exact Or.inr (Or.inl h0)
    · have := toLex_inj.mp h0
      exact Or.inr (Or.inr ⟨congrArg Prod.fst this, congrArg Prod.snd this⟩)
  obtain ⟨l', hseal, hok⟩ := h.sealed
  generalize hp : b.pushItem (toLex (k', v'), t', r') = ob
  rw [ValBuilder.pushItem] at hp
  simp only [ofLex_toLex] at hp
  rw [if_neg (by rw [h.keys]; simp)] at hp
  have hkl : b.result.keys.getLast? = some k := by rw [h.keys]; simp
  have hvl : b.result.vals.vals.getLast? = some v := by rw [h.vals]; simp
  rcases hcmp with hk | ⟨rfl, hv⟩ | ⟨rfl, rfl⟩
  · simp only [hkl, Option.some.injEq, hk.ne, if_false, hseal] at hp
    subst hp
    refine ⟨_, t ++ [(k, vs ++ [(v, st)])], k', [], v', [(t', r')], rfl, ?_, ?_⟩
    · have hv' : Trie.vals (t ++ [(k, vs ++ [(v, st)])]) = Trie.vals t ++ (vs ++ [(v, st)]) := by rw [Trie.vals_append]; simp [Trie.vals]
      refine ⟨?_, ?_, ?_, ?_, rfl, ?_, ?_⟩
      · simp [h.keys]
      · simp [h.vals, hv']
      · rw [voffs_push, ← h.voffs]; simp [h.vals]
      · rw [hv']; simpa using hok
      · rw [hv']; simp
      · refine trieWf_concat.mpr ⟨h.wf, ?_, by simp, ?_⟩
        · intro x hx
          rcases List.mem_append.mp hx with hx | hx
          · exact lt_trans (hwf.2.1 x hx) hk
          · simp at hx; subst hx; exact hk
        · exact valsWf_concat.mpr ⟨⟨List.Pairwise.nil, by simp⟩, by simp, by simp, consPairs_singleton hr⟩
    · rw [flattenTrie_append]; simp [flattenTrie]
  · simp only [hkl, hvl, Option.some.injEq, hv.ne, if_true, if_false, hseal] at hp
    subst hp
    refine ⟨_, t, k, vs ++ [(v, st)], v', [(t', r')], rfl, ?_, ?_⟩
    · refine ⟨h.keys, ?_, h.voffs, hok, rfl, rfl, ?_⟩
      · simp [h.vals]
      · refine trieWf_concat.mpr ⟨hwf.1, hwf.2.1, by simp, ?_⟩
        refine valsWf_concat.mpr ⟨hwf.2.2.2, ?_, by simp, consPairs_singleton hr⟩
        intro x hx
        rcases List.mem_append.mp hx with hx | hx
        · exact lt_trans (hvf.2.1 x hx) hv
        · simp at hx; subst hx; exact hv
    · rw [flattenTrie_open, flattenTrie_open, flatVals_append]; simp [flatVals]
  · simp only [hkl, hvl, if_true] at hp
    subst hp
    refine ⟨_, t, k, vs, v, st ++ [(t', r')], rfl, ?_, ?_⟩
    · refine ⟨h.keys, h.vals, h.voffs, h.upds, by simp [h.stash], h.total, ?_⟩
      refine trieWf_concat.mpr ⟨hwf.1, hwf.2.1, by simp, valsWf_concat.mpr ⟨hvf.1, hvf.2.1, by simp, ?_⟩⟩
      refine consPairs_concat.mpr ⟨hvf.2.2.2, fun s hs => ?_, hr⟩
      rcases hlt s hs with h0 | h0
      · exact absurd h0 (lt_irrefl _)
      · exact h0.2
    · rw [flattenTrie_open, flattenTrie_open]; simp

theorem pushItems_spec (us : Upds (K ×ₗ V) T R) : ∀ {b : ValBuilder K V T R} {t : Trie K V T R} {k : K} {vs : List (V × List (T × R))} {v : V}
    {st : List (T × R)}, BInv b t k vs v st → Consolidated (flattenTrie (t ++ [(k, vs ++ [(v, st)])]) ++ us) →
    ∃ b' t' k' vs' v' st', us.foldlM ValBuilder.pushItem b = some b' ∧ BInv b' t' k' vs' v' st' ∧
      flattenTrie (t' ++ [(k', vs' ++ [(v', st')])]) = flattenTrie (t ++ [(k, vs ++ [(v, st)])]) ++ us := by
  induction us with
  | nil => intro b t k vs v st h _; exact ⟨b, t, k, vs, v, st, rfl, h, by simp⟩
  | cons u us ih =>
    intro b t k vs v st h hc
    obtain ⟨b1, t1, k1, vs1, v1, st1, g1, g2, g3⟩ := pushItem_spec h u (hc.sublist (by simp))
    obtain ⟨b2, t2, k2, vs2, v2, st2, g4, g5, g6⟩ := ih g2 (by rw [g3]; simpa using hc)
    exact ⟨b2, t2, k2, vs2, v2, st2, by rw [List.foldlM_cons, g1]; exact g4, g5, by rw [g6, g3]; simp⟩

theorem foldlM_flatten {α β : Type*} (f : α → β → Option α) (ls : List (List β)) : ∀ a : α,
    ls.foldlM (fun b chunk => chunk.foldlM f b) a = ls.flatten.foldlM f a := by
  induction ls with
  | nil => intro a; rfl
  | cons l ls ih =>
    intro a
    rw [List.foldlM_cons, List.flatten_cons, List.foldlM_append]
    congr 1
    funext b; exact ih b

theorem build_spec (chain : Chain (K ×ₗ V) T R) (desc : Description T) (hc : Consolidated chain.flatten) :
    ∃ b t, ValBatch.build chain desc = some b ∧ Repr b.storage t ∧ TrieWf t ∧ flattenTrie t = chain.flatten ∧
      b.updates = t.size ∧ b.description = desc := by
  rw [ValBatch.build, foldlM_flatten]
  rcases hl : chain.flatten with _ | ⟨u, us⟩
  · refine ⟨_, [], rfl, ⟨rfl, rfl, by simp, by simp [Trie.vals]⟩, ⟨List.Pairwise.nil, by simp⟩, rfl, rfl, rfl⟩
  · rw [hl] at hc
    obtain ⟨b1, g1, g2⟩ := pushItem_first (b := ⟨ValStorage.init, ⟨[], 0⟩⟩) rfl u (hc.2 u List.mem_cons_self)
    have hfl : flattenTrie ([] ++ [((ofLex u.1).1, [] ++ [((ofLex u.1).2, [(u.2.1, u.2.2)])])]) = [u] := by
      simp [flattenTrie]
    obtain ⟨b2, t2, k2, vs2, v2, st2, g3, g4, g5⟩ := pushItems_spec us g2 (by rw [hfl]; exact hc)
    rw [List.foldlM_cons, g1]
    simp only [Option.bind_eq_bind, Option.bind_some, g3]
    obtain ⟨l', hseal, hok⟩ := g4.sealed
    rw [ValBuilder.done, hseal]
    have hv' : Trie.vals (t2 ++ [(k2, vs2 ++ [(v2, st2)])]) = Trie.vals t2 ++ (vs2 ++ [(v2, st2)]) := by rw [Trie.vals_append]; simp [Trie.vals]
    refine ⟨_, t2 ++ [(k2, vs2 ++ [(v2, st2)])], rfl, InProg.repr ⟨?_, ?_, ?_, ?_⟩, g4.wf, ?_, ?_, rfl⟩
    · simp [g4.keys]
    · simp [g4.vals, hv']
    · rw [voffs_push, ← g4.voffs]; simp [g4.vals]
    · rw [hv']; simpa using hok
    · rw [g5, hfl]; rfl
    · rw [Trie.size, hv']

end

/-! ## Cursor -/

section
variable {K V T R : Type*} [LinearOrder K] [LinearOrder V] [DecidableEq T] [LinearOrder (Lin T)] [AddCommMonoid R] [DecidableEq R]

theorem map_times_eq (c : ValCursor) (s : ValStorage K V T R) : c.map_times s = s.upds.read c.val_cursor := rfl

theorem drop_eq_cons {α : Type*} {l : List α} {n : Nat} {a : α} (h : l[n]? = some a) : l.drop n = a :: l.drop (n + 1) := by
  obtain ⟨h1, h2⟩ := List.getElem?_eq_some_iff.mp h
  rw [List.drop_eq_getElem_cons h1, h2]

variable {s : ValStorage K V T R} {t : Trie K V T R}

theorem walkVals_spec (h : Repr s t) {i : Nat} {kv : K × List (V × List (T × R))} (hi : t[i]? = some kv) (fuel : Nat) :
    ∀ j, j ≤ kv.2.length → kv.2.length - j < fuel → walkVals s fuel ⟨i, t.off i + j⟩ = some (kv.2.drop j) := by
  have hil : i < t.length := (List.getElem?_eq_some_iff.mp hi).1
  have hb := h.voffs i hil
  rw [t.off_succ hi] at hb
  induction fuel with
  | zero => intro j _ hf; omega
  | succ fuel ih =>
    intro j hj hf
    rw [walkVals]
    simp only [ValCursor.val_valid, hb, Option.map_some]
    rcases Nat.lt_or_ge j kv.2.length with hlt | hge
    · rw [show decide (t.off i + j < t.off i + kv.2.length) = true from by simp [hlt]]
      obtain ⟨vu, hvu⟩ : ∃ vu, kv.2[j]? = some vu := ⟨_, List.getElem?_eq_getElem hlt⟩
      obtain ⟨h1, h2⟩ := hasVals_of_repr h hi j vu hvu
      have hstep : (⟨i, t.off i + j⟩ : ValCursor).step_val s = some ⟨i, t.off i + (j + 1)⟩ := by
        simp only [ValCursor.step_val, hb]
        split_ifs with h3
        · rfl
        · congr 2; omega
      simp only [ValCursor.val, h1, map_times_eq, h2, hstep]
      rw [ih (j + 1) (by omega) (by omega), drop_eq_cons hvu]
    · rw [show decide (t.off i + j < t.off i + kv.2.length) = false from by simp; omega]
      rw [List.drop_eq_nil_of_le hge]

theorem off_le (t : Trie K V T R) (i : Nat) : t.off i ≤ (Trie.vals t).length := by
  rw [Trie.off]
  conv_rhs => rw [← List.take_append_drop i t, Trie.vals_append, List.length_append]
  omega

theorem key_valid_iff (h : Repr s t) (c : ValCursor) : c.key_valid s = decide (c.key_cursor < t.length) := by
  rw [ValCursor.key_valid, h.keys, List.length_map]

theorem rewind_vals_eq (h : Repr s t) (c : ValCursor) (hc : c.key_cursor < t.length) :
    c.rewind_vals s = some ⟨c.key_cursor, t.off c.key_cursor⟩ := by
  rw [ValCursor.rewind_vals, h.voffs _ hc]; rfl

theorem walkKeys_spec (h : Repr s t) (fuel : Nat) : ∀ i p, i ≤ t.length → t.length - i < fuel → (i < t.length → p = t.off i) →
    walkKeys s fuel ⟨i, p⟩ = some (t.drop i) := by
  induction fuel with
  | zero => intro i p _ hf; omega
  | succ fuel ih =>
    intro i p hi hf hp
    rw [walkKeys, key_valid_iff h]
    rcases Nat.lt_or_ge i t.length with hlt | hge
    · rw [if_pos (by simpa using hlt), hp hlt]
      obtain ⟨kv, hkv⟩ : ∃ kv, t[i]? = some kv := ⟨_, List.getElem?_eq_getElem hlt⟩
      have hk : (⟨i, t.off i⟩ : ValCursor).key s = some kv.1 := by
        rw [ValCursor.key, h.keys, List.getElem?_map, hkv]; rfl
      have hlen : kv.2.length ≤ s.vals.vals.length := by
        rw [h.vals, List.length_map]
        have := off_le t (i + 1)
        rw [t.off_succ hkv] at this; omega
      have hw := walkVals_spec h hkv (s.vals.vals.length + 1) 0 (by omega) (by omega)
      simp only [Nat.add_zero, List.drop_zero] at hw
      rw [hk, hw]
      have hstep : ∃ p', (⟨i, t.off i⟩ : ValCursor).step_key s = some ⟨i + 1, p'⟩ ∧ (i + 1 < t.length → p' = t.off (i + 1)) := by
        rw [ValCursor.step_key]
        simp only [key_valid_iff h]
        split_ifs with h1
        · rw [rewind_vals_eq h _ (by simpa using h1)]
          exact ⟨_, rfl, fun _ => rfl⟩
        · refine ⟨t.off i, ?_, fun h2 => absurd h2 (by simpa using h1)⟩
          rw [h.keys, List.length_map]
          congr 2
          simp at h1; omega
      obtain ⟨p', g1, g2⟩ := hstep
      simp only [g1]
      rw [ih (i + 1) p' (by omega) (by omega) g2, drop_eq_cons hkv]
    · rw [if_neg (by simpa using hge), List.drop_eq_nil_of_le hge]

theorem readAll_spec (h : Repr s t) : s.readAll = some (flattenTrie t) := by
  have hl : s.keys.length = t.length := by rw [h.keys, List.length_map]
  have := walkKeys_spec h (s.keys.length + 1) 0 0 (by omega) (by omega) (fun _ => by simp [Trie.off, Trie.vals])
  rw [ValStorage.readAll, ValCursor.init, this]; rfl

end

end DD
