import Verif.Proofs.OrdVal

namespace DD

section
variable {K V T R : Type*} [LinearOrder K] [LinearOrder V] [DecidableEq T] [LinearOrder (Lin T)] [AddCommMonoid R] [DecidableEq R]
variable [Lattice T] [DecidableLE T]

theorem compactTrie_append (since : List T) (t t' : Trie K V T R) :
    compactTrie since (t ++ t') = compactTrie since t ++ compactTrie since t' := List.flatMap_append

theorem compactTrie_cons (since : List T) (kv : K × List (V × List (T × R))) (t : Trie K V T R) :
    compactTrie since (kv :: t) = compactTrie since [kv] ++ compactTrie since t := compactTrie_append since [kv] t

/-- The invariant of a merge of `t1` and `t2`, with result-so-far `res`. -/
structure MInv (since : List T) (t1 t2 : Trie K V T R) (m : ValMerger K V T R) (res : Trie K V T R) : Prop where
  ok : MOk since m res [] []
  c1 : m.key_cursor1 ≤ t1.length
  c2 : m.key_cursor2 ≤ t2.length
  rest : res ++ compactTrie since (zipTrie (t1.drop m.key_cursor1) (t2.drop m.key_cursor2)) = compactTrie since (zipTrie t1 t2)

theorem zipTrie_nil_left (t : Trie K V T R) : zipTrie [] t = t := by rw [zipTrie, zipMerge]
theorem zipTrie_nil_right (t : Trie K V T R) : zipTrie t [] = t := by cases t <;> rw [zipTrie, zipMerge]; simp

theorem total_mono {since : List T} {m m' : ValMerger K V T R} {res x : Trie K V T R} (h : MOk since m res [] [])
    (h' : MOk since m' (res ++ x) [] []) : m.staging.total ≤ m'.staging.total := by
  rw [h.total, h'.total, Trie.vals_append, List.append_nil, List.append_nil, sizeVals_append]; omega

theorem mergeKey_spec {since : List T} {t1 t2 : Trie K V T R} {m : ValMerger K V T R} {res : Trie K V T R} (h : MInv since t1 t2 m res)
    {s1 s2 : ValStorage K V T R} (hs1 : Repr s1 t1) (hs2 : Repr s2 t2) (hc1 : m.key_cursor1 < t1.length) (hc2 : m.key_cursor2 < t2.length) :
    ∃ m' res', m.mergeKey s1 s2 = some m' ∧ MInv since t1 t2 m' res' ∧ m'.description = m.description ∧
      m.staging.total ≤ m'.staging.total ∧ m.key_cursor1 + m.key_cursor2 < m'.key_cursor1 + m'.key_cursor2 := by
  obtain ⟨⟨k1, vs1⟩, hkv1⟩ : ∃ kv, t1[m.key_cursor1] = kv := ⟨_, rfl⟩
  obtain ⟨⟨k2, vs2⟩, hkv2⟩ : ∃ kv, t2[m.key_cursor2] = kv := ⟨_, rfl⟩
  have hi1 : t1[m.key_cursor1]? = some (k1, vs1) := by rw [List.getElem?_eq_getElem hc1, hkv1]
  have hi2 : t2[m.key_cursor2]? = some (k2, vs2) := by rw [List.getElem?_eq_getElem hc2, hkv2]
  have hk1 : s1.keys[m.key_cursor1]? = some k1 := by rw [hs1.keys, List.getElem?_map, hi1]; rfl
  have hk2 : s2.keys[m.key_cursor2]? = some k2 := by rw [hs2.keys, List.getElem?_map, hi2]; rfl
  have hrest := h.rest
  rw [List.drop_eq_getElem_cons hc1, List.drop_eq_getElem_cons hc2, hkv1, hkv2] at hrest
  rw [ValMerger.mergeKey, hk1, hk2]
  simp only
  rw [zipTrie, zipMerge] at hrest
  split_ifs with hlt heq
  · obtain ⟨m1, g1, g2, g3⟩ := copyKey_spec h.ok hs1 hi1
    rw [g1]
    refine ⟨{ m1 with key_cursor1 := m1.key_cursor1 + 1 }, res ++ compactTrie since [(k1, vs1)], rfl,
      ⟨⟨g3.prog, g3.stash, g3.total, g3.hsince⟩, ?_, ?_, ?_⟩, ?_, ?_, ?_⟩
    · simp only [g2.1]; omega
    · simp only [g2.2.1]; omega
    · rw [if_pos hlt, compactTrie_cons, ← List.append_assoc] at hrest
      simp only [g2.1, g2.2.1]
      rw [List.drop_eq_getElem_cons hc2, hkv2]; exact hrest
    · exact g2.2.2
    · exact (total_mono h.ok g3 :)
    · simp only [g2.1, g2.2.1]; omega
  · have hb1 := hs1.voffs _ hc1
    have hb2 := hs2.voffs _ hc2
    rw [Trie.off_succ _ hi1] at hb1
    rw [Trie.off_succ _ hi2] at hb2
    rw [hb1, hb2]
    simp only [Nat.add_sub_cancel_left]
    obtain ⟨m1, g1, g2, g3⟩ := mergeVals_spec s1 s2 (vs1.length + vs2.length + 1) (Nat.lt_succ_self _) h.ok
      (hasVals_of_repr hs1 hi1) (hasVals_of_repr hs2 hi2)
    rw [g1]
    have hin : m.result.vals.vals.length = (Trie.vals res).length := by rw [h.ok.prog.vals]; simp
    obtain ⟨m2, g4, g5, g6⟩ := pushKey_spec g3 _ hin k1
    simp only [g4]
    have g7 := g2.trans g5
    rw [List.nil_append] at g6
    refine ⟨{ m2 with key_cursor1 := m2.key_cursor1 + 1, key_cursor2 := m2.key_cursor2 + 1 },
      res ++ compactTrie since [(k1, zipVals vs1 vs2)], rfl,
      ⟨⟨by simpa [compactTrie] using g6.prog, g6.stash, by simpa [compactTrie] using g6.total, g6.hsince⟩, ?_, ?_, ?_⟩, ?_, ?_, ?_⟩
    · simp only [g7.1]; omega
    · simp only [g7.2.1]; omega
    · rw [if_neg hlt, if_pos heq, compactTrie_cons, ← List.append_assoc] at hrest
      simp only [g7.1, g7.2.1]; exact hrest
    · exact g7.2.2
    · exact (total_mono h.ok g6 :)
    · simp only [g7.1, g7.2.1]; omega
  · obtain ⟨m1, g1, g2, g3⟩ := copyKey_spec h.ok hs2 hi2
    rw [g1]
    refine ⟨{ m1 with key_cursor2 := m1.key_cursor2 + 1 }, res ++ compactTrie since [(k2, vs2)], rfl,
      ⟨⟨g3.prog, g3.stash, g3.total, g3.hsince⟩, ?_, ?_, ?_⟩, ?_, ?_, ?_⟩
    · simp only [g2.1]; omega
    · simp only [g2.2.1]; omega
    · rw [if_neg hlt, if_neg heq, compactTrie_cons, ← List.append_assoc] at hrest
      simp only [g2.1, g2.2.1]
      rw [List.drop_eq_getElem_cons hc1, hkv1]; exact hrest
    · exact g2.2.2
    · exact (total_mono h.ok g3 :)
    · simp only [g2.1, g2.2.1]; omega

/-- What each of the three loops guarantees. -/
structure LoopPost (since : List T) (t1 t2 : Trie K V T R) (starting : Nat) (m m' : ValMerger K V T R) (effort : Int) : Prop where
  inv : ∃ res, MInv since t1 t2 m' res
  desc : m'.description = m.description
  mono : m.staging.total ≤ m'.staging.total
  eff : effort = (m'.staging.total : Int) - starting

theorem workBoth_spec {since : List T} {t1 t2 : Trie K V T R} {s1 s2 : ValStorage K V T R} (hs1 : Repr s1 t1) (hs2 : Repr s2 t2)
    (starting : Nat) (fuel : Int) (n : Nat) : ∀ {m : ValMerger K V T R} {effort : Int}, (∃ res, MInv since t1 t2 m res) →
    effort = (m.staging.total : Int) - starting → t1.length + t2.length ≤ m.key_cursor1 + m.key_cursor2 + n →
    ∃ m' effort', ValMerger.workBoth s1 s2 starting fuel n m effort = some (m', effort') ∧ LoopPost since t1 t2 starting m m' effort' ∧
      (m'.key_cursor1 = t1.length ∨ m'.key_cursor2 = t2.length ∨ fuel ≤ effort') := by
  have hl1 : s1.keys.length = t1.length := by rw [hs1.keys]; simp
  have hl2 : s2.keys.length = t2.length := by rw [hs2.keys]; simp
  induction n with
  | zero =>
    intro m effort ⟨res, h⟩ he hn
    have := h.c1; have := h.c2
    exact ⟨m, effort, rfl, ⟨⟨res, h⟩, rfl, le_refl _, he⟩, Or.inl (by omega)⟩
  | succ n ih =>
    intro m effort ⟨res, h⟩ he hn
    rw [ValMerger.workBoth, hl1, hl2]
    split_ifs with hc
    · obtain ⟨m1, res1, g1, g2, g3, gm, g4⟩ := mergeKey_spec h hs1 hs2 hc.1 hc.2.1
      rw [g1]
      obtain ⟨m2, e2, k1, k2, k3⟩ := ih (m := m1) ⟨res1, g2⟩ rfl (by omega)
      exact ⟨m2, e2, k1, ⟨k2.inv, k2.desc.trans g3, gm.trans k2.mono, k2.eff⟩, k3⟩
    · refine ⟨m, effort, rfl, ⟨⟨res, h⟩, rfl, le_refl _, he⟩, ?_⟩
      have := h.c1; have := h.c2
      by_contra hcon
      apply hc
      refine ⟨?_, ?_, ?_⟩ <;> omega

theorem workOne_spec {since : List T} {t1 t2 : Trie K V T R} {s1 : ValStorage K V T R} (hs1 : Repr s1 t1)
    (starting : Nat) (fuel : Int) (n : Nat) : ∀ {m : ValMerger K V T R} {effort : Int}, (∃ res, MInv since t1 t2 m res) →
    effort = (m.staging.total : Int) - starting → t1.length ≤ m.key_cursor1 + n →
    (m.key_cursor1 = t1.length ∨ m.key_cursor2 = t2.length ∨ fuel ≤ effort) →
    ∃ m' effort', ValMerger.workOne s1 starting fuel n m effort = some (m', effort') ∧ LoopPost since t1 t2 starting m m' effort' ∧
      (m'.key_cursor1 = t1.length ∨ fuel ≤ effort') := by
  have hl1 : s1.keys.length = t1.length := by rw [hs1.keys]; simp
  induction n with
  | zero =>
    intro m effort ⟨res, h⟩ he hn _
    have := h.c1
    exact ⟨m, effort, rfl, ⟨⟨res, h⟩, rfl, le_refl _, he⟩, Or.inl (by omega)⟩
  | succ n ih =>
    intro m effort ⟨res, h⟩ he hn hor
    rw [ValMerger.workOne, hl1]
    split_ifs with hc
    · have hc2 : m.key_cursor2 = t2.length := by
        rcases hor with h1 | h1 | h1 <;> omega
      obtain ⟨kv, hkv⟩ : ∃ kv, kv = t1[m.key_cursor1] := ⟨_, rfl⟩
      have hi1 : t1[m.key_cursor1]? = some kv := by rw [List.getElem?_eq_getElem hc.1, hkv]
      obtain ⟨m1, g1, g2, g3⟩ := copyKey_spec h.ok hs1 hi1
      rw [g1]
      simp only
      have hinv : MInv since t1 t2 { m1 with key_cursor1 := m1.key_cursor1 + 1 } (res ++ compactTrie since [kv]) := by
        refine ⟨⟨g3.prog, g3.stash, g3.total, g3.hsince⟩, ?_, ?_, ?_⟩
        · simp only [g2.1]; omega
        · simp only [g2.2.1]; omega
        · have hrest := h.rest
          rw [List.drop_eq_getElem_cons hc.1, ← hkv, hc2, List.drop_length, zipTrie_nil_right, compactTrie_cons, ← List.append_assoc] at hrest
          simp only [g2.1, g2.2.1, hc2, List.drop_length, zipTrie_nil_right]; exact hrest
      obtain ⟨m2, e2, k1, k2, k3⟩ := ih (m := { m1 with key_cursor1 := m1.key_cursor1 + 1 }) ⟨_, hinv⟩ rfl
        (by simp only [g2.1]; omega) (Or.inr (Or.inl (by simp only [g2.2.1]; exact hc2)))
      exact ⟨m2, e2, k1, ⟨k2.inv, k2.desc.trans g2.2.2, (total_mono h.ok hinv.ok).trans k2.mono, k2.eff⟩, k3⟩
    · refine ⟨m, effort, rfl, ⟨⟨res, h⟩, rfl, le_refl _, he⟩, ?_⟩
      have := h.c1
      by_contra hcon
      apply hc
      refine ⟨?_, ?_⟩ <;> omega

theorem workTwo_spec {since : List T} {t1 t2 : Trie K V T R} {s2 : ValStorage K V T R} (hs2 : Repr s2 t2)
    (starting : Nat) (fuel : Int) (n : Nat) : ∀ {m : ValMerger K V T R} {effort : Int}, (∃ res, MInv since t1 t2 m res) →
    effort = (m.staging.total : Int) - starting → t2.length ≤ m.key_cursor2 + n →
    (m.key_cursor1 = t1.length ∨ fuel ≤ effort) →
    ∃ m' effort', ValMerger.workTwo s2 starting fuel n m effort = some (m', effort') ∧ LoopPost since t1 t2 starting m m' effort' ∧
      (m'.key_cursor1 = t1.length ∧ m'.key_cursor2 = t2.length ∨ fuel ≤ effort') := by
  have hl2 : s2.keys.length = t2.length := by rw [hs2.keys]; simp
  induction n with
  | zero =>
    intro m effort ⟨res, h⟩ he hn hor
    have := h.c2
    refine ⟨m, effort, rfl, ⟨⟨res, h⟩, rfl, le_refl _, he⟩, ?_⟩
    rcases hor with h1 | h1
    · exact Or.inl ⟨h1, by omega⟩
    · exact Or.inr h1
  | succ n ih =>
    intro m effort ⟨res, h⟩ he hn hor
    rw [ValMerger.workTwo, hl2]
    split_ifs with hc
    · have hc1 : m.key_cursor1 = t1.length := by
        rcases hor with h1 | h1 <;> omega
      obtain ⟨kv, hkv⟩ : ∃ kv, kv = t2[m.key_cursor2] := ⟨_, rfl⟩
      have hi2 : t2[m.key_cursor2]? = some kv := by rw [List.getElem?_eq_getElem hc.1, hkv]
      obtain ⟨m1, g1, g2, g3⟩ := copyKey_spec h.ok hs2 hi2
      rw [g1]
      simp only
      have hinv : MInv since t1 t2 { m1 with key_cursor2 := m1.key_cursor2 + 1 } (res ++ compactTrie since [kv]) := by
        refine ⟨⟨g3.prog, g3.stash, g3.total, g3.hsince⟩, ?_, ?_, ?_⟩
        · simp only [g2.1]; omega
        · simp only [g2.2.1]; omega
        · have hrest := h.rest
          rw [List.drop_eq_getElem_cons hc.1, ← hkv, hc1, List.drop_length, zipTrie_nil_left, compactTrie_cons, ← List.append_assoc] at hrest
          simp only [g2.1, g2.2.1, hc1, List.drop_length, zipTrie_nil_left]; exact hrest
      obtain ⟨m2, e2, k1, k2, k3⟩ := ih (m := { m1 with key_cursor2 := m1.key_cursor2 + 1 }) ⟨_, hinv⟩ rfl
        (by simp only [g2.2.1]; omega) (Or.inl (by simp only [g2.1]; exact hc1))
      exact ⟨m2, e2, k1, ⟨k2.inv, k2.desc.trans g2.2.2, (total_mono h.ok hinv.ok).trans k2.mono, k2.eff⟩, k3⟩
    · refine ⟨m, effort, rfl, ⟨⟨res, h⟩, rfl, le_refl _, he⟩, ?_⟩
      have := h.c2
      rcases hor with h1 | h1
      · by_contra hcon
        apply hc
        refine ⟨?_, ?_⟩ <;> omega
      · exact Or.inr h1

/-- The merge has consumed both inputs. -/
def ValMerger.complete (m : ValMerger K V T R) (b1 b2 : ValBatch K V T R) : Prop :=
  m.key_cursor1 = b1.storage.keys.length ∧ m.key_cursor2 = b2.storage.keys.length

theorem work_spec {since : List T} {t1 t2 : Trie K V T R} {b1 b2 : ValBatch K V T R} (hs1 : Repr b1.storage t1) (hs2 : Repr b2.storage t2)
    {m : ValMerger K V T R} (h : ∃ res, MInv since t1 t2 m res) (fuel : Int) :
    ∃ m' left, m.work b1 b2 fuel = some (m', left) ∧ (∃ res, MInv since t1 t2 m' res) ∧ m'.description = m.description ∧ m.staging.total ≤ m'.staging.total ∧
      left = fuel - ((m'.staging.total : Int) - m.staging.total) ∧ (m'.complete b1 b2 ∨ left ≤ 0) := by
  have hl1 : b1.storage.keys.length = t1.length := by rw [hs1.keys]; simp
  have hl2 : b2.storage.keys.length = t2.length := by rw [hs2.keys]; simp
  obtain ⟨m1, e1, a1, a2, a3⟩ := workBoth_spec hs1 hs2 m.staging.total fuel (t1.length + t2.length) (m := m) (effort := 0) h (by simp) (by omega)
  obtain ⟨m2, e2, c1, c2, c3⟩ := workOne_spec hs1 m.staging.total fuel (t1.length + t2.length) a2.inv a2.eff (by omega) a3
  obtain ⟨m3, e3, d1, d2, d3⟩ := workTwo_spec hs2 m.staging.total fuel (t1.length + t2.length) c2.inv c2.eff (by omega) c3
  refine ⟨m3, fuel - e3, ?_, d2.inv, d2.desc.trans (c2.desc.trans a2.desc), a2.mono.trans (c2.mono.trans d2.mono), ?_, ?_⟩
  · simp only [ValMerger.work, hl1, hl2, a1, c1, d1]
  · rw [d2.eff]
  · rcases d3 with h1 | h1
    · left; rw [ValMerger.complete, hl1, hl2]; exact h1
    · right; omega

end

/-! ## Contents -/

section
variable {K V T R : Type*}

def flatVals (k : K) (vs : List (V × List (T × R))) : Upds (K ×ₗ V) T R :=
  vs.flatMap fun vu => vu.2.map fun u => (toLex (k, vu.1), u.1, u.2)

theorem flattenTrie_cons (kv : K × List (V × List (T × R))) (t : Trie K V T R) :
    flattenTrie (kv :: t) = flatVals kv.1 kv.2 ++ flattenTrie t := rfl

theorem flattenTrie_append (t t' : Trie K V T R) : flattenTrie (t ++ t') = flattenTrie t ++ flattenTrie t' := List.flatMap_append

theorem flatVals_append (k : K) (a b : List (V × List (T × R))) : flatVals k (a ++ b) = flatVals k a ++ flatVals k b := List.flatMap_append

theorem length_flatVals (k : K) (vs : List (V × List (T × R))) : (flatVals k vs).length = sizeVals vs := by
  simp [flatVals, sizeVals, List.length_flatMap]

theorem length_flattenTrie (t : Trie K V T R) : (flattenTrie t).length = t.size := by
  induction t with
  | nil => rfl
  | cons kv t ih =>
    rw [flattenTrie_cons, List.length_append, ih, length_flatVals, Trie.size, Trie.size]
    simp [Trie.vals, sizeVals]

end

section
variable {K V T R : Type*} [LinearOrder K] [LinearOrder V] [DecidableEq T] [LinearOrder (Lin T)] [AddCommMonoid R] [DecidableEq R]

/-- Moving the updates' times. -/
def mapTimes {D : Type*} (f : T → T) (us : Upds D T R) : Upds D T R := us.map fun u => (u.1, f u.2.1, u.2.2)

theorem total_map_pair (d d' : K ×ₗ V) (l : List (T × R)) (t : T) :
    total (l.map fun u => (d, u.1, u.2)) d' t = if d = d' then weight l t else 0 := by
  induction l with
  | nil => simp
  | cons u l ih =>
    rw [List.map_cons, total_cons, ih]
    have : weight (u :: l) t = (if u.1 = t then u.2 else 0) + weight l t := weight_cons u l t
    rw [this]
    by_cases hd : d = d' <;> simp [hd]

theorem weight_consTimes (l : List (T × R)) (t : T) : weight (consTimes l) t = weight l t := by
  have h : @weight (Lin T) R inferInstance _ (consolidated (K := Lin T) l) t = @weight (Lin T) R inferInstance _ l t :=
    weight_consolidated (K := Lin T) l t
  have e : ∀ l : List (T × R), weight l t = @weight (Lin T) R inferInstance _ l t := by
    intro l
    unfold weight
    congr 2
    funext u
    congr 1
  rw [e, e]; exact h

variable [Lattice T] [DecidableLE T]

theorem total_keepVal (d d' : K ×ₗ V) (v : V) (k : K) (l : List (T × R)) (t : T) :
    total (flatVals k (keepVal v l)) d' t = total (l.map fun u => (toLex (k, v), u.1, u.2)) d' t := by
  rw [keepVal]
  cases l with
  | nil => rfl
  | cons u l => simp [flatVals]

theorem total_compactVals (since : List T) (k : K) (vs : List (V × List (T × R))) (d : K ×ₗ V) (t : T) :
    total (flatVals k (compactVals since vs)) d t = total (mapTimes (fun x => advanceBy x since) (flatVals k vs)) d t := by
  induction vs with
  | nil => rfl
  | cons vu vs ih =>
    rw [compactVals_cons, flatVals_append, total_append, ih, total_keepVal d]
    have : mapTimes (fun x => advanceBy x since) (flatVals k (vu :: vs))
        = (vu.2.map fun u => (toLex (k, vu.1), advanceBy u.1 since, u.2)) ++ mapTimes (fun x => advanceBy x since) (flatVals k vs) := by
      simp [mapTimes, flatVals]
    rw [this, total_append]
    congr 1
    rw [total_map_pair, compactUpds, weight_consTimes, ← total_map_pair, List.map_map]
    rfl

theorem flat_keep_trie (k : K) (vs : List (V × List (T × R))) : flattenTrie (keepVal k vs) = flatVals k vs := by
  rw [keepVal]
  cases vs <;> simp [flattenTrie, flatVals]

theorem total_compactTrie (since : List T) (tr : Trie K V T R) (d : K ×ₗ V) (t : T) :
    total (flattenTrie (compactTrie since tr)) d t = total (mapTimes (fun x => advanceBy x since) (flattenTrie tr)) d t := by
  induction tr with
  | nil => rfl
  | cons kv tr ih =>
    rw [compactTrie_cons, flattenTrie_append, total_append, ih, flattenTrie_cons]
    have : mapTimes (fun x => advanceBy x since) (flatVals kv.1 kv.2 ++ flattenTrie tr)
        = mapTimes (fun x => advanceBy x since) (flatVals kv.1 kv.2) ++ mapTimes (fun x => advanceBy x since) (flattenTrie tr) := by
      simp [mapTimes]
    rw [this, total_append]
    congr 1
    have : compactTrie since [kv] = keepVal kv.1 (compactVals since kv.2) := by simp [compactTrie]
    rw [this, flat_keep_trie, total_compactVals]

end

section
variable {A B M : Type*} [LinearOrder A]

theorem zipMerge_perm (comb : B → B → B) (f : A → B → List M) (hf : ∀ a b b', (f a (comb b b')).Perm (f a b ++ f a b'))
    (l1 l2 : List (A × B)) : ((zipMerge comb l1 l2).flatMap fun x => f x.1 x.2).Perm
      ((l1.flatMap fun x => f x.1 x.2) ++ (l2.flatMap fun x => f x.1 x.2)) := by
  fun_induction zipMerge comb l1 l2 with
  | case1 => simp
  | case2 => simp
  | case3 a1 b1 l1 a2 b2 l2 hlt ih =>
    rw [List.flatMap_cons, List.flatMap_cons, List.append_assoc]
    exact ih.append_left _
  | case4 b1 l1 a2 b2 l2 hlt ih =>
    rw [List.flatMap_cons, List.flatMap_cons, List.flatMap_cons]
    refine ((hf _ _ _).append ih).trans ?_
    simp only [List.append_assoc]
    refine List.Perm.append_left _ ?_
    rw [← List.append_assoc, ← List.append_assoc]
    exact List.perm_append_comm.append_right _
  | case5 a1 b1 l1 a2 b2 l2 hlt hne ih =>
    rw [List.flatMap_cons, List.flatMap_cons (x := (a2, b2))]
    refine (ih.append_left _).trans ?_
    rw [← List.append_assoc, ← List.append_assoc]
    exact List.perm_append_comm.append_right _

theorem mem_zipMerge (comb : B → B → B) (l1 l2 : List (A × B)) : ∀ x ∈ zipMerge comb l1 l2, ∃ y ∈ l1 ++ l2, y.1 = x.1 := by
  fun_induction zipMerge comb l1 l2 with
  | case1 => intro x hx; exact ⟨x, by simpa using hx, rfl⟩
  | case2 => intro x hx; exact ⟨x, by simpa using hx, rfl⟩
  | case3 a1 b1 l1 a2 b2 l2 hlt ih =>
    intro x hx
    rcases List.mem_cons.mp hx with h | h
    · exact ⟨(a1, b1), by simp, by rw [h]⟩
    · obtain ⟨y, h1, h2⟩ := ih x h
      exact ⟨y, by simp at h1 ⊢; tauto, h2⟩
  | case4 b1 l1 a2 b2 l2 hlt ih =>
    intro x hx
    rcases List.mem_cons.mp hx with h | h
    · exact ⟨(a2, b1), by simp, by rw [h]⟩
    · obtain ⟨y, h1, h2⟩ := ih x h
      exact ⟨y, by simp at h1 ⊢; tauto, h2⟩
  | case5 a1 b1 l1 a2 b2 l2 hlt hne ih =>
    intro x hx
    rcases List.mem_cons.mp hx with h | h
    · exact ⟨(a2, b2), by simp, by rw [h]⟩
    · obtain ⟨y, h1, h2⟩ := ih x h
      exact ⟨y, by simp at h1 ⊢; tauto, h2⟩

theorem zipMerge_sorted (comb : B → B → B) (l1 l2 : List (A × B)) (h1 : l1.Pairwise (fun x y => x.1 < y.1)) (h2 : l2.Pairwise (fun x y => x.1 < y.1)) :
    (zipMerge comb l1 l2).Pairwise (fun x y => x.1 < y.1) := by
  fun_induction zipMerge comb l1 l2 with
  | case1 => exact h2
  | case2 => exact h1
  | case3 a1 b1 l1 a2 b2 l2 hlt ih =>
    rw [List.pairwise_cons] at h1
    refine List.pairwise_cons.mpr ⟨fun x hx => ?_, ih h1.2 h2⟩
    obtain ⟨y, hy, he⟩ := mem_zipMerge comb _ _ x hx
    rw [← he]
    rw [List.pairwise_cons] at h2
    rcases List.mem_append.mp hy with hy | hy
    · exact h1.1 y hy
    · rcases List.mem_cons.mp hy with hy | hy
      · rw [hy]; exact hlt
      · exact lt_trans hlt (h2.1 y hy)
  | case4 b1 l1 a2 b2 l2 hlt ih =>
    rw [List.pairwise_cons] at h1 h2
    refine List.pairwise_cons.mpr ⟨fun x hx => ?_, ih h1.2 h2.2⟩
    obtain ⟨y, hy, he⟩ := mem_zipMerge comb _ _ x hx
    rw [← he]
    rcases List.mem_append.mp hy with hy | hy
    · exact h1.1 y hy
    · exact h2.1 y hy
  | case5 a1 b1 l1 a2 b2 l2 hlt hne ih =>
    rw [List.pairwise_cons] at h2
    have hgt : a2 < a1 := lt_of_le_of_ne (not_lt.mp hlt) (Ne.symm hne)
    refine List.pairwise_cons.mpr ⟨fun x hx => ?_, ih h1 h2.2⟩
    obtain ⟨y, hy, he⟩ := mem_zipMerge comb _ _ x hx
    rw [← he]
    rw [List.pairwise_cons] at h1
    rcases List.mem_append.mp hy with hy | hy
    · rcases List.mem_cons.mp hy with hy | hy
      · rw [hy]; exact hgt
      · exact lt_trans hgt (h1.1 y hy)
    · exact h2.1 y hy

theorem zipMerge_forall (comb : B → B → B) (P : B → Prop) (hP : ∀ b b', P b → P b' → P (comb b b')) (l1 l2 : List (A × B))
    (h1 : ∀ x ∈ l1, P x.2) (h2 : ∀ x ∈ l2, P x.2) : ∀ x ∈ zipMerge comb l1 l2, P x.2 := by
  fun_induction zipMerge comb l1 l2 with
  | case1 => exact h2
  | case2 => exact h1
  | case3 a1 b1 l1 a2 b2 l2 hlt ih =>
    simp only [List.forall_mem_cons] at h1 ⊢
    exact ⟨h1.1, ih h1.2 h2⟩
  | case4 b1 l1 a2 b2 l2 hlt ih =>
    simp only [List.forall_mem_cons] at h1 h2 ⊢
    exact ⟨hP _ _ h1.1 h2.1, ih h1.2 h2.2⟩
  | case5 a1 b1 l1 a2 b2 l2 hlt hne ih =>
    simp only [List.forall_mem_cons] at h2 ⊢
    exact ⟨h2.1, ih h1 h2.2⟩

end

section
variable {K V T R : Type*} [LinearOrder K] [LinearOrder V] [DecidableEq T] [LinearOrder (Lin T)] [AddCommMonoid R] [DecidableEq R]

theorem flatVals_zipVals (k : K) (a b : List (V × List (T × R))) : (flatVals k (zipVals a b)).Perm (flatVals k a ++ flatVals k b) := by
  have h := zipMerge_perm (A := V) (B := List (T × R)) (M := (K ×ₗ V) × T × R) (· ++ ·)
    (fun v us => us.map fun u => (toLex (k, v), u.1, u.2)) (fun _ _ _ => by simp) a b
  exact h

theorem flattenTrie_zipTrie (a b : Trie K V T R) : (flattenTrie (zipTrie a b)).Perm (flattenTrie a ++ flattenTrie b) :=
  zipMerge_perm zipVals flatVals (fun _ _ _ => flatVals_zipVals _ _ _) a b

/-- Values strictly sorted, none empty, updates consolidated. -/
structure ValsWf (vs : List (V × List (T × R))) : Prop where
  sorted : vs.Pairwise (fun x y => x.1 < y.1)
  upds : ∀ x ∈ vs, x.2 ≠ [] ∧ ConsolidatedPairs (D := Lin T) x.2

structure TrieWf (t : Trie K V T R) : Prop where
  sorted : t.Pairwise (fun x y => x.1 < y.1)
  vals : ∀ x ∈ t, x.2 ≠ [] ∧ ValsWf x.2

theorem keepVal_mem {A B : Type*} {v : A} {l : List B} {x : A × List B} (h : x ∈ keepVal v l) : x = (v, l) ∧ l ≠ [] := by
  rw [keepVal] at h
  cases l with
  | nil => simp at h
  | cons y l => simp at h; exact ⟨h, by simp⟩

theorem keep_sorted {A B C : Type*} [LinearOrder A] (f : C → List B) (l : List (A × C)) (h : l.Pairwise (fun x y => x.1 < y.1)) :
    (l.flatMap fun x => keepVal x.1 (f x.2)).Pairwise (fun x y => x.1 < y.1) := by
  induction l with
  | nil => exact List.Pairwise.nil
  | cons a l ih =>
    rw [List.pairwise_cons] at h
    rw [List.flatMap_cons, List.pairwise_append]
    refine ⟨?_, ih h.2, ?_⟩
    · rw [keepVal]; split_ifs <;> simp
    · intro x hx y hy
      obtain ⟨z, hz, hy⟩ := List.mem_flatMap.mp hy
      rw [(keepVal_mem hx).1, (keepVal_mem hy).1]
      exact h.1 z hz

variable [Lattice T] [DecidableLE T]

theorem compactVals_wf (since : List T) (vs : List (V × List (T × R))) (h : vs.Pairwise (fun x y => x.1 < y.1)) :
    ValsWf (compactVals since vs) := by
  refine ⟨keep_sorted _ vs h, fun x hx => ?_⟩
  obtain ⟨vu, _, hx⟩ := List.mem_flatMap.mp hx
  rw [(keepVal_mem hx).1]
  exact ⟨(keepVal_mem hx).2, consolidatedPairs_consolidated (K := Lin T) _⟩

theorem compactTrie_wf (since : List T) (t : Trie K V T R) (h : t.Pairwise (fun x y => x.1 < y.1))
    (hv : ∀ x ∈ t, x.2.Pairwise (fun x y => x.1 < y.1)) : TrieWf (compactTrie since t) := by
  refine ⟨keep_sorted _ t h, fun x hx => ?_⟩
  obtain ⟨kv, hkv, hx⟩ := List.mem_flatMap.mp hx
  rw [(keepVal_mem hx).1]
  exact ⟨(keepVal_mem hx).2, compactVals_wf since _ (hv _ hkv)⟩

theorem merged_wf (since : List T) {t1 t2 : Trie K V T R} (h1 : TrieWf t1) (h2 : TrieWf t2) : TrieWf (compactTrie since (zipTrie t1 t2)) := by
  refine compactTrie_wf since _ (zipMerge_sorted _ _ _ h1.sorted h2.sorted) ?_
  exact zipMerge_forall zipVals (fun vs => vs.Pairwise (fun x y => x.1 < y.1)) (fun a b ha hb => zipMerge_sorted _ _ _ ha hb) t1 t2
    (fun x hx => (h1.vals x hx).2.sorted) (fun x hx => (h2.vals x hx).2.sorted)

end

section
variable {K V T R : Type*} [LinearOrder K] [LinearOrder V] [LinearOrder (Lin T)] [AddCommMonoid R]

theorem lex_lt_left {k k' : K} {v v' : V} (h : k < k') : toLex (k, v) < toLex (k', v') := Prod.Lex.toLex_lt_toLex.mpr (Or.inl h)
theorem lex_lt_right {k : K} {v v' : V} (h : v < v') : toLex (k, v) < toLex (k, v') := Prod.Lex.toLex_lt_toLex.mpr (Or.inr ⟨rfl, h⟩)

theorem flatVals_consolidated (k : K) {vs : List (V × List (T × R))} (h : ValsWf vs) : Consolidated (flatVals k vs) := by
  obtain ⟨hs, hu⟩ := h
  refine ⟨?_, ?_⟩
  · induction vs with
    | nil => exact List.Pairwise.nil
    | cons vu vs ih =>
      rw [List.pairwise_cons] at hs
      simp only [List.forall_mem_cons] at hu
      show List.Pairwise _ ((vu.2.map fun u => (toLex (k, vu.1), u.1, u.2)) ++ flatVals k vs)
      rw [List.pairwise_append]
      refine ⟨?_, ih hs.2 hu.2, ?_⟩
      · rw [List.pairwise_map]
        exact hu.1.2.1.imp (fun h => Or.inr ⟨rfl, h⟩)
      · intro x hx y hy
        obtain ⟨u, _, rfl⟩ := List.mem_map.mp hx
        obtain ⟨vu', hvu', hy⟩ := List.mem_flatMap.mp hy
        obtain ⟨u', _, rfl⟩ := List.mem_map.mp hy
        exact Or.inl (lex_lt_right (hs.1 _ hvu'))
  · intro x hx
    obtain ⟨vu, hvu, hx⟩ := List.mem_flatMap.mp hx
    obtain ⟨u, hu', rfl⟩ := List.mem_map.mp hx
    exact (hu vu hvu).2.2 u hu'

theorem flattenTrie_consolidated {t : Trie K V T R} (h : TrieWf t) : Consolidated (flattenTrie t) := by
  obtain ⟨hs, hv⟩ := h
  refine ⟨?_, ?_⟩
  · induction t with
    | nil => exact List.Pairwise.nil
    | cons kv t ih =>
      rw [List.pairwise_cons] at hs
      simp only [List.forall_mem_cons] at hv
      rw [flattenTrie_cons, List.pairwise_append]
      refine ⟨(flatVals_consolidated kv.1 hv.1.2).1, ih hs.2 hv.2, ?_⟩
      intro x hx y hy
      obtain ⟨vu, _, hx⟩ := List.mem_flatMap.mp hx
      obtain ⟨u, _, rfl⟩ := List.mem_map.mp hx
      obtain ⟨kv', hkv', hy⟩ := List.mem_flatMap.mp hy
      obtain ⟨vu', _, hy⟩ := List.mem_flatMap.mp hy
      obtain ⟨u', _, rfl⟩ := List.mem_map.mp hy
      exact Or.inl (lex_lt_left (hs.1 _ hkv'))
  · intro x hx
    obtain ⟨kv, hkv, hx⟩ := List.mem_flatMap.mp hx
    exact (flatVals_consolidated kv.1 (hv kv hkv).2).2 x hx

end

end DD
