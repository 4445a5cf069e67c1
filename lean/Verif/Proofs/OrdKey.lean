import Verif.Model.OrdKey
import Verif.Proofs.OrdValBuild

namespace DD

/-! ## Key lists: `List (K × List (T × R))`; the value-level functions of `Proofs/OrdVal` are used with keys in place of values. -/

section
variable {K T R : Type*}

structure KRepr (s : KeyStorage K T R) (t : List (K × List (T × R))) : Prop where
  keys : s.keys = t.map Prod.fst
  upds : ∀ j us, (t.map Prod.snd)[j]? = some us → s.upds.read j = some us

structure KInProg (s : KeyStorage K T R) (t : List (K × List (T × R))) : Prop where
  keys : s.keys = t.map Prod.fst
  upds : UpdsOk s.upds (t.map Prod.snd)

theorem KInProg.repr {s : KeyStorage K T R} {t : List (K × List (T × R))} (h : KInProg s t) : KRepr s t :=
  ⟨h.keys, fun _ _ hj => h.upds.read_eq hj⟩

theorem kInProg_init : KInProg (KeyStorage.init : KeyStorage K T R) [] := ⟨rfl, updsOk_init⟩

def flatKeys (t : List (K × List (T × R))) : Upds K T R := t.flatMap fun vu => vu.2.map fun u => (vu.1, u.1, u.2)

theorem flatKeys_append (a b : List (K × List (T × R))) : flatKeys (a ++ b) = flatKeys a ++ flatKeys b := List.flatMap_append

theorem length_flatKeys (t : List (K × List (T × R))) : (flatKeys t).length = sizeVals t := by
  simp [flatKeys, sizeVals, List.length_flatMap]

theorem KRepr.length {s : KeyStorage K T R} {t : List (K × List (T × R))} (h : KRepr s t) : s.keys.length = t.length := by
  rw [h.keys]; simp

end

section
variable {K T R : Type*} [LinearOrder K] [DecidableEq T] [LinearOrder (Lin T)] [AddCommMonoid R] [DecidableEq R]

theorem flatKeys_consolidated {t : List (K × List (T × R))} (h : ValsWf t) : Consolidated (flatKeys t) := by
  obtain ⟨hs, hu⟩ := h
  refine ⟨?_, ?_⟩
  · induction t with
    | nil => exact List.Pairwise.nil
    | cons vu vs ih =>
      rw [List.pairwise_cons] at hs
      simp only [List.forall_mem_cons] at hu
      show List.Pairwise _ ((vu.2.map fun u => (vu.1, u.1, u.2)) ++ flatKeys vs)
      rw [List.pairwise_append]
      refine ⟨?_, ih hs.2 hu.2, ?_⟩
      · rw [List.pairwise_map]
        exact hu.1.2.1.imp (fun h => Or.inr ⟨rfl, h⟩)
      · intro x hx y hy
        obtain ⟨u, _, rfl⟩ := List.mem_map.mp hx
        obtain ⟨vu', hvu', hy⟩ := List.mem_flatMap.mp hy
        obtain ⟨u', _, rfl⟩ := List.mem_map.mp hy
        exact Or.inl (hs.1 _ hvu')
  · intro x hx
    obtain ⟨vu, hvu, hx⟩ := List.mem_flatMap.mp hx
    obtain ⟨u, hu', rfl⟩ := List.mem_map.mp hx
    exact (hu vu hvu).2.2 u hu'

theorem total_map_pair' (d d' : K) (l : List (T × R)) (t : T) :
    total (l.map fun u => (d, u.1, u.2)) d' t = if d = d' then weight l t else 0 := by
  induction l with
  | nil => simp
  | cons u l ih =>
    rw [List.map_cons, total_cons, ih]
    have : weight (u :: l) t = (if u.1 = t then u.2 else 0) + weight l t := weight_cons u l t
    rw [this]
    by_cases hd : d = d' <;> simp [hd]

theorem flatKeys_zip (a b : List (K × List (T × R))) : (flatKeys (zipVals a b)).Perm (flatKeys a ++ flatKeys b) := by
  have h := zipMerge_perm (A := K) (B := List (T × R)) (M := K × T × R) (· ++ ·)
    (fun v us => us.map fun u => (v, u.1, u.2)) (fun _ _ _ => by simp) a b
  exact h

/-! ## Builder -/

structure KBInv (b : KeyBuilder K T R) (t : List (K × List (T × R))) (k : K) (st : List (T × R)) : Prop where
  keys : b.result.keys = t.map Prod.fst ++ [k]
  upds : UpdsOk b.result.upds (t.map Prod.snd)
  stash : b.staging.stash = st
  total : b.staging.total = sizeVals t
  wf : ValsWf (t ++ [(k, st)])

theorem KBInv.sealed {b : KeyBuilder K T R} {t : List (K × List (T × R))} {k : K} {st : List (T × R)}
    (h : KBInv b t k st) : ∃ l', b.staging.seal b.result.upds = some (⟨[], sizeVals (t ++ [(k, st)])⟩, l', true) ∧
      UpdsOk l' ((t ++ [(k, st)]).map Prod.snd) := by
  have hst := (valsWf_concat.mp h.wf).2.2
  rcases seal_spec h.upds b.staging with ⟨h1, _⟩ | ⟨_, l', h2, h3⟩
  · rw [h.stash, consTimes_of_canon hst.2] at h1; exact absurd h1 hst.1
  · rw [h.stash, consTimes_of_canon hst.2] at h2 h3
    refine ⟨l', ?_, by simpa using h3⟩
    rw [h2, h.total, show sizeVals (t ++ [(k, st)]) = sizeVals t + st.length from by simp [sizeVals]]

theorem flatKeys_open (t : List (K × List (T × R))) (k : K) (st : List (T × R)) :
    flatKeys (t ++ [(k, st)]) = flatKeys t ++ st.map fun u => (k, u.1, u.2) := by
  rw [flatKeys_append]; simp [flatKeys]

theorem keyPush_first (item : K × T × R) (hr : item.2.2 ≠ 0) :
    ∃ b', (⟨KeyStorage.init, ⟨[], 0⟩⟩ : KeyBuilder K T R).pushItem item = some b' ∧ KBInv b' [] item.1 [(item.2.1, item.2.2)] :=
  ⟨_, rfl, rfl, updsOk_init, rfl, rfl,
    valsWf_concat.mpr ⟨⟨List.Pairwise.nil, by simp⟩, by simp, by simp, consPairs_singleton hr⟩⟩

theorem keyPush_spec {b : KeyBuilder K T R} {t : List (K × List (T × R))} {k : K} {st : List (T × R)}
    (h : KBInv b t k st) (item : K × T × R) (hc : Consolidated (flatKeys (t ++ [(k, st)]) ++ [item])) :
    ∃ b' t' k' st', b.pushItem item = some b' ∧ KBInv b' t' k' st' ∧
      flatKeys (t' ++ [(k', st')]) = flatKeys (t ++ [(k, st)]) ++ [item] := by
  obtain ⟨k', t', r'⟩ := item
  have hr : r' ≠ 0 := hc.2 _ (List.mem_append_right _ List.mem_cons_self)
  have hlt : ∀ s ∈ st, k < k' ∨ (k = k' ∧ toLin s.1 < toLin t') := by
    intro s hs
    have := (List.pairwise_append.mp hc.1).2.2 (k, s.1, s.2) (by
      rw [flatKeys_open]; exact List.mem_append_right _ (List.mem_map_of_mem hs)) _ List.mem_cons_self
    exact this
  have hvf := valsWf_concat.mp h.wf
  obtain ⟨s0, hs0⟩ := List.exists_mem_of_ne_nil st hvf.2.2.1
  have hcmp : k < k' ∨ k = k' := by
    rcases hlt s0 hs0 with h0 | ⟨h0, _⟩
    · exact Or.inl h0
    · exact Or.inr h0
  obtain ⟨l', hseal, hok⟩ := h.sealed
  generalize hp : b.pushItem (k', t', r') = ob
  rw [KeyBuilder.pushItem] at hp
  rw [if_neg (by rw [h.keys]; simp)] at hp
  have hkl : b.result.keys.getLast? = some k := by rw [h.keys]; simp
  rcases hcmp with hk | rfl
  · simp only [hkl, Option.some.injEq, hk.ne, if_false, hseal] at hp
    subst hp
    refine ⟨_, t ++ [(k, st)], k', [(t', r')], rfl, ⟨?_, hok, rfl, rfl, ?_⟩, ?_⟩
    · simp [h.keys]
    · refine valsWf_concat.mpr ⟨h.wf, ?_, by simp, consPairs_singleton hr⟩
      intro x hx
      rcases List.mem_append.mp hx with hx | hx
      · exact lt_trans (hvf.2.1 x hx) hk
      · simp at hx; subst hx; exact hk
    · rw [flatKeys_open (t ++ [(k, st)])]; simp
  · simp only [hkl, if_true] at hp
    subst hp
    refine ⟨_, t, k, st ++ [(t', r')], rfl, ⟨h.keys, h.upds, by simp [h.stash], h.total, ?_⟩, ?_⟩
    · refine valsWf_concat.mpr ⟨hvf.1, hvf.2.1, by simp, consPairs_concat.mpr ⟨hvf.2.2.2, fun s hs => ?_, hr⟩⟩
      rcases hlt s hs with h0 | h0
      · exact absurd h0 (lt_irrefl _)
      · exact h0.2
    · rw [flatKeys_open, flatKeys_open]; simp

theorem keyPushes_spec (us : Upds K T R) : ∀ {b : KeyBuilder K T R} {t : List (K × List (T × R))} {k : K}
    {st : List (T × R)}, KBInv b t k st → Consolidated (flatKeys (t ++ [(k, st)]) ++ us) →
    ∃ b' t' k' st', us.foldlM KeyBuilder.pushItem b = some b' ∧ KBInv b' t' k' st' ∧
      flatKeys (t' ++ [(k', st')]) = flatKeys (t ++ [(k, st)]) ++ us := by
  induction us with
  | nil => intro b t k st h _; exact ⟨b, t, k, st, rfl, h, by simp⟩
  | cons u us ih =>
    intro b t k st h hc
    obtain ⟨b1, t1, k1, st1, g1, g2, g3⟩ := keyPush_spec h u (hc.sublist (by simp))
    obtain ⟨b2, t2, k2, st2, g4, g5, g6⟩ := ih g2 (by rw [g3]; simpa using hc)
    exact ⟨b2, t2, k2, st2, by rw [List.foldlM_cons, g1]; exact g4, g5, by rw [g6, g3]; simp⟩

theorem keyBuild_spec (chain : Chain K T R) (desc : Description T) (hc : Consolidated chain.flatten) :
    ∃ b t, KeyBatch.build chain desc = some b ∧ KRepr b.storage t ∧ ValsWf t ∧ flatKeys t = chain.flatten ∧
      b.updates = sizeVals t ∧ b.description = desc := by
  rw [KeyBatch.build, foldlM_flatten]
  rcases hl : chain.flatten with _ | ⟨u, us⟩
  · exact ⟨_, [], rfl, kInProg_init.repr, ⟨List.Pairwise.nil, by simp⟩, rfl, rfl, rfl⟩
  · rw [hl] at hc
    obtain ⟨b1, g1, g2⟩ := keyPush_first u (hc.2 u List.mem_cons_self)
    have hfl : flatKeys ([] ++ [(u.1, [(u.2.1, u.2.2)])]) = [u] := by simp [flatKeys]
    obtain ⟨b2, t2, k2, st2, g3, g4, g5⟩ := keyPushes_spec us g2 (by rw [hfl]; exact hc)
    rw [List.foldlM_cons, g1]
    simp only [Option.bind_eq_bind, Option.bind_some, g3]
    obtain ⟨l', hseal, hok⟩ := g4.sealed
    rw [KeyBuilder.done, hseal]
    refine ⟨_, t2 ++ [(k2, st2)], rfl, KInProg.repr ⟨?_, hok⟩, g4.wf, ?_, rfl, rfl⟩
    · simp [g4.keys]
    · rw [g5, hfl]; rfl

/-! ## Cursor -/

variable {s : KeyStorage K T R} {t : List (K × List (T × R))}

theorem keyWalkVals_spec (h : KRepr s t) {i : Nat} {kv : K × List (T × R)} (hi : t[i]? = some kv) :
    keyWalkVals s 2 ⟨i, false⟩ = some [kv.2] := by
  have hr : (⟨i, false⟩ : KeyCursor).map_times s = some kv.2 := h.upds i kv.2 (by rw [List.getElem?_map, hi]; rfl)
  simp [keyWalkVals, KeyCursor.val_valid, hr, KeyCursor.step_val]

theorem keyWalkKeys_spec (h : KRepr s t) (fuel : Nat) : ∀ i p, i ≤ t.length → t.length - i < fuel → (i < t.length → p = false) →
    keyWalkKeys s fuel ⟨i, p⟩ = some ((t.drop i).map fun kv => (kv.1, [kv.2])) := by
  induction fuel with
  | zero => intro i p _ hf; omega
  | succ fuel ih =>
    intro i p hi hf hp
    rw [keyWalkKeys, KeyCursor.key_valid, h.length]
    rcases Nat.lt_or_ge i t.length with hlt | hge
    · rw [if_pos (by simpa using hlt), hp hlt]
      obtain ⟨kv, hkv⟩ : ∃ kv, t[i]? = some kv := ⟨_, List.getElem?_eq_getElem hlt⟩
      have hk : (⟨i, false⟩ : KeyCursor).key s = some kv.1 := by
        rw [KeyCursor.key, h.keys, List.getElem?_map, hkv]; rfl
      have hstep : ∃ p', (⟨i, false⟩ : KeyCursor).step_key s = ⟨i + 1, p'⟩ ∧ (i + 1 < t.length → p' = false) := by
        rw [KeyCursor.step_key]
        simp only [KeyCursor.key_valid, h.length]
        split_ifs with h1
        · exact ⟨_, rfl, fun _ => rfl⟩
        · refine ⟨false, ?_, fun _ => rfl⟩
          congr 1
          simp at h1; omega
      obtain ⟨p', g1, g2⟩ := hstep
      rw [hk, keyWalkVals_spec h hkv, g1]
      simp only
      rw [ih (i + 1) p' (by omega) (by omega) g2, drop_eq_cons hkv]; rfl
    · rw [if_neg (by simpa using hge), List.drop_eq_nil_of_le hge]; rfl

theorem keyReadAll_spec (h : KRepr s t) : s.readAll = some (flatKeys t) := by
  have := keyWalkKeys_spec h (s.keys.length + 1) 0 false (by omega) (by rw [h.length]; omega) (fun _ => rfl)
  rw [KeyStorage.readAll, KeyCursor.init, this]
  simp [flatKeys, List.flatMap_map]

end

/-! ## Merger -/

section
variable {K T R : Type*} [LinearOrder K] [DecidableEq T] [LinearOrder (Lin T)] [AddCommMonoid R] [DecidableEq R]
variable [Lattice T] [DecidableLE T]

theorem total_compactKeys (since : List T) (vs : List (K × List (T × R))) (d : K) (t : T) :
    total (flatKeys (compactVals since vs)) d t = total (mapTimes (fun x => advanceBy x since) (flatKeys vs)) d t := by
  induction vs with
  | nil => rfl
  | cons vu vs ih =>
    have hk : ∀ l : List (T × R), flatKeys (keepVal vu.1 l) = l.map fun u => (vu.1, u.1, u.2) := by
      intro l; rw [keepVal]; cases l <;> simp [flatKeys]
    rw [compactVals_cons, flatKeys_append, total_append, ih, hk]
    have : mapTimes (fun x => advanceBy x since) (flatKeys (vu :: vs))
        = (vu.2.map fun u => (vu.1, advanceBy u.1 since, u.2)) ++ mapTimes (fun x => advanceBy x since) (flatKeys vs) := by
      simp [mapTimes, flatKeys]
    rw [this, total_append]
    congr 1
    rw [total_map_pair', compactUpds, weight_consTimes, ← total_map_pair', List.map_map]
    rfl

structure KMOk (since : List T) (m : KeyMerger K T R) (t : List (K × List (T × R))) (st : List (T × R)) : Prop where
  prog : KInProg m.result t
  stash : m.staging.stash = st
  total : m.staging.total = sizeVals t
  hsince : m.description.since = since

def KSame (m m' : KeyMerger K T R) : Prop :=
  m'.key_cursor1 = m.key_cursor1 ∧ m'.key_cursor2 = m.key_cursor2 ∧ m'.description = m.description

theorem KSame.trans {m m' m'' : KeyMerger K T R} (h : KSame m m') (h' : KSame m' m'') : KSame m m'' :=
  ⟨h'.1.trans h.1, h'.2.1.trans h.2.1, h'.2.2.trans h.2.2⟩

theorem kstash_spec {since : List T} {m : KeyMerger K T R} {t : List (K × List (T × R))} {st : List (T × R)}
    (h : KMOk since m t st) (source : KeyStorage K T R) {p : Nat} {us : List (T × R)} (hp : source.upds.read p = some us) :
    ∃ m', m.stash source p = some m' ∧ KSame m m' ∧ KMOk since m' t (st ++ us.map fun u => (advanceBy u.1 since, u.2)) := by
  rw [KeyMerger.stash]
  rw [UpdsLayer.read] at hp
  cases hb : source.upds.bounds p with
  | none => rw [hb] at hp; cases hp
  | some b =>
    rw [hb] at hp
    obtain ⟨lo, hi⟩ := b
    have hp : source.upds.range lo hi = some us := hp
    simp only [hp]
    refine ⟨_, rfl, ⟨rfl, rfl, rfl⟩, h.prog, ?_, h.total, h.hsince⟩
    simp only [h.stash, h.hsince]

theorem sealKey_spec {since : List T} {m : KeyMerger K T R} {t : List (K × List (T × R))} {st : List (T × R)}
    (h : KMOk since m t st) (v : K) :
    ∃ m', m.sealKey (some v) = some m' ∧ KSame m m' ∧ KMOk since m' (t ++ keepVal v (consTimes st)) [] := by
  rw [KeyMerger.sealKey]
  rcases seal_spec h.prog.upds m.staging with ⟨h1, h2⟩ | ⟨h1, l', h2, h3⟩
  · rw [h2]
    refine ⟨_, rfl, ⟨rfl, rfl, rfl⟩, ?_⟩
    rw [h.stash] at h1
    rw [h1, keepVal]; simp only [List.isEmpty_nil, if_true, List.append_nil]
    exact ⟨h.prog, rfl, h.total, h.hsince⟩
  · rw [h2]
    refine ⟨_, rfl, ⟨rfl, rfl, rfl⟩, ?_⟩
    rw [h.stash] at h1 h3
    have hk : keepVal v (consTimes st) = [(v, consTimes st)] := by
      rw [keepVal, if_neg]; simpa using h1
    rw [hk]
    refine ⟨⟨?_, ?_⟩, rfl, ?_, h.hsince⟩
    · show m.result.keys ++ [v] = _
      rw [h.prog.keys]; simp
    · simpa using h3
    · show m.staging.total + _ = _
      rw [h.total, h.stash, sizeVals_append]
      rfl

theorem kcopyKey_spec {since : List T} {m : KeyMerger K T R} {t : List (K × List (T × R))} (h : KMOk since m t [])
    {s : KeyStorage K T R} {ts : List (K × List (T × R))} (hs : KRepr s ts) {i : Nat} {kv : K × List (T × R)} (hi : ts[i]? = some kv) :
    ∃ m', m.copyKey s i = some m' ∧ KSame m m' ∧ KMOk since m' (t ++ compactVals since [kv]) [] := by
  have hu : s.upds.read i = some kv.2 := hs.upds i kv.2 (by rw [List.getElem?_map, hi]; rfl)
  have hk : s.keys[i]? = some kv.1 := by rw [hs.keys, List.getElem?_map, hi]; rfl
  obtain ⟨m1, h1, h2, h3⟩ := kstash_spec h s hu
  obtain ⟨m2, h4, h5, h6⟩ := sealKey_spec h3 kv.1
  rw [KeyMerger.copyKey, h1, hk]
  exact ⟨m2, h4, h2.trans h5, by simpa [compactVals, compactUpds] using h6⟩

theorem compactVals_append (since : List T) (t t' : List (K × List (T × R))) :
    compactVals since (t ++ t') = compactVals since t ++ compactVals since t' := List.flatMap_append

theorem compactVals_cons' (since : List T) (kv : K × List (T × R)) (t : List (K × List (T × R))) :
    compactVals since (kv :: t) = compactVals since [kv] ++ compactVals since t := compactVals_append since [kv] t

structure KMInv (since : List T) (t1 t2 : List (K × List (T × R))) (m : KeyMerger K T R) (res : List (K × List (T × R))) : Prop where
  ok : KMOk since m res []
  c1 : m.key_cursor1 ≤ t1.length
  c2 : m.key_cursor2 ≤ t2.length
  rest : res ++ compactVals since (zipVals (t1.drop m.key_cursor1) (t2.drop m.key_cursor2)) = compactVals since (zipVals t1 t2)

theorem kzip_nil_left (t : List (K × List (T × R))) : zipVals [] t = t := by rw [zipVals, zipMerge]
theorem kzip_nil_right (t : List (K × List (T × R))) : zipVals t [] = t := by cases t <;> rw [zipVals, zipMerge]; simp

theorem ktotal_mono {since : List T} {m m' : KeyMerger K T R} {res x : List (K × List (T × R))} (h : KMOk since m res [])
    (h' : KMOk since m' (res ++ x) []) : m.staging.total ≤ m'.staging.total := by
  rw [h.total, h'.total, sizeVals_append]; omega

theorem kmergeKey_spec {since : List T} {t1 t2 : List (K × List (T × R))} {m : KeyMerger K T R} {res : List (K × List (T × R))}
    (h : KMInv since t1 t2 m res) {s1 s2 : KeyStorage K T R} (hs1 : KRepr s1 t1) (hs2 : KRepr s2 t2) (hc1 : m.key_cursor1 < t1.length)
    (hc2 : m.key_cursor2 < t2.length) :
    ∃ m' res', m.mergeKey s1 s2 = some m' ∧ KMInv since t1 t2 m' res' ∧ m'.description = m.description ∧
      m.staging.total ≤ m'.staging.total ∧ m.key_cursor1 + m.key_cursor2 < m'.key_cursor1 + m'.key_cursor2 := by
  obtain ⟨⟨k1, vs1⟩, hkv1⟩ : ∃ kv, t1[m.key_cursor1] = kv := ⟨_, rfl⟩
  obtain ⟨⟨k2, vs2⟩, hkv2⟩ : ∃ kv, t2[m.key_cursor2] = kv := ⟨_, rfl⟩
  have hi1 : t1[m.key_cursor1]? = some (k1, vs1) := by rw [List.getElem?_eq_getElem hc1, hkv1]
  have hi2 : t2[m.key_cursor2]? = some (k2, vs2) := by rw [List.getElem?_eq_getElem hc2, hkv2]
  have hk1 : s1.keys[m.key_cursor1]? = some k1 := by rw [hs1.keys, List.getElem?_map, hi1]; rfl
  have hk2 : s2.keys[m.key_cursor2]? = some k2 := by rw [hs2.keys, List.getElem?_map, hi2]; rfl
  have hrest := h.rest
  rw [List.drop_eq_getElem_cons hc1, List.drop_eq_getElem_cons hc2, hkv1, hkv2] at hrest
  rw [KeyMerger.mergeKey, hk1, hk2]
  simp only
  rw [zipVals, zipMerge] at hrest
  split_ifs with hlt heq
  · obtain ⟨m1, g1, g2, g3⟩ := kcopyKey_spec h.ok hs1 hi1
    rw [g1]
    refine ⟨{ m1 with key_cursor1 := m1.key_cursor1 + 1 }, res ++ compactVals since [(k1, vs1)], rfl,
      ⟨⟨g3.prog, g3.stash, g3.total, g3.hsince⟩, ?_, ?_, ?_⟩, ?_, ?_, ?_⟩
    · simp only [g2.1]; omega
    · simp only [g2.2.1]; omega
    · rw [if_pos hlt, compactVals_cons', ← List.append_assoc] at hrest
      simp only [g2.1, g2.2.1]
      rw [List.drop_eq_getElem_cons hc2, hkv2]; exact hrest
    · exact g2.2.2
    · exact (ktotal_mono h.ok g3 :)
    · simp only [g2.1, g2.2.1]; omega
  · obtain ⟨m1, g1, g2, g3⟩ := kstash_spec h.ok s1 (hs1.upds m.key_cursor1 vs1 (by rw [List.getElem?_map, hi1]; rfl))
    rw [g1]
    simp only
    have hu2 : s2.upds.read m1.key_cursor2 = some vs2 := hs2.upds _ vs2 (by rw [g2.2.1, List.getElem?_map, hi2]; rfl)
    obtain ⟨m2, g4, g5, g6⟩ := kstash_spec g3 s2 hu2
    rw [g4]
    simp only
    obtain ⟨m3, g7, g8, g9⟩ := sealKey_spec g6 k1
    rw [g7]
    have g10 := (g2.trans g5).trans g8
    have g9 : KMOk since m3 (res ++ compactVals since [(k1, vs1 ++ vs2)]) [] := by
      simpa [compactVals, compactUpds] using g9
    refine ⟨{ m3 with key_cursor1 := m3.key_cursor1 + 1, key_cursor2 := m3.key_cursor2 + 1 },
      res ++ compactVals since [(k1, vs1 ++ vs2)], rfl,
      ⟨⟨g9.prog, g9.stash, g9.total, g9.hsince⟩, ?_, ?_, ?_⟩, ?_, ?_, ?_⟩
    · simp only [g10.1]; omega
    · simp only [g10.2.1]; omega
    · rw [if_neg hlt, if_pos heq, compactVals_cons', ← List.append_assoc] at hrest
      simp only [g10.1, g10.2.1]; exact hrest
    · exact g10.2.2
    · exact (ktotal_mono h.ok g9 :)
    · simp only [g10.1, g10.2.1]; omega
  · obtain ⟨m1, g1, g2, g3⟩ := kcopyKey_spec h.ok hs2 hi2
    rw [g1]
    refine ⟨{ m1 with key_cursor2 := m1.key_cursor2 + 1 }, res ++ compactVals since [(k2, vs2)], rfl,
      ⟨⟨g3.prog, g3.stash, g3.total, g3.hsince⟩, ?_, ?_, ?_⟩, ?_, ?_, ?_⟩
    · simp only [g2.1]; omega
    · simp only [g2.2.1]; omega
    · rw [if_neg hlt, if_neg heq, compactVals_cons', ← List.append_assoc] at hrest
      simp only [g2.1, g2.2.1]
      rw [List.drop_eq_getElem_cons hc1, hkv1]; exact hrest
    · exact g2.2.2
    · exact (ktotal_mono h.ok g3 :)
    · simp only [g2.1, g2.2.1]; omega

/-- What each of the three loops guarantees. -/
structure KLoopPost (since : List T) (t1 t2 : List (K × List (T × R))) (starting : Nat) (m m' : KeyMerger K T R) (effort : Int) : Prop where
  inv : ∃ res, KMInv since t1 t2 m' res
  desc : m'.description = m.description
  mono : m.staging.total ≤ m'.staging.total
  eff : effort = (m'.staging.total : Int) - starting

theorem kworkBoth_spec {since : List T} {t1 t2 : List (K × List (T × R))} {s1 s2 : KeyStorage K T R} (hs1 : KRepr s1 t1) (hs2 : KRepr s2 t2)
    (starting : Nat) (fuel : Int) (n : Nat) : ∀ {m : KeyMerger K T R} {effort : Int}, (∃ res, KMInv since t1 t2 m res) →
    effort = (m.staging.total : Int) - starting → t1.length + t2.length ≤ m.key_cursor1 + m.key_cursor2 + n →
    ∃ m' effort', KeyMerger.workBoth s1 s2 starting fuel n m effort = some (m', effort') ∧ KLoopPost since t1 t2 starting m m' effort' ∧
      (m'.key_cursor1 = t1.length ∨ m'.key_cursor2 = t2.length ∨ fuel ≤ effort') := by
  have hl1 : s1.keys.length = t1.length := by rw [hs1.keys]; simp
  have hl2 : s2.keys.length = t2.length := by rw [hs2.keys]; simp
  induction n with
  | zero =>
    intro m effort ⟨res, h⟩ he hn
    have := h.c1; have := h.c2
    exact ⟨m, effort, rfl, ⟨⟨res, h⟩, rfl, le_refl _, he⟩, Or.inl (by omega)⟩
  | succ n ih =>
    intro m effort ⟨res, h⟩ he hn
    rw [KeyMerger.workBoth, hl1, hl2]
    split_ifs with hc
    · obtain ⟨m1, res1, g1, g2, g3, gm, g4⟩ := kmergeKey_spec h hs1 hs2 hc.1 hc.2.1
      rw [g1]
      obtain ⟨m2, e2, k1, k2, k3⟩ := ih (m := m1) ⟨res1, g2⟩ rfl (by omega)
      exact ⟨m2, e2, k1, ⟨k2.inv, k2.desc.trans g3, gm.trans k2.mono, k2.eff⟩, k3⟩
    · refine ⟨m, effort, rfl, ⟨⟨res, h⟩, rfl, le_refl _, he⟩, ?_⟩
      have := h.c1; have := h.c2
      by_contra hcon
      apply hc
      refine ⟨?_, ?_, ?_⟩ <;> omega

theorem kworkOne_spec {since : List T} {t1 t2 : List (K × List (T × R))} {s1 : KeyStorage K T R} (hs1 : KRepr s1 t1)
    (starting : Nat) (fuel : Int) (n : Nat) : ∀ {m : KeyMerger K T R} {effort : Int}, (∃ res, KMInv since t1 t2 m res) →
    effort = (m.staging.total : Int) - starting → t1.length ≤ m.key_cursor1 + n →
    (m.key_cursor1 = t1.length ∨ m.key_cursor2 = t2.length ∨ fuel ≤ effort) →
    ∃ m' effort', KeyMerger.workOne s1 starting fuel n m effort = some (m', effort') ∧ KLoopPost since t1 t2 starting m m' effort' ∧
      (m'.key_cursor1 = t1.length ∨ fuel ≤ effort') := by
  have hl1 : s1.keys.length = t1.length := by rw [hs1.keys]; simp
  induction n with
  | zero =>
    intro m effort ⟨res, h⟩ he hn _
    have := h.c1
    exact ⟨m, effort, rfl, ⟨⟨res, h⟩, rfl, le_refl _, he⟩, Or.inl (by omega)⟩
  | succ n ih =>
    intro m effort ⟨res, h⟩ he hn hor
    rw [KeyMerger.workOne, hl1]
    split_ifs with hc
    · have hc2 : m.key_cursor2 = t2.length := by
        rcases hor with h1 | h1 | h1 <;> omega
      obtain ⟨kv, hkv⟩ : ∃ kv, kv = t1[m.key_cursor1] := ⟨_, rfl⟩
      have hi1 : t1[m.key_cursor1]? = some kv := by rw [List.getElem?_eq_getElem hc.1, hkv]
      obtain ⟨m1, g1, g2, g3⟩ := kcopyKey_spec h.ok hs1 hi1
      rw [g1]
      simp only
      have hinv : KMInv since t1 t2 { m1 with key_cursor1 := m1.key_cursor1 + 1 } (res ++ compactVals since [kv]) := by
        refine ⟨⟨g3.prog, g3.stash, g3.total, g3.hsince⟩, ?_, ?_, ?_⟩
        · simp only [g2.1]; omega
        · simp only [g2.2.1]; omega
        · have hrest := h.rest
          rw [List.drop_eq_getElem_cons hc.1, ← hkv, hc2, List.drop_length, kzip_nil_right, compactVals_cons', ← List.append_assoc] at hrest
          simp only [g2.1, g2.2.1, hc2, List.drop_length, kzip_nil_right]; exact hrest
      obtain ⟨m2, e2, k1, k2, k3⟩ := ih (m := { m1 with key_cursor1 := m1.key_cursor1 + 1 }) ⟨_, hinv⟩ rfl
        (by simp only [g2.1]; omega) (Or.inr (Or.inl (by simp only [g2.2.1]; exact hc2)))
      exact ⟨m2, e2, k1, ⟨k2.inv, k2.desc.trans g2.2.2, (ktotal_mono h.ok hinv.ok).trans k2.mono, k2.eff⟩, k3⟩
    · refine ⟨m, effort, rfl, ⟨⟨res, h⟩, rfl, le_refl _, he⟩, ?_⟩
      have := h.c1
      by_contra hcon
      apply hc
      refine ⟨?_, ?_⟩ <;> omega

theorem kworkTwo_spec {since : List T} {t1 t2 : List (K × List (T × R))} {s2 : KeyStorage K T R} (hs2 : KRepr s2 t2)
    (starting : Nat) (fuel : Int) (n : Nat) : ∀ {m : KeyMerger K T R} {effort : Int}, (∃ res, KMInv since t1 t2 m res) →
    effort = (m.staging.total : Int) - starting → t2.length ≤ m.key_cursor2 + n →
    (m.key_cursor1 = t1.length ∨ fuel ≤ effort) →
    ∃ m' effort', KeyMerger.workTwo s2 starting fuel n m effort = some (m', effort') ∧ KLoopPost since t1 t2 starting m m' effort' ∧
      (m'.key_cursor1 = t1.length ∧ m'.key_cursor2 = t2.length ∨ fuel ≤ effort') := by
  have hl2 : s2.keys.length = t2.length := by rw [hs2.keys]; simp
  induction n with
  | zero =>
    intro m effort ⟨res, h⟩ he hn hor
    have := h.c2
    refine ⟨m, effort, rfl, ⟨⟨res, h⟩, rfl, le_refl _, he⟩, ?_⟩
    rcases hor with h1 | h1
    · exact Or.inl ⟨h1, by omega⟩
    · exact Or.inr h1
  | succ n ih =>
    intro m effort ⟨res, h⟩ he hn hor
    rw [KeyMerger.workTwo, hl2]
    split_ifs with hc
    · have hc1 : m.key_cursor1 = t1.length := by
        rcases hor with h1 | h1 <;> omega
      obtain ⟨kv, hkv⟩ : ∃ kv, kv = t2[m.key_cursor2] := ⟨_, rfl⟩
      have hi2 : t2[m.key_cursor2]? = some kv := by rw [List.getElem?_eq_getElem hc.1, hkv]
      obtain ⟨m1, g1, g2, g3⟩ := kcopyKey_spec h.ok hs2 hi2
      rw [g1]
      simp only
      have hinv : KMInv since t1 t2 { m1 with key_cursor2 := m1.key_cursor2 + 1 } (res ++ compactVals since [kv]) := by
        refine ⟨⟨g3.prog, g3.stash, g3.total, g3.hsince⟩, ?_, ?_, ?_⟩
        · simp only [g2.1]; omega
        · simp only [g2.2.1]; omega
        · have hrest := h.rest
          rw [List.drop_eq_getElem_cons hc.1, ← hkv, hc1, List.drop_length, kzip_nil_left, compactVals_cons', ← List.append_assoc] at hrest
          simp only [g2.1, g2.2.1, hc1, List.drop_length, kzip_nil_left]; exact hrest
      obtain ⟨m2, e2, k1, k2, k3⟩ := ih (m := { m1 with key_cursor2 := m1.key_cursor2 + 1 }) ⟨_, hinv⟩ rfl
        (by simp only [g2.2.1]; omega) (Or.inl (by simp only [g2.1]; exact hc1))
      exact ⟨m2, e2, k1, ⟨k2.inv, k2.desc.trans g2.2.2, (ktotal_mono h.ok hinv.ok).trans k2.mono, k2.eff⟩, k3⟩
    · refine ⟨m, effort, rfl, ⟨⟨res, h⟩, rfl, le_refl _, he⟩, ?_⟩
      have := h.c2
      rcases hor with h1 | h1
      · by_contra hcon
        apply hc
        refine ⟨?_, ?_⟩ <;> omega
      · exact Or.inr h1

/-- The merge has consumed both inputs. -/
def KeyMerger.complete (m : KeyMerger K T R) (b1 b2 : KeyBatch K T R) : Prop :=
  m.key_cursor1 = b1.storage.keys.length ∧ m.key_cursor2 = b2.storage.keys.length

theorem kwork_spec {since : List T} {t1 t2 : List (K × List (T × R))} {b1 b2 : KeyBatch K T R} (hs1 : KRepr b1.storage t1) (hs2 : KRepr b2.storage t2)
    {m : KeyMerger K T R} (h : ∃ res, KMInv since t1 t2 m res) (fuel : Int) :
    ∃ m' left, m.work b1 b2 fuel = some (m', left) ∧ (∃ res, KMInv since t1 t2 m' res) ∧ m'.description = m.description ∧ m.staging.total ≤ m'.staging.total ∧
      left = fuel - ((m'.staging.total : Int) - m.staging.total) ∧ (m'.complete b1 b2 ∨ left ≤ 0) := by
  have hl1 : b1.storage.keys.length = t1.length := by rw [hs1.keys]; simp
  have hl2 : b2.storage.keys.length = t2.length := by rw [hs2.keys]; simp
  obtain ⟨m1, e1, a1, a2, a3⟩ := kworkBoth_spec hs1 hs2 m.staging.total fuel (t1.length + t2.length) (m := m) (effort := 0) h (by simp) (by omega)
  obtain ⟨m2, e2, c1, c2, c3⟩ := kworkOne_spec hs1 m.staging.total fuel (t1.length + t2.length) a2.inv a2.eff (by omega) a3
  obtain ⟨m3, e3, d1, d2, d3⟩ := kworkTwo_spec hs2 m.staging.total fuel (t1.length + t2.length) c2.inv c2.eff (by omega) c3
  refine ⟨m3, fuel - e3, ?_, d2.inv, d2.desc.trans (c2.desc.trans a2.desc), a2.mono.trans (c2.mono.trans d2.mono), ?_, ?_⟩
  · simp only [KeyMerger.work, hl1, hl2, a1, c1, d1]
  · rw [d2.eff]
  · rcases d3 with h1 | h1
    · left; rw [KeyMerger.complete, hl1, hl2]; exact h1
    · right; omega


end

end DD
