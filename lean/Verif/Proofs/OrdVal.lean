import Verif.Model.OrdVal
import Verif.Proofs.Consolidation
import Verif.Proofs.BatchContainer
import Verif.Proofs.MergeBatcher
import Verif.Proofs.Lattice

namespace DD

/-! ## The update layer -/

section
variable {T R : Type*}

/-- What `bounds` followed by reading the range yields. -/
def UpdsLayer.read (l : UpdsLayer T R) (index : Nat) : Option (List (T × R)) :=
  match l.bounds index with
  | none => none
  | some (lower, upper) => l.range lower upper

theorem UpdsLayer.get_abs_eq (l : UpdsLayer T R) (i : Nat) : l.get_abs i = (l.times.zip l.diffs)[i]? := by
  rw [UpdsLayer.get_abs, List.zip, List.getElem?_zipWith]
  cases l.times[i]? <;> cases l.diffs[i]? <;> rfl

theorem mapM_getElem? {α : Type*} (z : List α) (n : Nat) : ∀ lo, lo + n ≤ z.length →
    (List.range' lo n).mapM (fun i => z[i]?) = some ((z.drop lo).take n) := by
  induction n with
  | zero => intro lo _; simp
  | succ n ih =>
    intro lo h
    have hlt : lo < z.length := by omega
    rw [List.range'_succ, List.mapM_cons, ih (lo + 1) (by omega), List.getElem?_eq_getElem hlt, List.drop_eq_getElem_cons hlt]
    rfl

theorem UpdsLayer.range_eq (l : UpdsLayer T R) {lo hi : Nat} (h : hi ≤ (l.times.zip l.diffs).length) (hlo : lo ≤ hi) :
    l.range lo hi = some (((l.times.zip l.diffs).drop lo).take (hi - lo)) := by
  rw [UpdsLayer.range, show l.get_abs = (fun i => (l.times.zip l.diffs)[i]?) from funext l.get_abs_eq]
  exact mapM_getElem? _ _ _ (by omega)

structure UpdsOk (l : UpdsLayer T R) (ls : List (List (T × R))) : Prop where
  len : l.offs.length = ls.length + 1
  eqlen : l.times.length = l.diffs.length
  last : l.offs[ls.length]? = some l.times.length
  read : ∀ j us, ls[j]? = some us → ∃ lo hi, l.bounds j = some (lo, hi) ∧ lo ≤ hi ∧ hi ≤ l.times.length ∧
    ((l.times.zip l.diffs).drop lo).take (hi - lo) = us

theorem UpdsOk.read_eq {l : UpdsLayer T R} {ls : List (List (T × R))} (h : UpdsOk l ls) {j : Nat} {us : List (T × R)}
    (hj : ls[j]? = some us) : l.read j = some us := by
  obtain ⟨lo, hi, h1, h2, h3, h4⟩ := h.read j us hj
  rw [UpdsLayer.read, h1]
  show l.range lo hi = _
  rw [l.range_eq _ h2, h4]
  rw [List.length_zip, ← h.eqlen]; omega

theorem updsOk_init : UpdsOk (⟨[0], [], []⟩ : UpdsLayer T R) [] := ⟨rfl, rfl, rfl, by simp⟩

theorem bounds_append {l : UpdsLayer T R} {j : Nat} (o : List Nat) (t' : List T) (d' : List R) (h : j + 1 < l.offs.length) :
    (⟨l.offs ++ o, t', d'⟩ : UpdsLayer T R).bounds j = l.bounds j := by
  simp only [UpdsLayer.bounds]
  rw [List.getElem?_append_left (by omega), List.getElem?_append_left h]

theorem UpdsOk.push {l : UpdsLayer T R} {ls : List (List (T × R))} (h : UpdsOk l ls) (us : List (T × R)) (hne : us ≠ []) :
    UpdsOk ⟨l.offs ++ [(l.times ++ us.map Prod.fst).length], l.times ++ us.map Prod.fst, l.diffs ++ us.map Prod.snd⟩ (ls ++ [us]) := by
  have hz : (l.times ++ us.map Prod.fst).zip (l.diffs ++ us.map Prod.snd) = l.times.zip l.diffs ++ us := by
    rw [List.zip_append h.eqlen]
    congr 1
    exact (List.zip_of_prod rfl rfl).symm
  have hzl : (l.times.zip l.diffs).length = l.times.length := by rw [List.length_zip, ← h.eqlen]; omega
  constructor
  · simp [h.len]
  · simp [h.eqlen]
  · show (l.offs ++ [(l.times ++ us.map Prod.fst).length])[(ls ++ [us]).length]? = some (l.times ++ us.map Prod.fst).length
    rw [List.length_append (as := ls), List.length_singleton, ← h.len]; simp
  · intro j us' hj
    rcases lt_or_ge j ls.length with hlt | hge
    · rw [List.getElem?_append_left hlt] at hj
      obtain ⟨lo, hi, h1, h2, h3, h4⟩ := h.read j us' hj
      refine ⟨lo, hi, ?_, h2, ?_, ?_⟩
      · rw [bounds_append _ _ _ (by rw [h.len]; omega), h1]
      · simp only [List.length_append]; omega
      · simp only [hz]
        rw [List.drop_append_of_le_length (by omega), List.take_append_of_le_length (by rw [List.length_drop, hzl]; omega), h4]
    · have hj' : j = ls.length := by
        have := (List.getElem?_eq_some_iff.mp hj).1
        simp at this; omega
      subst hj'
      simp at hj; subst hj
      have hpos : 0 < us.length := List.length_pos_iff.mpr hne
      refine ⟨l.times.length, l.times.length + us.length, ?_, by omega, by simp, ?_⟩
      · have e1 : (l.offs ++ [(l.times ++ us.map Prod.fst).length])[ls.length]? = some l.times.length := by
          rw [List.getElem?_append_left (by rw [h.len]; omega), h.last]
        have e2 : (l.offs ++ [(l.times ++ us.map Prod.fst).length])[ls.length + 1]? = some (l.times.length + us.length) := by
          rw [← h.len]; simp
        simp only [UpdsLayer.bounds, e1, e2]
        rw [if_neg (by omega)]
      · simp only [hz]
        rw [← hzl]; simp

theorem UpdsOk.pushSame {l : UpdsLayer T R} {ls : List (List (T × R))} (h : UpdsOk l ls) {t : T} {r : R}
    (ht : l.times.getLast? = some t) (hr : l.diffs.getLast? = some r) :
    UpdsOk { l with offs := l.offs ++ [l.times.length] } (ls ++ [[(t, r)]]) := by
  have hzl : (l.times.zip l.diffs).length = l.times.length := by rw [List.length_zip, ← h.eqlen]; omega
  have hpos : 0 < l.times.length := by
    rcases List.eq_nil_or_concat l.times with h0 | ⟨_, _, h0⟩
    · simp [h0] at ht
    · simp [h0]
  constructor
  · simp [h.len]
  · exact h.eqlen
  · show (l.offs ++ [l.times.length])[(ls ++ [[(t, r)]]).length]? = some l.times.length
    rw [List.length_append, List.length_singleton, ← h.len]; simp
  · intro j us' hj
    rcases lt_or_ge j ls.length with hlt | hge
    · rw [List.getElem?_append_left hlt] at hj
      obtain ⟨lo, hi, h1, h2, h3, h4⟩ := h.read j us' hj
      exact ⟨lo, hi, by rw [bounds_append _ _ _ (by rw [h.len]; omega), h1], h2, h3, h4⟩
    · have hj' : j = ls.length := by
        have := (List.getElem?_eq_some_iff.mp hj).1
        simp at this; omega
      subst hj'
      simp at hj; subst hj
      refine ⟨l.times.length - 1, l.times.length, ?_, by omega, le_refl _, ?_⟩
      · have e1 : (l.offs ++ [l.times.length])[ls.length]? = some l.times.length := by
          rw [List.getElem?_append_left (by rw [h.len]; omega), h.last]
        have e2 : (l.offs ++ [l.times.length])[ls.length + 1]? = some l.times.length := by
          rw [← h.len]; simp
        simp only [UpdsLayer.bounds, e1, e2]
        rw [if_pos trivial, if_pos hpos]
      · show ((l.times.zip l.diffs).drop (l.times.length - 1)).take _ = _
        have hlt : l.times.length - 1 < (l.times.zip l.diffs).length := by omega
        rw [show l.times.length - (l.times.length - 1) = 1 by omega, List.drop_eq_getElem_cons hlt]
        simp only [List.take_succ_cons, List.take_zero, List.getElem_zip]
        rw [List.getLast?_eq_getElem?] at ht hr
        have e1 := (List.getElem?_eq_some_iff.mp ht).2
        have e2 := (List.getElem?_eq_some_iff.mp hr).2
        simp only [h.eqlen] at e1 e2 ⊢
        rw [e1, e2]

end

section
variable {T R : Type*} [DecidableEq T] [LinearOrder (Lin T)] [AddCommMonoid R] [DecidableEq R]

/-- What `consolidate` makes of a list of (time, diff) pairs. -/
def consTimes (l : List (T × R)) : List (T × R) := consolidated (K := Lin T) l

theorem consolidateTimes_eq (l : List (T × R)) : consolidateTimes l = some (consTimes l) := consolidate_eq (K := Lin T) l

theorem seal_spec {l : UpdsLayer T R} {ls : List (List (T × R))} (h : UpdsOk l ls) (b : UpdsBuilder T R) :
    (consTimes b.stash = [] ∧ b.seal l = some (⟨[], b.total⟩, l, false)) ∨
    (consTimes b.stash ≠ [] ∧ ∃ l', b.seal l = some (⟨[], b.total + (consTimes b.stash).length⟩, l', true) ∧
      UpdsOk l' (ls ++ [consTimes b.stash])) := by
  rw [UpdsBuilder.seal, consolidateTimes_eq]
  rcases hc : consTimes b.stash with _ | ⟨⟨t, r⟩, rest⟩
  · left; simp
  · right
    refine ⟨by simp, ?_⟩
    cases rest with
    | nil =>
      simp only [List.isEmpty_cons, Bool.false_eq_true, ↓reduceIte]
      split_ifs with hlast
      · exact ⟨_, rfl, h.pushSame hlast.1 hlast.2⟩
      · exact ⟨_, rfl, h.push [(t, r)] (by simp)⟩
    | cons y rest =>
      simp only [List.isEmpty_cons, Bool.false_eq_true, ↓reduceIte]
      exact ⟨_, rfl, h.push _ (by simp)⟩

end

/-! ## Tries -/

section
variable {K V T R : Type*}

/-- The nested list a batch stands for. -/
abbrev Trie (K V T R : Type*) := List (K × List (V × List (T × R)))

def Trie.vals (t : Trie K V T R) : List (V × List (T × R)) := t.flatMap (·.2)

/-- The index of the first value of the `i`-th key. -/
def Trie.off (t : Trie K V T R) (i : Nat) : Nat := (Trie.vals (t.take i)).length

theorem Trie.vals_append (t t' : Trie K V T R) : Trie.vals (t ++ t') = Trie.vals t ++ Trie.vals t' := List.flatMap_append

theorem Trie.off_succ (t : Trie K V T R) {i : Nat} {kv : K × List (V × List (T × R))} (h : t[i]? = some kv) :
    t.off (i + 1) = t.off i + kv.2.length := by
  rw [Trie.off, List.take_add_one, h, Trie.vals_append, List.length_append]
  simp [Trie.off, Trie.vals]

theorem Trie.vals_get (t : Trie K V T R) {i : Nat} {kv : K × List (V × List (T × R))} (h : t[i]? = some kv) (j : Nat)
    (hj : j < kv.2.length) : (Trie.vals t)[t.off i + j]? = kv.2[j]? := by
  obtain ⟨hi, he⟩ := List.getElem?_eq_some_iff.mp h
  have : t = t.take i ++ kv :: t.drop (i + 1) := by
    rw [← he]; simp
  conv_lhs => rw [this]
  rw [Trie.vals_append, List.getElem?_append_right (by rw [← this, Trie.off]; omega)]
  have : t.off i = (Trie.vals (t.take i)).length := rfl
  rw [← List.take_append_drop i t] at this
  conv_lhs => rw [show (t.take i ++ kv :: t.drop (i+1)) = t from by rw [← he]; simp]
  rw [Trie.off, Nat.add_sub_cancel_left]
  show (kv.2 ++ Trie.vals (t.drop (i+1)))[j]? = _
  rw [List.getElem?_append_left hj]

structure Repr (s : ValStorage K V T R) (t : Trie K V T R) : Prop where
  keys : s.keys = t.map Prod.fst
  vals : s.vals.vals = (Trie.vals t).map Prod.fst
  voffs : ∀ i, i < t.length → s.vals.bounds i = some (t.off i, t.off (i + 1))
  upds : ∀ j us, ((Trie.vals t).map Prod.snd)[j]? = some us → s.upds.read j = some us

/-- A storage under construction: complete keys `t`, and the values `extra` of a key not yet recorded. -/
structure InProg (s : ValStorage K V T R) (t : Trie K V T R) (extra : List (V × List (T × R))) : Prop where
  keys : s.keys = t.map Prod.fst
  vals : s.vals.vals = (Trie.vals t ++ extra).map Prod.fst
  voffs : s.vals.offs = (List.range (t.length + 1)).map t.off
  upds : UpdsOk s.upds ((Trie.vals t ++ extra).map Prod.snd)

theorem InProg.repr {s : ValStorage K V T R} {t : Trie K V T R} (h : InProg s t []) : Repr s t := by
  refine ⟨h.keys, by simpa using h.vals, fun i hi => ?_, fun j us hj => h.upds.read_eq (by simpa using hj)⟩
  have e1 : s.vals.offs[i]? = some (t.off i) := by rw [h.voffs, List.getElem?_map, List.getElem?_range (by omega)]; rfl
  have e2 : s.vals.offs[i + 1]? = some (t.off (i + 1)) := by rw [h.voffs, List.getElem?_map, List.getElem?_range (by omega)]; rfl
  rw [ValsLayer.bounds, e1, e2]

theorem inProg_init : InProg (ValStorage.init : ValStorage K V T R) [] [] :=
  ⟨rfl, rfl, rfl, updsOk_init⟩

theorem off_append (t t' : Trie K V T R) {i : Nat} (h : i ≤ t.length) : Trie.off (t ++ t') i = Trie.off t i := by
  rw [Trie.off, List.take_append_of_le_length h, Trie.off]

theorem off_length (t : Trie K V T R) : Trie.off t t.length = (Trie.vals t).length := by
  rw [Trie.off, List.take_length]

theorem voffs_push (t : Trie K V T R) (k : K) (extra : List (V × List (T × R))) :
    (List.range ((t ++ [(k, extra)]).length + 1)).map (Trie.off (t ++ [(k, extra)]))
      = (List.range (t.length + 1)).map t.off ++ [(Trie.vals t ++ extra).length] := by
  rw [List.length_append, List.length_singleton, List.range_succ, List.map_append]
  congr 1
  · apply List.map_congr_left
    intro i hi
    exact off_append _ _ (by simp at hi; omega)
  · simp only [List.map_cons, List.map_nil]
    have := off_length (t ++ [(k, extra)])
    rw [List.length_append, List.length_singleton] at this
    rw [this, Trie.vals_append]; simp [Trie.vals]

/-- Recording the key. -/
theorem InProg.pushKey {s : ValStorage K V T R} {t : Trie K V T R} {extra : List (V × List (T × R))} (h : InProg s t extra) (k : K) :
    InProg { s with keys := s.keys ++ [k], vals := { s.vals with offs := s.vals.offs ++ [s.vals.vals.length] } } (t ++ [(k, extra)]) [] := by
  have hv : Trie.vals (t ++ [(k, extra)]) = Trie.vals t ++ extra := by rw [Trie.vals_append]; simp [Trie.vals]
  refine ⟨by simp [h.keys], ?_, ?_, ?_⟩
  · rw [hv]; simpa using h.vals
  · rw [voffs_push, ← h.voffs]; simp [h.vals]
  · rw [hv]; simpa using h.upds

/-- Values `vs` of `source` at absolute positions `p, p+1, ...`. -/
def HasVals (source : ValStorage K V T R) (p : Nat) (vs : List (V × List (T × R))) : Prop :=
  ∀ j vu, vs[j]? = some vu → source.vals.vals[p + j]? = some vu.1 ∧ source.upds.read (p + j) = some vu.2

theorem HasVals.tail {source : ValStorage K V T R} {p : Nat} {vu : V × List (T × R)} {vs : List (V × List (T × R))}
    (h : HasVals source p (vu :: vs)) : HasVals source (p + 1) vs := by
  intro j vu' hj
  have := h (j + 1) vu' (by simpa using hj)
  rwa [show p + 1 + j = p + (j + 1) by omega]

theorem HasVals.head {source : ValStorage K V T R} {p : Nat} {vu : V × List (T × R)} {vs : List (V × List (T × R))}
    (h : HasVals source p (vu :: vs)) : source.vals.vals[p]? = some vu.1 ∧ source.upds.read p = some vu.2 := h 0 vu rfl

theorem hasVals_of_repr {s : ValStorage K V T R} {t : Trie K V T R} (h : Repr s t) {i : Nat} {kv : K × List (V × List (T × R))}
    (hi : t[i]? = some kv) : HasVals s (t.off i) kv.2 := by
  intro j vu hj
  have hjl : j < kv.2.length := (List.getElem?_eq_some_iff.mp hj).1
  have hg := t.vals_get hi j hjl
  rw [hj] at hg
  constructor
  · rw [h.vals, List.getElem?_map, hg]; rfl
  · exact h.upds _ _ (by rw [List.getElem?_map, hg]; rfl)

end

/-! ## Compaction and merging of tries -/

section
variable {K V T R : Type*} [LinearOrder K] [LinearOrder V] [DecidableEq T] [LinearOrder (Lin T)] [AddCommMonoid R] [DecidableEq R]
variable [Lattice T] [DecidableLE T]

def compactUpds (since : List T) (l : List (T × R)) : List (T × R) := consTimes (l.map fun u => (advanceBy u.1 since, u.2))

def keepVal {A B : Type*} (v : A) (l : List B) : List (A × List B) := if l.isEmpty then [] else [(v, l)]

def compactVals (since : List T) (vs : List (V × List (T × R))) : List (V × List (T × R)) :=
  vs.flatMap fun vu => keepVal vu.1 (compactUpds since vu.2)

def compactTrie (since : List T) (t : Trie K V T R) : Trie K V T R :=
  t.flatMap fun kv => keepVal kv.1 (compactVals since kv.2)

def zipMerge {A B : Type*} [LinearOrder A] (comb : B → B → B) : List (A × B) → List (A × B) → List (A × B)
  | [], l => l
  | l, [] => l
  | (a1, b1) :: l1, (a2, b2) :: l2 =>
    if a1 < a2 then (a1, b1) :: zipMerge comb l1 ((a2, b2) :: l2)
    else if a1 = a2 then (a1, comb b1 b2) :: zipMerge comb l1 l2
    else (a2, b2) :: zipMerge comb ((a1, b1) :: l1) l2
termination_by l1 l2 => l1.length + l2.length

def zipVals (l1 l2 : List (V × List (T × R))) : List (V × List (T × R)) := zipMerge (· ++ ·) l1 l2
def zipTrie (t1 t2 : Trie K V T R) : Trie K V T R := zipMerge zipVals t1 t2

def sizeVals (vs : List (V × List (T × R))) : Nat := (vs.map fun vu => vu.2.length).sum
def Trie.size (t : Trie K V T R) : Nat := sizeVals (Trie.vals t)

/-- The part of the merger's state that is not the cursors: result, staging and description. -/
structure MOk (since : List T) (m : ValMerger K V T R) (t : Trie K V T R) (extra : List (V × List (T × R))) (st : List (T × R)) : Prop where
  prog : InProg m.result t extra
  stash : m.staging.stash = st
  total : m.staging.total = sizeVals (Trie.vals t ++ extra)
  hsince : m.description.since = since

def SameCursors (m m' : ValMerger K V T R) : Prop :=
  m'.key_cursor1 = m.key_cursor1 ∧ m'.key_cursor2 = m.key_cursor2 ∧ m'.description = m.description

theorem SameCursors.trans {m m' m'' : ValMerger K V T R} (h : SameCursors m m') (h' : SameCursors m' m'') : SameCursors m m'' :=
  ⟨h'.1.trans h.1, h'.2.1.trans h.2.1, h'.2.2.trans h.2.2⟩

theorem stash_spec {since : List T} {m : ValMerger K V T R} {t : Trie K V T R} {extra : List (V × List (T × R))} {st : List (T × R)}
    (h : MOk since m t extra st) (source : ValStorage K V T R) {p : Nat} {us : List (T × R)} (hp : source.upds.read p = some us) :
    ∃ m', m.stash source p = some m' ∧ SameCursors m m' ∧ MOk since m' t extra (st ++ us.map fun u => (advanceBy u.1 since, u.2)) := by
  rw [ValMerger.stash]
  rw [UpdsLayer.read] at hp
  cases hb : source.upds.bounds p with
  | none => rw [hb] at hp; cases hp
  | some b =>
    rw [hb] at hp
    obtain ⟨lo, hi⟩ := b
    have hp : source.upds.range lo hi = some us := hp
    simp only [hp]
    refine ⟨_, rfl, ⟨rfl, rfl, rfl⟩, h.prog, ?_, h.total, h.hsince⟩
    simp only [h.stash, h.hsince]

theorem sizeVals_append (a b : List (V × List (T × R))) : sizeVals (a ++ b) = sizeVals a + sizeVals b := by simp [sizeVals]

theorem sealVal_spec {since : List T} {m : ValMerger K V T R} {t : Trie K V T R} {extra : List (V × List (T × R))} {st : List (T × R)}
    (h : MOk since m t extra st) (v : V) :
    ∃ m', m.sealVal (some v) = some m' ∧ SameCursors m m' ∧ MOk since m' t (extra ++ keepVal v (consTimes st)) [] := by
  rw [ValMerger.sealVal]
  rcases seal_spec h.prog.upds m.staging with ⟨h1, h2⟩ | ⟨h1, l', h2, h3⟩
  · rw [h2]
    refine ⟨_, rfl, ⟨rfl, rfl, rfl⟩, ?_⟩
    rw [h.stash] at h1
    rw [h1, keepVal]; simp only [List.isEmpty_nil, if_true, List.append_nil]
    exact ⟨h.prog, rfl, h.total, h.hsince⟩
  · rw [h2]
    refine ⟨_, rfl, ⟨rfl, rfl, rfl⟩, ?_⟩
    rw [h.stash] at h1 h3
    have hk : keepVal v (consTimes st) = [(v, consTimes st)] := by
      rw [keepVal, if_neg]; simpa using h1
    rw [hk]
    refine ⟨⟨h.prog.keys, ?_, h.prog.voffs, ?_⟩, rfl, ?_, h.hsince⟩
    · show m.result.vals.vals ++ [v] = _
      rw [h.prog.vals]; simp
    · simpa using h3
    · show m.staging.total + _ = _
      rw [h.total, h.stash, ← List.append_assoc, sizeVals_append (Trie.vals t ++ extra)]
      rfl

theorem copyVal_spec {since : List T} {m : ValMerger K V T R} {t : Trie K V T R} {extra : List (V × List (T × R))}
    (h : MOk since m t extra []) (source : ValStorage K V T R) {p : Nat} {vu : V × List (T × R)}
    (hv : source.vals.vals[p]? = some vu.1) (hu : source.upds.read p = some vu.2) :
    ∃ m', m.copyVal source p = some m' ∧ SameCursors m m' ∧ MOk since m' t (extra ++ keepVal vu.1 (compactUpds since vu.2)) [] := by
  obtain ⟨m1, h1, h2, h3⟩ := stash_spec h source hu
  obtain ⟨m2, h4, h5, h6⟩ := sealVal_spec h3 vu.1
  rw [ValMerger.copyVal, h1]
  exact ⟨m2, by rw [hv]; exact h4, h2.trans h5, h6⟩

theorem copyVals_spec {since : List T} {t : Trie K V T R} (source : ValStorage K V T R) (vs : List (V × List (T × R))) :
    ∀ {m : ValMerger K V T R} {extra : List (V × List (T × R))} {p : Nat}, MOk since m t extra [] → HasVals source p vs →
    ∃ m', (List.range' p vs.length).foldlM (ValMerger.copyVal source) m = some m' ∧ SameCursors m m' ∧
      MOk since m' t (extra ++ compactVals since vs) [] := by
  induction vs with
  | nil => intro m extra p h _; exact ⟨m, rfl, ⟨rfl, rfl, rfl⟩, by simpa [compactVals] using h⟩
  | cons vu vs ih =>
    intro m extra p h hv
    obtain ⟨m1, h1, h2, h3⟩ := copyVal_spec h source hv.head.1 hv.head.2
    obtain ⟨m2, h4, h5, h6⟩ := ih h3 hv.tail
    refine ⟨m2, ?_, h2.trans h5, ?_⟩
    · rw [List.length_cons, List.range'_succ, List.foldlM_cons, h1]; exact h4
    · rw [List.append_assoc] at h6; exact h6

theorem pushKey_spec {since : List T} {m : ValMerger K V T R} {t : Trie K V T R} {extra : List (V × List (T × R))}
    (h : MOk since m t extra []) (init : Nat) (hi : init = (Trie.vals t).length) (k : K) :
    ∃ m', m.pushKey init (some k) = some m' ∧ SameCursors m m' ∧ MOk since m' (t ++ keepVal k extra) [] [] := by
  have hl : m.result.vals.vals.length = (Trie.vals t).length + extra.length := by rw [h.prog.vals]; simp
  rw [ValMerger.pushKey]
  cases extra with
  | nil =>
    rw [if_neg (by rw [hl, hi]; simp)]
    exact ⟨m, rfl, ⟨rfl, rfl, rfl⟩, by simpa [keepVal] using h⟩
  | cons e es =>
    rw [if_pos (by rw [hl, hi]; simp)]
    refine ⟨_, rfl, ⟨rfl, rfl, rfl⟩, ?_⟩
    refine ⟨?_, h.stash, ?_, h.hsince⟩
    · rw [keepVal, if_neg (by simp)]; exact h.prog.pushKey k
    · rw [keepVal, if_neg (by simp), Trie.vals_append]
      simpa [Trie.vals] using h.total

theorem copyKey_spec {since : List T} {m : ValMerger K V T R} {t : Trie K V T R} (h : MOk since m t [] [])
    {s : ValStorage K V T R} {ts : Trie K V T R} (hs : Repr s ts) {i : Nat} {kv : K × List (V × List (T × R))} (hi : ts[i]? = some kv) :
    ∃ m', m.copyKey s i = some m' ∧ SameCursors m m' ∧ MOk since m' (t ++ compactTrie since [kv]) [] [] := by
  have hil : i < ts.length := (List.getElem?_eq_some_iff.mp hi).1
  obtain ⟨m1, h1, h2, h3⟩ := copyVals_spec s kv.2 h (hasVals_of_repr hs hi)
  obtain ⟨m2, h4, h5, h6⟩ := pushKey_spec h3 _ (rfl : _ = (Trie.vals t).length) kv.1
  have hin : m.result.vals.vals.length = (Trie.vals t).length := by rw [h.prog.vals]; simp
  have hb := hs.voffs i hil
  rw [ts.off_succ hi] at hb
  have hk : s.keys[i]? = some kv.1 := by rw [hs.keys, List.getElem?_map, hi]; rfl
  refine ⟨m2, ?_, h2.trans h5, ?_⟩
  · rw [ValMerger.copyKey, hb]
    simp only [Nat.add_sub_cancel_left, h1]
    rw [hk, hin]; exact h4
  · simpa [compactTrie] using h6

theorem compactVals_cons (since : List T) (vu : V × List (T × R)) (vs : List (V × List (T × R))) :
    compactVals since (vu :: vs) = keepVal vu.1 (compactUpds since vu.2) ++ compactVals since vs := rfl

theorem mergeVals_spec {since : List T} {t : Trie K V T R} (s1 s2 : ValStorage K V T R) (fuel : Nat) :
    ∀ {m : ValMerger K V T R} {extra : List (V × List (T × R))} {p1 p2 : Nat} {vs1 vs2 : List (V × List (T × R))},
    vs1.length + vs2.length < fuel → MOk since m t extra [] → HasVals s1 p1 vs1 → HasVals s2 p2 vs2 →
    ∃ m', ValMerger.mergeVals s1 s2 (p1 + vs1.length) (p2 + vs2.length) fuel m p1 p2 = some m' ∧ SameCursors m m' ∧
      MOk since m' t (extra ++ compactVals since (zipVals vs1 vs2)) [] := by
  induction fuel with
  | zero => intro m extra p1 p2 vs1 vs2 hf; omega
  | succ fuel ih =>
    intro m extra p1 p2 vs1 vs2 hf h h1 h2
    rw [ValMerger.mergeVals]
    rcases vs1 with _ | ⟨⟨v1, us1⟩, vs1⟩
    · rw [if_neg (by simp)]
      obtain ⟨m2, h4, h5, h6⟩ := copyVals_spec s2 vs2 h h2
      refine ⟨m2, ?_, h5, ?_⟩
      · simp only [List.length_nil, Nat.add_zero, Nat.sub_self, List.range'_zero, List.foldlM_nil, Nat.add_sub_cancel_left]
        exact h4
      · rwa [zipVals, zipMerge]
    rcases vs2 with _ | ⟨⟨v2, us2⟩, vs2⟩
    · rw [if_neg (by simp)]
      obtain ⟨m2, h4, h5, h6⟩ := copyVals_spec s1 _ h h1
      refine ⟨m2, ?_, h5, ?_⟩
      · rw [Nat.add_sub_cancel_left, h4]
        simp
      · rwa [zipVals, zipMerge]; simp
    rw [if_pos (by simp), h1.head.1, h2.head.1]
    simp only
    have e1 : p1 + ((v1, us1) :: vs1).length = p1 + 1 + vs1.length := by simp; omega
    have e2 : p2 + ((v2, us2) :: vs2).length = p2 + 1 + vs2.length := by simp; omega
    split_ifs with hlt heq
    · obtain ⟨m1, g1, g2, g3⟩ := copyVal_spec h s1 h1.head.1 h1.head.2
      obtain ⟨m2, g4, g5, g6⟩ := ih (p1 := p1 + 1) (p2 := p2) (vs1 := vs1) (vs2 := (v2, us2) :: vs2) (by simp at hf ⊢; omega) g3 h1.tail h2
      rw [g1]
      refine ⟨m2, by rw [e1]; exact g4, g2.trans g5, ?_⟩
      rw [zipVals, zipMerge, if_pos hlt, compactVals_cons, ← List.append_assoc]; exact g6
    · obtain ⟨m0, g1, g2, g3⟩ := stash_spec h s1 h1.head.2
      obtain ⟨m1, g1', g2', g3'⟩ := stash_spec g3 s2 h2.head.2
      obtain ⟨m1', g1'', g2'', g3''⟩ := sealVal_spec g3' v1
      obtain ⟨m2, g4, g5, g6⟩ := ih (p1 := p1 + 1) (p2 := p2 + 1) (vs1 := vs1) (vs2 := vs2) (by simp at hf ⊢; omega) g3'' h1.tail h2.tail
      rw [g1]; simp only [g1', g1'']
      refine ⟨m2, by rw [e1, e2]; exact g4, g2.trans (g2'.trans (g2''.trans g5)), ?_⟩
      rw [zipVals, zipMerge, if_neg hlt, if_pos heq, compactVals_cons, ← List.append_assoc]
      simpa [compactUpds, zipVals] using g6
    · obtain ⟨m1, g1, g2, g3⟩ := copyVal_spec h s2 h2.head.1 h2.head.2
      obtain ⟨m2, g4, g5, g6⟩ := ih (p1 := p1) (p2 := p2 + 1) (vs1 := (v1, us1) :: vs1) (vs2 := vs2) (by simp at hf ⊢; omega) g3 h1 h2.tail
      rw [g1]
      refine ⟨m2, by rw [e2]; exact g4, g2.trans g5, ?_⟩
      rw [zipVals, zipMerge, if_neg hlt, if_neg heq, compactVals_cons, ← List.append_assoc]; exact g6

end

end DD
