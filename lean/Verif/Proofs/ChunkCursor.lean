import Verif.Proofs.VecCursor

/-! # The cursor over a batch of chunks behaves as the cursor over one chunk holding all of the updates -/

namespace DD

/-! ### Cuts -/

section cut
variable {U : Type*}

/-- The updates satisfying `p` are those before index `j`. -/
structure Cut (us : List U) (p : U → Prop) (j : Nat) : Prop where
  le : j ≤ us.length
  before : ∀ u ∈ us.take j, p u
  after : ∀ v ∈ us.drop j, ¬ p v

theorem Cut.unique {us : List U} {p : U → Prop} {i j : Nat} (hi : Cut us p i) (hj : Cut us p j) : i = j := by
  have key : ∀ {i j : Nat}, Cut us p i → Cut us p j → ¬ i < j := by
    intro i j hi hj hlt
    have h1 : i < us.length := lt_of_lt_of_le hlt hj.le
    have h2 : us[i] ∈ us.drop i := by
      rw [drop_cons' (List.getElem?_eq_getElem h1)]; exact List.mem_cons_self
    have h3 : us[i] ∈ us.take j := by
      rw [List.mem_take_iff_getElem]
      exact ⟨i, by omega, rfl⟩
    exact hi.after _ h2 (hj.before _ h3)
  exact le_antisymm (not_lt.1 (key hj hi)) (not_lt.1 (key hi hj))

/-- The cut of a decidable predicate that holds of a prefix. -/
theorem cut_takeWhile (us : List U) (p : U → Bool) (i : Nat) (hi : i ≤ us.length) (h0 : ∀ u ∈ us.take i, p u = true)
    (h2 : (us.drop i).Pairwise fun u v => p v = true → p u = true) : Cut us (fun u => p u = true) (i + ((us.drop i).takeWhile p).length) := by
  refine ⟨add_takeWhile_le _ _ _ hi, ?_, ?_⟩
  · rw [take_add_takeWhile]
    intro u hu
    rcases List.mem_append.1 hu with hu | hu
    · exact h0 u hu
    · exact mem_takeWhile hu
  · rw [drop_add_takeWhile]
    intro v hv
    have hne : (us.drop i).dropWhile p ≠ [] := List.ne_nil_of_mem hv
    have hhead := List.head_dropWhile_not p hne
    have hpw : ((us.drop i).dropWhile p).Pairwise fun u v => p v = true → p u = true := h2.sublist (List.dropWhile_sublist p)
    generalize (us.drop i).dropWhile p = l at *
    cases l with
    | nil => exact absurd rfl hne
    | cons x l =>
      simp only [List.head_cons] at hhead
      rcases List.mem_cons.1 hv with rfl | hm
      · simp [hhead]
      · intro e
        have := (List.pairwise_cons.1 hpw).1 v hm e
        rw [this] at hhead; cases hhead

/-- A run ends at the cut, when nothing before it fails. -/
theorem takeWhile_of_cut {us : List U} {p : U → Bool} {j : Nat} (i : Nat) (hij : i ≤ j) (hc : Cut us (fun u => p u = true) j) :
    ((us.drop i).takeWhile p).length = j - i := by
  have e : us.drop i = (us.drop i).take (j - i) ++ us.drop j := by
    conv_lhs => rw [← List.take_append_drop (j - i) (us.drop i)]
    rw [List.drop_drop, show i + (j - i) = j by omega]
  rw [e, List.takeWhile_append_of_pos]
  · have h0 : (us.drop j).takeWhile p = [] := by
      cases h : us.drop j with
      | nil => rfl
      | cons v l =>
        rw [List.takeWhile_cons_of_neg (hc.after v (by rw [h]; simp))]
    rw [h0, List.append_nil, List.length_take, List.length_drop]
    have := hc.le
    omega
  · intro u hu
    refine hc.before u ?_
    rw [List.take_drop, show i + (j - i) = j by omega] at hu
    exact List.mem_of_mem_drop hu

theorem takeWhile_congr' {p q : U → Bool} {l : List U} (h : ∀ u ∈ l, p u = q u) : l.takeWhile p = l.takeWhile q := by
  induction l with
  | nil => rfl
  | cons u l ih =>
    rw [List.takeWhile_cons, List.takeWhile_cons, h u (by simp), ih fun v hv => h v (List.mem_cons_of_mem _ hv)]

end cut

/-! ### Offsets -/

section off
variable {U : Type*} {s : List (List U)} {c i : Nat} {ch : List U}

/-- The number of updates in the chunks before `c`. -/
def off (s : List (List U)) (c : Nat) : Nat := (s.take c).flatten.length

theorem flatten_at (h : s[c]? = some ch) : s.flatten = (s.take c).flatten ++ (ch ++ (s.drop (c + 1)).flatten) := by
  conv_lhs => rw [← List.take_append_drop c s]
  rw [List.flatten_append, drop_cons' h, List.flatten_cons]

theorem drop_off (h : s[c]? = some ch) (hi : i ≤ ch.length) : s.flatten.drop (off s c + i) = ch.drop i ++ (s.drop (c + 1)).flatten := by
  rw [flatten_at h, off, List.drop_append, List.drop_of_length_le (by omega), List.nil_append, Nat.add_sub_cancel_left, List.drop_append,
    show i - ch.length = 0 by omega, List.drop_zero]

theorem take_off (h : s[c]? = some ch) (hi : i ≤ ch.length) : s.flatten.take (off s c + i) = (s.take c).flatten ++ ch.take i := by
  rw [flatten_at h, off, List.take_append, List.take_of_length_le (by omega), Nat.add_sub_cancel_left, List.take_append,
    show i - ch.length = 0 by omega, List.take_zero, List.append_nil]

theorem get_off (h : s[c]? = some ch) (hi : i < ch.length) : s.flatten[off s c + i]? = ch[i]? := by
  rw [← List.head?_drop, drop_off h hi.le, drop_cons' (List.getElem?_eq_getElem hi), List.getElem?_eq_getElem hi]; rfl

theorem off_succ (h : s[c]? = some ch) : off s (c + 1) = off s c + ch.length := by
  have : s.take (c + 1) = s.take c ++ [ch] := by
    rw [List.take_add_one, h]; rfl
  rw [off, off, this]; simp

theorem off_add_le (h : s[c]? = some ch) (hi : i ≤ ch.length) : off s c + i ≤ s.flatten.length := by
  rw [flatten_at h, off]; simp; omega

theorem off_all (s : List (List U)) : off s s.length = s.flatten.length := by rw [off, List.take_length]

end off

section
variable {K V T R : Type*} [LinearOrder K] [LinearOrder V]
variable {s : Chain (K ×ₗ V) T R} {x : ChunkBatchCursor} {f : VecChunkCursor} {c : Nat} {ch : Upds (K ×ₗ V) T R}

theorem SortedD.chunk (hs : SortedD s.flatten) (h : s[c]? = some ch) : SortedD ch := by
  rw [flatten_at h] at hs
  exact (List.pairwise_append.1 (List.pairwise_append.1 hs).2.1).1

theorem SortedD.before (hs : SortedD s.flatten) (h : s[c]? = some ch) : ∀ u ∈ (s.take c).flatten, ∀ v ∈ ch, u.1 ≤ v.1 := by
  rw [flatten_at h] at hs
  intro u hu v hv
  exact (List.pairwise_append.1 hs).2.2 u hu v (List.mem_append_left _ hv)

theorem SortedD.after (hs : SortedD s.flatten) (h : s[c]? = some ch) : ∀ u ∈ ch, ∀ v ∈ (s.drop (c + 1)).flatten, u.1 ≤ v.1 := by
  rw [flatten_at h] at hs
  intro u hu v hv
  exact (List.pairwise_append.1 (List.pairwise_append.1 hs).2.1).2.2 u hu v hv

theorem SortedD.rest (hs : SortedD s.flatten) (h : s[c]? = some ch) : SortedD (s.drop (c + 1)).flatten := by
  rw [flatten_at h] at hs
  exact (List.pairwise_append.1 (List.pairwise_append.1 hs).2.1).2.1

theorem SortedD.le_last {l : Upds (K ×ₗ V) T R} (hs : SortedD l) {z : (K ×ₗ V) × T × R} (hz : l.getLast? = some z) : ∀ u ∈ l, u.1 ≤ z.1 := by
  obtain ⟨l', rfl⟩ := List.getLast?_eq_some_iff.1 hz
  intro u hu
  rcases List.mem_append.1 hu with hu | hu
  · exact (List.pairwise_append.1 hs).2.2 u hu z (by simp)
  · rw [List.mem_singleton.1 hu]

theorem mem_getLast {l : Upds (K ×ₗ V) T R} {z : (K ×ₗ V) × T × R} (hz : l.getLast? = some z) : z ∈ l := List.mem_of_getLast? hz
theorem mem_head {l : Upds (K ×ₗ V) T R} {z : (K ×ₗ V) × T × R} (hz : l.head? = some z) : z ∈ l := List.mem_of_head? hz

theorem full_bounds (hf : Full s) (h : s[c]? = some ch) : ∃ a z, ch.head? = some a ∧ ch.getLast? = some z ∧ ChunkBatchCursor.bounds s c = some (a, z) := by
  have hne := hf ch (List.mem_of_getElem? h)
  refine ⟨ch.head hne, ch.getLast hne, List.head?_eq_some_head hne, List.getLast?_eq_some_getLast hne, ?_⟩
  rw [ChunkBatchCursor.bounds, h]
  simp only
  rw [List.head?_eq_some_head hne, List.getLast?_eq_some_getLast hne]

theorem rest_head (hf : Full s) {ch' : Upds (K ×ₗ V) T R} (h : s[c + 1]? = some ch') : (s.drop (c + 1)).flatten.head? = ch'.head? := by
  rw [drop_cons' h, List.flatten_cons]
  have hne := hf ch' (List.mem_of_getElem? h)
  cases ch' with
  | nil => exact absurd rfl hne
  | cons a l => rfl

theorem rest_nil (h : s.length ≤ c + 1) : (s.drop (c + 1)).flatten = [] := by rw [List.drop_eq_nil_of_le h]; rfl

/-- Whether a key continues in the next chunk. -/
theorem key_spills_eq (hf : Full s) (h : s[c]? = some ch) (hc : c + 1 < s.length) (k : K) :
    ∃ z a, ch.getLast? = some z ∧ (s.drop (c + 1)).flatten.head? = some a ∧
      ChunkBatchCursor.key_spills s c k = some (decide (rowKey z = k) && decide (rowKey a = k)) := by
  obtain ⟨a0, z, h1, h2, h3⟩ := full_bounds hf h
  have h' := List.getElem?_eq_getElem hc
  obtain ⟨a, z0, k1, k2, k3⟩ := full_bounds hf h'
  refine ⟨z, a, h2, by rw [rest_head hf h', k1], ?_⟩
  rw [ChunkBatchCursor.key_spills, h3]
  simp only
  by_cases e : rowKey z = k
  · rw [if_pos e, k3]; simp [e]
  · rw [if_neg e]; simp [e]

theorem val_spills_eq (hf : Full s) (h : s[c]? = some ch) (hc : c + 1 < s.length) (u : (K ×ₗ V) × T × R) :
    ∃ z a, ch.getLast? = some z ∧ (s.drop (c + 1)).flatten.head? = some a ∧
      ChunkBatchCursor.val_spills s c (rowKey u) (valOf u) = some (decide (z.1 = u.1) && decide (a.1 = u.1)) := by
  obtain ⟨a0, z, h1, h2, h3⟩ := full_bounds hf h
  have h' := List.getElem?_eq_getElem hc
  obtain ⟨a, z0, k1, k2, k3⟩ := full_bounds hf h'
  refine ⟨z, a, h2, by rw [rest_head hf h', k1], ?_⟩
  obtain ⟨z', a', e1, e2, e3⟩ := key_spills_eq hf h hc (rowKey u)
  rw [h2] at e1; cases e1
  rw [rest_head hf h', k1] at e2; cases e2
  have d : ∀ w : (K ×ₗ V) × T × R, decide (w.1 = u.1) = (decide (rowKey w = rowKey u) && decide (valOf w = valOf u)) := by
    intro w
    rw [Bool.eq_iff_iff]
    simp [data_eq_iff]
  rw [ChunkBatchCursor.val_spills, e3, d, d]
  by_cases c1 : rowKey z = rowKey u
  · by_cases c2 : rowKey a = rowKey u
    · simp [c1, c2, h3, k3]
    · simp [c1, c2]
  · simp [c1]

/-! ### The relation -/

/-- A cursor on a key: `ch` is the active chunk, `i` the cursor into it, `f` the cursor over all updates. -/
structure Live (s : Chain (K ×ₗ V) T R) (x : ChunkBatchCursor) (f : VecChunkCursor) (ch : Upds (K ×ₗ V) T R) (i : VecChunkCursor) (k : K) : Prop where
  chunk : s[x.chunk]? = some ch
  inner : x.inner = some i
  here : ∃ w, ch[i.key_pos]? = some w ∧ rowKey w = k
  le : i.key_pos ≤ i.val_pos
  len : i.val_pos ≤ ch.length
  val : f.val_pos = off s x.chunk + i.val_pos
  key : keyAt s.flatten f.key_pos = some k
  first : ∀ u ∈ ch.take i.key_pos, rowKey u < k
  home : ∃ kch kp, s[x.key_chunk]? = some kch ∧ kp < kch.length ∧ f.key_pos = off s x.key_chunk + kp
  last : i.val_pos = ch.length → ∀ v ∈ (s.drop (x.chunk + 1)).flatten, rowKey v ≠ k

/-- The cursor `x` over the chunks is at the same place as the cursor `f` over all updates. -/
structure Sim (s : Chain (K ×ₗ V) T R) (x : ChunkBatchCursor) (f : VecChunkCursor) : Prop where
  ok : VecOk s.flatten f
  at' : (f.key_pos = s.flatten.length ∧ ∀ ch i, ChunkBatchCursor.active s x = some (ch, i) → ch.length ≤ i.key_pos) ∨ ∃ ch i k, Live s x f ch i k

theorem Live.active {i : VecChunkCursor} {k : K} (h : Live s x f ch i k) : ChunkBatchCursor.active s x = some (ch, i) := by
  rw [ChunkBatchCursor.active, h.chunk, h.inner]

theorem Live.keyLt {i : VecChunkCursor} {k : K} (h : Live s x f ch i k) : i.key_pos < ch.length := by
  obtain ⟨w, h1, -⟩ := h.here
  exact (List.getElem?_eq_some_iff.1 h1).1

theorem Live.key_valid {i : VecChunkCursor} {k : K} (h : Live s x f ch i k) : ChunkBatchCursor.key_valid s x = true := by
  rw [ChunkBatchCursor.key_valid, h.active]
  simp [VecChunkCursor.key_valid, h.keyLt]

theorem Live.key_eq {i : VecChunkCursor} {k : K} (h : Live s x f ch i k) : ChunkBatchCursor.key s x = some k := by
  obtain ⟨w, h1, h2⟩ := h.here
  rw [ChunkBatchCursor.key, h.active]
  simp [VecChunkCursor.key, h1, h2]

theorem Live.val_valid {i : VecChunkCursor} {k : K} (h : Live s x f ch i k) :
    i.val_valid ch = f.val_valid s.flatten ∧ (i.val_valid ch = true → s.flatten[f.val_pos]? = ch[i.val_pos]?) := by
  obtain ⟨w, h1, h2⟩ := h.here
  obtain ⟨w', g1, g2⟩ := Option.map_eq_some_iff.1 h.key
  by_cases hv : i.val_pos < ch.length
  · have e : s.flatten[f.val_pos]? = ch[i.val_pos]? := by rw [h.val, get_off h.chunk hv]
    refine ⟨?_, fun _ => e⟩
    rw [VecChunkCursor.val_valid, VecChunkCursor.val_valid, h1, g1, e]
    cases ch[i.val_pos]? with
    | none => rfl
    | some v => simp only; rw [h2, g2]
  · have e : i.val_pos = ch.length := le_antisymm h.len (not_lt.1 hv)
    have hn : ch[i.val_pos]? = none := List.getElem?_eq_none_iff.2 e.ge
    have h3 : i.val_valid ch = false := by rw [VecChunkCursor.val_valid, h1, hn]
    refine ⟨?_, fun h => by rw [h3] at h; cases h⟩
    rw [h3, VecChunkCursor.val_valid, g1]
    have h4 : s.flatten[f.val_pos]? = (s.drop (x.chunk + 1)).flatten.head? := by
      rw [h.val, ← List.head?_drop, drop_off h.chunk h.len, e]; simp
    rw [h4]
    cases h5 : (s.drop (x.chunk + 1)).flatten.head? with
    | none => rfl
    | some a =>
      have := h.last e a (mem_head h5)
      simp only
      rw [g2]
      simp [this]

/-- Arriving at the first update of a key. -/
theorem live_start (hs : SortedD s.flatten) {j : Nat} (h : s[c]? = some ch) (hj : j < ch.length) (hok : VecOk s.flatten ⟨off s c + j, off s c + j⟩) :
    Live s ⟨c, c, some ⟨j, j⟩⟩ ⟨off s c + j, off s c + j⟩ ch ⟨j, j⟩ (rowKey ch[j]) where
  chunk := h
  inner := rfl
  here := ⟨_, List.getElem?_eq_getElem hj, rfl⟩
  le := le_rfl
  len := hj.le
  val := rfl
  key := by rw [keyAt, get_off h hj, List.getElem?_eq_getElem hj]; rfl
  first := by
    intro u hu
    refine hok.keyB u ?_ _ ?_
    · rw [take_off h hj.le]; exact List.mem_append_right _ hu
    · rw [drop_off h hj.le, drop_cons' (List.getElem?_eq_getElem hj)]; exact List.mem_append_left _ List.mem_cons_self
  home := ⟨ch, j, h, hj, rfl⟩
  last := by intro e; simp only at e; omega

theorem cut_vecOk {j : Nat} {p : (K ×ₗ V) × T × R → Prop} (hc : Cut s.flatten p j) (hp : ∀ u v : (K ×ₗ V) × T × R, p u → ¬ p v → rowKey u < rowKey v) :
    VecOk s.flatten ⟨j, j⟩ :=
  vecOk_start hc.le fun u hu v hv => hp u v (hc.before u hu) (hc.after v hv)

/-- A cut within a chunk is a cut of all updates. -/
theorem cut_lift {j : Nat} {p : (K ×ₗ V) × T × R → Prop} (h : s[c]? = some ch) (hc : Cut ch p j) (hb : ∀ u ∈ (s.take c).flatten, p u)
    (ha : ∀ v ∈ (s.drop (c + 1)).flatten, ¬ p v) : Cut s.flatten p (off s c + j) := by
  refine ⟨off_add_le h hc.le, ?_, ?_⟩
  · rw [take_off h hc.le]
    intro u hu
    rcases List.mem_append.1 hu with hu | hu
    · exact hb u hu
    · exact hc.before u hu
  · rw [drop_off h hc.le]
    intro u hu
    rcases List.mem_append.1 hu with hu | hu
    · exact hc.after u hu
    · exact ha u hu

/-- Stepping a key of one chunk. -/
theorem cut_step_key {us : Upds (K ×ₗ V) T R} (hs : SortedD us) {i : VecChunkCursor} (hc : VecOk us i) {k : K} (hk : keyAt us i.key_pos = some k) :
    ∃ j, VecChunkCursor.step_key us i = some ⟨j, j⟩ ∧ Cut us (fun u => rowKey u ≤ k) j := by
  obtain ⟨w, h1, h2⟩ := Option.map_eq_some_iff.1 hk
  have hh : (us.drop i.key_pos).head? = some w := by rw [List.head?_drop, h1]
  rw [VecChunkCursor.step_key, h1]
  refine ⟨_, rfl, ?_⟩
  have hle := hc.le.trans hc.len
  have h3 := cut_takeWhile us (fun u => decide (rowKey u ≤ k)) i.key_pos hle ?_ ?_
  · have e : (us.drop i.key_pos).takeWhile (fun u => decide (rowKey u ≤ k)) = (us.drop i.key_pos).takeWhile (fun u => decide (rowKey u = rowKey w)) := by
      apply takeWhile_congr'
      intro u hu
      have := keyOf_le (head_le (hs.drop _) hh u hu)
      rw [h2] at this ⊢
      rw [Bool.eq_iff_iff]; simp only [decide_eq_true_eq]
      exact ⟨fun h => le_antisymm h this, fun h => h.le⟩
    rw [scanFrom, ← e]
    simpa using h3
  · intro u hu
    have hw : w ∈ us.drop i.key_pos := mem_head hh
    have := hc.keyB u hu w hw
    rw [h2] at this
    simpa using this.le
  · refine (hs.drop _).imp ?_
    intro a b hab e
    simp only [decide_eq_true_eq] at e ⊢
    exact (keyOf_le hab).trans e

/-- Seeking a key in one chunk. -/
theorem cut_seek_key {us : Upds (K ×ₗ V) T R} (hs : SortedD us) {i : VecChunkCursor} (hc : VecOk us i) {k : K} (hk : ∀ u ∈ us.take i.key_pos, rowKey u < k) :
    ∃ j, VecChunkCursor.seek_key us i k = some ⟨j, j⟩ ∧ Cut us (fun u => rowKey u < k) j := by
  obtain ⟨j, h1, h2, h3, h4⟩ := vec_seek_key hs hc k
  refine ⟨j, h1, ?_⟩
  have := cut_takeWhile us (fun u => decide (rowKey u < k)) i.key_pos (hc.le.trans hc.len) (fun u hu => by simpa using hk u hu) ?_
  · rw [h3]; simpa using this
  · refine (hs.drop _).imp ?_
    intro a b hab e
    simp only [decide_eq_true_eq] at e ⊢
    exact lt_of_le_of_lt (keyOf_le hab) e

/-- Seeking the current key does not move. -/
theorem seek_key_self {us : Upds (K ×ₗ V) T R} (hs : SortedD us) {i : VecChunkCursor} (hc : VecOk us i) {k : K} (hk : keyAt us i.key_pos = some k) :
    VecChunkCursor.seek_key us i k = some ⟨i.key_pos, i.key_pos⟩ := by
  obtain ⟨j, h1, h2, h3, h4⟩ := vec_seek_key hs hc k
  obtain ⟨w, g1, g2⟩ := Option.map_eq_some_iff.1 hk
  rw [h1]
  have : (us.drop i.key_pos).takeWhile (fun u => decide (rowKey u < k)) = [] := by
    rw [drop_cons' g1, List.takeWhile_cons_of_neg]
    simp [g2]
  rw [this, List.length_nil, Nat.add_zero] at h3
  rw [h3]

/-- Stepping a value of one chunk. -/
theorem cut_step_val {us : Upds (K ×ₗ V) T R} (hs : SortedD us) {i : VecChunkCursor} (hc : VecOk us i) (hv : i.val_valid us = true) :
    ∃ u j, us[i.val_pos]? = some u ∧ VecChunkCursor.step_val us i = some ⟨i.key_pos, j⟩ ∧ VecOk us ⟨i.key_pos, j⟩ ∧ Cut us (fun w => w.1 ≤ u.1) j := by
  obtain ⟨u, h1, h2, h3⟩ := vec_step_val hs hc hv
  refine ⟨u, _, h1, h2, h3, ?_⟩
  have hh : (us.drop i.val_pos).head? = some u := by rw [List.head?_drop, h1]
  have h4 := cut_takeWhile us (fun w => decide (w.1 ≤ u.1)) i.val_pos hc.len ?_ ?_
  · have e : (us.drop i.val_pos).takeWhile (fun w => decide (w.1 ≤ u.1)) = (us.drop i.val_pos).takeWhile (fun w => decide (w.1 = u.1)) := by
      apply takeWhile_congr'
      intro w hw
      have := head_le (hs.drop _) hh w hw
      rw [Bool.eq_iff_iff]; simp only [decide_eq_true_eq]
      exact ⟨fun h => le_antisymm h this, fun h => h.le⟩
    rw [scanFrom, ← e]
    simpa using h4
  · intro w hw
    simpa using (hc.valB w hw u (mem_head hh)).le
  · refine (hs.drop _).imp ?_
    intro a b hab e
    simp only [decide_eq_true_eq] at e ⊢
    exact hab.trans e

/-- The inner cursor of a live cursor is well placed in its chunk. -/
theorem Live.vecOk {i : VecChunkCursor} {k : K} (hs : SortedD s.flatten) (hok : VecOk s.flatten f) (h : Live s x f ch i k) : VecOk ch i := by
  obtain ⟨w, h1, h2⟩ := h.here
  have hw : (ch.drop i.key_pos).head? = some w := by rw [List.head?_drop, h1]
  have hge : ∀ v ∈ ch.drop i.key_pos, k ≤ rowKey v := by
    intro v hv
    rw [← h2]
    exact keyOf_le (head_le ((hs.chunk h.chunk).drop _) hw v hv)
  refine ⟨h.le, h.len, fun u hu v hv => lt_of_lt_of_le (h.first u hu) (hge v hv), ?_, ?_⟩
  · intro u hu v hv
    refine hok.valB u ?_ v ?_
    · rw [h.val, take_off h.chunk h.len]; exact List.mem_append_right _ hu
    · rw [h.val, drop_off h.chunk h.len]; exact List.mem_append_left _ hv
  · intro u hu
    rw [keyAt, h1, Option.map_some, h2]
    congr 1
    refine le_antisymm ?_ (hge u (List.mem_of_mem_take hu))
    have hu' : u ∈ s.flatten.take f.val_pos := by
      rw [h.val, take_off h.chunk h.len]
      refine List.mem_append_right _ ?_
      rw [List.take_drop, show i.key_pos + (i.val_pos - i.key_pos) = i.val_pos by have := h.le; omega] at hu
      exact List.mem_of_mem_drop hu
    obtain ⟨w', g1, g2⟩ := Option.map_eq_some_iff.1 h.key
    have hw' : w' ∈ s.flatten.drop f.key_pos := by rw [drop_cons' g1]; exact List.mem_cons_self
    have e : s.flatten.take f.val_pos = s.flatten.take f.key_pos ++ (s.flatten.drop f.key_pos).take (f.val_pos - f.key_pos) := by
      rw [← List.take_add, show f.key_pos + (f.val_pos - f.key_pos) = f.val_pos by have := hok.le; omega]
    rw [e] at hu'
    rcases List.mem_append.1 hu' with hu' | hu'
    · rw [← g2]; exact (hok.keyB u hu' w' hw').le
    · have := hok.same u hu'
      rw [h.key] at this
      exact (Option.some.inj this).le

/-! ### Locating a key among the chunks -/

section locate
variable {k : K} {L : Nat → Bool}

theorem expLoop_spec (hL : ∀ i < s.length, ChunkBatchCursor.lastLt s k i = some (L i)) (n : Nat) : ∀ (prev step : Nat), prev < s.length → L prev = true →
    0 < step → s.length ≤ prev + n → ∃ prev' step', ChunkBatchCursor.expLoop s k n prev step = some (prev', step') ∧ prev' < s.length ∧ L prev' = true ∧
      0 < step' ∧ (s.length ≤ prev' + step' ∨ prev' + step' < s.length ∧ L (prev' + step') = false) := by
  induction n with
  | zero => intro prev step h1 _ _ h4; omega
  | succ n ih =>
    intro prev step h1 h2 h3 h4
    rw [ChunkBatchCursor.expLoop]
    by_cases hlt : prev + step < s.length
    · rw [if_pos hlt, hL _ hlt]
      cases hb : L (prev + step) with
      | true =>
        simp only
        exact ih _ _ hlt hb (by rw [Nat.shiftLeft_eq]; omega) (by omega)
      | false => exact ⟨prev, step, rfl, h1, h2, h3, Or.inr ⟨hlt, hb⟩⟩
    · rw [if_neg hlt]
      exact ⟨prev, step, rfl, h1, h2, h3, Or.inl (by omega)⟩

theorem binLoop_spec (hL : ∀ i < s.length, ChunkBatchCursor.lastLt s k i = some (L i)) (hm : ∀ i j, i ≤ j → j < s.length → L j = true → L i = true)
    (n : Nat) : ∀ (a b : Nat), a ≤ b → b ≤ s.length → (∀ i < a, L i = true) → (∀ i, b ≤ i → i < s.length → L i = false) → b ≤ a + n →
    ∃ lo, ChunkBatchCursor.binLoop s k n a b = some lo ∧ lo ≤ s.length ∧ (∀ i < lo, L i = true) ∧ ∀ i, lo ≤ i → i < s.length → L i = false := by
  induction n with
  | zero =>
    intro a b h1 h2 h3 h4 h5
    exact ⟨a, rfl, by omega, h3, fun i hi => h4 i (by omega)⟩
  | succ n ih =>
    intro a b h1 h2 h3 h4 h5
    rw [ChunkBatchCursor.binLoop]
    by_cases hab : a < b
    · rw [if_pos hab]
      simp only
      have hm1 : a + (b - a) / 2 < b := by omega
      rw [hL _ (by omega)]
      cases hb : L (a + (b - a) / 2) with
      | true =>
        simp only
        exact ih _ _ (by omega) h2 (fun i hi => hm i _ (by omega) (by omega : a + (b - a) / 2 < s.length) hb) h4 (by omega)
      | false =>
        simp only
        refine ih _ _ (by omega) (by omega) h3 ?_ (by omega)
        intro i hi hi'
        cases e : L i with
        | false => rfl
        | true => rw [hm _ i hi hi' e] at hb; cases hb
    · rw [if_neg hab]
      exact ⟨a, rfl, by omega, h3, fun i hi => h4 i (by omega)⟩

theorem locate_key_spec (hL : ∀ i < s.length, ChunkBatchCursor.lastLt s k i = some (L i)) (hm : ∀ i j, i ≤ j → j < s.length → L j = true → L i = true)
    (hint : Nat) : ∃ lo, ChunkBatchCursor.locate_key s hint k = some lo ∧ lo ≤ s.length ∧ (∀ i < lo, L i = true) ∧ ∀ i, lo ≤ i → i < s.length → L i = false := by
  rw [ChunkBatchCursor.locate_key]
  have hlo : ∃ lo, ChunkBatchCursor.locateFrom s hint k = some lo ∧ lo ≤ s.length ∧ ∀ i < lo, L i = true := by
    rw [ChunkBatchCursor.locateFrom]
    generalize hg : min hint s.length = h
    have hle : h ≤ s.length := by omega
    by_cases h0 : h = 0
    · rw [if_pos h0]; exact ⟨h, rfl, hle, fun i hi => by omega⟩
    · rw [if_neg h0, hL _ (by omega)]
      simp only
      cases hb : L (h - 1) with
      | true => exact ⟨h, rfl, hle, fun i hi => hm i (h - 1) (by omega) (by omega) hb⟩
      | false => exact ⟨0, rfl, by omega, fun i hi => by omega⟩
  obtain ⟨lo, e1, e2, e3⟩ := hlo
  rw [e1]
  simp only
  by_cases hn : s.length ≤ lo
  · rw [if_pos hn]
    exact ⟨lo, rfl, e2, e3, fun i hi hi' => by omega⟩
  · rw [if_neg hn, hL _ (by omega)]
    cases hb : L lo with
    | false =>
      refine ⟨lo, rfl, e2, e3, ?_⟩
      intro i hi hi'
      cases e : L i with
      | false => rfl
      | true => rw [hm _ i hi hi' e] at hb; cases hb
    | true =>
      simp only
      obtain ⟨prev, step, g1, g2, g3, g4, g5⟩ := expLoop_spec hL s.length lo 1 (by omega) hb (by omega) (by omega)
      rw [g1]
      simp only
      refine binLoop_spec hL hm s.length _ _ (by omega) (by omega) ?_ ?_ (by omega)
      · intro i hi
        exact hm i prev (by omega) g2 g3
      · intro i hi hi'
        rcases g5 with g5 | ⟨g5, g6⟩
        · omega
        · cases e : L i with
          | false => rfl
          | true => rw [hm _ i (by omega) hi' e] at g6; cases g6

end locate

variable (hf : Full s) (hs : SortedD s.flatten)
include hf hs

theorem chunk_le {i j : Nat} {a b : Upds (K ×ₗ V) T R} (hi : s[i]? = some a) (hj : s[j]? = some b) (hij : i < j) : ∀ u ∈ a, ∀ v ∈ b, u.1 ≤ v.1 := by
  intro u hu v hv
  refine hs.before hj u ?_ v hv
  rw [List.mem_flatten]
  refine ⟨a, ?_, hu⟩
  have hi' := List.getElem?_eq_some_iff.1 hi
  rw [List.mem_take_iff_getElem]
  exact ⟨i, by have := (List.getElem?_eq_some_iff.1 hj).1; omega, hi'.2⟩

/-- Whether the last key of a chunk is less than `k`. -/
theorem lastLt_eq (k : K) : ∃ L : Nat → Bool, (∀ i < s.length, ChunkBatchCursor.lastLt s k i = some (L i)) ∧
    (∀ i j, i ≤ j → j < s.length → L j = true → L i = true) ∧
    (∀ i ch, s[i]? = some ch → (L i = true ↔ ∀ u ∈ ch, rowKey u < k)) := by
  have hb : ∀ i ch, s[i]? = some ch → ((ChunkBatchCursor.lastLt s k i).getD true = true ↔ ∀ u ∈ ch, rowKey u < k) ∧ ChunkBatchCursor.lastLt s k i ≠ none := by
    intro i ch h
    obtain ⟨a, z, h1, h2, h3⟩ := full_bounds hf h
    rw [ChunkBatchCursor.lastLt, h3]
    simp only [Option.map_some, Option.getD_some, decide_eq_true_eq]
    refine ⟨⟨fun hz u hu => lt_of_le_of_lt (keyOf_le ((hs.chunk h).le_last h2 u hu)) hz, fun hu => hu z (mem_getLast h2)⟩, by simp⟩
  refine ⟨fun i => (ChunkBatchCursor.lastLt s k i).getD true, ?_, ?_, fun i ch h => (hb i ch h).1⟩
  · intro i hi
    have := (hb i _ (List.getElem?_eq_getElem hi)).2
    cases h : ChunkBatchCursor.lastLt s k i with
    | none => exact absurd h this
    | some b => simp only [h, Option.getD_some]
  · intro i j hij hj h
    rcases Nat.eq_or_lt_of_le hij with rfl | hlt
    · exact h
    · have h1 := (hb j _ (List.getElem?_eq_getElem hj)).1.1 h
      refine (hb i _ (List.getElem?_eq_getElem (by omega))).1.2 ?_
      intro u hu
      obtain ⟨a, z, k1, k2, k3⟩ := full_bounds hf (List.getElem?_eq_getElem hj)
      exact lt_of_le_of_lt (keyOf_le (chunk_le hf hs (List.getElem?_eq_getElem (by omega)) (List.getElem?_eq_getElem hj) hlt u hu _ (mem_head k1))) (h1 a (mem_head k1))

/-- Seeking goes to the first key of the batch at or after `k`, wherever the cursor was. -/
theorem sim_seek_key (x : ChunkBatchCursor) (k : K) : ∃ x' f', ChunkBatchCursor.seek_key s x k = some x' ∧
    VecChunkCursor.seek_key s.flatten ⟨0, 0⟩ k = some f' ∧ Sim s x' f' := by
  obtain ⟨L, h1, h2, h3⟩ := lastLt_eq hf hs k
  obtain ⟨lo, g1, g2, g3, g4⟩ := locate_key_spec h1 h2 x.key_chunk
  obtain ⟨jf, e1, e2⟩ := cut_seek_key hs (vecOk_start (i := 0) (Nat.zero_le _) (by simp)) (k := k) (by simp)
  have hbefore : ∀ u ∈ (s.take lo).flatten, rowKey u < k := by
    intro u hu
    obtain ⟨a, ha, hua⟩ := List.mem_flatten.1 hu
    obtain ⟨i, hi, rfl⟩ := List.mem_take_iff_getElem.1 ha
    exact (h3 i _ (List.getElem?_eq_getElem (by omega))).1 (g3 i (by omega)) u hua
  rw [ChunkBatchCursor.seek_key, g1]
  simp only
  by_cases hlt : lo < s.length
  · rw [if_pos hlt]
    have hch := List.getElem?_eq_getElem hlt
    obtain ⟨j, k1, k2⟩ := cut_seek_key (hs.chunk hch) (vecOk_start (us := s[lo]) (i := 0) (Nat.zero_le _) (by simp)) (k := k) (by simp)
    have hnot : ¬ ∀ u ∈ s[lo], rowKey u < k := by
      intro h
      have := (h3 lo _ hch).2 h
      rw [g4 lo le_rfl hlt] at this; cases this
    have hj : j < s[lo].length := by
      by_contra hj
      apply hnot
      intro u hu
      refine k2.before u ?_
      rw [List.take_of_length_le (not_lt.1 hj)]; exact hu
    have hcut : Cut s.flatten (fun u => rowKey u < k) (off s lo + j) := by
      refine cut_lift hch k2 hbefore ?_
      intro v hv hvk
      have hz : s[lo][j] ∈ s[lo].drop j := by rw [drop_cons' (List.getElem?_eq_getElem hj)]; exact List.mem_cons_self
      exact k2.after _ hz (lt_of_le_of_lt (keyOf_le (hs.after hch _ (List.getElem_mem hj) v hv)) hvk)
    have hfj := e2.unique hcut
    have hok : VecOk s.flatten ⟨off s lo + j, off s lo + j⟩ := cut_vecOk hcut fun u v hu hv => lt_of_lt_of_le hu (not_lt.1 hv)
    refine ⟨⟨lo, lo, some ⟨j, j⟩⟩, ⟨jf, jf⟩, ?_, e1, ?_⟩
    · rw [ChunkBatchCursor.onInner, ChunkBatchCursor.active, ChunkBatchCursor.goto]
      simp only
      rw [hch]
      simp only [Option.map_some, VecChunkCursor.init, k1]
    · rw [hfj]
      exact ⟨hok, Or.inr ⟨_, _, _, live_start hs hch hj hok⟩⟩
  · rw [if_neg hlt]
    have hlo : lo = s.length := le_antisymm g2 (not_lt.1 hlt)
    subst hlo
    rw [List.take_length] at hbefore
    have hcut : Cut s.flatten (fun u => rowKey u < k) s.flatten.length :=
      ⟨le_rfl, fun u hu => hbefore u (by rwa [List.take_length] at hu), fun v hv => by rw [List.drop_length] at hv; cases hv⟩
    have hfj := e2.unique hcut
    refine ⟨_, ⟨jf, jf⟩, rfl, e1, ?_⟩
    rw [hfj]
    refine ⟨cut_vecOk hcut fun u v hu hv => lt_of_lt_of_le hu (not_lt.1 hv), Or.inl ⟨rfl, ?_⟩⟩
    intro ch i h
    rw [ChunkBatchCursor.active, ChunkBatchCursor.goto] at h
    simp at h

/-! ### Moving -/

/-- What is after the last update of a chunk, if nothing spills over. -/
theorem rest_gt {z : (K ×ₗ V) × T × R} (h : s[c]? = some ch) (hz : ch.getLast? = some z) (hne : ∀ a, (s.drop (c + 1)).flatten.head? = some a → rowKey a ≠ rowKey z) :
    ∀ v ∈ (s.drop (c + 1)).flatten, rowKey z < rowKey v := by
  intro v hv
  cases hh : (s.drop (c + 1)).flatten.head? with
  | none => rw [List.head?_eq_none_iff] at hh; rw [hh] at hv; cases hv
  | some a =>
    have h1 := keyOf_le (hs.after h z (mem_getLast hz) a (mem_head hh))
    exact lt_of_lt_of_le (lt_of_le_of_ne h1 (Ne.symm (hne a hh))) (keyOf_le (head_le (hs.rest h) hh v hv))

theorem skipKey_spec (k : K) (n : Nat) : ∀ (x : ChunkBatchCursor) (ch : Upds (K ×ₗ V) T R), s[x.chunk]? = some ch → s.length ≤ x.chunk + n →
    ∃ x' ch', ChunkBatchCursor.skipKey s k n x = some x' ∧ s[x'.chunk]? = some ch' ∧ x'.key_chunk = x.key_chunk ∧
      (x' = x ∨ x'.inner = some ⟨0, 0⟩ ∧ ∃ a, ch'.head? = some a ∧ rowKey a = k) ∧
      (∀ z, ch'.getLast? = some z → rowKey z = k → ∀ a, (s.drop (x'.chunk + 1)).flatten.head? = some a → rowKey a ≠ k) := by
  induction n with
  | zero =>
    intro x ch h hn
    have := (List.getElem?_eq_some_iff.1 h).1
    omega
  | succ n ih =>
    intro x ch h hn
    rw [ChunkBatchCursor.skipKey]
    by_cases hlt : x.chunk + 1 < s.length
    · rw [if_pos hlt]
      obtain ⟨z, a, h1, h2, h3⟩ := key_spills_eq hf h hlt k
      rw [h3]
      by_cases e : rowKey z = k ∧ rowKey a = k
      · rw [e.1, e.2]
        simp only [decide_true, Bool.and_true]
        have h' := List.getElem?_eq_getElem hlt
        obtain ⟨x', ch', g1, g2, g3, g4, g5⟩ := ih (ChunkBatchCursor.goto s x (x.chunk + 1)) _ h' (by simp only [ChunkBatchCursor.goto]; omega)
        refine ⟨x', ch', g1, g2, g3, Or.inr ?_, g5⟩
        rcases g4 with g4 | g4
        · subst g4
          simp only [ChunkBatchCursor.goto] at g2 ⊢
          rw [h'] at g2; cases g2
          rw [h']
          refine ⟨rfl, a, ?_, e.2⟩
          rw [← rest_head hf h', h2]
        · exact g4
      · have : (decide (rowKey z = k) && decide (rowKey a = k)) = false := by
          rw [Bool.eq_false_iff]; simp; exact fun h1 h2 => e ⟨h1, h2⟩
        rw [this]
        refine ⟨x, ch, rfl, h, rfl, Or.inl rfl, ?_⟩
        intro z' hz' ez a' ha' ea
        rw [h1] at hz'; cases hz'
        rw [h2] at ha'; cases ha'
        exact e ⟨ez, ea⟩
    · rw [if_neg hlt]
      refine ⟨x, ch, rfl, h, rfl, Or.inl rfl, ?_⟩
      intro z hz ez a ha
      rw [rest_nil (by omega)] at ha; cases ha

/-- Stepping to the next key. -/
theorem sim_step_key (h : Sim s x f) : ∃ x' f', ChunkBatchCursor.step_key s x = some x' ∧ VecChunkCursor.step_key s.flatten f = some f' ∧ Sim s x' f' := by
  obtain ⟨hok, h | ⟨ch, i, k, h⟩⟩ := h
  · refine ⟨x, f, ?_, ?_, hok, Or.inl h⟩
    · have : ChunkBatchCursor.key_valid s x = false := by
        rw [ChunkBatchCursor.key_valid]
        cases ha : ChunkBatchCursor.active s x with
        | none => rfl
        | some a => have := h.2 a.1 a.2 ha; simp [VecChunkCursor.key_valid, this]
      rw [ChunkBatchCursor.step_key, this]; rfl
    · rw [VecChunkCursor.step_key, List.getElem?_eq_none_iff.2 h.1.ge]
  · obtain ⟨jf, e1, e2⟩ := cut_step_key hs hok h.key
    obtain ⟨x1, ch1, g1, g2, g3, g4, g5⟩ := skipKey_spec hf hs k s.length x ch h.chunk (by omega)
    -- the inner cursor in the last chunk of the key
    have hi : ∃ i1, x1.inner = some i1 ∧ VecOk ch1 i1 ∧ keyAt ch1 i1.key_pos = some k := by
      rcases g4 with rfl | ⟨g4, a, ha, hk⟩
      · rw [h.chunk] at g2; cases g2
        obtain ⟨w, w1, w2⟩ := h.here
        exact ⟨i, h.inner, h.vecOk hs hok, by rw [keyAt, w1, Option.map_some, w2]⟩
      · refine ⟨_, g4, vecOk_start (Nat.zero_le _) (by simp), ?_⟩
        rw [keyAt, ← List.head?_eq_getElem?, ha, Option.map_some, hk]
    obtain ⟨i1, i2, i3, i4⟩ := hi
    have hsc := hs.chunk g2
    have k1 := seek_key_self hsc i3 i4
    obtain ⟨j, k2, k3⟩ := cut_step_key hsc (vecOk_start (i3.le.trans i3.len) i3.keyB) i4
    have hkl : i1.key_pos < ch1.length := by
      obtain ⟨w, w1, -⟩ := Option.map_eq_some_iff.1 i4
      exact (List.getElem?_eq_some_iff.1 w1).1
    have hkk : rowKey ch1[i1.key_pos] = k := by
      rw [keyAt, List.getElem?_eq_getElem hkl] at i4; exact Option.some.inj i4
    obtain ⟨a0, z, z1, z2, -⟩ := full_bounds hf g2
    have hcut : Cut s.flatten (fun u => rowKey u ≤ k) (off s x1.chunk + j) := by
      refine cut_lift g2 k3 ?_ ?_
      · intro u hu
        rw [← hkk]
        exact keyOf_le (hs.before g2 u hu _ (List.getElem_mem hkl))
      · intro v hv hvk
        by_cases hj : j < ch1.length
        · have hm : ch1[j] ∈ ch1.drop j := by rw [drop_cons' (List.getElem?_eq_getElem hj)]; exact List.mem_cons_self
          exact k3.after _ hm ((keyOf_le (hs.after g2 _ (List.getElem_mem hj) v hv)).trans hvk)
        · have hzk : rowKey z = k := by
            refine le_antisymm ?_ ?_
            · refine k3.before z ?_
              rw [List.take_of_length_le (not_lt.1 hj)]; exact mem_getLast z2
            · rw [← hkk]
              exact keyOf_le (hsc.le_last z2 _ (List.getElem_mem hkl))
          have := rest_gt hf hs g2 z2 (fun a ha => by rw [hzk]; exact g5 z z2 hzk a ha) v hv
          rw [hzk] at this
          exact absurd hvk (not_le.2 this)
    have hfj := e2.unique hcut
    have hok' : VecOk s.flatten ⟨off s x1.chunk + j, off s x1.chunk + j⟩ := cut_vecOk hcut fun u v hu hv => lt_of_le_of_lt hu (not_le.1 hv)
    have hstep : ChunkBatchCursor.step_key s x = some
        (let x := if !(ChunkBatchCursor.key_valid s { x1 with inner := some ⟨j, j⟩ }) && decide (x1.chunk + 1 < s.length)
          then ChunkBatchCursor.goto s { x1 with inner := some ⟨j, j⟩ } (x1.chunk + 1) else { x1 with inner := some ⟨j, j⟩ }
        { x with key_chunk := x.chunk }) := by
      rw [ChunkBatchCursor.step_key, if_pos h.key_valid, h.key_eq]
      simp only
      rw [g1]
      simp only
      rw [ChunkBatchCursor.onInner, ChunkBatchCursor.active, g2, i2]
      simp only
      rw [k1, Option.bind_some, k2]
      rfl
    have hkv : ChunkBatchCursor.key_valid s { x1 with inner := some ⟨j, j⟩ } = decide (j < ch1.length) := by
      rw [ChunkBatchCursor.key_valid, ChunkBatchCursor.active, g2]
      rfl
    rw [hstep, e1, hkv]
    by_cases hj : j < ch1.length
    · refine ⟨_, _, rfl, rfl, ?_⟩
      simp only [hj, decide_true, Bool.not_true, Bool.false_and, Bool.false_eq_true, if_false]
      rw [hfj]
      exact ⟨hok', Or.inr ⟨_, _, _, live_start hs g2 hj hok'⟩⟩
    · have hje : j = ch1.length := le_antisymm k3.le (not_lt.1 hj)
      refine ⟨_, _, rfl, rfl, ?_⟩
      by_cases hlt : x1.chunk + 1 < s.length
      · simp only [hj, decide_false, Bool.not_false, Bool.true_and, hlt, decide_true, if_true, ChunkBatchCursor.goto]
        have h' := List.getElem?_eq_getElem hlt
        have hoff : off s x1.chunk + j = off s (x1.chunk + 1) + 0 := by rw [off_succ g2, hje, Nat.add_zero]
        rw [h', hfj]
        rw [hoff] at hok' ⊢
        exact ⟨hok', Or.inr ⟨_, _, _, live_start hs h' (List.length_pos_iff.2 (hf _ (List.getElem_mem hlt))) hok'⟩⟩
      · simp only [hj, decide_false, Bool.not_false, Bool.true_and, hlt, Bool.false_eq_true, if_false]
        rw [hfj]
        refine ⟨hok', Or.inl ⟨?_, ?_⟩⟩
        · simp only
          rw [flatten_at g2, rest_nil (by omega), off, hje]; simp
        · intro ch' i' ha
          rw [ChunkBatchCursor.active, g2] at ha
          simp only [Option.some.injEq, Prod.mk.injEq] at ha
          obtain ⟨rfl, rfl⟩ := ha
          exact not_lt.1 hj

theorem skipVal_spec (u : (K ×ₗ V) × T × R) (n : Nat) : ∀ (x : ChunkBatchCursor) (ch : Upds (K ×ₗ V) T R), s[x.chunk]? = some ch → s.length ≤ x.chunk + n →
    ∃ x' ch', ChunkBatchCursor.skipVal s (rowKey u) (valOf u) n x = some x' ∧ s[x'.chunk]? = some ch' ∧ x'.key_chunk = x.key_chunk ∧
      (x' = x ∨ x'.inner = some ⟨0, 0⟩ ∧ ∃ a, ch'.head? = some a ∧ a.1 = u.1) ∧
      (∀ z, ch'.getLast? = some z → z.1 = u.1 → ∀ a, (s.drop (x'.chunk + 1)).flatten.head? = some a → a.1 ≠ u.1) := by
  induction n with
  | zero =>
    intro x ch h hn
    have := (List.getElem?_eq_some_iff.1 h).1
    omega
  | succ n ih =>
    intro x ch h hn
    rw [ChunkBatchCursor.skipVal]
    by_cases hlt : x.chunk + 1 < s.length
    · rw [if_pos hlt]
      obtain ⟨z, a, h1, h2, h3⟩ := val_spills_eq hf h hlt u
      rw [h3]
      by_cases e : z.1 = u.1 ∧ a.1 = u.1
      · rw [e.1, e.2]
        simp only [decide_true, Bool.and_true]
        have h' := List.getElem?_eq_getElem hlt
        obtain ⟨x', ch', g1, g2, g3, g4, g5⟩ := ih (ChunkBatchCursor.goto s x (x.chunk + 1)) _ h' (by simp only [ChunkBatchCursor.goto]; omega)
        refine ⟨x', ch', g1, g2, g3, Or.inr ?_, g5⟩
        rcases g4 with g4 | g4
        · subst g4
          simp only [ChunkBatchCursor.goto] at g2 ⊢
          rw [h'] at g2; cases g2
          rw [h']
          refine ⟨rfl, a, ?_, e.2⟩
          rw [← rest_head hf h', h2]
        · exact g4
      · have : (decide (z.1 = u.1) && decide (a.1 = u.1)) = false := by
          rw [Bool.eq_false_iff]; simp; exact fun h1 h2 => e ⟨h1, h2⟩
        rw [this]
        refine ⟨x, ch, rfl, h, rfl, Or.inl rfl, ?_⟩
        intro z' hz' ez a' ha' ea
        rw [h1] at hz'; cases hz'
        rw [h2] at ha'; cases ha'
        exact e ⟨ez, ea⟩
    · rw [if_neg hlt]
      refine ⟨x, ch, rfl, h, rfl, Or.inl rfl, ?_⟩
      intro z hz ez a ha
      rw [rest_nil (by omega)] at ha; cases ha

/-- Whether the values of the key continue in the next chunk. -/
theorem roll_spec {i : VecChunkCursor} {k : K} {y : ChunkBatchCursor} {kp : Nat} (h : s[y.chunk]? = some ch) (hin : y.inner = some i) (hok : VecOk ch i)
    (hk : keyAt ch i.key_pos = some k) (hkf : keyAt s.flatten kp = some k)
    (home : ∃ kch p, s[y.key_chunk]? = some kch ∧ p < kch.length ∧ kp = off s y.key_chunk + p) (hv : i.val_valid ch = false) :
    ∃ y' b ch' i', ChunkBatchCursor.roll s y k = some (y', b) ∧ Live s y' ⟨kp, off s y.chunk + i.val_pos⟩ ch' i' k ∧ VecOk ch' i' ∧
      (b = true → y'.chunk = y.chunk + 1 ∧ i.val_pos = ch.length ∧ i'.val_pos = 0 ∧ s.length ≠ y.chunk + 1) ∧
      (b = false → y' = y ∧ i' = i ∧ ch' = ch) := by
  have hsc := hs.chunk h
  have hkl : i.key_pos < ch.length := by
    obtain ⟨w, w1, -⟩ := Option.map_eq_some_iff.1 hk
    exact (List.getElem?_eq_some_iff.1 w1).1
  have hkk : rowKey ch[i.key_pos] = k := by
    rw [keyAt, List.getElem?_eq_getElem hkl] at hk; exact Option.some.inj hk
  have hkm : ch[i.key_pos] ∈ ch.drop i.key_pos := by rw [drop_cons' (List.getElem?_eq_getElem hkl)]; exact List.mem_cons_self
  obtain ⟨a0, z, z1, z2, -⟩ := full_bounds hf h
  -- at the end of the chunk, the last key is the current one
  have hend : i.val_pos = ch.length → rowKey z = k := by
    intro e
    have hz : z ∈ (ch.drop i.key_pos).take (i.val_pos - i.key_pos) := by
      rw [List.take_of_length_le (by simp; omega)]
      have : (ch.drop i.key_pos).getLast? = some z := by
        rw [List.getLast?_drop, if_neg (by omega), z2]
      exact mem_getLast this
    have := hok.same z hz
    rw [hk] at this; exact Option.some.inj this
  have hstop : (∀ a, (s.drop (y.chunk + 1)).flatten.head? = some a → ¬ (rowKey z = k ∧ rowKey a = k)) →
      Live s y ⟨kp, off s y.chunk + i.val_pos⟩ ch i k := by
    intro hno
    refine ⟨h, hin, ⟨_, List.getElem?_eq_getElem hkl, hkk⟩, hok.le, hok.len, rfl, hkf, ?_, home, ?_⟩
    · intro u hu
      rw [← hkk]; exact hok.keyB u hu _ hkm
    · intro e v hv'
      have hz := hend e
      have := rest_gt hf hs h z2 (fun a ha hak => hno a ha ⟨hz, hak.trans hz⟩) v hv'
      rw [hz] at this
      exact this.ne'
  rw [ChunkBatchCursor.roll]
  by_cases hlt : y.chunk + 1 < s.length
  · rw [if_pos hlt]
    obtain ⟨z', a, e1, e2, e3⟩ := key_spills_eq hf h hlt k
    rw [z2] at e1; cases e1
    rw [e3]
    by_cases e : rowKey z = k ∧ rowKey a = k
    · rw [e.1, e.2]
      simp only [decide_true, Bool.and_true]
      have h' := List.getElem?_eq_getElem hlt
      have ha : s[y.chunk + 1].head? = some a := by rw [← rest_head hf h', e2]
      have hka : keyAt s[y.chunk + 1] 0 = some k := by rw [keyAt, ← List.head?_eq_getElem?, ha, Option.map_some, e.2]
      have hok0 : VecOk s[y.chunk + 1] ⟨0, 0⟩ := vecOk_start (Nat.zero_le _) (by simp)
      have hseek := seek_key_self (hs.chunk h') hok0 hka
      have hval : i.val_pos = ch.length := by
        by_contra hne
        have hvl : i.val_pos < ch.length := lt_of_le_of_ne hok.len hne
        have hvm : ch[i.val_pos] ∈ ch.drop i.key_pos :=
          mem_drop_of_le hok.le (by rw [drop_cons' (List.getElem?_eq_getElem hvl)]; exact List.mem_cons_self)
        have hvk : rowKey ch[i.val_pos] = rowKey ch[i.key_pos] := by
          refine le_antisymm ?_ ?_
          · rw [hkk, ← e.1]; exact keyOf_le (hsc.le_last z2 _ (List.getElem_mem hvl))
          · exact keyOf_le (head_le (hsc.drop _) (by rw [List.head?_drop, List.getElem?_eq_getElem hkl]) _ hvm)
        rw [VecChunkCursor.val_valid, List.getElem?_eq_getElem hkl, List.getElem?_eq_getElem hvl] at hv
        simp [hvk] at hv
      refine ⟨⟨y.key_chunk, y.chunk + 1, some ⟨0, 0⟩⟩, true, s[y.chunk + 1], ⟨0, 0⟩, ?_, ?_, hok0, fun _ => ⟨rfl, hval, rfl, by omega⟩, fun h => by cases h⟩
      · rw [ChunkBatchCursor.onInner, ChunkBatchCursor.active, ChunkBatchCursor.goto]
        simp only
        rw [h']
        simp only [Option.map_some, VecChunkCursor.init, hseek]
      · refine ⟨h', rfl, ⟨a, by rw [← List.head?_eq_getElem?, ha], e.2⟩, le_rfl, Nat.zero_le _, ?_, hkf, by simp, home, ?_⟩
        · simp only [Nat.add_zero]
          rw [off_succ h, hval]
        · intro e0
          exact absurd (List.length_eq_zero_iff.1 e0.symm) (hf _ (List.getElem_mem hlt))
    · have : (decide (rowKey z = k) && decide (rowKey a = k)) = false := by
        rw [Bool.eq_false_iff]; simp; exact fun h1 h2 => e ⟨h1, h2⟩
      rw [this]
      refine ⟨y, false, ch, i, rfl, hstop ?_, hok, fun h => (by cases h), fun _ => ⟨rfl, rfl, rfl⟩⟩
      intro a' ha' hh
      rw [e2] at ha'; cases ha'
      exact e hh
  · rw [if_neg hlt]
    refine ⟨y, false, ch, i, rfl, hstop ?_, hok, fun h => (by cases h), fun _ => ⟨rfl, rfl, rfl⟩⟩
    intro a ha
    rw [rest_nil (by omega)] at ha; cases ha

theorem live_val_valid {i : VecChunkCursor} {k : K} (h : Live s x f ch i k) : ChunkBatchCursor.val_valid s x = i.val_valid ch := by
  rw [ChunkBatchCursor.val_valid, h.active]

/-- Stepping to the next value. -/
theorem sim_step_val (h : Sim s x f) (hkey : f.key_pos < s.flatten.length) :
    ∃ x' f', ChunkBatchCursor.step_val s x = some x' ∧ VecChunkCursor.step_val s.flatten f = some f' ∧ Sim s x' f' := by
  obtain ⟨hok, h | ⟨ch, i, k, h⟩⟩ := h
  · exact absurd h.1 hkey.ne
  · obtain ⟨hv, hv'⟩ := h.val_valid
    have hbv := live_val_valid hf hs h
    by_cases hvalid : i.val_valid ch = true
    · obtain ⟨u, jf, d1, d2, d3, d4⟩ := cut_step_val hs hok (hv ▸ hvalid)
      have hu : ch[i.val_pos]? = some u := by rw [← hv' hvalid, d1]
      have huk : rowKey u = k := by
        obtain ⟨w1, w2, q1, q2, q3⟩ := val_valid_get hvalid
        obtain ⟨w, p1, p2⟩ := h.here
        rw [hu] at q2; cases q2
        rw [p1] at q1; cases q1
        rw [q3, p2]
      obtain ⟨x1, ch1, g1, g2, g3, g4, g5⟩ := skipVal_spec hf hs u s.length x ch h.chunk (by omega)
      have hi : ∃ i1 u1, x1.inner = some i1 ∧ VecOk ch1 i1 ∧ keyAt ch1 i1.key_pos = some k ∧ ch1[i1.val_pos]? = some u1 ∧ u1.1 = u.1 ∧ i1.val_valid ch1 = true := by
        rcases g4 with rfl | ⟨g4, a, ha, hk⟩
        · rw [h.chunk] at g2; cases g2
          obtain ⟨w, w1, w2⟩ := h.here
          exact ⟨i, u, h.inner, h.vecOk hs hok, by rw [keyAt, w1, Option.map_some, w2], hu, rfl, hvalid⟩
        · refine ⟨_, a, g4, vecOk_start (Nat.zero_le _) (by simp), ?_, by rw [← List.head?_eq_getElem?, ha], hk, ?_⟩
          · rw [keyAt, ← List.head?_eq_getElem?, ha, Option.map_some, (data_eq_iff.1 hk).1, huk]
          · rw [VecChunkCursor.val_valid, ← List.head?_eq_getElem?, ha]; simp
      obtain ⟨i1, u1, i2, i3, i4, i5, i6, i7⟩ := hi
      have hsc := hs.chunk g2
      obtain ⟨u', j, t1, t2, t3, t4⟩ := cut_step_val hsc i3 i7
      rw [i5] at t1; cases t1
      have hvl : i1.val_pos < ch1.length := (List.getElem?_eq_some_iff.1 i5).1
      have hum : u1 ∈ ch1 := List.mem_of_getElem? i5
      obtain ⟨a0, z, z1, z2, -⟩ := full_bounds hf g2
      have hcut : Cut s.flatten (fun w => w.1 ≤ u.1) (off s x1.chunk + j) := by
        rw [i6] at t4
        refine cut_lift g2 t4 ?_ ?_
        · intro w hw
          rw [← i6]; exact hs.before g2 w hw u1 hum
        · intro v hv hvk
          by_cases hj : j < ch1.length
          · have hm : ch1[j] ∈ ch1.drop j := by rw [drop_cons' (List.getElem?_eq_getElem hj)]; exact List.mem_cons_self
            exact t4.after _ hm ((hs.after g2 _ (List.getElem_mem hj) v hv).trans hvk)
          · have hz : z.1 = u.1 := by
              refine le_antisymm ?_ ?_
              · refine t4.before z ?_
                rw [List.take_of_length_le (not_lt.1 hj)]; exact mem_getLast z2
              · rw [← i6]; exact hsc.le_last z2 _ hum
            cases hh : (s.drop (x1.chunk + 1)).flatten.head? with
            | none => rw [List.head?_eq_none_iff] at hh; rw [hh] at hv; cases hv
            | some a =>
              have h1 := hs.after g2 z (mem_getLast z2) a (mem_head hh)
              have h2 : u.1 < a.1 := lt_of_le_of_ne (hz ▸ h1) (Ne.symm (g5 z z2 hz a hh))
              exact absurd hvk (not_le.2 (lt_of_lt_of_le h2 (head_le (hs.rest g2) hh v hv)))
      have hfj := d4.unique hcut
      have hkeq : ChunkBatchCursor.val s x = some (valOf u) := by
        rw [ChunkBatchCursor.val, h.active]
        simp [VecChunkCursor.val, hu]
      have hstep : ChunkBatchCursor.step_val s x =
          if ChunkBatchCursor.val_valid s { x1 with inner := some ⟨i1.key_pos, j⟩ } then some { x1 with inner := some ⟨i1.key_pos, j⟩ }
          else (ChunkBatchCursor.roll s { x1 with inner := some ⟨i1.key_pos, j⟩ } k).map Prod.fst := by
        rw [ChunkBatchCursor.step_val, if_pos (by rw [hbv, hvalid]), h.key_eq, hkeq]
        simp only
        rw [← huk, g1]
        simp only
        rw [ChunkBatchCursor.onInner, ChunkBatchCursor.active, g2, i2]
        simp only
        rw [t2]
        rfl
      have hvv : ChunkBatchCursor.val_valid s { x1 with inner := some ⟨i1.key_pos, j⟩ } = (⟨i1.key_pos, j⟩ : VecChunkCursor).val_valid ch1 := by
        rw [ChunkBatchCursor.val_valid, ChunkBatchCursor.active, g2]
      have hhome : ∃ kch p, s[x1.key_chunk]? = some kch ∧ p < kch.length ∧ f.key_pos = off s x1.key_chunk + p := by rw [g3]; exact h.home
      rw [hstep, hvv, d2, hfj]
      cases hval : (⟨i1.key_pos, j⟩ : VecChunkCursor).val_valid ch1 with
      | true =>
        refine ⟨_, _, rfl, rfl, hfj ▸ d3, Or.inr ⟨ch1, ⟨i1.key_pos, j⟩, k, g2, rfl, ?_, t3.le, t3.len, rfl, h.key, ?_, hhome, ?_⟩⟩
        · obtain ⟨w, w1, w2⟩ := Option.map_eq_some_iff.1 i4
          exact ⟨w, w1, w2⟩
        · intro w hw
          obtain ⟨w', w1, w2⟩ := Option.map_eq_some_iff.1 i4
          rw [← w2]
          exact i3.keyB w hw w' (by rw [drop_cons' w1]; exact List.mem_cons_self)
        · intro e
          obtain ⟨q1, q2, -, q4, -⟩ := val_valid_get hval
          have := (List.getElem?_eq_some_iff.1 q4).1
          simp only at this e
          omega
      | false =>
        obtain ⟨y', b, ch', i', r1, r2, r3, r4, r5⟩ := roll_spec hf hs (y := { x1 with inner := some ⟨i1.key_pos, j⟩ }) (i := ⟨i1.key_pos, j⟩) (kp := f.key_pos)
          g2 rfl t3 i4 h.key hhome hval
        rw [if_neg (by simp), r1]
        exact ⟨y', _, rfl, rfl, hfj ▸ d3, Or.inr ⟨ch', i', k, r2⟩⟩
    · refine ⟨x, f, ?_, ?_, hok, Or.inr ⟨ch, i, k, h⟩⟩
      · rw [ChunkBatchCursor.step_val, if_neg (by rw [hbv]; exact hvalid)]
      · rw [VecChunkCursor.step_val, if_neg (by rw [← hv]; exact hvalid)]

/-- The loop of `seek_val` stops at the first value at or after the target. -/
theorem seekValLoop_spec (k : K) (v : V) (n : Nat) : ∀ (x : ChunkBatchCursor) (f : VecChunkCursor) (ch : Upds (K ×ₗ V) T R) (i : VecChunkCursor),
    Live s x f ch i k → VecOk ch i → s.length ≤ x.chunk + n → ∃ x' ch' i',
      ChunkBatchCursor.seekValLoop s k v n x = some x' ∧
      Live s x' ⟨f.key_pos, f.val_pos + ((s.flatten.drop f.val_pos).takeWhile fun u => u.1 < toLex (k, v)).length⟩ ch' i' k := by
  induction n with
  | zero =>
    intro x f ch i h _ hn
    have := (List.getElem?_eq_some_iff.1 h.chunk).1
    omega
  | succ n ih =>
    intro x f ch i h hok hn
    obtain ⟨w, w1, w2⟩ := h.here
    have hsc := hs.chunk h.chunk
    obtain ⟨j, h1, h2, h3⟩ := vec_seek_val hsc hok w1 v
    rw [w2] at h3
    have hka : keyAt ch i.key_pos = some k := by rw [keyAt, w1, Option.map_some, w2]
    have hinner : ChunkBatchCursor.onInner s x (fun ch i => i.seek_val ch v) = some { x with inner := some ⟨i.key_pos, j⟩ } := by
      rw [ChunkBatchCursor.onInner, h.active]
      simp only
      rw [h1]; rfl
    have hvv : ChunkBatchCursor.val_valid s { x with inner := some ⟨i.key_pos, j⟩ } = (⟨i.key_pos, j⟩ : VecChunkCursor).val_valid ch := by
      rw [ChunkBatchCursor.val_valid, ChunkBatchCursor.active, h.chunk]
    have hjle : j ≤ ch.length := h2.len
    have hdrop : s.flatten.drop f.val_pos = ch.drop i.val_pos ++ (s.drop (x.chunk + 1)).flatten := by rw [h.val, drop_off h.chunk h.len]
    -- if the chunk is not exhausted, the search ends in it
    have hshort : j < ch.length → (s.flatten.drop f.val_pos).takeWhile (fun u => decide (u.1 < toLex (k, v))) =
        (ch.drop i.val_pos).takeWhile (fun u => decide (u.1 < toLex (k, v))) := by
      intro hj
      rw [hdrop, List.takeWhile_append, if_neg]
      intro e
      rw [e, List.length_drop] at h3
      have := h.len
      omega
    rw [ChunkBatchCursor.seekValLoop, hinner]
    simp only
    rw [hvv]
    cases hval : (⟨i.key_pos, j⟩ : VecChunkCursor).val_valid ch with
    | true =>
      simp only [if_true]
      have hj : j < ch.length := by
        obtain ⟨q1, q2, -, q4, -⟩ := val_valid_get hval
        exact (List.getElem?_eq_some_iff.1 q4).1
      refine ⟨_, ch, ⟨i.key_pos, j⟩, rfl, h.chunk, rfl, h.here, h2.le, hjle, ?_, h.key, h.first, h.home, ?_⟩
      · simp only
        rw [hshort hj, h3, h.val]; omega
      · intro e; simp only at e; omega
    | false =>
      rw [if_neg (by simp)]
      obtain ⟨y, b, ch', i', r1, r2, r3, r4, r5⟩ := roll_spec hf hs (y := { x with inner := some ⟨i.key_pos, j⟩ }) (i := ⟨i.key_pos, j⟩) (kp := f.key_pos)
        h.chunk rfl h2 hka h.key h.home hval
      rw [r1]
      cases b with
      | true =>
        simp only
        obtain ⟨q1, q2, q3, q4⟩ := r4 rfl
        simp only at q2
        obtain ⟨x'', ch'', i'', p1, p2⟩ := ih y _ ch' i' r2 r3 (by rw [q1]; show _ ≤ x.chunk + 1 + n; omega)
        refine ⟨x'', ch'', i'', p1, ?_⟩
        convert p2 using 2
        have e1 : (ch.drop i.val_pos).takeWhile (fun u => decide (u.1 < toLex (k, v))) = ch.drop i.val_pos := by
          apply List.IsPrefix.eq_of_length (List.takeWhile_prefix _)
          rw [List.length_drop]; omega
        have e2 : s.flatten.drop (off s x.chunk + j) = (s.drop (x.chunk + 1)).flatten := by
          rw [drop_off h.chunk hjle, q2]; simp
        rw [hdrop, List.takeWhile_append, if_pos (by rw [e1]), List.length_append, List.length_drop, h.val]
        show _ = off s x.chunk + j + ((s.flatten.drop (off s x.chunk + j)).takeWhile _).length
        rw [e2]
        have := h.len
        omega
      | false =>
        simp only
        obtain ⟨rfl, rfl, rfl⟩ := r5 rfl
        refine ⟨{ x with inner := some ⟨i.key_pos, j⟩ }, ch', ⟨i.key_pos, j⟩, rfl, ?_⟩
        convert r2 using 2
        by_cases hj : j < ch'.length
        · rw [hshort hj, h3, h.val]; simp only; omega
        · have hje : j = ch'.length := le_antisymm hjle (not_lt.1 hj)
          have e1 : (ch'.drop i.val_pos).takeWhile (fun u => decide (u.1 < toLex (k, v))) = ch'.drop i.val_pos := by
            apply List.IsPrefix.eq_of_length (List.takeWhile_prefix _)
            rw [List.length_drop]; omega
          have e2 : (s.drop (x.chunk + 1)).flatten.takeWhile (fun u => decide (u.1 < toLex (k, v))) = [] := by
            cases hh : (s.drop (x.chunk + 1)).flatten with
            | nil => rfl
            | cons a l =>
              rw [List.takeWhile_cons_of_neg]
              have ha : a ∈ (s.drop (x.chunk + 1)).flatten := by rw [hh]; exact List.mem_cons_self
              have hne := r2.last hje a ha
              have hle := keyOf_le (hs.after h.chunk w (List.mem_of_getElem? w1) a ha)
              rw [w2] at hle
              simp only [decide_eq_true_eq, not_lt]
              exact Prod.Lex.le_iff.2 (Or.inl (lt_of_le_of_ne hle (Ne.symm hne)))
          rw [hdrop, List.takeWhile_append, if_pos (by rw [e1]), e2, List.append_nil, List.length_drop, h.val]
          simp only
          have := h.len
          omega

/-- Seeking a value. -/
theorem sim_seek_val (h : Sim s x f) (hkey : f.key_pos < s.flatten.length) (v : V) :
    ∃ x' f', ChunkBatchCursor.seek_val s x v = some x' ∧ VecChunkCursor.seek_val s.flatten f v = some f' ∧ Sim s x' f' := by
  obtain ⟨hok, h | ⟨ch, i, k, h⟩⟩ := h
  · exact absurd h.1 hkey.ne
  · obtain ⟨j, h1, h2, h3⟩ := vec_seek_val hs hok (List.getElem?_eq_getElem hkey) v
    have hk : rowKey s.flatten[f.key_pos] = k := by
      have := h.key
      rw [keyAt, List.getElem?_eq_getElem hkey] at this
      exact Option.some.inj this
    rw [hk] at h3
    obtain ⟨x', ch', i', g1, g2⟩ := seekValLoop_spec hf hs k v s.length x f ch i h (h.vecOk hs hok) (by omega)
    refine ⟨x', _, ?_, h1, h2, Or.inr ⟨ch', i', k, ?_⟩⟩
    · rw [ChunkBatchCursor.seek_val, if_pos h.key_valid, h.key_eq]
      exact g1
    · rw [h3]; exact g2

/-- Back to the first key. -/
theorem sim_rewind_keys (x : ChunkBatchCursor) : Sim s (ChunkBatchCursor.rewind_keys s x) ⟨0, 0⟩ := by
  have hok : VecOk s.flatten ⟨0, 0⟩ := vecOk_start (Nat.zero_le _) (by simp)
  refine ⟨hok, ?_⟩
  cases hc : s[0]? with
  | none =>
    have hn : s = [] := by simpa using hc
    subst hn
    exact Or.inl ⟨rfl, fun ch i h => by simp [ChunkBatchCursor.active] at h⟩
  | some ch =>
    have hpos : 0 < ch.length := List.length_pos_iff.2 (hf _ (List.mem_of_getElem? hc))
    have h0 : off s 0 + 0 = 0 := by simp [off]
    have := live_start hs hc hpos (by rw [h0]; exact hok)
    rw [h0] at this
    refine Or.inr ⟨ch, ⟨0, 0⟩, rowKey ch[0], ?_⟩
    rw [ChunkBatchCursor.rewind_keys, ChunkBatchCursor.goto, hc]
    exact this

/-- Back to the first value of the current key. -/
theorem sim_rewind_vals (h : Sim s x f) (hkey : f.key_pos < s.flatten.length) :
    ∃ x', ChunkBatchCursor.rewind_vals s x = some x' ∧ Sim s x' ⟨f.key_pos, f.key_pos⟩ := by
  obtain ⟨hok, h | ⟨ch, i, k, h⟩⟩ := h
  · exact absurd h.1 hkey.ne
  · obtain ⟨kch, kp, h1, h2, h3⟩ := h.home
    have hk : rowKey s.flatten[f.key_pos] = k := by
      have := h.key
      rw [keyAt, List.getElem?_eq_getElem hkey] at this
      exact Option.some.inj this
    have hkm : s.flatten[f.key_pos] ∈ s.flatten.drop f.key_pos := by rw [drop_cons' (List.getElem?_eq_getElem hkey)]; exact List.mem_cons_self
    have hcutf : Cut s.flatten (fun u => rowKey u < k) f.key_pos := by
      refine ⟨hkey.le, ?_, ?_⟩
      · intro u hu; rw [← hk]; exact hok.keyB u hu _ hkm
      · intro u hu
        rw [← hk, not_lt]
        exact keyOf_le (head_le (hs.drop _) (by rw [List.head?_drop, List.getElem?_eq_getElem hkey]) u hu)
    obtain ⟨j, e1, e2⟩ := cut_seek_key (hs.chunk h1) (vecOk_start (us := kch) (i := 0) (Nat.zero_le _) (by simp)) (k := k) (by simp)
    -- the same cut, seen in the chunk
    have hcutc : Cut kch (fun u => rowKey u < k) kp := by
      refine ⟨h2.le, ?_, ?_⟩
      · intro u hu
        refine hcutf.before u ?_
        rw [h3, take_off h1 h2.le]; exact List.mem_append_right _ hu
      · intro u hu
        refine hcutf.after u ?_
        rw [h3, drop_off h1 h2.le]; exact List.mem_append_left _ hu
    have hj := e2.unique hcutc
    subst hj
    have hok' : VecOk s.flatten ⟨f.key_pos, f.key_pos⟩ := vecOk_start hkey.le hok.keyB
    refine ⟨⟨x.key_chunk, x.key_chunk, some ⟨j, j⟩⟩, ?_, hok', ?_⟩
    · rw [ChunkBatchCursor.rewind_vals, if_pos h.key_valid, h.key_eq]
      simp only
      rw [ChunkBatchCursor.onInner, ChunkBatchCursor.active, ChunkBatchCursor.goto]
      simp only
      rw [h1]
      simp only [Option.map_some, VecChunkCursor.init, e1]
    · refine Or.inr ⟨kch, ⟨j, j⟩, rowKey kch[j], ?_⟩
      rw [h3] at hok' ⊢
      exact live_start hs h1 h2 hok'

/-- The updates of the current value, across chunks. -/
theorem timesLoop_spec (u : (K ×ₗ V) × T × R) (n : Nat) : ∀ (c : Nat) (ch : Upds (K ×ₗ V) T R) (acc : List (T × R)), s[c]? = some ch → s.length ≤ c + n →
    (∃ w ∈ ch, w.1 = u.1) → ∃ more, ChunkBatchCursor.timesLoop s (rowKey u) (valOf u) n c acc = some (acc ++ more.map Prod.snd) ∧
      ((∀ z, ch.getLast? = some z → z.1 = u.1) → more = (s.drop (c + 1)).flatten.takeWhile fun w => w.1 = u.1) ∧
      ((∃ z, ch.getLast? = some z ∧ z.1 ≠ u.1) → more = []) := by
  induction n with
  | zero =>
    intro c ch acc h hn
    have := (List.getElem?_eq_some_iff.1 h).1
    omega
  | succ n ih =>
    intro c ch acc h hn hw
    rw [ChunkBatchCursor.timesLoop]
    by_cases hlt : c + 1 < s.length
    · rw [if_pos hlt]
      obtain ⟨z, a, h1, h2, h3⟩ := val_spills_eq hf h hlt u
      rw [h3]
      have h' := List.getElem?_eq_getElem hlt
      have hne := hf _ (List.getElem_mem hlt)
      by_cases e : z.1 = u.1 ∧ a.1 = u.1
      · rw [e.1, e.2]
        simp only [decide_true, Bool.and_true]
        rw [h']
        simp only
        have ha : s[c + 1].head? = some a := by rw [← rest_head hf h', h2]
        have hmt : VecChunkCursor.init.map_times s[c + 1] = some ((s[c + 1].takeWhile fun w => decide (w.1 = u.1)).map Prod.snd) := by
          have h0 : s[c + 1][0]? = some a := by rw [← List.head?_eq_getElem?, ha]
          rw [VecChunkCursor.map_times, VecChunkCursor.val_valid]
          simp only [VecChunkCursor.init, h0]
          simp [e.2]
        rw [hmt]
        simp only
        obtain ⟨more, g1, g2, g3⟩ := ih (c + 1) s[c + 1] (acc ++ (s[c + 1].takeWhile fun w => decide (w.1 = u.1)).map Prod.snd) h' (by omega) ⟨a, mem_head ha, e.2⟩
        refine ⟨(s[c + 1].takeWhile fun w => decide (w.1 = u.1)) ++ more, ?_, ?_, ?_⟩
        · rw [g1, List.map_append, List.append_assoc]
        · intro _
          conv_rhs => rw [drop_cons' h', List.flatten_cons, List.takeWhile_append]
          obtain ⟨a0, z', z1, z2, -⟩ := full_bounds hf h'
          by_cases hall : z'.1 = u.1
          · have hall' : s[c + 1].takeWhile (fun w => decide (w.1 = u.1)) = s[c + 1] := by
              rw [List.takeWhile_eq_self_iff]
              intro w hw
              simp only [decide_eq_true_eq]
              refine le_antisymm ?_ ?_
              · rw [← hall]; exact (hs.chunk h').le_last z2 w hw
              · rw [← e.2]; exact head_le (hs.chunk h') ha w hw
            rw [if_pos (by rw [hall']), hall']
            congr 1
            exact g2 fun z'' hz'' => by rw [z2] at hz''; cases hz''; exact hall
          · rw [if_neg, g3 ⟨z', z2, hall⟩, List.append_nil]
            intro hl
            have := List.IsPrefix.eq_of_length (List.takeWhile_prefix _) hl
            have hz : z' ∈ s[c + 1].takeWhile (fun w => decide (w.1 = u.1)) := by rw [this]; exact mem_getLast z2
            exact hall (by simpa using mem_takeWhile hz)
        · rintro ⟨z', hz', hzn⟩
          rw [h1] at hz'; cases hz'
          exact absurd e.1 hzn
      · have : (decide (z.1 = u.1) && decide (a.1 = u.1)) = false := by
          rw [Bool.eq_false_iff]; simp; exact fun h1 h2 => e ⟨h1, h2⟩
        rw [this]
        refine ⟨[], by simp, ?_, fun _ => rfl⟩
        intro hz
        have hz' := hz z h1
        cases hh : (s.drop (c + 1)).flatten with
        | nil => rfl
        | cons b l =>
          rw [hh] at h2; cases h2
          rw [List.takeWhile_cons_of_neg]
          simpa using fun h2 => e ⟨hz', h2⟩
    · rw [if_neg hlt]
      refine ⟨[], by simp, ?_, fun _ => rfl⟩
      intro _
      rw [rest_nil (by omega)]; rfl

theorem sim_map_times (h : Sim s x f) (hkey : f.key_pos < s.flatten.length) : ChunkBatchCursor.map_times s x = VecChunkCursor.map_times s.flatten f := by
  obtain ⟨hok, h | ⟨ch, i, k, h⟩⟩ := h
  · exact absurd h.1 hkey.ne
  · obtain ⟨hv, hv'⟩ := h.val_valid
    have hbv := live_val_valid hf hs h
    by_cases hvalid : i.val_valid ch = true
    · obtain ⟨w1, u, q1, hu, q3⟩ := val_valid_get hvalid
      obtain ⟨w, p1, p2⟩ := h.here
      rw [p1] at q1; cases q1
      have huk : rowKey u = k := by rw [q3, p2]
      have huf : s.flatten[f.val_pos]? = some u := by rw [hv' hvalid, hu]
      have hval : ChunkBatchCursor.val s x = some (valOf u) := by
        rw [ChunkBatchCursor.val, h.active]
        simp [VecChunkCursor.val, hu]
      rw [ChunkBatchCursor.map_times, if_pos (by rw [hbv, hvalid]), h.active, h.key_eq, hval]
      simp only
      rw [VecChunkCursor.map_times, if_pos hvalid, hu]
      simp only
      obtain ⟨more, g1, g2, g3⟩ := timesLoop_spec hf hs u s.length x.chunk ch (((ch.drop i.val_pos).takeWhile fun v => decide (v.1 = u.1)).map Prod.snd)
        h.chunk (by omega) ⟨u, List.mem_of_getElem? hu, rfl⟩
      rw [← huk, g1, VecChunkCursor.map_times, if_pos (by rw [← hv, hvalid]), huf]
      simp only
      rw [← List.map_append]
      congr 2
      rw [h.val, drop_off h.chunk h.len, List.takeWhile_append]
      obtain ⟨a0, z, z1, z2, -⟩ := full_bounds hf h.chunk
      have hvl : i.val_pos < ch.length := (List.getElem?_eq_some_iff.1 hu).1
      have hzd : (ch.drop i.val_pos).getLast? = some z := by rw [List.getLast?_drop, if_neg (by omega), z2]
      by_cases hall : z.1 = u.1
      · have hall' : (ch.drop i.val_pos).takeWhile (fun w => decide (w.1 = u.1)) = ch.drop i.val_pos := by
          rw [List.takeWhile_eq_self_iff]
          intro w hw
          simp only [decide_eq_true_eq]
          have hsd := (hs.chunk h.chunk).drop i.val_pos
          refine le_antisymm ?_ ?_
          · rw [← hall]; exact hsd.le_last hzd w hw
          · exact head_le hsd (by rw [List.head?_drop, hu]) w hw
        rw [if_pos (by rw [hall']), hall']
        congr 1
        exact g2 fun z'' hz'' => by rw [z2] at hz''; cases hz''; exact hall
      · rw [if_neg, g3 ⟨z, z2, hall⟩, List.append_nil]
        intro hl
        have := List.IsPrefix.eq_of_length (List.takeWhile_prefix _) hl
        have hz : z ∈ (ch.drop i.val_pos).takeWhile (fun w => decide (w.1 = u.1)) := by rw [this]; exact mem_getLast hzd
        exact hall (by simpa using mem_takeWhile hz)
    · rw [ChunkBatchCursor.map_times, if_neg (by rw [hbv]; exact hvalid), VecChunkCursor.map_times, if_neg (by rw [← hv]; exact hvalid)]

end
end DD
