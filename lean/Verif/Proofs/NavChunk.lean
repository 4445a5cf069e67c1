import Verif.Spec.NavContract
import Verif.Proofs.ChunkPresents
import Verif.Proofs.ColBasic

/-!
# Cursors over batches of chunks of any type

A cursor over a batch of chunks of any type moves in step with the cursor over the batch whose chunks are lists of the same updates.
-/

namespace DD
set_option linter.unusedSectionVars false
variable {I C K V T R : Type*} [LinearOrder K] [LinearOrder V]

/-- The updates of a chunk. -/
abbrev updsOf (contents : C → Contents K V T R) (c : C) : Upds (K ×ₗ V) T R := (contents c).upds

variable {nav : NavOps I C K V T R} {contents : C → Contents K V T R} {Rel : C → I → Pos K V T R → Prop} {s : List C}

/-- The cursors stand for the same position. -/
def Step (contents : C → Contents K V T R) (Rel : C → I → Pos K V T R → Prop) (ch : C) (i : I) (j : VecChunkCursor) : Prop :=
  Rel ch i (posOf (updsOf contents ch) j) ∧ VecOk (updsOf contents ch) j

section inner
variable {ch : C} {i : I} {j : VecChunkCursor} (hc : NavContract nav contents Rel ch) (hs : SortedD (updsOf contents ch)) (h : Step contents Rel ch i j)
include hc

theorem NavContract.toContents : toContents (updsOf contents ch) = contents ch := toContents_upds ⟨hc.sorted, hc.noEmpty⟩

theorem nav_cursor : Step contents Rel ch (nav.cursor ch) ⟨0, 0⟩ := by
  refine ⟨?_, vecOk_start (Nat.zero_le _) (by simp)⟩
  rw [posOf_start, List.drop_zero, hc.toContents]
  exact hc.cursor

include h

theorem nav_key_valid : nav.cur.key_valid ch i = some (j.key_valid (updsOf contents ch)) := by
  rw [hc.presents.key_valid _ _ h.1, posOf_key?, vec_key_valid_iff]

theorem nav_key : nav.cur.key ch i = j.key (updsOf contents ch) := by
  rw [hc.presents.key _ _ h.1, posOf_key?]; rfl

theorem nav_keys (hk : j.key_valid (updsOf contents ch) = true) : (posOf (updsOf contents ch) j).keys ≠ [] := by
  rw [VecChunkCursor.key_valid, decide_eq_true_iff] at hk
  rw [Ne, posOf_keys_nil]; omega

include hs

theorem nav_val_valid (hk : j.key_valid (updsOf contents ch) = true) : nav.cur.val_valid ch i = some (j.val_valid (updsOf contents ch)) := by
  have hn := nav_keys hc h hk
  rw [hc.presents.val_valid _ _ h.1 hn]
  exact ((vecCursor_presents hs).val_valid j _ ⟨h.2, rfl⟩ hn).symm

theorem nav_vals (hv : j.val_valid (updsOf contents ch) = true) : (posOf (updsOf contents ch) j).keys ≠ [] ∧ (posOf (updsOf contents ch) j).vals ≠ [] := by
  obtain ⟨k, v, h1, h2, h3⟩ := val_valid_get hv
  have hk : j.key_valid (updsOf contents ch) = true := by
    rw [VecChunkCursor.key_valid, decide_eq_true_iff]
    exact (List.getElem?_eq_some_iff.1 h1).1
  have hn := nav_keys hc h hk
  refine ⟨hn, fun e => ?_⟩
  have := (vecCursor_presents hs).val_valid j _ ⟨h.2, rfl⟩ hn
  rw [Pos.val?, e] at this
  have e2 : some (j.val_valid (updsOf contents ch)) = some false := this
  rw [hv] at e2
  cases e2

theorem nav_val (hv : j.val_valid (updsOf contents ch) = true) : nav.cur.val ch i = j.val (updsOf contents ch) := by
  obtain ⟨h1, h2⟩ := nav_vals hc hs h hv
  rw [hc.presents.val _ _ h.1 h1 h2]
  exact ((vecCursor_presents hs).val j _ ⟨h.2, rfl⟩ h1 h2).symm

theorem nav_map_times (hv : j.val_valid (updsOf contents ch) = true) : nav.cur.map_times ch i = j.map_times (updsOf contents ch) := by
  obtain ⟨h1, h2⟩ := nav_vals hc hs h hv
  rw [hc.presents.map_times _ _ h.1 h1 h2]
  exact ((vecCursor_presents hs).map_times j _ ⟨h.2, rfl⟩ h1 h2).symm

theorem nav_step_key {j' : VecChunkCursor} (e : j.step_key (updsOf contents ch) = some j') : ∃ i', nav.cur.step_key ch i = some i' ∧ Step contents Rel ch i' j' := by
  obtain ⟨i', h1, h2⟩ := hc.presents.step_key _ _ h.1
  obtain ⟨j2, h3, h4, h5⟩ := (vecCursor_presents hs).step_key j _ ⟨h.2, rfl⟩
  have : some j2 = some j' := h3.symm.trans e
  cases this
  exact ⟨i', h1, h5 ▸ h2, h4⟩

theorem nav_seek_key {k : K} {j' : VecChunkCursor} (e : j.seek_key (updsOf contents ch) k = some j') : ∃ i', nav.cur.seek_key ch i k = some i' ∧ Step contents Rel ch i' j' := by
  obtain ⟨i', h1, h2⟩ := hc.presents.seek_key _ _ k h.1
  obtain ⟨j2, h3, h4, h5⟩ := (vecCursor_presents hs).seek_key j _ k ⟨h.2, rfl⟩
  have : some j2 = some j' := h3.symm.trans e
  cases this
  exact ⟨i', h1, h5 ▸ h2, h4⟩

theorem nav_step_val (hk : j.key_valid (updsOf contents ch) = true) {j' : VecChunkCursor} (e : j.step_val (updsOf contents ch) = some j') :
    ∃ i', nav.cur.step_val ch i = some i' ∧ Step contents Rel ch i' j' ∧ j'.key_valid (updsOf contents ch) = true := by
  have hn := nav_keys hc h hk
  obtain ⟨i', h1, h2⟩ := hc.presents.step_val _ _ h.1 hn
  obtain ⟨j2, h3, h4, h5⟩ := (vecCursor_presents hs).step_val j _ ⟨h.2, rfl⟩ hn
  have : some j2 = some j' := h3.symm.trans e
  cases this
  refine ⟨i', h1, ⟨h5 ▸ h2, h4⟩, ?_⟩
  have hk' : (posOf (updsOf contents ch) j').keys ≠ [] := by rw [← h5]; exact hn
  rw [VecChunkCursor.key_valid, decide_eq_true_iff]
  by_contra hlt
  exact hk' (posOf_keys_nil.2 (by omega))

theorem nav_seek_val (hk : j.key_valid (updsOf contents ch) = true) {v : V} {j' : VecChunkCursor} (e : j.seek_val (updsOf contents ch) v = some j') :
    ∃ i', nav.cur.seek_val ch i v = some i' ∧ Step contents Rel ch i' j' ∧ j'.key_valid (updsOf contents ch) = true := by
  have hn := nav_keys hc h hk
  obtain ⟨i', h1, h2⟩ := hc.seeks _ _ v h.1 hn
  obtain ⟨j2, h3, h4, h5⟩ := vecCursor_seeksVals hs j _ v ⟨h.2, rfl⟩ hn
  have : some j2 = some j' := h3.symm.trans e
  cases this
  refine ⟨i', h1, ⟨h5 ▸ h2, h4⟩, ?_⟩
  have hk' : (posOf (updsOf contents ch) j').keys ≠ [] := by rw [← h5]; exact hn
  rw [VecChunkCursor.key_valid, decide_eq_true_iff]
  by_contra hlt
  exact hk' (posOf_keys_nil.2 (by omega))

end inner

/-! ### Bounds -/

section bounds
variable (hc : ∀ c ∈ s, NavContract nav contents Rel c)
include hc

theorem nav_boundsAt (c : Nat) : BatchCursor.boundsAt nav s c = (ChunkBatchCursor.bounds (s.map (updsOf contents)) c).map fun b => (triple b.1, triple b.2) := by
  rw [BatchCursor.boundsAt, ChunkBatchCursor.bounds, List.getElem?_map]
  cases h : s[c]? with
  | none => rfl
  | some ch =>
    obtain ⟨f, l, h1, h2, h3⟩ := (hc ch (List.mem_of_getElem? h)).bounds
    simp only [Option.map_some, Option.bind_some]
    rw [h1, h2, h3]; rfl

theorem nav_key_spills (c : Nat) (k : K) : BatchCursor.key_spills nav s c k = ChunkBatchCursor.key_spills (s.map (updsOf contents)) c k := by
  rw [BatchCursor.key_spills, ChunkBatchCursor.key_spills, nav_boundsAt hc, nav_boundsAt hc]
  cases h1 : ChunkBatchCursor.bounds (s.map (updsOf contents)) c with
  | none => rfl
  | some b =>
    simp only [Option.map_some, Option.bind_some]
    show (if rowKey b.2 = k then _ else _) = _
    by_cases hk : rowKey b.2 = k
    · rw [if_pos hk, if_pos hk]
      cases h2 : ChunkBatchCursor.bounds (s.map (updsOf contents)) (c + 1) <;> rfl
    · rw [if_neg hk, if_neg hk]

theorem nav_val_spills (c : Nat) (k : K) (v : V) : BatchCursor.val_spills nav s c k v = ChunkBatchCursor.val_spills (s.map (updsOf contents)) c k v := by
  rw [BatchCursor.val_spills, ChunkBatchCursor.val_spills, nav_key_spills hc, nav_boundsAt hc, nav_boundsAt hc]
  cases h0 : ChunkBatchCursor.key_spills (s.map (updsOf contents)) c k with
  | none => rfl
  | some b =>
    cases b with
    | false => rfl
    | true =>
      simp only [Option.bind_some, if_true]
      cases h1 : ChunkBatchCursor.bounds (s.map (updsOf contents)) c with
      | none => rfl
      | some b1 => cases h2 : ChunkBatchCursor.bounds (s.map (updsOf contents)) (c + 1) <;> rfl

theorem nav_lastLt (k : K) (i : Nat) : BatchCursor.lastLt nav s k i = ChunkBatchCursor.lastLt (s.map (updsOf contents)) k i := by
  rw [BatchCursor.lastLt, ChunkBatchCursor.lastLt, nav_boundsAt hc, Option.map_map]; rfl

theorem nav_expLoop (k : K) (n : Nat) : ∀ prev step, BatchCursor.expLoop nav s k n prev step = ChunkBatchCursor.expLoop (s.map (updsOf contents)) k n prev step := by
  induction n with
  | zero => intro _ _; rfl
  | succ n ih =>
    intro prev step
    rw [BatchCursor.expLoop, ChunkBatchCursor.expLoop, nav_lastLt hc, List.length_map]
    by_cases h : prev + step < s.length
    · rw [if_pos h, if_pos h]
      cases ChunkBatchCursor.lastLt (s.map (updsOf contents)) k (prev + step) with
      | none => rfl
      | some b => cases b <;> simp [ih]
    · rw [if_neg h, if_neg h]

theorem nav_binLoop (k : K) (n : Nat) : ∀ a b, BatchCursor.binLoop nav s k n a b = ChunkBatchCursor.binLoop (s.map (updsOf contents)) k n a b := by
  induction n with
  | zero => intro _ _; rfl
  | succ n ih =>
    intro a b
    rw [BatchCursor.binLoop, ChunkBatchCursor.binLoop]
    by_cases h : a < b
    · rw [if_pos h, if_pos h]
      simp only
      rw [nav_lastLt hc]
      cases ChunkBatchCursor.lastLt (s.map (updsOf contents)) k (a + (b - a) / 2) with
      | none => rfl
      | some b => cases b <;> simp [ih]
    · rw [if_neg h, if_neg h]

theorem nav_locate_key (hint : Nat) (k : K) : BatchCursor.locate_key nav s hint k = ChunkBatchCursor.locate_key (s.map (updsOf contents)) hint k := by
  rw [BatchCursor.locate_key, ChunkBatchCursor.locate_key]
  have h0 : (if min hint s.length = 0 then some (min hint s.length) else (BatchCursor.lastLt nav s k (min hint s.length - 1)).map fun b => if b then min hint s.length else 0) =
      ChunkBatchCursor.locateFrom (s.map (updsOf contents)) hint k := by
    rw [ChunkBatchCursor.locateFrom, nav_lastLt hc, List.length_map]
    split_ifs
    · rfl
    · cases ChunkBatchCursor.lastLt (s.map (updsOf contents)) k (min hint s.length - 1) <;> rfl
  rw [h0]
  cases ChunkBatchCursor.locateFrom (s.map (updsOf contents)) hint k with
  | none => rfl
  | some lo =>
    simp only [Option.bind_some, List.length_map]
    by_cases hlo : s.length ≤ lo
    · rw [if_pos hlo, if_pos hlo]
    · rw [if_neg hlo, if_neg hlo, nav_lastLt hc]
      cases ChunkBatchCursor.lastLt (s.map (updsOf contents)) k lo with
      | none => rfl
      | some b =>
        cases b with
        | false => rfl
        | true =>
          simp only [Option.bind_some, if_true]
          rw [nav_expLoop hc]
          cases ChunkBatchCursor.expLoop (s.map (updsOf contents)) k s.length lo 1 with
          | none => rfl
          | some r => simp [nav_binLoop hc]

end bounds

/-! ### The cursors in step -/

/-- The two cursors are in step. -/
def InStep (contents : C → Contents K V T R) (Rel : C → I → Pos K V T R → Prop) (s : List C) (x : BatchCursor I) (y : ChunkBatchCursor) : Prop :=
  x.key_chunk = y.key_chunk ∧ x.chunk = y.chunk ∧
    ((s[x.chunk]? = none ∧ x.inner = none ∧ y.inner = none) ∨
      ∃ ch i j, s[x.chunk]? = some ch ∧ x.inner = some i ∧ y.inner = some j ∧ Step contents Rel ch i j)

section sim
variable {x : BatchCursor I} {y : ChunkBatchCursor} (hc : ∀ c ∈ s, NavContract nav contents Rel c) (hs : ∀ c ∈ s, SortedD (updsOf contents c))
include hc

theorem inStep_goto (h : InStep contents Rel s x y) (c : Nat) : InStep contents Rel s (BatchCursor.goto nav s x c) (ChunkBatchCursor.goto (s.map (updsOf contents)) y c) := by
  refine ⟨h.1, rfl, ?_⟩
  simp only [BatchCursor.goto, ChunkBatchCursor.goto, List.getElem?_map]
  cases hg : s[c]? with
  | none => exact Or.inl ⟨rfl, rfl, rfl⟩
  | some ch => exact Or.inr ⟨ch, _, _, rfl, rfl, rfl, nav_cursor (hc ch (List.mem_of_getElem? hg))⟩

/-- The key chunk may be changed in both. -/
theorem inStep_key_chunk (h : InStep contents Rel s x y) (c : Nat) : InStep contents Rel s { x with key_chunk := c } { y with key_chunk := c } := ⟨rfl, h.2.1, h.2.2⟩

theorem inStep_key_valid (h : InStep contents Rel s x y) : BatchCursor.key_valid nav s x = some (ChunkBatchCursor.key_valid (s.map (updsOf contents)) y) := by
  rw [BatchCursor.key_valid, BatchCursor.holds, ChunkBatchCursor.key_valid, ChunkBatchCursor.active, ← h.2.1, List.getElem?_map]
  obtain ⟨-, -, ⟨h1, h2, h3⟩ | ⟨ch, i, j, h1, h2, h3, h4⟩⟩ := h
  · rw [h1]; rfl
  · rw [h1, h2, h3]
    exact nav_key_valid (hc ch (List.mem_of_getElem? h1)) h4

theorem inStep_key (h : InStep contents Rel s x y) : BatchCursor.key nav s x = ChunkBatchCursor.key (s.map (updsOf contents)) y := by
  rw [BatchCursor.key, BatchCursor.read, ChunkBatchCursor.key, ChunkBatchCursor.active, ← h.2.1, List.getElem?_map]
  obtain ⟨-, -, ⟨h1, h2, h3⟩ | ⟨ch, i, j, h1, h2, h3, h4⟩⟩ := h
  · rw [h1]; rfl
  · rw [h1, h2, h3]
    exact nav_key (hc ch (List.mem_of_getElem? h1)) h4

/-- At a valid key there is an inner cursor, at a valid key. -/
theorem inStep_inner (h : InStep contents Rel s x y) (hk : ChunkBatchCursor.key_valid (s.map (updsOf contents)) y = true) :
    ∃ ch i j, s[x.chunk]? = some ch ∧ x.inner = some i ∧ y.inner = some j ∧ Step contents Rel ch i j ∧ j.key_valid (updsOf contents ch) = true := by
  rw [ChunkBatchCursor.key_valid, ChunkBatchCursor.active, ← h.2.1, List.getElem?_map] at hk
  obtain ⟨-, -, ⟨h1, h2, h3⟩ | ⟨ch, i, j, h1, h2, h3, h4⟩⟩ := h
  · rw [h1] at hk; cases hk
  · rw [h1, h3] at hk
    exact ⟨ch, i, j, h1, h2, h3, h4, hk⟩

include hs

theorem inStep_val_valid (h : InStep contents Rel s x y) (hk : ChunkBatchCursor.key_valid (s.map (updsOf contents)) y = true) :
    BatchCursor.val_valid nav s x = some (ChunkBatchCursor.val_valid (s.map (updsOf contents)) y) ∧
      BatchCursor.read s x nav.cur.val_valid = some (ChunkBatchCursor.val_valid (s.map (updsOf contents)) y) := by
  obtain ⟨ch, i, j, h1, h2, h3, h4, h5⟩ := inStep_inner hc h hk
  have hv := nav_val_valid (hc ch (List.mem_of_getElem? h1)) (hs ch (List.mem_of_getElem? h1)) h4 h5
  have hy : ChunkBatchCursor.val_valid (s.map (updsOf contents)) y = j.val_valid (updsOf contents ch) := by
    rw [ChunkBatchCursor.val_valid, ChunkBatchCursor.active, ← h.2.1, List.getElem?_map, h1, h3]; rfl
  rw [hy, ← hv]
  constructor
  · rw [BatchCursor.val_valid, BatchCursor.holds, h1, h2]
  · rw [BatchCursor.read, h1, h2]; rfl

theorem inStep_val (h : InStep contents Rel s x y) (hk : ChunkBatchCursor.key_valid (s.map (updsOf contents)) y = true)
    (hv : ChunkBatchCursor.val_valid (s.map (updsOf contents)) y = true) : BatchCursor.val nav s x = ChunkBatchCursor.val (s.map (updsOf contents)) y := by
  obtain ⟨ch, i, j, h1, h2, h3, h4, h5⟩ := inStep_inner hc h hk
  have hy : ChunkBatchCursor.val_valid (s.map (updsOf contents)) y = j.val_valid (updsOf contents ch) := by
    rw [ChunkBatchCursor.val_valid, ChunkBatchCursor.active, ← h.2.1, List.getElem?_map, h1, h3]; rfl
  rw [BatchCursor.val, BatchCursor.read, ChunkBatchCursor.val, ChunkBatchCursor.active, ← h.2.1, List.getElem?_map, h1, h2, h3]
  exact nav_val (hc ch (List.mem_of_getElem? h1)) (hs ch (List.mem_of_getElem? h1)) h4 (hy ▸ hv)

/-- Calls on the inner cursors. -/
theorem inStep_onInner (h : InStep contents Rel s x y) {f : C → I → Option I} {g : Upds (K ×ₗ V) T R → VecChunkCursor → Option VecChunkCursor} {y' : ChunkBatchCursor}
    (hfg : ∀ ch i j j', s[x.chunk]? = some ch → y.inner = some j → Step contents Rel ch i j → g (updsOf contents ch) j = some j' → ∃ i', f ch i = some i' ∧ Step contents Rel ch i' j')
    (e : ChunkBatchCursor.onInner (s.map (updsOf contents)) y g = some y') : ∃ x', BatchCursor.onInner s x f = some x' ∧ InStep contents Rel s x' y' := by
  rw [ChunkBatchCursor.onInner, ChunkBatchCursor.active, ← h.2.1, List.getElem?_map] at e
  obtain ⟨e1, e2, ⟨h1, h2, h3⟩ | ⟨ch, i, j, h1, h2, h3, h4⟩⟩ := h
  · rw [h1] at e; cases e
  · rw [h1, h3] at e
    simp only [Option.map_some] at e
    obtain ⟨j', g1, rfl⟩ := Option.map_eq_some_iff.1 e
    obtain ⟨i', g2, g3⟩ := hfg ch i j j' h1 h3 h4 g1
    refine ⟨{ x with inner := some i' }, ?_, e1, rfl, Or.inr ⟨ch, i', j', h1, rfl, rfl, g3⟩⟩
    rw [BatchCursor.onInner, BatchCursor.read, h1, h2]
    simp [g2]

theorem inStep_timesLoop (k : K) (v : V) (n : Nat) : ∀ (c : Nat) (acc out : List (T × R)), ChunkBatchCursor.timesLoop (s.map (updsOf contents)) k v n c acc = some out →
    BatchCursor.timesLoop nav s k v n c acc = some out := by
  induction n with
  | zero => intro c acc out e; exact e
  | succ n ih =>
    intro c acc out e
    rw [ChunkBatchCursor.timesLoop, List.length_map] at e
    rw [BatchCursor.timesLoop, nav_val_spills hc]
    by_cases h : c + 1 < s.length
    · rw [if_pos h] at e ⊢
      cases h1 : ChunkBatchCursor.val_spills (s.map (updsOf contents)) c k v with
      | none => rw [h1] at e; cases e
      | some b =>
        rw [h1] at e
        cases b with
        | false => exact e
        | true =>
          simp only [Option.bind_some, if_true, List.getElem?_map] at e ⊢
          rw [List.getElem?_eq_getElem h] at e ⊢
          simp only [Option.map_some, Option.bind_some] at e ⊢
          have hm : s[c + 1] ∈ s := List.getElem_mem h
          have hcc := hc _ hm
          have hst := nav_cursor hcc
          have hv : (⟨0, 0⟩ : VecChunkCursor).val_valid (updsOf contents s[c + 1]) = true := by
            obtain ⟨f, l, g1, g2, g3⟩ := hcc.bounds
            rw [List.head?_eq_getElem?] at g1
            rw [VecChunkCursor.val_valid]
            simp only [g1, decide_true]
          have hmt := nav_map_times hcc (hs _ hm) hst hv
          rw [hmt]
          have e0 : VecChunkCursor.init.map_times (updsOf contents s[c + 1]) = (⟨0, 0⟩ : VecChunkCursor).map_times (updsOf contents s[c + 1]) := rfl
          rw [e0] at e
          cases h2 : (⟨0, 0⟩ : VecChunkCursor).map_times (updsOf contents s[c + 1]) with
          | none => rw [h2] at e; cases e
          | some more => rw [h2] at e; exact ih _ _ _ e
    · rw [if_neg h] at e ⊢; exact e

theorem inStep_map_times (h : InStep contents Rel s x y) (hk : ChunkBatchCursor.key_valid (s.map (updsOf contents)) y = true)
    (hv : ChunkBatchCursor.val_valid (s.map (updsOf contents)) y = true) {out : List (T × R)} (e : ChunkBatchCursor.map_times (s.map (updsOf contents)) y = some out) :
    BatchCursor.map_times nav s x = some out := by
  rw [ChunkBatchCursor.map_times, if_pos hv] at e
  rw [BatchCursor.map_times, (inStep_val_valid hc hs h hk).1, Option.bind_some, if_pos hv, inStep_key hc h, inStep_val hc hs h hk hv]
  obtain ⟨ch, i, j, h1, h2, h3, h4, h5⟩ := inStep_inner hc h hk
  have ha : ChunkBatchCursor.active (s.map (updsOf contents)) y = some (updsOf contents ch, j) := by
    rw [ChunkBatchCursor.active, ← h.2.1, List.getElem?_map, h1, h3]; rfl
  have hvj : j.val_valid (updsOf contents ch) = true := by
    rw [ChunkBatchCursor.val_valid, ha] at hv; exact hv
  have hmt := nav_map_times (hc ch (List.mem_of_getElem? h1)) (hs ch (List.mem_of_getElem? h1)) h4 hvj
  rw [ha] at e
  cases hkey : ChunkBatchCursor.key (s.map (updsOf contents)) y with
  | none => rw [hkey] at e; cases e
  | some k =>
    cases hval : ChunkBatchCursor.val (s.map (updsOf contents)) y with
    | none => rw [hkey, hval] at e; cases e
    | some v =>
      rw [hkey, hval] at e
      simp only at e
      rw [Option.bind_some, Option.bind_some, BatchCursor.read, h1, h2, Option.bind_some, Option.bind_some, hmt]
      cases hm : j.map_times (updsOf contents ch) with
      | none => rw [hm] at e; cases e
      | some first =>
        rw [hm] at e
        simp only [List.length_map] at e
        rw [Option.bind_some, h.2.1]
        exact inStep_timesLoop hc hs k v _ _ _ _ e

omit hs in
theorem inStep_skipKey (k : K) (n : Nat) : ∀ {x : BatchCursor I} {y y' : ChunkBatchCursor}, InStep contents Rel s x y → ChunkBatchCursor.skipKey (s.map (updsOf contents)) k n y = some y' →
    ∃ x', BatchCursor.skipKey nav s k n x = some x' ∧ InStep contents Rel s x' y' := by
  induction n with
  | zero => intro x y y' h e; cases e; exact ⟨x, rfl, h⟩
  | succ n ih =>
    intro x y y' h e
    rw [ChunkBatchCursor.skipKey, List.length_map] at e
    rw [BatchCursor.skipKey, nav_key_spills hc, h.2.1]
    by_cases hl : y.chunk + 1 < s.length
    · rw [if_pos hl] at e ⊢
      cases h1 : ChunkBatchCursor.key_spills (s.map (updsOf contents)) y.chunk k with
      | none => rw [h1] at e; cases e
      | some b =>
        rw [h1] at e
        cases b with
        | false => cases e; exact ⟨x, rfl, h⟩
        | true => exact ih (inStep_goto hc h _) e
    · rw [if_neg hl] at e ⊢; cases e; exact ⟨x, rfl, h⟩

omit hs in
theorem inStep_skipVal (k : K) (v : V) (n : Nat) : ∀ {x : BatchCursor I} {y y' : ChunkBatchCursor}, InStep contents Rel s x y →
    ChunkBatchCursor.skipVal (s.map (updsOf contents)) k v n y = some y' → ∃ x', BatchCursor.skipVal nav s k v n x = some x' ∧ InStep contents Rel s x' y' := by
  induction n with
  | zero => intro x y y' h e; cases e; exact ⟨x, rfl, h⟩
  | succ n ih =>
    intro x y y' h e
    rw [ChunkBatchCursor.skipVal, List.length_map] at e
    rw [BatchCursor.skipVal, nav_val_spills hc, h.2.1]
    by_cases hl : y.chunk + 1 < s.length
    · rw [if_pos hl] at e ⊢
      cases h1 : ChunkBatchCursor.val_spills (s.map (updsOf contents)) y.chunk k v with
      | none => rw [h1] at e; cases e
      | some b =>
        rw [h1] at e
        cases b with
        | false => cases e; exact ⟨x, rfl, h⟩
        | true => exact ih (inStep_goto hc h _) e
    · rw [if_neg hl] at e ⊢; cases e; exact ⟨x, rfl, h⟩

/-- At the chunk reached, a read of validity. -/
theorem inStep_read_key_valid (h : InStep contents Rel s x y) (hi : x.inner ≠ none) :
    BatchCursor.read s x nav.cur.key_valid = some (ChunkBatchCursor.key_valid (s.map (updsOf contents)) y) := by
  rw [BatchCursor.read, ChunkBatchCursor.key_valid, ChunkBatchCursor.active, ← h.2.1, List.getElem?_map]
  obtain ⟨-, -, ⟨h1, h2, h3⟩ | ⟨ch, i, j, h1, h2, h3, h4⟩⟩ := h
  · exact absurd h2 hi
  · rw [h1, h2, h3]
    exact nav_key_valid (hc ch (List.mem_of_getElem? h1)) h4

theorem inStep_step_key (h : InStep contents Rel s x y) {y' : ChunkBatchCursor} (e : ChunkBatchCursor.step_key (s.map (updsOf contents)) y = some y') :
    ∃ x', BatchCursor.step_key nav s x = some x' ∧ InStep contents Rel s x' y' := by
  rw [ChunkBatchCursor.step_key] at e
  rw [BatchCursor.step_key, inStep_key_valid hc h, Option.bind_some]
  by_cases hk : ChunkBatchCursor.key_valid (s.map (updsOf contents)) y = true
  · rw [if_pos hk] at e ⊢
    rw [inStep_key hc h]
    cases hkey : ChunkBatchCursor.key (s.map (updsOf contents)) y with
    | none => rw [hkey] at e; cases e
    | some k =>
      rw [hkey] at e
      simp only [List.length_map] at e
      rw [Option.bind_some]
      cases h1 : ChunkBatchCursor.skipKey (s.map (updsOf contents)) k s.length y with
      | none => rw [h1] at e; cases e
      | some y1 =>
        rw [h1] at e
        simp only at e
        obtain ⟨x1, g1, g2⟩ := inStep_skipKey hc k s.length h h1
        rw [g1, Option.bind_some]
        cases h2 : ChunkBatchCursor.onInner (s.map (updsOf contents)) y1 fun ch i => (i.seek_key ch k).bind fun i => i.step_key ch with
        | none => rw [h2] at e; cases e
        | some y2 =>
          rw [h2] at e
          simp only at e
          obtain ⟨x2, g3, g4⟩ := inStep_onInner hc hs g2 (f := fun ch i => (nav.cur.seek_key ch i k).bind fun i => nav.cur.step_key ch i) (by
            intro ch i j j' q1 _ q2 q3
            obtain ⟨j1, q4, q5⟩ := Option.bind_eq_some_iff.1 q3
            have hm := List.mem_of_getElem? q1
            obtain ⟨i1, q6, q7⟩ := nav_seek_key (hc ch hm) (hs ch hm) q2 q4
            obtain ⟨i2, q8, q9⟩ := nav_step_key (hc ch hm) (hs ch hm) q7 q5
            exact ⟨i2, by rw [q6]; exact q8, q9⟩) h2
          have hi : x2.inner ≠ none := by
            rw [BatchCursor.onInner] at g3
            obtain ⟨i, -, rfl⟩ := Option.map_eq_some_iff.1 g3
            simp
          rw [g3, Option.bind_some, inStep_read_key_valid hc hs g4 hi, Option.map_some]
          simp only [g4.2.1]
          refine ⟨_, rfl, ?_⟩
          cases e
          by_cases hb : (!ChunkBatchCursor.key_valid (s.map (updsOf contents)) y2 && decide (y2.chunk + 1 < s.length)) = true
          · rw [if_pos hb, if_pos hb]
            have := inStep_goto hc g4 (y2.chunk + 1)
            exact ⟨this.2.1, this.2.1, this.2.2⟩
          · rw [if_neg hb, if_neg hb]
            exact ⟨g4.2.1, g4.2.1, g4.2.2⟩
  · rw [if_neg hk] at e ⊢
    cases e
    exact ⟨x, rfl, h⟩

theorem inStep_seek_key (h : InStep contents Rel s x y) (k : K) {y' : ChunkBatchCursor} (e : ChunkBatchCursor.seek_key (s.map (updsOf contents)) y k = some y') :
    ∃ x', BatchCursor.seek_key nav s x k = some x' ∧ InStep contents Rel s x' y' := by
  rw [ChunkBatchCursor.seek_key] at e
  rw [BatchCursor.seek_key, nav_locate_key hc, h.1]
  cases h1 : ChunkBatchCursor.locate_key (s.map (updsOf contents)) y.key_chunk k with
  | none => rw [h1] at e; cases e
  | some lo =>
    rw [h1] at e
    simp only [List.length_map] at e
    simp only [Option.bind_some]
    have hg : InStep contents Rel s { BatchCursor.goto nav s x lo with key_chunk := lo } { ChunkBatchCursor.goto (s.map (updsOf contents)) y lo with key_chunk := lo } :=
      inStep_key_chunk (nav := nav) hc (inStep_goto hc h lo) lo
    by_cases hl : lo < s.length
    · rw [if_pos hl] at e ⊢
      exact inStep_onInner hc hs hg (fun ch i j j' q1 _ q2 q3 => nav_seek_key (hc ch (List.mem_of_getElem? q1)) (hs ch (List.mem_of_getElem? q1)) q2 q3) e
    · rw [if_neg hl] at e ⊢
      cases e
      exact ⟨_, rfl, hg⟩

theorem inStep_roll (h : InStep contents Rel s x y) (k : K) {r : ChunkBatchCursor × Bool} (e : ChunkBatchCursor.roll (s.map (updsOf contents)) y k = some r) :
    ∃ x', BatchCursor.roll nav s x k = some (x', r.2) ∧ InStep contents Rel s x' r.1 ∧ (r.2 = true → ChunkBatchCursor.key_valid (s.map (updsOf contents)) r.1 = true) := by
  rw [ChunkBatchCursor.roll, List.length_map] at e
  rw [BatchCursor.roll, nav_key_spills hc, h.2.1]
  by_cases hl : y.chunk + 1 < s.length
  · rw [if_pos hl] at e ⊢
    cases h1 : ChunkBatchCursor.key_spills (s.map (updsOf contents)) y.chunk k with
    | none => rw [h1] at e; cases e
    | some b =>
      rw [h1] at e
      cases b with
      | false => cases e; exact ⟨x, rfl, h, by simp⟩
      | true =>
        obtain ⟨y1, e1, rfl⟩ := Option.map_eq_some_iff.1 e
        simp only [Option.bind_some, if_true]
        obtain ⟨x1, g1, g2⟩ := inStep_onInner hc hs (inStep_goto hc h (y.chunk + 1)) (f := fun ch i => nav.cur.seek_key ch i k)
          (fun ch i j j' q1 _ q2 q3 => nav_seek_key (hc ch (List.mem_of_getElem? q1)) (hs ch (List.mem_of_getElem? q1)) q2 q3) e1
        refine ⟨x1, by rw [g1]; rfl, g2, fun _ => ?_⟩
        -- The first key of the next chunk is `k`.
        have hm : s[y.chunk + 1] ∈ s := List.getElem_mem hl
        obtain ⟨f, l, b1, b2, -⟩ := (hc _ hm).bounds
        have hb : ChunkBatchCursor.bounds (s.map (updsOf contents)) (y.chunk + 1) = some (f, l) := by
          rw [ChunkBatchCursor.bounds, List.getElem?_map, List.getElem?_eq_getElem hl, Option.map_some]
          simp only [b1, b2]
        have hf : rowKey f = k := by
          rw [ChunkBatchCursor.key_spills, hb] at h1
          cases h2 : ChunkBatchCursor.bounds (s.map (updsOf contents)) y.chunk with
          | none => rw [h2] at h1; cases h1
          | some b =>
            rw [h2] at h1
            simp only at h1
            split_ifs at h1 with h3
            · simpa using h1
            · cases h1
        rw [ChunkBatchCursor.onInner] at e1
        have ha : ChunkBatchCursor.active (s.map (updsOf contents)) (ChunkBatchCursor.goto (s.map (updsOf contents)) y (y.chunk + 1)) = some (updsOf contents s[y.chunk + 1], ⟨0, 0⟩) := by
          simp only [ChunkBatchCursor.active, ChunkBatchCursor.goto, List.getElem?_map, List.getElem?_eq_getElem hl, Option.map_some]
          rfl
        rw [ha] at e1
        obtain ⟨j', q1, rfl⟩ := Option.map_eq_some_iff.1 e1
        have hst := nav_cursor (hc _ hm)
        obtain ⟨j2, q2, q3, q4⟩ := (vecCursor_presents (hs _ hm)).seek_key ⟨0, 0⟩ _ k ⟨hst.2, rfl⟩
        have : some j2 = some j' := q2.symm.trans q1
        cases this
        have hk : (posOf (updsOf contents s[y.chunk + 1]) j').keys ≠ [] := by
          rw [← q4]
          show (((posOf (updsOf contents s[y.chunk + 1]) ⟨0, 0⟩).keys.dropWhile fun kv => decide (kv.1 < k))) ≠ []
          have hk0 : (posOf (updsOf contents s[y.chunk + 1]) ⟨0, 0⟩).key? = some k := by
            rw [posOf_key?, keyAt_of_head, List.drop_zero, b1, Option.map_some, hf]
          rw [Pos.key?] at hk0
          obtain ⟨kv, w1, w2⟩ := Option.map_eq_some_iff.1 hk0
          obtain ⟨tl, w3⟩ : ∃ tl, (posOf (updsOf contents s[y.chunk + 1]) ⟨0, 0⟩).keys = kv :: tl := by
            cases hkeys : (posOf (updsOf contents s[y.chunk + 1]) ⟨0, 0⟩).keys with
            | nil => rw [hkeys] at w1; cases w1
            | cons a tl => rw [hkeys] at w1; cases w1; exact ⟨tl, rfl⟩
          rw [w3, List.dropWhile_cons, if_neg (by simp [w2])]
          simp
        simp only [ChunkBatchCursor.key_valid, ChunkBatchCursor.active, ChunkBatchCursor.goto, List.getElem?_map, List.getElem?_eq_getElem hl, Option.map_some]
        rw [VecChunkCursor.key_valid, decide_eq_true_iff]
        by_contra hlt
        exact hk (posOf_keys_nil.2 (by omega))
  · rw [if_neg hl] at e ⊢
    cases e
    exact ⟨x, rfl, h, by simp⟩

/-- Skipping along a value ends at a valid key. -/
theorem skipVal_key_valid (k : K) (v : V) (n : Nat) : ∀ {y y' : ChunkBatchCursor}, ChunkBatchCursor.key_valid (s.map (updsOf contents)) y = true →
    ChunkBatchCursor.skipVal (s.map (updsOf contents)) k v n y = some y' → ChunkBatchCursor.key_valid (s.map (updsOf contents)) y' = true := by
  induction n with
  | zero => intro y y' h e; cases e; exact h
  | succ n ih =>
    intro y y' h e
    rw [ChunkBatchCursor.skipVal, List.length_map] at e
    by_cases hl : y.chunk + 1 < s.length
    · rw [if_pos hl] at e
      cases h1 : ChunkBatchCursor.val_spills (s.map (updsOf contents)) y.chunk k v with
      | none => rw [h1] at e; cases e
      | some b =>
        rw [h1] at e
        cases b with
        | false => cases e; exact h
        | true =>
          refine ih ?_ e
          simp only [ChunkBatchCursor.key_valid, ChunkBatchCursor.active, ChunkBatchCursor.goto, List.getElem?_map, List.getElem?_eq_getElem hl, Option.map_some]
          obtain ⟨f, l, b1, -, -⟩ := (hc _ (List.getElem_mem hl)).bounds
          rw [VecChunkCursor.key_valid, decide_eq_true_iff]
          show 0 < _
          rw [List.length_pos_iff]
          rintro e0
          have b1' : (updsOf contents s[y.chunk + 1]).head? = some f := b1
          rw [e0] at b1'; cases b1'
    · rw [if_neg hl] at e; cases e; exact h

theorem inStep_step_val (h : InStep contents Rel s x y) (hk : ChunkBatchCursor.key_valid (s.map (updsOf contents)) y = true) {y' : ChunkBatchCursor}
    (e : ChunkBatchCursor.step_val (s.map (updsOf contents)) y = some y') : ∃ x', BatchCursor.step_val nav s x = some x' ∧ InStep contents Rel s x' y' := by
  rw [ChunkBatchCursor.step_val] at e
  rw [BatchCursor.step_val, (inStep_val_valid hc hs h hk).1, Option.bind_some]
  by_cases hv : ChunkBatchCursor.val_valid (s.map (updsOf contents)) y = true
  · rw [if_pos hv] at e ⊢
    rw [inStep_key hc h, inStep_val hc hs h hk hv]
    cases hkey : ChunkBatchCursor.key (s.map (updsOf contents)) y with
    | none => rw [hkey] at e; cases e
    | some k =>
      cases hval : ChunkBatchCursor.val (s.map (updsOf contents)) y with
      | none => rw [hkey, hval] at e; cases e
      | some v =>
        rw [hkey, hval] at e
        simp only [List.length_map] at e
        rw [Option.bind_some, Option.bind_some]
        cases h1 : ChunkBatchCursor.skipVal (s.map (updsOf contents)) k v s.length y with
        | none => rw [h1] at e; cases e
        | some y1 =>
          rw [h1] at e
          simp only at e
          obtain ⟨x1, g1, g2⟩ := inStep_skipVal hc k v s.length h h1
          have hk1 := skipVal_key_valid hc hs k v s.length hk h1
          rw [g1, Option.bind_some]
          obtain ⟨ch, i, j, p1, p2, p3, p4, p5⟩ := inStep_inner hc g2 hk1
          cases h2 : ChunkBatchCursor.onInner (s.map (updsOf contents)) y1 fun ch i => i.step_val ch with
          | none => rw [h2] at e; cases e
          | some y2 =>
            rw [h2] at e
            simp only at e
            have hm := List.mem_of_getElem? p1
            obtain ⟨x2, g3, g4⟩ := inStep_onInner hc hs g2 (f := nav.cur.step_val) (by
              intro ch' i' j1 j' q1 q0 q2 q3
              rw [p1] at q1; cases q1
              rw [p3] at q0; cases q0
              obtain ⟨i2, q4, q5, -⟩ := nav_step_val (hc ch hm) (hs ch hm) q2 p5 q3
              exact ⟨i2, q4, q5⟩) h2
            have hk2 : ChunkBatchCursor.key_valid (s.map (updsOf contents)) y2 = true := by
              rw [ChunkBatchCursor.onInner] at h2
              have ha : ChunkBatchCursor.active (s.map (updsOf contents)) y1 = some (updsOf contents ch, j) := by
                rw [ChunkBatchCursor.active, ← g2.2.1, List.getElem?_map, p1, p3]; rfl
              rw [ha] at h2
              obtain ⟨j', q1, rfl⟩ := Option.map_eq_some_iff.1 h2
              obtain ⟨-, -, -, q5⟩ := nav_step_val (hc ch hm) (hs ch hm) p4 p5 q1
              simp only [ChunkBatchCursor.key_valid, ChunkBatchCursor.active]
              rw [← g2.2.1, List.getElem?_map, p1]
              exact q5
            rw [g3, Option.bind_some, (inStep_val_valid hc hs g4 hk2).2, Option.bind_some]
            by_cases hv2 : ChunkBatchCursor.val_valid (s.map (updsOf contents)) y2 = true
            · rw [if_pos hv2] at e ⊢
              cases e
              exact ⟨x2, rfl, g4⟩
            · rw [if_neg hv2] at e ⊢
              obtain ⟨r, e1, rfl⟩ := Option.map_eq_some_iff.1 e
              obtain ⟨x3, g5, g6, -⟩ := inStep_roll hc hs g4 k e1
              exact ⟨x3, by rw [g5]; rfl, g6⟩
  · rw [if_neg hv] at e ⊢
    cases e
    exact ⟨x, rfl, h⟩

theorem inStep_seekValLoop (k : K) (v : V) (n : Nat) : ∀ {x : BatchCursor I} {y y' : ChunkBatchCursor}, InStep contents Rel s x y →
    ChunkBatchCursor.key_valid (s.map (updsOf contents)) y = true → ChunkBatchCursor.seekValLoop (s.map (updsOf contents)) k v n y = some y' →
    ∃ x', BatchCursor.seekValLoop nav s k v n x = some x' ∧ InStep contents Rel s x' y' := by
  induction n with
  | zero => intro x y y' h _ e; cases e; exact ⟨x, rfl, h⟩
  | succ n ih =>
    intro x y y' h hk e
    rw [ChunkBatchCursor.seekValLoop] at e
    rw [BatchCursor.seekValLoop]
    obtain ⟨ch, i, j, p1, p2, p3, p4, p5⟩ := inStep_inner hc h hk
    have hm := List.mem_of_getElem? p1
    cases h2 : ChunkBatchCursor.onInner (s.map (updsOf contents)) y fun ch i => i.seek_val ch v with
    | none => rw [h2] at e; cases e
    | some y2 =>
      rw [h2] at e
      simp only at e
      obtain ⟨x2, g3, g4⟩ := inStep_onInner hc hs h (f := fun ch i => nav.cur.seek_val ch i v) (by
        intro ch' i' j1 j' q1 q0 q2 q3
        rw [p1] at q1; cases q1
        rw [p3] at q0; cases q0
        obtain ⟨i2, q4, q5, -⟩ := nav_seek_val (hc ch hm) (hs ch hm) q2 p5 q3
        exact ⟨i2, q4, q5⟩) h2
      have hk2 : ChunkBatchCursor.key_valid (s.map (updsOf contents)) y2 = true := by
        rw [ChunkBatchCursor.onInner] at h2
        have ha : ChunkBatchCursor.active (s.map (updsOf contents)) y = some (updsOf contents ch, j) := by
          rw [ChunkBatchCursor.active, ← h.2.1, List.getElem?_map, p1, p3]; rfl
        rw [ha] at h2
        obtain ⟨j', q1, rfl⟩ := Option.map_eq_some_iff.1 h2
        obtain ⟨-, -, -, q5⟩ := nav_seek_val (hc ch hm) (hs ch hm) p4 p5 q1
        simp only [ChunkBatchCursor.key_valid, ChunkBatchCursor.active]
        rw [← h.2.1, List.getElem?_map, p1]
        exact q5
      rw [g3, Option.bind_some, (inStep_val_valid hc hs g4 hk2).2, Option.bind_some]
      by_cases hv2 : ChunkBatchCursor.val_valid (s.map (updsOf contents)) y2 = true
      · rw [if_pos hv2] at e ⊢
        cases e
        exact ⟨x2, rfl, g4⟩
      · rw [if_neg hv2] at e ⊢
        cases hr : ChunkBatchCursor.roll (s.map (updsOf contents)) y2 k with
        | none => rw [hr] at e; cases e
        | some r =>
          obtain ⟨x3, g5, g6, g7⟩ := inStep_roll hc hs g4 k hr
          rw [hr] at e
          rw [g5, Option.bind_some]
          obtain ⟨y3, b⟩ := r
          cases b with
          | true => exact ih g6 (g7 rfl) e
          | false => cases e; exact ⟨x3, rfl, g6⟩

theorem inStep_seek_val (h : InStep contents Rel s x y) (v : V) {y' : ChunkBatchCursor} (e : ChunkBatchCursor.seek_val (s.map (updsOf contents)) y v = some y') :
    ∃ x', BatchCursor.seek_val nav s x v = some x' ∧ InStep contents Rel s x' y' := by
  rw [ChunkBatchCursor.seek_val] at e
  rw [BatchCursor.seek_val, inStep_key_valid hc h, Option.bind_some]
  by_cases hk : ChunkBatchCursor.key_valid (s.map (updsOf contents)) y = true
  · rw [if_pos hk] at e ⊢
    rw [inStep_key hc h]
    cases hkey : ChunkBatchCursor.key (s.map (updsOf contents)) y with
    | none => rw [hkey] at e; cases e
    | some k =>
      rw [hkey] at e
      simp only [List.length_map] at e
      exact inStep_seekValLoop hc hs k v _ h hk e
  · rw [if_neg hk] at e ⊢
    cases e
    exact ⟨x, rfl, h⟩

theorem inStep_rewind_vals (h : InStep contents Rel s x y) {y' : ChunkBatchCursor} (e : ChunkBatchCursor.rewind_vals (s.map (updsOf contents)) y = some y') :
    ∃ x', BatchCursor.rewind_vals nav s x = some x' ∧ InStep contents Rel s x' y' := by
  rw [ChunkBatchCursor.rewind_vals] at e
  rw [BatchCursor.rewind_vals, inStep_key_valid hc h, Option.bind_some]
  by_cases hk : ChunkBatchCursor.key_valid (s.map (updsOf contents)) y = true
  · rw [if_pos hk] at e ⊢
    rw [inStep_key hc h]
    cases hkey : ChunkBatchCursor.key (s.map (updsOf contents)) y with
    | none => rw [hkey] at e; cases e
    | some k =>
      rw [hkey] at e
      rw [Option.bind_some, h.1]
      exact inStep_onInner hc hs (inStep_goto hc h _) (fun ch i j j' q1 _ q2 q3 => nav_seek_key (hc ch (List.mem_of_getElem? q1)) (hs ch (List.mem_of_getElem? q1)) q2 q3) e
  · rw [if_neg hk] at e ⊢
    cases e
    exact ⟨x, rfl, h⟩

end sim

/-! ### The contract of cursors -/

/-- The batch with lists of updates for chunks. -/
def listBatch (contents : C → Contents K V T R) (b : BatchOf C T) : ChunkBatch (K ×ₗ V) T R := ⟨b.chunks.map (updsOf contents), b.description⟩

/-- A cursor over a batch of chunks and the position it stands for. -/
def BatchPos (nav : NavOps I C K V T R) (contents : C → Contents K V T R) (Rel : C → I → Pos K V T R → Prop) (b : BatchOf C T) (t : Contents K V T R) (x : BatchCursor I) (p : Pos K V T R) : Prop :=
  (∀ c ∈ b.chunks, NavContract nav contents Rel c) ∧ SortedD (b.chunks.flatMap (updsOf contents)) ∧ ∃ y, InStep contents Rel b.chunks x y ∧ ChunkPos (listBatch contents b) t y p

theorem full_listBatch {b : BatchOf C T} (hc : ∀ c ∈ b.chunks, NavContract nav contents Rel c) : Full (listBatch contents b).chunks := by
  intro us hus
  obtain ⟨c, h1, rfl⟩ := List.mem_map.1 hus
  intro e
  exact (hc c h1).nonempty ((upds_eq_nil (hc c h1).noEmpty).1 e)

theorem sortedD_chunk {b : BatchOf C T} (hs : SortedD (b.chunks.flatMap (updsOf contents))) : ∀ c ∈ b.chunks, SortedD (updsOf contents c) := by
  intro c h
  rw [List.flatMap_def] at hs
  exact List.Pairwise.sublist (List.sublist_flatten_of_mem (List.mem_map_of_mem h)) hs

theorem batchCursor_presents {b : BatchOf C T} (hc : ∀ c ∈ b.chunks, NavContract nav contents Rel c) (hs : SortedD (b.chunks.flatMap (updsOf contents))) :
    Presents (BatchCursor.ops nav) b (toContents (b.chunks.flatMap (updsOf contents))) (BatchPos nav contents Rel b (toContents (b.chunks.flatMap (updsOf contents)))) true := by
  have hs' : SortedD (listBatch contents b).chunks.flatten := by rw [listBatch]; simp only; rw [← List.flatMap_def]; exact hs
  have hp := chunkCursor_presents (full_listBatch hc) hs'
  have he : (listBatch contents b).chunks.flatten = b.chunks.flatMap (updsOf contents) := by rw [listBatch]; simp only; rw [← List.flatMap_def]
  rw [he] at hp
  have hs1 := sortedD_chunk hs
  have hkv : ∀ {y : ChunkBatchCursor} {p : Pos K V T R}, ChunkPos (listBatch contents b) (toContents (b.chunks.flatMap (updsOf contents))) y p → p.keys ≠ [] →
      ChunkBatchCursor.key_valid (b.chunks.map (updsOf contents)) y = true := by
    intro y p h hk
    have := Option.some.inj (hp.key_valid y p h)
    refine this.trans ?_
    rw [Pos.key?]
    cases hh : p.keys with
    | nil => exact absurd hh hk
    | cons a l => rfl
  constructor
  case inside => rintro x p ⟨-, -, y, h1, h2⟩; exact hp.inside y p h2
  case key_valid =>
    rintro x p ⟨-, -, y, h1, h2⟩
    exact (inStep_key_valid hc h1).trans (hp.key_valid y p h2)
  case get_key =>
    rintro x p ⟨-, -, y, h1, h2⟩
    rw [← hp.get_key y p h2]
    show BatchCursor.get_key nav b.chunks x = ChunkBatchCursor.get_key (b.chunks.map (updsOf contents)) y
    rw [BatchCursor.get_key, inStep_key_valid hc h1, Option.bind_some, inStep_key hc h1]; rfl
  case key =>
    rintro x p ⟨-, -, y, h1, h2⟩
    exact (inStep_key hc h1).trans (hp.key y p h2)
  case val_valid =>
    rintro x p ⟨-, -, y, h1, h2⟩ hk
    exact (inStep_val_valid hc hs1 h1 (hkv h2 hk)).1.trans (hp.val_valid y p h2 hk)
  case get_val =>
    rintro x p ⟨-, -, y, h1, h2⟩ hk
    rw [← hp.get_val y p h2 hk]
    show BatchCursor.get_val nav b.chunks x = ChunkBatchCursor.get_val (b.chunks.map (updsOf contents)) y
    rw [BatchCursor.get_val, (inStep_val_valid hc hs1 h1 (hkv h2 hk)).1, Option.bind_some, ChunkBatchCursor.get_val]
    by_cases hv : ChunkBatchCursor.val_valid (b.chunks.map (updsOf contents)) y = true
    · rw [if_pos hv, if_pos hv, inStep_val hc hs1 h1 (hkv h2 hk) hv]
    · rw [if_neg hv, if_neg hv]
  case val =>
    rintro x p ⟨-, -, y, h1, h2⟩ hk hv
    rw [← hp.val y p h2 hk hv]
    refine inStep_val hc hs1 h1 (hkv h2 hk) ?_
    have := Option.some.inj (hp.val_valid y p h2 hk)
    refine this.trans ?_
    rw [Pos.val?]
    cases hh : p.vals with
    | nil => exact absurd hh hv
    | cons a l => rfl
  case map_times =>
    rintro x p ⟨-, -, y, h1, h2⟩ hk hv
    have hmt := hp.map_times y p h2 hk hv
    have hvv : ChunkBatchCursor.val_valid (b.chunks.map (updsOf contents)) y = true := by
      have := Option.some.inj (hp.val_valid y p h2 hk)
      refine this.trans ?_
      rw [Pos.val?]
      cases hh : p.vals with
      | nil => exact absurd hh hv
      | cons a l => rfl
    obtain ⟨out, ho⟩ : ∃ out, p.upds? = some out := by
      rw [Pos.upds?]
      cases hh : p.vals with
      | nil => exact absurd hh hv
      | cons a l => exact ⟨a.2, rfl⟩
    rw [ho] at hmt ⊢
    exact inStep_map_times hc hs1 h1 (hkv h2 hk) hvv hmt
  case step_key =>
    rintro x p ⟨-, -, y, h1, h2⟩
    obtain ⟨y', e1, e2⟩ := hp.step_key y p h2
    obtain ⟨x', g1, g2⟩ := inStep_step_key hc hs1 h1 e1
    exact ⟨x', g1, hc, hs, y', g2, e2⟩
  case seek_key =>
    rintro x p k ⟨-, -, y, h1, h2⟩
    obtain ⟨y', e1, e2⟩ := hp.seek_key y p k h2
    obtain ⟨x', g1, g2⟩ := inStep_seek_key hc hs1 h1 k e1
    exact ⟨x', g1, hc, hs, y', g2, e2⟩
  case step_val =>
    rintro x p ⟨-, -, y, h1, h2⟩ hk
    obtain ⟨y', e1, e2⟩ := hp.step_val y p h2 hk
    obtain ⟨x', g1, g2⟩ := inStep_step_val hc hs1 h1 (hkv h2 hk) e1
    exact ⟨x', g1, hc, hs, y', g2, e2⟩
  case rewind_keys =>
    rintro x p ⟨-, -, y, h1, h2⟩
    obtain ⟨y', e1, e2⟩ := hp.rewind_keys y p h2
    have e3 : some (ChunkBatchCursor.rewind_keys (b.chunks.map (updsOf contents)) y) = some y' := e1
    cases e3
    exact ⟨_, rfl, hc, hs, _, inStep_key_chunk (nav := nav) hc (inStep_goto hc h1 0) 0, e2⟩
  case rewind_vals =>
    rintro x p ⟨-, -, y, h1, h2⟩ hk
    obtain ⟨y', e1, e2⟩ := hp.rewind_vals y p h2 hk
    obtain ⟨x', g1, g2⟩ := inStep_rewind_vals hc hs1 h1 e1
    exact ⟨x', g1, hc, hs, y', g2, e2⟩

theorem batchCursor_seeksVals (b : BatchOf C T) (t : Contents K V T R) : SeeksVals (BatchCursor.ops nav) b (BatchPos nav contents Rel b t) := by
  rintro x p v ⟨hc, hs, y, h1, h2⟩ hk
  obtain ⟨y', e1, e2⟩ := chunkCursor_seeksVals (listBatch contents b) t y p v h2 hk
  obtain ⟨x', g1, g2⟩ := inStep_seek_val hc (sortedD_chunk hs) h1 v e1
  exact ⟨x', g1, hc, hs, y', g2, e2⟩

end DD
