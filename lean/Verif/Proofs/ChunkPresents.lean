import Verif.Proofs.ChunkCursor
import Verif.Proofs.CursorRun
import Verif.Proofs.ChunkBatch

/-! # The cursor over the chunks of a batch meets the contract of cursors -/

namespace DD
variable {K V T R : Type*} [LinearOrder K] [LinearOrder V]
variable {s : Chain (K ×ₗ V) T R} {x : ChunkBatchCursor} {f : VecChunkCursor}

section
variable (hf : Full s) (hs : SortedD s.flatten)
include hf hs

theorem sim_key_valid (h : Sim s x f) : ChunkBatchCursor.key_valid s x = f.key_valid s.flatten := by
  obtain ⟨hok, h | ⟨ch, i, k, h⟩⟩ := h
  · rw [ChunkBatchCursor.key_valid, VecChunkCursor.key_valid, h.1]
    cases ha : ChunkBatchCursor.active s x with
    | none => simp
    | some a => simp [VecChunkCursor.key_valid, h.2 a.1 a.2 ha]
  · rw [h.key_valid, VecChunkCursor.key_valid]
    obtain ⟨w, h1, -⟩ := Option.map_eq_some_iff.1 h.key
    exact (decide_eq_true (List.getElem?_eq_some_iff.1 h1).1).symm

theorem sim_key (h : Sim s x f) : ChunkBatchCursor.key s x = f.key s.flatten := by
  obtain ⟨hok, h | ⟨ch, i, k, h⟩⟩ := h
  · have e : f.key s.flatten = none := by rw [VecChunkCursor.key, List.getElem?_eq_none_iff.2 h.1.ge]; rfl
    rw [e, ChunkBatchCursor.key]
    cases ha : ChunkBatchCursor.active s x with
    | none => rfl
    | some a =>
      show VecChunkCursor.key a.1 a.2 = none
      rw [VecChunkCursor.key, List.getElem?_eq_none_iff.2 (h.2 a.1 a.2 ha)]; rfl
  · rw [h.key_eq]; exact h.key.symm

theorem sim_val_valid (h : Sim s x f) (hkey : f.key_pos < s.flatten.length) : ChunkBatchCursor.val_valid s x = f.val_valid s.flatten := by
  obtain ⟨hok, h | ⟨ch, i, k, h⟩⟩ := h
  · exact absurd h.1 hkey.ne
  · rw [live_val_valid hf hs h, h.val_valid.1]

theorem sim_val (h : Sim s x f) (hv : f.val_valid s.flatten = true) : ChunkBatchCursor.val s x = f.val s.flatten := by
  have hkey : f.key_pos < s.flatten.length := by
    obtain ⟨w, _, h1, -, -⟩ := val_valid_get hv
    exact (List.getElem?_eq_some_iff.1 h1).1
  obtain ⟨hok, h | ⟨ch, i, k, h⟩⟩ := h
  · exact absurd h.1 hkey.ne
  · rw [ChunkBatchCursor.val, h.active, VecChunkCursor.val, h.val_valid.2 (by rw [h.val_valid.1, hv])]
    rfl

theorem sim_get_key (h : Sim s x f) : ChunkBatchCursor.get_key s x = f.get_key s.flatten := by
  rw [ChunkBatchCursor.get_key, VecChunkCursor.get_key, sim_key_valid hf hs h, sim_key hf hs h]

theorem sim_get_val (h : Sim s x f) (hkey : f.key_pos < s.flatten.length) : ChunkBatchCursor.get_val s x = f.get_val s.flatten := by
  rw [ChunkBatchCursor.get_val, VecChunkCursor.get_val, sim_val_valid hf hs h hkey]
  by_cases hv : f.val_valid s.flatten = true
  · rw [sim_val hf hs h hv]
  · rw [if_neg hv, if_neg hv]

end

/-- A cursor over a batch of chunks and the position it stands for. -/
def ChunkPos (b : ChunkBatch (K ×ₗ V) T R) (t : Contents K V T R) (c : ChunkBatchCursor) (p : Pos K V T R) : Prop :=
  Full b.chunks ∧ SortedD b.chunks.flatten ∧ t = toContents b.chunks.flatten ∧ ∃ f, Sim b.chunks c f ∧ p = posOf b.chunks.flatten f

theorem chunkCursor_presents {b : ChunkBatch (K ×ₗ V) T R} (hf : Full b.chunks) (hs : SortedD b.chunks.flatten) :
    Presents ChunkBatchCursor.ops b (toContents b.chunks.flatten) (ChunkPos b (toContents b.chunks.flatten)) true := by
  have hp := vecCursor_presents hs
  have hlt : ∀ {f : VecChunkCursor}, (posOf b.chunks.flatten f).keys ≠ [] → f.key_pos < b.chunks.flatten.length := by
    intro f hk
    by_contra h
    exact hk (posOf_keys_nil.2 (not_lt.1 h))
  have h0 : VecOk b.chunks.flatten ⟨0, 0⟩ ∧ Pos.start (toContents b.chunks.flatten) = posOf b.chunks.flatten ⟨0, 0⟩ := by
    obtain ⟨c', h1, h2⟩ := hp.rewind_keys ⟨0, 0⟩ _ ⟨vecOk_start (Nat.zero_le _) (by simp), rfl⟩
    cases h1; exact h2
  constructor
  case inside => rintro c _ ⟨-, -, -, f, h, rfl⟩; exact hp.inside f _ ⟨h.ok, rfl⟩
  case key_valid =>
    rintro c _ ⟨-, -, -, f, h, rfl⟩
    rw [← hp.key_valid f _ ⟨h.ok, rfl⟩]
    exact congrArg some (sim_key_valid hf hs h)
  case get_key =>
    rintro c _ ⟨-, -, -, f, h, rfl⟩
    rw [← hp.get_key f _ ⟨h.ok, rfl⟩]
    exact sim_get_key hf hs h
  case key =>
    rintro c _ ⟨-, -, -, f, h, rfl⟩
    rw [← hp.key f _ ⟨h.ok, rfl⟩]
    exact sim_key hf hs h
  case val_valid =>
    rintro c _ ⟨-, -, -, f, h, rfl⟩ hk
    rw [← hp.val_valid f _ ⟨h.ok, rfl⟩ hk]
    exact congrArg some (sim_val_valid hf hs h (hlt hk))
  case get_val =>
    rintro c _ ⟨-, -, -, f, h, rfl⟩ hk
    rw [← hp.get_val f _ ⟨h.ok, rfl⟩ hk]
    exact sim_get_val hf hs h (hlt hk)
  case val =>
    rintro c _ ⟨-, -, -, f, h, rfl⟩ hk hv
    rw [← hp.val f _ ⟨h.ok, rfl⟩ hk hv]
    refine sim_val hf hs h ?_
    have := hp.val_valid f _ ⟨h.ok, rfl⟩ hk
    have : f.val_valid b.chunks.flatten = (posOf b.chunks.flatten f).val?.isSome := Option.some.inj this
    rw [this, Pos.val?]
    cases e : (posOf b.chunks.flatten f).vals with
    | nil => exact absurd e hv
    | cons _ _ => rfl
  case map_times =>
    rintro c _ ⟨-, -, -, f, h, rfl⟩ hk hv
    rw [← hp.map_times f _ ⟨h.ok, rfl⟩ hk hv]
    exact sim_map_times hf hs h (hlt hk)
  case step_key =>
    rintro c _ ⟨-, -, -, f, h, rfl⟩
    obtain ⟨c', f', g1, g2, g3⟩ := sim_step_key hf hs h
    obtain ⟨f'', e1, e2, e3⟩ := hp.step_key f _ ⟨h.ok, rfl⟩
    have e1 : VecChunkCursor.step_key b.chunks.flatten f = some f'' := e1
    rw [g2] at e1; cases e1
    exact ⟨c', g1, hf, hs, rfl, f', g3, e3⟩
  case seek_key =>
    rintro c _ k ⟨-, -, -, f, h, rfl⟩
    obtain ⟨c', f', g1, g2, g3⟩ := sim_seek_key hf hs c k
    obtain ⟨f'', e1, e2, e3⟩ := hp.seek_key ⟨0, 0⟩ _ k h0
    have e1 : VecChunkCursor.seek_key b.chunks.flatten ⟨0, 0⟩ k = some f'' := e1
    rw [g2] at e1; cases e1
    exact ⟨c', g1, hf, hs, rfl, f', g3, e3⟩
  case step_val =>
    rintro c _ ⟨-, -, -, f, h, rfl⟩ hk
    obtain ⟨c', f', g1, g2, g3⟩ := sim_step_val hf hs h (hlt hk)
    obtain ⟨f'', e1, e2, e3⟩ := hp.step_val f _ ⟨h.ok, rfl⟩ hk
    have e1 : VecChunkCursor.step_val b.chunks.flatten f = some f'' := e1
    rw [g2] at e1; cases e1
    exact ⟨c', g1, hf, hs, rfl, f', g3, e3⟩
  case rewind_keys =>
    rintro c _ ⟨-, -, -, f, h, rfl⟩
    exact ⟨_, rfl, hf, hs, rfl, ⟨0, 0⟩, sim_rewind_keys hf hs c, h0.2⟩
  case rewind_vals =>
    rintro c _ ⟨-, -, -, f, h, rfl⟩ hk
    obtain ⟨c', g1, g2⟩ := sim_rewind_vals hf hs h (hlt hk)
    obtain ⟨f'', e1, e2, e3⟩ := hp.rewind_vals f _ ⟨h.ok, rfl⟩ hk
    have e1 : some ({ f with val_pos := f.key_pos } : VecChunkCursor) = some f'' := e1
    cases e1
    exact ⟨c', g1, hf, hs, rfl, _, g2, e3⟩

theorem chunkCursor_seeksVals (b : ChunkBatch (K ×ₗ V) T R) (t : Contents K V T R) : SeeksVals ChunkBatchCursor.ops b (ChunkPos b t) := by
  rintro c _ v ⟨hf, hs, rfl, f, h, rfl⟩ hk
  have hlt : f.key_pos < b.chunks.flatten.length := by
    by_contra h
    exact hk (posOf_keys_nil.2 (not_lt.1 h))
  obtain ⟨c', f', g1, g2, g3⟩ := sim_seek_val hf hs h hlt v
  obtain ⟨f'', e1, e2, e3⟩ := vecCursor_seeksVals hs f _ v ⟨h.ok, rfl⟩ hk
  have e1 : VecChunkCursor.seek_val b.chunks.flatten f v = some f'' := e1
  rw [g2] at e1; cases e1
  exact ⟨c', g1, hf, hs, rfl, f', g3, e3⟩

end DD
