import Verif.Proofs.ChunkPresents
import Verif.Props.Cursor
import Verif.Proofs.TimeOrd

/-!
# Property C43: cursors over batches of chunks

The chunks of a batch cut its updates into pieces, anywhere: the updates of one key, or even of one value, may straddle several chunks. The cursor
must not show where the cuts are. `Shows`, `Pos.run` and the rest of the vocabulary are those of C18. One thing differs: `seek_key` of these cursors
also moves backwards, so that a position seeks from the first key (`Move.fromStart`). For a user who seeks forwards only (`SeeksForward`), as the
other cursors require, this makes no difference.
-/

namespace DD

section
variable {K V T R : Type*} [LinearOrder K] [LinearOrder V] [DecidableEq T] [LinearOrder (Lin T)] [AddCommMonoid R] [DecidableEq R]

private theorem good_cell {b : ChunkBatch (K ×ₗ V) T R} (hf : Full b.chunks) (hc : Consolidated b.chunks.flatten) :
    Good ChunkBatchCursor.ops ChunkPos true
      ⟨b, toContents b.chunks.flatten, ChunkBatchCursor.init b.chunks, Pos.start (toContents b.chunks.flatten)⟩ := by
  have hs : SortedD b.chunks.flatten := hc.sortedDT.data
  refine ⟨chunkCursor_presents hf hs, ⟨hf, hs, rfl, ⟨0, 0⟩, ?_, ?_⟩, toContents_sorted hs⟩
  · have := sim_rewind_keys hf hs (ChunkBatchCursor.init b.chunks)
    rw [ChunkBatchCursor.rewind_keys, ChunkBatchCursor.goto] at this
    rw [ChunkBatchCursor.init, List.head?_eq_getElem?]
    exact this
  · obtain ⟨c', h1, h2⟩ := (vecCursor_presents hs).rewind_keys ⟨0, 0⟩ _ ⟨vecOk_start (Nat.zero_le _) (by simp), rfl⟩
    cases h1; exact h2.2

/-- C43 for one batch: however its updates are cut into chunks, its cursor presents them as if they were in one piece, under every valid sequence of
moves. -/
theorem C43_batch (b : ChunkBatch (K ×ₗ V) T R) (hf : Full b.chunks) (hc : Consolidated b.chunks.flatten) :
    ∃ t : Contents K V T R, ContentsSorted t ∧ NoEmpty t ∧ t.flatten = (b.chunks.flatten.map fun u => (ofLex u.1, u.2)) ∧
      ∀ (ms : List (Move K V)) (p : Pos K V T R), Pos.run t (Pos.start t) (ms.flatMap Move.fromStart) = some p →
        ∃ c, ChunkBatchCursor.ops.run b (ChunkBatchCursor.init b.chunks) ms = some c ∧ Shows ChunkBatchCursor.ops b c p := by
  have hs : SortedD b.chunks.flatten := hc.sortedDT.data
  have hg := good_cell hf hc
  refine ⟨toContents b.chunks.flatten, toContents_sorted hs, toContents_noEmpty _, toContents_flatten _, fun ms p hr => ?_⟩
  obtain ⟨c, g1, g2⟩ := hg.sim.run_back ms hg.rel (fun _ _ => Or.inr (chunkCursor_seeksVals _ _)) hr
  exact ⟨c, g1, hg.sim.shows g2⟩

/-- C43 for one batch and a user who seeks forwards: exactly the claim of C18 for other batches. -/
theorem C43_batch_forward (b : ChunkBatch (K ×ₗ V) T R) (hf : Full b.chunks) (hc : Consolidated b.chunks.flatten) :
    ∃ t : Contents K V T R, ContentsSorted t ∧ NoEmpty t ∧ t.flatten = (b.chunks.flatten.map fun u => (ofLex u.1, u.2)) ∧
      ∀ (ms : List (Move K V)) (p : Pos K V T R), SeeksForward t (Pos.start t) ms → Pos.run t (Pos.start t) ms = some p →
        ∃ c, ChunkBatchCursor.ops.run b (ChunkBatchCursor.init b.chunks) ms = some c ∧ Shows ChunkBatchCursor.ops b c p := by
  obtain ⟨t, h1, h2, h3, h4⟩ := C43_batch b hf hc
  refine ⟨t, h1, h2, h3, fun ms p hfw hr => h4 ms p ?_⟩
  rw [run_fromStart h1 ms (Pos.in_start (List.suffix_refl _)) hfw]
  exact hr

/-- C43 for several batches: the `CursorList` over their cursors presents the sorted union of their contents, under every valid sequence of moves
other than seeks among values, and also under seeks among values of a key present in all batches. The full claim, for seeks among values of any
key, is false of every `CursorList`: see `C18_seek_val_loses`. -/
theorem C43_list_partial (bs : List (ChunkBatch (K ×ₗ V) T R)) (hb : ∀ b ∈ bs, Full b.chunks ∧ Consolidated b.chunks.flatten) :
    ∃ (ts : List (Contents K V T R)) (u : Contents K V T R) (l : CursorList ChunkBatchCursor),
      (ts.map Contents.flatten) = (bs.map fun b => b.chunks.flatten.map fun u => (ofLex u.1, u.2)) ∧ (∀ t ∈ ts, ContentsSorted t ∧ NoEmpty t) ∧
      IsUnion ts u ∧ u.flatten.Perm (ts.flatMap Contents.flatten) ∧
      CursorList.new ChunkBatchCursor.ops (bs.map fun b => ChunkBatchCursor.init b.chunks) bs = some l ∧
      (∀ (ms : List (Move K V)) (p : Pos K V T R), (∀ m ∈ ms, m.notSeekVal = true) → Pos.run u (Pos.start u) (ms.flatMap Move.fromStart) = some p →
        ∃ l', (CursorList.ops ChunkBatchCursor.ops).run bs l ms = some l' ∧ Shows (CursorList.ops ChunkBatchCursor.ops) bs l' p ∧
          ∀ fuel, u.length < fuel → (∀ kv ∈ u, kv.2.length < fuel) → (CursorList.ops ChunkBatchCursor.ops).toVec bs fuel l' = some u) ∧
      (∀ (ms ms' : List (Move K V)) (k : K) (p : Pos K V T R), (∀ m ∈ ms, m.notSeekVal = true) → (∀ m ∈ ms', m.amongVals = true) →
        ts ≠ [] → (∀ t ∈ ts, ∃ vs, (k, vs) ∈ t) → Pos.run u (Pos.start u) (List.flatMap Move.fromStart (ms ++ [Move.rewindKeys, Move.seekKey k] ++ ms')) = some p →
        ∃ l', (CursorList.ops ChunkBatchCursor.ops).run bs l (ms ++ [.rewindKeys, .seekKey k] ++ ms') = some l' ∧
          Shows (CursorList.ops ChunkBatchCursor.ops) bs l' p) := by
  let xs : List (Cell ChunkBatchCursor (ChunkBatch (K ×ₗ V) T R) K V T R) :=
    bs.map fun b => ⟨b, toContents b.chunks.flatten, ChunkBatchCursor.init b.chunks, Pos.start (toContents b.chunks.flatten)⟩
  have hg : ∀ x ∈ xs, Good ChunkBatchCursor.ops ChunkPos true x := by
    intro x hx
    obtain ⟨b, h1, rfl⟩ := List.mem_map.1 hx
    exact good_cell (hb b h1).1 (hb b h1).2
  have hp : ∀ x ∈ xs, x.p = Pos.start x.t := by
    intro x hx
    obtain ⟨b, h1, rfl⟩ := List.mem_map.1 hx
    rfl
  have es : xs.map (·.s) = bs := by rw [List.map_map]; exact List.map_id' bs
  have et : xs.map (·.t) = bs.map fun b => toContents b.chunks.flatten := by rw [List.map_map]; rfl
  have ec : xs.map (·.c) = bs.map fun b => ChunkBatchCursor.init b.chunks := by rw [List.map_map]; rfl
  obtain ⟨l, hl, hrel⟩ := cursorList_new xs hg hp
  have hsorted : ∀ t ∈ xs.map (·.t), ContentsSorted t := by
    intro t ht
    obtain ⟨x, hx, rfl⟩ := List.mem_map.mp ht
    exact (hg x hx).sorted
  have hpr := cursorList_presents (ops := ChunkBatchCursor.ops) (Rel := ChunkPos (K := K) (V := V) (T := T) (R := R)) (back := true) (xs.map (·.s)) (xs.map (·.t))
  have hmoves : ∀ (ms : List (Move K V)) (p : Pos K V T R), (∀ m ∈ ms, m.notSeekVal = true) →
      Pos.run (unionContents (xs.map (·.t))) (Pos.start (unionContents (xs.map (·.t)))) (ms.flatMap Move.fromStart) = some p →
      ∃ l', (CursorList.ops ChunkBatchCursor.ops).run (xs.map (·.s)) l ms = some l' ∧ ListRel ChunkBatchCursor.ops ChunkPos true (xs.map (·.s)) (xs.map (·.t)) l' p :=
    fun ms p hm hr => hpr.run_back ms hrel (fun m hm' => Or.inl (Move.notSeekVal_iff (hm m hm'))) hr
  refine ⟨xs.map (·.t), unionContents (xs.map (·.t)), l, ?_, ?_, unionContents_union _ hsorted, flatten_unionContents _, ?_, ?_, ?_⟩
  · rw [et, List.map_map]
    exact List.map_congr_left fun b _ => toContents_flatten _
  · intro t ht
    rw [et] at ht
    obtain ⟨b, h1, rfl⟩ := List.mem_map.1 ht
    have hs : SortedD b.chunks.flatten := (hb b h1).2.sortedDT.data
    exact ⟨toContents_sorted hs, toContents_noEmpty _⟩
  · rw [es, ec] at hl; exact hl
  · intro ms p hm hr
    obtain ⟨l', g1, g2⟩ := hmoves ms p hm hr
    have hsh := hpr.shows g2
    have htv := fun fuel h1 h2 => toVec_presents hpr fuel h1 h2 g2
    rw [es] at g1 hsh htv
    exact ⟨l', g1, hsh, htv⟩
  · intro ms ms' k p hm hm' hne hk hr
    rw [List.append_assoc, List.flatMap_append, posRun_append'] at hr
    obtain ⟨p1, r1, r2⟩ := Option.bind_eq_some_iff.1 hr
    obtain ⟨l1, g1, g2⟩ := hmoves ms p1 hm r1
    obtain ⟨l2, l3, k1, k2, k3⟩ := allOnKey_seek g2 k hne hk
    have hfs : ∀ ms' : List (Move K V), (∀ m ∈ ms', m.amongVals = true) → ms'.flatMap Move.fromStart = ms' := by
      intro ms' h
      induction ms' with
      | nil => rfl
      | cons m ms' ih =>
        rw [List.flatMap_cons, ih fun x hx => h x (List.mem_cons_of_mem _ hx)]
        have := h m List.mem_cons_self
        cases m <;> first | rfl | cases this
    rw [List.flatMap_append, hfs ms' hm'] at r2
    have e1 : Pos.run (unionContents (xs.map (·.t))) p1 (List.flatMap Move.fromStart [.rewindKeys, .seekKey k] ++ ms') =
      Pos.run (unionContents (xs.map (·.t))) ((Pos.start (unionContents (xs.map (·.t)))).seekKey k) ms' := rfl
    rw [e1] at r2
    obtain ⟨l4, k4, k5⟩ := k3.run (fun s t _ _ => chunkCursor_seeksVals s t) ms' (fun m h => Move.amongVals_iff (hm' m h)) r2
    have hsh := hpr.shows k5
    rw [es] at hsh
    refine ⟨l4, ?_, hsh⟩
    have : (CursorList.ops ChunkBatchCursor.ops).run (xs.map (·.s)) l (ms ++ ([.rewindKeys, .seekKey k] ++ ms')) = some l4 := by
      rw [cursorRun_append _ _ _ _ g1, cursorRun_append (c' := l3)]
      · exact k4
      · have e1 : (CursorList.ops ChunkBatchCursor.ops).move (xs.map (·.s)) l1 (.rewindKeys : Move K V) = some l2 := k1
        have e2 : (CursorList.ops ChunkBatchCursor.ops).move (xs.map (·.s)) l2 (.seekKey k : Move K V) = some l3 := k2
        rw [CursorOps.run, e1]
        simp only
        rw [CursorOps.run, e2]
        rfl
    rw [es] at this
    rw [List.append_assoc]
    exact this

end

/-! ### Non-vacuity -/

/-- The key 1 straddles three chunks, and so does its value 2. -/
private def straddling : ChunkBatch (Nat ×ₗ Nat) Nat Int :=
  ⟨[[(toLex (0, 7), 0, 1), (toLex (1, 1), 0, 1), (toLex (1, 2), 0, 1)], [(toLex (1, 2), 1, 1), (toLex (1, 2), 2, -1)],
    [(toLex (1, 2), 3, 1), (toLex (1, 5), 0, 1), (toLex (2, 0), 0, 1)], [(toLex (4, 4), 1, 1)]], ⟨[0], [4], [0]⟩⟩

private theorem straddling_ok : Full straddling.chunks ∧ Consolidated straddling.chunks.flatten :=
  ⟨by unfold Full straddling; decide +kernel, by unfold Consolidated straddling; decide +kernel⟩

/-- What the cursor shows after some moves. -/
private def look (ms : List (Move Nat Nat)) : Option (Option Nat × Option Nat × Option (List (Nat × Int))) :=
  match ChunkBatchCursor.ops.run straddling (ChunkBatchCursor.init straddling.chunks) ms with
  | none => none
  | some c => some (ChunkBatchCursor.ops.key straddling c, ChunkBatchCursor.ops.val straddling c, ChunkBatchCursor.ops.map_times straddling c)

set_option synthInstance.maxSize 2000 in
example : look [.seekKey 1, .stepVal] = some (some 1, some 2, some [(0, 1), (1, 1), (2, -1), (3, 1)]) ∧
    look [.seekKey 1, .seekVal 3] = some (some 1, some 5, some [(0, 1)]) ∧
    look [.seekKey 1, .seekVal 3, .rewindVals] = some (some 1, some 1, some [(0, 1)]) ∧
    look [.seekKey 1, .stepVal, .stepKey] = some (some 2, some 0, some [(0, 1)]) ∧
    look [.seekKey 3] = some (some 4, some 4, some [(1, 1)]) ∧
    look [.seekKey 3, .seekKey 1] = some (some 1, some 1, some [(0, 1)]) := by decide +kernel

/-- A valid sequence of moves, with forward seeks only, that ends on the value that straddles the chunks. -/
example : ∃ t : Contents Nat Nat Nat Int, t.flatten = (straddling.chunks.flatten.map fun u => (ofLex u.1, u.2)) ∧
    SeeksForward t (Pos.start t) [.stepKey, .seekKey 1, .stepVal] ∧
    (Pos.run t (Pos.start t) [.stepKey, .seekKey 1, .stepVal]).map (fun p => (p.key?, p.val?)) = some (some 1, some 2) := by
  refine ⟨[(0, [(7, [(0, 1)])]), (1, [(1, [(0, 1)]), (2, [(0, 1), (1, 1), (2, -1), (3, 1)]), (5, [(0, 1)])]), (2, [(0, [(0, 1)])]), (4, [(4, [(1, 1)])])],
    by decide +kernel, ?_, by decide +kernel⟩
  refine ⟨(by rintro k hk; cases hk), fun p' h => ?_⟩
  cases h
  refine ⟨?_, fun p' h => ?_⟩
  · intro k hk; cases hk; decide +kernel
  · exact ⟨(by rintro k hk; cases hk), fun _ _ => trivial⟩

end DD
