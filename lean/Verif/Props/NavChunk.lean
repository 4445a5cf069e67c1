import Verif.Proofs.NavChunk
import Verif.Proofs.ColCursor
import Verif.Props.ChunkHarness
import Verif.Props.ChunkCursor

/-!
# Property C65: cursors over columnar chunks, and over batches of chunks of any type

The claim of C43, for batches of chunks of every type whose own cursors behave (`NavContract`), and that columnar chunks are of such a type.
-/

namespace DD
set_option linter.unusedSectionVars false

section generic
variable {I C K V T R : Type*} [LinearOrder K] [LinearOrder V] [DecidableEq T] [LinearOrder (Lin T)] [AddCommMonoid R] [DecidableEq R]
variable {nav : NavOps I C K V T R} {contents : C → Contents K V T R} {Rel : C → I → Pos K V T R → Prop}

theorem nav_good {b : BatchOf C T} (hb : ∀ c ∈ b.chunks, NavContract nav contents Rel c) (hc : Consolidated (b.chunks.flatMap fun c => (contents c).upds)) :
    Good (BatchCursor.ops nav) (BatchPos nav contents Rel) true
      ⟨b, toContents (b.chunks.flatMap (updsOf contents)), BatchCursor.init nav b.chunks, Pos.start (toContents (b.chunks.flatMap (updsOf contents)))⟩ := by
  have hs : SortedD (b.chunks.flatMap (updsOf contents)) := hc.sortedDT.data
  have he : (listBatch contents b).chunks.flatten = b.chunks.flatMap (updsOf contents) := by rw [listBatch]; simp only; rw [← List.flatMap_def]
  have hs' : SortedD (listBatch contents b).chunks.flatten := he ▸ hs
  have hf := full_listBatch hb
  refine ⟨batchCursor_presents hb hs, ⟨hb, hs, ChunkBatchCursor.init (listBatch contents b).chunks, ?_, ?_⟩, toContents_sorted hs⟩
  · refine ⟨rfl, rfl, ?_⟩
    simp only [BatchCursor.init, ChunkBatchCursor.init, listBatch, List.head?_eq_getElem?, List.getElem?_map]
    cases hg : b.chunks[0]? with
    | none => exact Or.inl ⟨rfl, rfl, rfl⟩
    | some ch => exact Or.inr ⟨ch, _, _, rfl, rfl, rfl, nav_cursor (hb ch (List.mem_of_getElem? hg))⟩
  · refine ⟨hf, hs', by rw [he], ⟨0, 0⟩, ?_, ?_⟩
    · have := sim_rewind_keys hf hs' (ChunkBatchCursor.init (listBatch contents b).chunks)
      rw [ChunkBatchCursor.rewind_keys, ChunkBatchCursor.goto] at this
      rw [ChunkBatchCursor.init, List.head?_eq_getElem?]
      exact this
    · obtain ⟨c', h1, h2⟩ := (vecCursor_presents hs').rewind_keys ⟨0, 0⟩ _ ⟨vecOk_start (Nat.zero_le _) (by simp), rfl⟩
      cases h1
      rw [← he]
      exact h2.2

/-- C65 for one batch of chunks of any type: however the updates are cut into chunks, the cursor presents them as if they were in one piece, under every valid
sequence of moves. -/
theorem C65_batch (b : BatchOf C T) (hb : ∀ c ∈ b.chunks, NavContract nav contents Rel c) (hc : Consolidated (b.chunks.flatMap fun c => (contents c).upds)) :
    ∃ t : Contents K V T R, ContentsSorted t ∧ NoEmpty t ∧ t.flatten = ((b.chunks.flatMap fun c => (contents c).upds).map fun u => (ofLex u.1, u.2)) ∧
      ∀ (ms : List (Move K V)) (p : Pos K V T R), Pos.run t (Pos.start t) (ms.flatMap Move.fromStart) = some p →
        ∃ c, (BatchCursor.ops nav).run b (BatchCursor.init nav b.chunks) ms = some c ∧ Shows (BatchCursor.ops nav) b c p := by
  have hs : SortedD (b.chunks.flatMap (updsOf contents)) := hc.sortedDT.data
  have hg := nav_good hb hc
  refine ⟨_, toContents_sorted hs, toContents_noEmpty _, toContents_flatten _, fun ms p hr => ?_⟩
  obtain ⟨c, g1, g2⟩ := hg.sim.run_back ms hg.rel (fun _ _ => Or.inr (batchCursor_seeksVals _ _)) hr
  exact ⟨c, g1, hg.sim.shows g2⟩

/-- C65 for one batch and a user who seeks forwards: exactly the claim of C18 for other batches. -/
theorem C65_batch_forward (b : BatchOf C T) (hb : ∀ c ∈ b.chunks, NavContract nav contents Rel c) (hc : Consolidated (b.chunks.flatMap fun c => (contents c).upds)) :
    ∃ t : Contents K V T R, ContentsSorted t ∧ NoEmpty t ∧ t.flatten = ((b.chunks.flatMap fun c => (contents c).upds).map fun u => (ofLex u.1, u.2)) ∧
      ∀ (ms : List (Move K V)) (p : Pos K V T R), SeeksForward t (Pos.start t) ms → Pos.run t (Pos.start t) ms = some p →
        ∃ c, (BatchCursor.ops nav).run b (BatchCursor.init nav b.chunks) ms = some c ∧ Shows (BatchCursor.ops nav) b c p := by
  obtain ⟨t, h1, h2, h3, h4⟩ := C65_batch b hb hc
  refine ⟨t, h1, h2, h3, fun ms p hfw hr => h4 ms p ?_⟩
  rw [run_fromStart h1 ms (Pos.in_start (List.suffix_refl _)) hfw]
  exact hr

/-- C65 for several batches: the `CursorList` over their cursors presents the sorted union of their contents, under every valid sequence of moves
other than seeks among values, and also under seeks among values of a key present in all batches. The full claim, for seeks among values of any
key, is false of every `CursorList`: see `C18_seek_val_loses`. -/
theorem C65_list_partial (bs : List (BatchOf C T)) (hb : ∀ b ∈ bs, (∀ c ∈ b.chunks, NavContract nav contents Rel c) ∧ Consolidated (b.chunks.flatMap fun c => (contents c).upds)) :
    ∃ (ts : List (Contents K V T R)) (u : Contents K V T R) (l : CursorList (BatchCursor I)),
      (ts.map Contents.flatten) = (bs.map fun b => (b.chunks.flatMap fun c => (contents c).upds).map fun u => (ofLex u.1, u.2)) ∧ (∀ t ∈ ts, ContentsSorted t ∧ NoEmpty t) ∧
      IsUnion ts u ∧ u.flatten.Perm (ts.flatMap Contents.flatten) ∧
      CursorList.new (BatchCursor.ops nav) (bs.map fun b => BatchCursor.init nav b.chunks) bs = some l ∧
      (∀ (ms : List (Move K V)) (p : Pos K V T R), (∀ m ∈ ms, m.notSeekVal = true) → Pos.run u (Pos.start u) (ms.flatMap Move.fromStart) = some p →
        ∃ l', (CursorList.ops (BatchCursor.ops nav)).run bs l ms = some l' ∧ Shows (CursorList.ops (BatchCursor.ops nav)) bs l' p ∧
          ∀ fuel, u.length < fuel → (∀ kv ∈ u, kv.2.length < fuel) → (CursorList.ops (BatchCursor.ops nav)).toVec bs fuel l' = some u) ∧
      (∀ (ms ms' : List (Move K V)) (k : K) (p : Pos K V T R), (∀ m ∈ ms, m.notSeekVal = true) → (∀ m ∈ ms', m.amongVals = true) →
        ts ≠ [] → (∀ t ∈ ts, ∃ vs, (k, vs) ∈ t) → Pos.run u (Pos.start u) (List.flatMap Move.fromStart (ms ++ [Move.rewindKeys, Move.seekKey k] ++ ms')) = some p →
        ∃ l', (CursorList.ops (BatchCursor.ops nav)).run bs l (ms ++ [.rewindKeys, .seekKey k] ++ ms') = some l' ∧
          Shows (CursorList.ops (BatchCursor.ops nav)) bs l' p) := by
  let xs : List (Cell (BatchCursor I) (BatchOf C T) K V T R) :=
    bs.map fun b => ⟨b, toContents (b.chunks.flatMap (updsOf contents)), BatchCursor.init nav b.chunks, Pos.start (toContents (b.chunks.flatMap (updsOf contents)))⟩
  have hg : ∀ x ∈ xs, Good (BatchCursor.ops nav) (BatchPos nav contents Rel) true x := by
    intro x hx
    obtain ⟨b, h1, rfl⟩ := List.mem_map.1 hx
    exact nav_good (hb b h1).1 (hb b h1).2
  have hp : ∀ x ∈ xs, x.p = Pos.start x.t := by
    intro x hx
    obtain ⟨b, h1, rfl⟩ := List.mem_map.1 hx
    rfl
  have es : xs.map (·.s) = bs := by rw [List.map_map]; exact List.map_id' bs
  have et : xs.map (·.t) = bs.map fun b => toContents (b.chunks.flatMap (updsOf contents)) := by rw [List.map_map]; rfl
  have ec : xs.map (·.c) = bs.map fun b => BatchCursor.init nav b.chunks := by rw [List.map_map]; rfl
  obtain ⟨l, hl, hrel⟩ := cursorList_new xs hg hp
  have hsorted : ∀ t ∈ xs.map (·.t), ContentsSorted t := by
    intro t ht
    obtain ⟨x, hx, rfl⟩ := List.mem_map.mp ht
    exact (hg x hx).sorted
  have hpr := cursorList_presents (ops := BatchCursor.ops nav) (Rel := BatchPos nav contents Rel) (back := true) (xs.map (·.s)) (xs.map (·.t))
  have hmoves : ∀ (ms : List (Move K V)) (p : Pos K V T R), (∀ m ∈ ms, m.notSeekVal = true) →
      Pos.run (unionContents (xs.map (·.t))) (Pos.start (unionContents (xs.map (·.t)))) (ms.flatMap Move.fromStart) = some p →
      ∃ l', (CursorList.ops (BatchCursor.ops nav)).run (xs.map (·.s)) l ms = some l' ∧ ListRel (BatchCursor.ops nav) (BatchPos nav contents Rel) true (xs.map (·.s)) (xs.map (·.t)) l' p :=
    fun ms p hm hr => hpr.run_back ms hrel (fun m hm' => Or.inl (Move.notSeekVal_iff (hm m hm'))) hr
  refine ⟨xs.map (·.t), unionContents (xs.map (·.t)), l, ?_, ?_, unionContents_union _ hsorted, flatten_unionContents _, ?_, ?_, ?_⟩
  · rw [et, List.map_map]
    exact List.map_congr_left fun b _ => toContents_flatten _
  · intro t ht
    rw [et] at ht
    obtain ⟨b, h1, rfl⟩ := List.mem_map.1 ht
    have hs : SortedD (b.chunks.flatMap (updsOf contents)) := (hb b h1).2.sortedDT.data
    exact ⟨toContents_sorted hs, toContents_noEmpty _⟩
  · rw [es, ec] at hl; exact hl
  · intro ms p hm hr
    obtain ⟨l', g1, g2⟩ := hmoves ms p hm hr
    have hsh := hpr.shows g2
    have htv := fun fuel h1 h2 => toVec_presents hpr fuel h1 h2 g2
    rw [es] at g1 hsh htv
    exact ⟨l', g1, hsh, htv⟩
  · intro ms ms' k p hm hm' hne hk hr
    rw [List.append_assoc, List.flatMap_append, posRun_append'] at hr
    obtain ⟨p1, r1, r2⟩ := Option.bind_eq_some_iff.1 hr
    obtain ⟨l1, g1, g2⟩ := hmoves ms p1 hm r1
    obtain ⟨l2, l3, k1, k2, k3⟩ := allOnKey_seek g2 k hne hk
    have hfs : ∀ ms' : List (Move K V), (∀ m ∈ ms', m.amongVals = true) → ms'.flatMap Move.fromStart = ms' := by
      intro ms' h
      induction ms' with
      | nil => rfl
      | cons m ms' ih =>
        rw [List.flatMap_cons, ih fun x hx => h x (List.mem_cons_of_mem _ hx)]
        have := h m List.mem_cons_self
        cases m <;> first | rfl | cases this
    rw [List.flatMap_append, hfs ms' hm'] at r2
    have e1 : Pos.run (unionContents (xs.map (·.t))) p1 (List.flatMap Move.fromStart [.rewindKeys, .seekKey k] ++ ms') =
      Pos.run (unionContents (xs.map (·.t))) ((Pos.start (unionContents (xs.map (·.t)))).seekKey k) ms' := rfl
    rw [e1] at r2
    obtain ⟨l4, k4, k5⟩ := k3.run (fun s t _ _ => batchCursor_seeksVals s t) ms' (fun m h => Move.amongVals_iff (hm' m h)) r2
    have hsh := hpr.shows k5
    rw [es] at hsh
    refine ⟨l4, ?_, hsh⟩
    have : (CursorList.ops (BatchCursor.ops nav)).run (xs.map (·.s)) l (ms ++ ([.rewindKeys, .seekKey k] ++ ms')) = some l4 := by
      rw [cursorRun_append _ _ _ _ g1, cursorRun_append (c' := l3)]
      · exact k4
      · have e1 : (CursorList.ops (BatchCursor.ops nav)).move (xs.map (·.s)) l1 (.rewindKeys : Move K V) = some l2 := k1
        have e2 : (CursorList.ops (BatchCursor.ops nav)).move (xs.map (·.s)) l2 (.seekKey k : Move K V) = some l3 := k2
        rw [CursorOps.run, e1]
        simp only
        rw [CursorOps.run, e2]
        rfl
    rw [es] at this
    rw [List.append_assoc]
    exact this

end generic

/-! ### Columnar chunks -/

section columnar
variable {K V T R : Type*} [LinearOrder K] [LinearOrder V]

/-- The contents of a columnar chunk, read by its iterator. -/
def colContents (t : ColTrie K V T R) : Contents K V T R := toContents (colView t)

theorem colContents_holds {t : ColTrie K V T R} {us : Upds (K ×ₗ V) T R} (h : t.Holds us) : colContents t = toContents us := by rw [colContents, colView, iter_holds h]; rfl

/-- C65, columnar chunks: a chunk that holds some updates meets the contract. -/
theorem C65_columnar {t : ColTrie K V T R} {us : Upds (K ×ₗ V) T R} (h : t.Holds us) (hne : us ≠ []) :
    NavContract colNav colContents (fun t => ColPos (colContents t)) t ∧ (colContents t).upds = us := by
  have hb := C63_bounds h hne
  have he := colContents_holds h
  obtain ⟨c, h1, h2, rfl, rfl⟩ := h
  rw [toContents_upds ⟨h1, h2⟩] at he
  have hc : c ≠ [] := by rintro rfl; exact hne rfl
  refine ⟨⟨by rw [he]; exact h1, by rw [he]; exact h2, by rw [he]; exact hc, ?_, ?_, ?_, c.upds.head hne, c.upds.getLast hne, ?_, ?_, hb⟩, by rw [he]⟩
  · rw [he]; exact colCursor_presents (colOf_forest c) h1
  · rw [he]; exact colCursor_seeksVals (colOf_forest c) h1
  · rw [he]; exact colPos_start c (List.length_pos_iff.2 hc)
  · rw [he]; exact List.head?_eq_some_head hne
  · rw [he]; exact List.getLast?_eq_some_getLast hne

/-- C65, a cursor over one columnar chunk: every valid sequence of moves shows the updates it holds. Seeks go forwards only. -/
theorem C65_col_chunk {t : ColTrie K V T R} {us : Upds (K ×ₗ V) T R} (h : t.Holds us) :
    ∃ c : Contents K V T R, ContentsSorted c ∧ NoEmpty c ∧ c.flatten = (us.map fun u => (ofLex u.1, u.2)) ∧
      ∀ (ms : List (Move K V)) (p : Pos K V T R), Pos.run c (Pos.start c) ms = some p → ∃ x, ColChunkCursor.ops.run t ColChunkCursor.init ms = some x ∧ Shows ColChunkCursor.ops t x p := by
  obtain ⟨c, h1, h2, rfl, rfl⟩ := h
  refine ⟨c, h1, h2, ?_, fun ms p hr => ?_⟩
  · rw [← toContents_flatten, toContents_upds ⟨h1, h2⟩]
  · have hp := colCursor_presents (colOf_forest c) h1
    have hst : ColPos c ColChunkCursor.init (Pos.start c) := by
      by_cases hc : c = []
      · subst hc; exact colPos_end [] 0
      · exact colPos_start c (List.length_pos_iff.2 hc)
    obtain ⟨x, g1, g2⟩ := hp.run ms hst (fun _ _ => Or.inr (colCursor_seeksVals (colOf_forest c) h1)) hr
    exact ⟨x, g1, hp.shows g2⟩

variable [DecidableEq T] [LinearOrder (Lin T)] [AddCommMonoid R] [DecidableEq R]

theorem col_all {cs : List (ColTrie K V T R)} {U : Chain (K ×ₗ V) T R} (h : HoldsAll cs U) (hf : Full U) :
    (∀ c ∈ cs, NavContract colNav colContents (fun t => ColPos (colContents t)) c) ∧ (cs.flatMap fun c => (colContents c).upds) = U.flatten := by
  induction h with
  | nil => exact ⟨by simp, rfl⟩
  | cons h1 h2 ih =>
    obtain ⟨g1, g2⟩ := ih fun x hx => hf x (List.mem_cons_of_mem _ hx)
    obtain ⟨g3, g4⟩ := C65_columnar h1 (hf _ List.mem_cons_self)
    refine ⟨?_, by rw [List.flatMap_cons, List.flatten_cons, g2, g4]⟩
    intro c hc
    rcases List.mem_cons.1 hc with rfl | hc
    · exact g3
    · exact g1 c hc

/-- C65 for one batch of columnar chunks. -/
theorem C65_columnar_batch (b : BatchOf (ColTrie K V T R) T) {U : Chain (K ×ₗ V) T R} (h : HoldsAll b.chunks U) (hf : Full U) (hc : Consolidated U.flatten) :
    ∃ t : Contents K V T R, ContentsSorted t ∧ NoEmpty t ∧ t.flatten = (U.flatten.map fun u => (ofLex u.1, u.2)) ∧
      ∀ (ms : List (Move K V)) (p : Pos K V T R), Pos.run t (Pos.start t) (ms.flatMap Move.fromStart) = some p →
        ∃ c, (BatchCursor.ops colNav).run b (BatchCursor.init colNav b.chunks) ms = some c ∧ Shows (BatchCursor.ops colNav) b c p := by
  obtain ⟨g1, g2⟩ := col_all h hf
  rw [← g2] at hc ⊢
  exact C65_batch b g1 hc

end columnar

/-! ### Non-vacuity -/

section examples

/-- The key 1 and its value 2 straddle the two chunks. -/
example : HoldsAll exCB1.chunks exU1 ∧ Full exU1 ∧ Consolidated exU1.flatten :=
  ⟨.cons exT1_holds (.cons exT2_holds .nil), by unfold Full; decide +kernel, ⟨by decide +kernel, by decide +kernel⟩⟩

example : NavContract colNav colContents (fun t => ColPos (colContents t)) exT1 := (C65_columnar exT1_holds (by decide +kernel)).1

private def lookCol (ms : List (Move Nat Nat)) : Option (Option Nat × Option Nat × Option (List (Nat × Int))) :=
  ((BatchCursor.ops colNav).run exCB1 (BatchCursor.init colNav exCB1.chunks) ms).map fun c =>
    ((BatchCursor.ops colNav).key exCB1 c, (BatchCursor.ops colNav).val exCB1 c, (BatchCursor.ops colNav).map_times exCB1 c)

set_option synthInstance.maxSize 2000 in
example : lookCol [.stepVal] = some (some 1, some 2, some [(0, 1), (3, 2), (5, 1)]) ∧ lookCol [.seekVal 2] = some (some 1, some 2, some [(0, 1), (3, 2), (5, 1)]) ∧
    lookCol [.stepKey] = some (some 4, some 1, some [(2, 1)]) ∧ lookCol [.seekKey 3, .seekKey 1] = some (some 1, some 1, some [(0, 1)]) ∧
    lookCol [.seekVal 2, .rewindVals] = some (some 1, some 1, some [(0, 1)]) := by decide +kernel

set_option synthInstance.maxSize 2000 in
example : ((ColChunkCursor.ops.run exT1 ColChunkCursor.init [.seekVal 2]).bind fun c => ColChunkCursor.ops.map_times exT1 c) = some [(0, 1), (3, 2)] := by decide +kernel

end examples

end DD
