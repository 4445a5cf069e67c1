import Verif.Proofs.TraceCursor
import Verif.Props.Spine
import Verif.Props.ChunkSpine
import Verif.Props.ChunkCursor

/-!
# Property C44: reading a trace

What a user sees when they navigate a trace through its cursor, after any history of insertions, compaction and merge effort, has the counts of what
was inserted. This puts together C15/C16 (the batches of a spine) and C18/C43 (the cursors over batches).
-/

namespace DD

section
variable {B M S C K V T D R : Type*} [LinearOrder K] [LinearOrder V] [Lattice T] [OrderBot T] [DecidableLE T] [DecidableEq T] [AddCommMonoid R]
  {ops : BatchOps B M T} (L : BatchLaws ops D R) (cops : CursorOps C S K V T R) (storage : B → S) (cursor : S → C) (emb : K → V → D)

/-- The batches can be read: a cursor over any of them reads contents with the counts they contribute. -/
private def Readable : Prop := ∀ bs : List B, (∀ b ∈ bs, L.Ok b) → ∃ l u, cursorList cops cursor (bs.map storage) = some (l, bs.map storage) ∧
  Reads (CursorList.ops cops) (bs.map storage) l u ∧ ∀ k v q, Contents.count u k v q = (bs.map fun b => L.acc b (emb k v) q).sum

variable {L cops storage cursor emb}

private theorem read_through (hread : Readable L cops storage cursor emb) (effort : Nat) (os : List (Spine.Op B T)) (hleg : Spine.Legal L [⊥] [⊥] [⊥] os)
    (hlen : (((Spine.inserted ops [⊥] os).map ops.len).sum : Int) < isizeMax) (s : Spine B M T)
    (hs : (Spine.init effort : Spine B M T).run ops os = some s) (before after : List B)
    (hsplit : Spine.inserted ops [⊥] os = before ++ after) (F : List T) (hF : F.Perm (Spine.boundary ops before))
    (hphys : FrontierLe s.physical_frontier F) (hlog : s.logical_frontier ≠ []) :
    ∃ l ss u, s.cursorThrough ops cops storage cursor F = some (l, ss) ∧ Reads (CursorList.ops cops) ss l u ∧
      ∀ k v q, Beyond s.logical_frontier q → (∀ b ∈ before, Beyond (L.since b) q) →
        Contents.count u k v q = (before.map fun b => L.acc b (emb k v) q).sum := by
  obtain ⟨-, -, bs, h1, h2⟩ := C16_batches_through L effort os hleg hlen s hs before after hsplit F hF hphys hlog
  obtain ⟨s', h, hinv, -⟩ := run_spine L effort os hleg hlen
  rw [hs] at h; cases h
  obtain ⟨l, u, g1, g2, g3⟩ := hread bs fun b hb => hinv.mapBatches.ok hinv.ok b (batchesThrough_mem h1 b hb)
  refine ⟨l, bs.map storage, u, ?_, g2, fun k v q hq hb => ?_⟩
  · rw [Spine.cursorThrough, h1]; exact g1
  · rw [g3, h2 _ q hq hb]

private theorem read_all (hread : Readable L cops storage cursor emb) (effort : Nat) (os : List (Spine.Op B T)) (hleg : Spine.Legal L [⊥] [⊥] [⊥] os)
    (hlen : (((Spine.inserted ops [⊥] os).map ops.len).sum : Int) < isizeMax) (s : Spine B M T)
    (hs : (Spine.init effort : Spine B M T).run ops os = some s) (hlog : s.logical_frontier ≠ []) :
    ∃ l ss u, s.cursor ops cops storage cursor = some (l, ss) ∧ Reads (CursorList.ops cops) ss l u ∧
      ∀ k v q, Beyond s.logical_frontier q → (∀ b ∈ Spine.inserted ops [⊥] os, Beyond (L.since b) q) →
        Contents.count u k v q = ((Spine.inserted ops [⊥] os).map fun b => L.acc b (emb k v) q).sum := by
  have h1 := batchesThrough_nil (ops := ops) hlog
  have h2 := (C15_contents L effort os hleg hlen s hs).2.2
  obtain ⟨s', h, hinv, -⟩ := run_spine L effort os hleg hlen
  rw [hs] at h; cases h
  have hok := hinv.mapBatches.ok hinv.ok
  obtain ⟨l, u, g1, g2, g3⟩ := hread _ fun b hb => hok b (batchesThrough_mem h1 b hb)
  refine ⟨l, _, u, ?_, g2, fun k v q hq hb => ?_⟩
  · rw [Spine.cursor, Spine.cursorThrough, h1]; exact g1
  · rw [g3, sum_filter_len (L := L) _ hok, h2 _ q hq hb]

end

section
variable {K V T R : Type*} [LinearOrder K] [LinearOrder V] [DecidableEq T] [Lattice T] [OrderBot T] [DecidableLE T] [LinearOrder (Lin T)]
  [AddCommMonoid R] [DecidableEq R]

private theorem val_readable : Readable (ValBatch.laws (K := K) (V := V) (T := T) (R := R)) ValCursor.ops (·.storage) (fun _ => ValCursor.init)
    (fun k v => toLex (k, v)) := by
  intro bs hb
  obtain ⟨ts, h1, -, u, l, h2, -, h3, h4, -⟩ := C18_val_list_partial bs fun b h => (hb b h).1
  refine ⟨l, u, ?_, ⟨h2.sorted, fun ms p hm _ hr => ?_⟩, fun k v q => ?_⟩
  · rw [cursorList, h3]
  · refine h4 ms p (fun m hm' => ?_) hr
    cases m with
    | seekVal v => exact absurd rfl (hm _ hm' v)
    | _ => rfl
  · rw [h2.count]
    have e : ∀ (bs : List (ValBatch K V T R)) (ts : List (Contents K V T R)), (bs.map fun b => b.storage.readAll) = (ts.map fun t => some (flattenTrie t)) →
        (ts.map fun t => Contents.count t k v q) = bs.map fun b => ValBatch.acc b (toLex (k, v)) q := by
      intro bs
      induction bs with
      | nil => intro ts h; cases ts with | nil => rfl | cons t ts => cases h
      | cons b bs ih =>
        intro ts h
        cases ts with
        | nil => cases h
        | cons t ts =>
          rw [List.map_cons, List.map_cons, List.cons.injEq] at h
          rw [List.map_cons, List.map_cons, ih ts h.2, ValBatch.acc_eq h.1, count_eq_accum]
          congr 2
          rw [Contents.flatten, flattenTrie, List.map_flatMap]
          congr 1; funext kv
          rw [List.map_flatMap]
          congr 1; funext vu
          rw [List.map_map]; rfl
    rw [e bs ts h1]; rfl

/-- C44 for traces of key-value batches: at each frontier between inserted batches, `cursor_through` yields a cursor with the counts of the batches
inserted before it. -/
theorem C44_val_through (effort : Nat) (os : List (Spine.Op (ValBatch K V T R) T)) (hleg : Spine.Legal ValBatch.laws [⊥] [⊥] [⊥] os)
    (hlen : ((((Spine.inserted ValBatch.ops [⊥] os).map ValBatch.updates).sum : Nat) : Int) < isizeMax)
    (s : Spine (ValBatch K V T R) (ValMerger K V T R) T) (hs : (Spine.init effort).run ValBatch.ops os = some s)
    (before after : List (ValBatch K V T R)) (hsplit : Spine.inserted ValBatch.ops [⊥] os = before ++ after) (F : List T)
    (hF : F.Perm (Spine.boundary ValBatch.ops before)) (hphys : FrontierLe s.physical_frontier F) (hlog : s.logical_frontier ≠ []) :
    ∃ l ss u, s.cursorThrough ValBatch.ops ValCursor.ops (·.storage) (fun _ => ValCursor.init) F = some (l, ss) ∧
      Reads (CursorList.ops ValCursor.ops) ss l u ∧
      ∀ k v q, Beyond s.logical_frontier q → (∀ b ∈ before, Beyond b.description.since q) →
        Contents.count u k v q = (before.map fun b => ValBatch.acc b (toLex (k, v)) q).sum :=
  read_through val_readable effort os hleg hlen s hs before after hsplit F hF hphys hlog

/-- C44 for traces of key-value batches: `cursor` yields a cursor with the counts of all inserted batches. -/
theorem C44_val_cursor (effort : Nat) (os : List (Spine.Op (ValBatch K V T R) T)) (hleg : Spine.Legal ValBatch.laws [⊥] [⊥] [⊥] os)
    (hlen : ((((Spine.inserted ValBatch.ops [⊥] os).map ValBatch.updates).sum : Nat) : Int) < isizeMax)
    (s : Spine (ValBatch K V T R) (ValMerger K V T R) T) (hs : (Spine.init effort).run ValBatch.ops os = some s) (hlog : s.logical_frontier ≠ []) :
    ∃ l ss u, s.cursor ValBatch.ops ValCursor.ops (·.storage) (fun _ => ValCursor.init) = some (l, ss) ∧
      Reads (CursorList.ops ValCursor.ops) ss l u ∧
      ∀ k v q, Beyond s.logical_frontier q → (∀ b ∈ Spine.inserted ValBatch.ops [⊥] os, Beyond b.description.since q) →
        Contents.count u k v q = ((Spine.inserted ValBatch.ops [⊥] os).map fun b => ValBatch.acc b (toLex (k, v)) q).sum :=
  read_all val_readable effort os hleg hlen s hs hlog

private theorem keyBatch_readable : Readable (KeyBatch.laws (K := K) (T := T) (R := R)) KeyCursor.ops (·.storage) (fun _ => KeyCursor.init)
    (fun k _ => k) := by
  intro bs hb
  obtain ⟨ts, h1, -, u, l, h2, -, h3, h4, -⟩ := C18_key_list_partial bs fun b h => (hb b h).1
  refine ⟨l, u, ?_, ⟨h2.sorted, fun ms p hm _ hr => ?_⟩, fun k v q => ?_⟩
  · rw [cursorList, h3]
  · refine h4 ms p (fun m hm' => ?_) hr
    cases m with
    | seekVal v => exact absurd rfl (hm _ hm' v)
    | _ => rfl
  · rw [h2.count, List.map_map]
    have e : ∀ (bs : List (KeyBatch K T R)) (ts : List (List (K × List (T × R)))),
        (bs.map fun b => b.storage.readAll) = (ts.map fun t => some (t.flatMap fun kv => kv.2.map fun u => (kv.1, u.1, u.2))) →
        (ts.map ((fun t => Contents.count t k v q) ∘ fun t => t.map fun kv => (kv.1, [((), kv.2)]))) = bs.map fun b => KeyBatch.acc b k q := by
      intro bs
      induction bs with
      | nil => intro ts h; cases ts with | nil => rfl | cons t ts => cases h
      | cons b bs ih =>
        intro ts h
        cases ts with
        | nil => cases h
        | cons t ts =>
          rw [List.map_cons, List.map_cons, List.cons.injEq] at h
          rw [List.map_cons, List.map_cons, ih ts h.2, KeyBatch.acc_eq h.1]
          congr 1
          show Contents.count (t.map fun kv => (kv.1, [((), kv.2)])) k v q = _
          clear * -
          induction t with
          | nil => rfl
          | cons kv t ih =>
            rw [List.flatMap_cons, accum_append', ← ih, Contents.count, Contents.count, Contents.at, List.map_cons, List.flatMap_cons, List.map_append, List.sum_append]
            congr 1
            obtain ⟨k', us⟩ := kv
            by_cases hk : k' = k
            · subst hk
              simp only [if_true, List.flatMap_cons, List.flatMap_nil, List.append_nil, accum, List.map_map]
              congr 1
              apply List.map_congr_left
              intro x _
              simp
            · simp only [hk, if_false, List.map_nil, List.sum_nil, accum, List.map_map]
              symm
              apply List.sum_eq_zero
              intro x hx
              obtain ⟨y, _, rfl⟩ := List.mem_map.1 hx
              simp [hk]
    rw [e bs ts h1]; rfl

/-- C44 for traces of key-only batches. -/
theorem C44_key_through (effort : Nat) (os : List (Spine.Op (KeyBatch K T R) T)) (hleg : Spine.Legal KeyBatch.laws [⊥] [⊥] [⊥] os)
    (hlen : ((((Spine.inserted KeyBatch.ops [⊥] os).map KeyBatch.updates).sum : Nat) : Int) < isizeMax)
    (s : Spine (KeyBatch K T R) (KeyMerger K T R) T) (hs : (Spine.init effort).run KeyBatch.ops os = some s)
    (before after : List (KeyBatch K T R)) (hsplit : Spine.inserted KeyBatch.ops [⊥] os = before ++ after) (F : List T)
    (hF : F.Perm (Spine.boundary KeyBatch.ops before)) (hphys : FrontierLe s.physical_frontier F) (hlog : s.logical_frontier ≠ []) :
    ∃ l ss u, s.cursorThrough KeyBatch.ops KeyCursor.ops (·.storage) (fun _ => KeyCursor.init) F = some (l, ss) ∧
      Reads (CursorList.ops KeyCursor.ops) ss l u ∧
      ∀ k q, Beyond s.logical_frontier q → (∀ b ∈ before, Beyond b.description.since q) →
        Contents.count u k () q = (before.map fun b => KeyBatch.acc b k q).sum := by
  obtain ⟨l, ss, u, h1, h2, h3⟩ := read_through keyBatch_readable effort os hleg hlen s hs before after hsplit F hF hphys hlog
  exact ⟨l, ss, u, h1, h2, fun k q => h3 k () q⟩

/-- C44 for traces of key-only batches. -/
theorem C44_key_cursor (effort : Nat) (os : List (Spine.Op (KeyBatch K T R) T)) (hleg : Spine.Legal KeyBatch.laws [⊥] [⊥] [⊥] os)
    (hlen : ((((Spine.inserted KeyBatch.ops [⊥] os).map KeyBatch.updates).sum : Nat) : Int) < isizeMax)
    (s : Spine (KeyBatch K T R) (KeyMerger K T R) T) (hs : (Spine.init effort).run KeyBatch.ops os = some s) (hlog : s.logical_frontier ≠ []) :
    ∃ l ss u, s.cursor KeyBatch.ops KeyCursor.ops (·.storage) (fun _ => KeyCursor.init) = some (l, ss) ∧
      Reads (CursorList.ops KeyCursor.ops) ss l u ∧
      ∀ k q, Beyond s.logical_frontier q → (∀ b ∈ Spine.inserted KeyBatch.ops [⊥] os, Beyond b.description.since q) →
        Contents.count u k () q = ((Spine.inserted KeyBatch.ops [⊥] os).map fun b => KeyBatch.acc b k q).sum := by
  obtain ⟨l, ss, u, h1, h2, h3⟩ := read_all keyBatch_readable effort os hleg hlen s hs hlog
  exact ⟨l, ss, u, h1, h2, fun k q => h3 k () q⟩

private theorem chunk_readable {cap : Nat} (hcap : 0 < cap) : Readable (ChunkBatch.laws (D := K ×ₗ V) (T := T) (R := R) hcap) ChunkBatchCursor.ops id
    (fun b => ChunkBatchCursor.init b.chunks) (fun k v => toLex (k, v)) := by
  intro bs hb
  obtain ⟨ts, u, l, h1, -, h2, -, h3, h4, -⟩ := C43_list_partial bs fun b h => ⟨(hb b h).1.full, (hb b h).1.cons⟩
  rw [List.map_id]
  refine ⟨l, u, ?_, ⟨h2.sorted, fun ms p hm hfw hr => ?_⟩, fun k v q => ?_⟩
  · rw [cursorList, h3]
  · refine h4 ms p (fun m hm' => ?_) (by rw [run_fromStart h2.sorted ms (Pos.in_start (List.suffix_refl _)) hfw]; exact hr)
    cases m with
    | seekVal v => exact absurd rfl (hm _ hm' v)
    | _ => rfl
  · rw [h2.count]
    have e : (ts.map fun t => Contents.count t k v q) = (ts.map Contents.flatten).map fun us => accum (us.map fun u => (toLex u.1, u.2)) (toLex (k, v)) q := by
      rw [List.map_map]
      exact List.map_congr_left fun t _ => count_eq_accum t k v q
    rw [e, h1, List.map_map]
    congr 1
    apply List.map_congr_left
    intro b _
    show accum ((b.chunks.flatten.map fun u => (ofLex u.1, u.2)).map fun u => (toLex u.1, u.2)) _ q = accum b.chunks.flatten _ q
    rw [List.map_map]
    congr 1
    exact List.map_id' _

/-- C44 for traces of chunked batches. -/
theorem C44_chunk_through {cap : Nat} (hcap : 0 < cap) (effort : Nat) (os : List (Spine.Op (ChunkBatch (K ×ₗ V) T R) T))
    (hleg : Spine.Legal (ChunkBatch.laws hcap) [⊥] [⊥] [⊥] os)
    (hlen : ((((Spine.inserted (ChunkBatch.ops cap) [⊥] os).map ChunkBatch.len).sum : Nat) : Int) < isizeMax)
    (s : Spine (ChunkBatch (K ×ₗ V) T R) (ChunkBatchMerger (K ×ₗ V) T R) T) (hs : (Spine.init effort).run (ChunkBatch.ops cap) os = some s)
    (before after : List (ChunkBatch (K ×ₗ V) T R)) (hsplit : Spine.inserted (ChunkBatch.ops cap) [⊥] os = before ++ after) (F : List T)
    (hF : F.Perm (Spine.boundary (ChunkBatch.ops cap) before)) (hphys : FrontierLe s.physical_frontier F) (hlog : s.logical_frontier ≠ []) :
    ∃ l ss u, s.cursorThrough (ChunkBatch.ops cap) ChunkBatchCursor.ops id (fun b => ChunkBatchCursor.init b.chunks) F = some (l, ss) ∧
      Reads (CursorList.ops ChunkBatchCursor.ops) ss l u ∧
      ∀ k v q, Beyond s.logical_frontier q → (∀ b ∈ before, Beyond b.description.since q) →
        Contents.count u k v q = (before.map fun b => accum b.chunks.flatten (toLex (k, v)) q).sum :=
  read_through (chunk_readable hcap) effort os hleg hlen s hs before after hsplit F hF hphys hlog

/-- C44 for traces of chunked batches. -/
theorem C44_chunk_cursor {cap : Nat} (hcap : 0 < cap) (effort : Nat) (os : List (Spine.Op (ChunkBatch (K ×ₗ V) T R) T))
    (hleg : Spine.Legal (ChunkBatch.laws hcap) [⊥] [⊥] [⊥] os)
    (hlen : ((((Spine.inserted (ChunkBatch.ops cap) [⊥] os).map ChunkBatch.len).sum : Nat) : Int) < isizeMax)
    (s : Spine (ChunkBatch (K ×ₗ V) T R) (ChunkBatchMerger (K ×ₗ V) T R) T) (hs : (Spine.init effort).run (ChunkBatch.ops cap) os = some s)
    (hlog : s.logical_frontier ≠ []) :
    ∃ l ss u, s.cursor (ChunkBatch.ops cap) ChunkBatchCursor.ops id (fun b => ChunkBatchCursor.init b.chunks) = some (l, ss) ∧
      Reads (CursorList.ops ChunkBatchCursor.ops) ss l u ∧
      ∀ k v q, Beyond s.logical_frontier q → (∀ b ∈ Spine.inserted (ChunkBatch.ops cap) [⊥] os, Beyond b.description.since q) →
        Contents.count u k v q = ((Spine.inserted (ChunkBatch.ops cap) [⊥] os).map fun b => accum b.chunks.flatten (toLex (k, v)) q).sum :=
  read_all (chunk_readable hcap) effort os hleg hlen s hs hlog

end

/-! ### Non-vacuity -/

/-- A chunked batch of key-value updates. -/
private def batch (lower upper : Nat) (chunks : List (List ((Nat × Nat) × Nat × Int))) : ChunkBatch (Nat ×ₗ Nat) Nat Int :=
  ⟨chunks.map fun c => c.map fun u => (toLex u.1, u.2), ⟨[lower], [upper], [0]⟩⟩

private def calls : List (Spine.Op (ChunkBatch (Nat ×ₗ Nat) Nat Int) Nat) :=
  [.insert (batch 0 1 [[((1, 7), 0, 1), ((2, 7), 0, 1)], [((2, 8), 0, 1)]]), .setPhysical [1],
   .insert (batch 1 2 [[((1, 7), 1, -1)]]), .setPhysical [2], .setLogical [1],
   .insert (batch 2 3 []), .insert (batch 3 4 [[((2, 8), 3, 3), ((4, 7), 3, 1)]]), .setPhysical [4],
   .exert (some 2), .exert (some 2), .exert (some 2), .insert (batch 4 5 [[((5, 7), 4, 1)]]), .exert (some 2), .exert (some 20), .exert (some 20)]

private theorem batch_legal (lower upper : Nat) (chunks : List (List ((Nat × Nat) × Nat × Int))) (hf : Full (batch lower upper chunks).chunks)
    (h : Consolidated (batch lower upper chunks).chunks.flatten) (hlt : lower < upper) :
    (ChunkBatch.laws (D := Nat ×ₗ Nat) (T := Nat) (R := Int) (cap := 2) (by omega)).Ok (batch lower upper chunks) ∧
    ((ChunkBatch.ops 2 : BatchOps _ (ChunkBatchMerger (Nat ×ₗ Nat) Nat Int) Nat).lower (batch lower upper chunks)).Perm [lower] ∧
    ¬ ((ChunkBatch.ops 2 : BatchOps _ (ChunkBatchMerger (Nat ×ₗ Nat) Nat Int) Nat).lower (batch lower upper chunks)).Perm
      ((ChunkBatch.ops 2 : BatchOps _ (ChunkBatchMerger (Nat ×ₗ Nat) Nat Int) Nat).upper (batch lower upper chunks)) ∧
    FrontierLe ((ChunkBatch.ops 2 : BatchOps _ (ChunkBatchMerger (Nat ×ₗ Nat) Nat Int) Nat).lower (batch lower upper chunks))
      ((ChunkBatch.ops 2 : BatchOps _ (ChunkBatchMerger (Nat ×ₗ Nat) Nat Int) Nat).upper (batch lower upper chunks)) := by
  have hle : FrontierLe [lower] [upper] := by
    rintro q ⟨f, hf, hq⟩
    simp only [List.mem_singleton] at hf
    subst hf
    exact ⟨lower, by simp, by omega⟩
  refine ⟨⟨⟨hf, h⟩, List.pairwise_singleton _ _, List.pairwise_singleton _ _, hle⟩, List.Perm.refl _, ?_, hle⟩
  intro hp
  have : ([lower] : List Nat).Perm [upper] := hp
  have := List.perm_singleton.mp this
  simp at this; omega

/-- The calls are legal. -/
example : Spine.Legal (ChunkBatch.laws (D := Nat ×ₗ Nat) (T := Nat) (R := Int) (cap := 2) (by omega)) [⊥] [⊥] [⊥] calls := by
  have le1 : ∀ {a b : Nat}, a ≤ b → FrontierLe [a] [b] := by
    rintro a b hab q ⟨f, hf, hq⟩
    simp only [List.mem_singleton] at hf
    subst hf
    exact ⟨a, by simp, by omega⟩
  unfold calls
  obtain ⟨a1, a2, a3, a4⟩ := batch_legal 0 1 [[((1, 7), 0, 1), ((2, 7), 0, 1)], [((2, 8), 0, 1)]]
    (by unfold Full; decide +kernel) (by unfold Consolidated; decide +kernel) (by omega)
  obtain ⟨b1, b2, b3, b4⟩ := batch_legal 1 2 [[((1, 7), 1, -1)]] (by unfold Full; decide +kernel) (by unfold Consolidated; decide +kernel) (by omega)
  obtain ⟨c1, c2, c3, c4⟩ := batch_legal 2 3 [] (by unfold Full; decide +kernel) (by unfold Consolidated; decide +kernel) (by omega)
  obtain ⟨d1, d2, d3, d4⟩ := batch_legal 3 4 [[((2, 8), 3, 3), ((4, 7), 3, 1)]]
    (by unfold Full; decide +kernel) (by unfold Consolidated; decide +kernel) (by omega)
  obtain ⟨e1, e2, e3, e4⟩ := batch_legal 4 5 [[((5, 7), 4, 1)]] (by unfold Full; decide +kernel) (by unfold Consolidated; decide +kernel) (by omega)
  exact ⟨a1, a2, a3, a4, le1 (by decide), b1, b2, b3, b4, le1 (by omega), le1 (by decide), c1, c2, c3, c4,
    d1, d2, d3, d4, le1 (by omega), e1, e2, e3, e4, trivial⟩

/-- What the cursor of the trace reads. -/
private def readThrough (F : List Nat) : Option (Contents Nat Nat Nat Int) :=
  ((Spine.init 1).run (ChunkBatch.ops 2) calls).bind fun s =>
    (s.cursorThrough (ChunkBatch.ops 2) ChunkBatchCursor.ops id (fun b => ChunkBatchCursor.init b.chunks) F).bind fun ls =>
      (CursorList.ops ChunkBatchCursor.ops).toVec ls.2 10 ls.1

set_option synthInstance.maxSize 2000 in
/-- Through the upper of the fourth batch: times are advanced to 1, and `(1, 7)` cancels. -/
example : readThrough [4] = some [(2, [(7, [(1, 1)]), (8, [(1, 1), (3, 3)])]), (4, [(7, [(3, 1)])])] := by decide +kernel
set_option synthInstance.maxSize 2000 in
/-- Without bound. -/
example : readThrough [] = some [(2, [(7, [(1, 1)]), (8, [(1, 1), (3, 3)])]), (4, [(7, [(3, 1)])]), (5, [(7, [(4, 1)])])] := by decide +kernel

end DD
