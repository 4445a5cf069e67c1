import Verif.Proofs.CursorRun
import Verif.Props.OrdVal
import Verif.Props.OrdKey

/-!
# Property C18: cursors

`Pos` (Spec/Cursor.lean) is the reference: a position in sorted contents. `Shows` (Spec/CursorContract.lean) says that all a user can read from a
cursor is what the position says. `Pos.run` is a sequence of moves that respects validity (moves among values only at a valid key), and
`CursorOps.run` performs the same moves on a cursor.
-/

namespace DD

/-- A move that is not a seek among values. -/
def Move.notSeekVal {K V : Type*} : Move K V → Bool
  | .seekVal _ => false
  | _ => true

/-- A move among the values of the current key. -/
def Move.amongVals {K V : Type*} : Move K V → Bool
  | .stepVal => true
  | .seekVal _ => true
  | .rewindVals => true
  | _ => false

theorem Move.notSeekVal_iff {K V : Type*} {m : Move K V} (h : m.notSeekVal = true) (v : V) : m ≠ .seekVal v := by
  rintro rfl; cases h

theorem Move.amongVals_iff {K V : Type*} {m : Move K V} (h : m.amongVals = true) : m = .stepVal ∨ m = .rewindVals ∨ ∃ v, m = .seekVal v := by
  cases m <;> simp_all [Move.amongVals]

/-! ### Any list of cursors -/

section
variable {C S K V T R : Type*} [LinearOrder K] [LinearOrder V]
variable {ops : CursorOps C S K V T R} {Rel : S → Contents K V T R → C → Pos K V T R → Prop}

theorem cursorRun_append {ss : S} (c c' : C) (ms ms' : List (Move K V)) (h : ops.run ss c ms = some c') :
    ops.run ss c (ms ++ ms') = ops.run ss c' ms' := by
  induction ms generalizing c with
  | nil => cases h; rfl
  | cons m ms ih =>
    rw [List.cons_append, CursorOps.run]
    rw [CursorOps.run] at h
    cases hm : ops.move ss c m with
    | none => rw [hm] at h; cases h
    | some c1 => rw [hm] at h; exact ih c1 h

private theorem posRun_append {t : Contents K V T R} (p p' : Pos K V T R) (ms ms' : List (Move K V)) (h : Pos.run t p (ms ++ ms') = some p') :
    ∃ p1, Pos.run t p ms = some p1 ∧ Pos.run t p1 ms' = some p' := by
  induction ms generalizing p with
  | nil => exact ⟨p, rfl, h⟩
  | cons m ms ih =>
    rw [List.cons_append, Pos.run] at h
    cases hm : Pos.move t p m with
    | none => rw [hm] at h; cases h
    | some c1 =>
      rw [hm] at h
      obtain ⟨p1, g1, g2⟩ := ih c1 h
      exact ⟨p1, by rw [Pos.run, hm]; exact g1, g2⟩

/-- The statement of C18 for a list of cursors over storages: it presents the sorted union of the contents. -/
def PresentsUnion (ops : CursorOps C S K V T R) (init : C) (ss : List S) (ts : List (Contents K V T R)) : Prop :=
  ∃ u l, IsUnion ts u ∧ u.flatten.Perm (ts.flatMap Contents.flatten) ∧ CursorList.new ops (ss.map fun _ => init) ss = some l ∧
    (∀ (ms : List (Move K V)) (p : Pos K V T R), (∀ m ∈ ms, m.notSeekVal = true) → Pos.run u (Pos.start u) ms = some p →
      ∃ l', (CursorList.ops ops).run ss l ms = some l' ∧ Shows (CursorList.ops ops) ss l' p ∧
        ∀ fuel, u.length < fuel → (∀ kv ∈ u, kv.2.length < fuel) → (CursorList.ops ops).toVec ss fuel l' = some u) ∧
    (∀ (ms ms' : List (Move K V)) (k : K) (p : Pos K V T R), (∀ m ∈ ms, m.notSeekVal = true) → (∀ m ∈ ms', m.amongVals = true) →
      ts ≠ [] → (∀ t ∈ ts, ∃ vs, (k, vs) ∈ t) → Pos.run u (Pos.start u) (ms ++ [.rewindKeys, .seekKey k] ++ ms') = some p →
      ∃ l', (CursorList.ops ops).run ss l (ms ++ [.rewindKeys, .seekKey k] ++ ms') = some l' ∧ Shows (CursorList.ops ops) ss l' p)

private theorem presentsUnion_of (xs : List (Cell C S K V T R)) (hg : ∀ x ∈ xs, Good ops Rel false x) (hp : ∀ x ∈ xs, x.p = Pos.start x.t) (init : C)
    (hi : ∀ x ∈ xs, x.c = init) (hsv : ∀ s t, Presents ops s t (Rel s t) → ContentsSorted t → SeeksVals ops s (Rel s t)) :
    PresentsUnion ops init (xs.map (·.s)) (xs.map (·.t)) := by
  obtain ⟨l, hl, hrel⟩ := cursorList_new xs hg hp
  have hsorted : ∀ t ∈ xs.map (·.t), ContentsSorted t := by
    intro t ht
    obtain ⟨x, hx, rfl⟩ := List.mem_map.mp ht
    exact (hg x hx).sorted
  have hpr := cursorList_presents (ops := ops) (Rel := Rel) (back := false) (xs.map (·.s)) (xs.map (·.t))
  have hmoves : ∀ (ms : List (Move K V)) (p : Pos K V T R), (∀ m ∈ ms, m.notSeekVal = true) →
      Pos.run (unionContents (xs.map (·.t))) (Pos.start (unionContents (xs.map (·.t)))) ms = some p →
      ∃ l', (CursorList.ops ops).run (xs.map (·.s)) l ms = some l' ∧ ListRel ops Rel false (xs.map (·.s)) (xs.map (·.t)) l' p :=
    fun ms p hm hr => hpr.run ms hrel (fun m hm' => Or.inl (Move.notSeekVal_iff (hm m hm'))) hr
  refine ⟨unionContents (xs.map (·.t)), l, unionContents_union _ hsorted, flatten_unionContents _, ?_, ?_, ?_⟩
  · rw [← hl, List.map_map]
    congr 1
    apply List.map_congr_left
    intro x hx
    exact (hi x hx).symm
  · intro ms p hm hr
    obtain ⟨l', g1, g2⟩ := hmoves ms p hm hr
    exact ⟨l', g1, hpr.shows g2, fun fuel h1 h2 => toVec_presents hpr fuel h1 h2 g2⟩
  · intro ms ms' k p hm hm' hne hk hr
    rw [List.append_assoc] at hr ⊢
    obtain ⟨p1, r1, r2⟩ := posRun_append _ _ _ _ hr
    obtain ⟨l1, g1, g2⟩ := hmoves ms p1 hm r1
    rw [cursorRun_append _ _ _ _ g1]
    obtain ⟨l2, l3, k1, k2, k3⟩ := allOnKey_seek g2 k hne hk
    have e1 : Pos.run (unionContents (xs.map (·.t))) p1 ([.rewindKeys, .seekKey k] ++ ms') =
      Pos.run (unionContents (xs.map (·.t))) ((Pos.start (unionContents (xs.map (·.t)))).seekKey k) ms' := rfl
    rw [e1] at r2
    obtain ⟨l4, k4, k5⟩ := k3.run hsv ms' (fun m h => Move.amongVals_iff (hm' m h)) r2
    refine ⟨l4, ?_, hpr.shows k5⟩
    rw [cursorRun_append (c' := l3)]
    · exact k4
    · have e1 : (CursorList.ops ops).move (xs.map (·.s)) l1 (.rewindKeys : Move K V) = some l2 := k1
      have e2 : (CursorList.ops ops).move (xs.map (·.s)) l2 (.seekKey k : Move K V) = some l3 := k2
      rw [CursorOps.run, e1]
      simp only
      rw [CursorOps.run, e2]
      rfl
end

/-! ### Key-value batches -/

section
variable {K V T R : Type*} [LinearOrder K] [LinearOrder V]

private def ValPos (s : ValStorage K V T R) (t : Contents K V T R) (c : ValCursor) (p : Pos K V T R) : Prop :=
  Repr s t ∧ ContentsSorted t ∧ ValRel t c p

private theorem valPos_presents {s : ValStorage K V T R} {t : Contents K V T R} (hr : Repr s t) (hs : ContentsSorted t) :
    Presents ValCursor.ops s t (ValPos s t) := by
  have h := valCursor_presents hr hs
  have lift : ∀ {o : Option ValCursor} {p : Pos K V T R}, (∃ c', o = some c' ∧ ValRel t c' p) → ∃ c', o = some c' ∧ ValPos s t c' p :=
    fun ⟨c', g1, g2⟩ => ⟨c', g1, hr, hs, g2⟩
  exact ⟨fun c p hp => h.inside c p hp.2.2, fun c p hp => h.key_valid c p hp.2.2, fun c p hp => h.get_key c p hp.2.2,
    fun c p hp => h.key c p hp.2.2, fun c p hp => h.val_valid c p hp.2.2, fun c p hp => h.get_val c p hp.2.2, fun c p hp => h.val c p hp.2.2,
    fun c p hp => h.map_times c p hp.2.2, fun c p hp => lift (h.step_key c p hp.2.2), fun c p k hp => lift (h.seek_key c p k hp.2.2),
    fun c p hp hk => lift (h.step_val c p hp.2.2 hk), fun c p hp => lift (h.rewind_keys c p hp.2.2),
    fun c p hp hk => lift (h.rewind_vals c p hp.2.2 hk)⟩

private theorem valPos_seeksVals (s : ValStorage K V T R) (t : Contents K V T R) : SeeksVals ValCursor.ops s (ValPos s t) := by
  intro c p v hp hk
  obtain ⟨c', g1, g2⟩ := valCursor_seeksVals hp.1 hp.2.1 c p v hp.2.2 hk
  exact ⟨c', g1, hp.1, hp.2.1, g2⟩

variable [DecidableEq T] [LinearOrder (Lin T)] [AddCommMonoid R] [DecidableEq R] [Lattice T] [DecidableLE T] [Bot T]

private theorem contents_of_reachable {b : ValBatch K V T R} (hb : ReachableBatch b) :
    ∃ t : Contents K V T R, Repr b.storage t ∧ ContentsSorted t ∧ NoEmpty t ∧ b.storage.readAll = some (flattenTrie t) := by
  obtain ⟨t, h1, h2⟩ := hb.repr
  exact ⟨t, h1, ⟨h2.sorted, fun x hx => (h2.vals x hx).2.sorted⟩, fun x hx => ⟨(h2.vals x hx).1, fun y hy => ((h2.vals x hx).2.upds y hy).1⟩,
    readAll_spec h1⟩

/-- C18 for one key-value batch: its cursor presents its contents under every valid sequence of moves, including seeks among values. -/
theorem C18_val_batch (b : ValBatch K V T R) (hb : ReachableBatch b) :
    ∃ t : Contents K V T R, ContentsSorted t ∧ NoEmpty t ∧ b.storage.readAll = some (flattenTrie t) ∧
      ∀ (ms : List (Move K V)) (p : Pos K V T R), Pos.run t (Pos.start t) ms = some p →
        ∃ c, ValCursor.ops.run b.storage ValCursor.init ms = some c ∧ Shows ValCursor.ops b.storage c p := by
  obtain ⟨t, h1, h2, h3, h4⟩ := contents_of_reachable hb
  refine ⟨t, h2, h3, h4, fun ms p hr => ?_⟩
  have hp := valPos_presents h1 h2
  obtain ⟨c, g1, g2⟩ := hp.run ms (c := ValCursor.init) ⟨h1, h2, valRel_init t⟩ (fun _ _ => Or.inr (valPos_seeksVals _ _)) hr
  exact ⟨c, g1, hp.shows g2⟩

/-- C18 for several key-value batches: the `CursorList` over their cursors presents the sorted union of their contents, under every valid
sequence of moves other than seeks among values (`PresentsUnion`, first part), and also under seeks among values of a key present in all
batches (second part). The full claim, for seeks among values of any key, is false: see `C18_seek_val_loses` and `C18_seek_val_panics`. -/
theorem C18_val_list_partial (bs : List (ValBatch K V T R)) (hb : ∀ b ∈ bs, ReachableBatch b) :
    ∃ ts : List (Contents K V T R), (bs.map fun b => b.storage.readAll) = (ts.map fun t => some (flattenTrie t)) ∧
      (∀ t ∈ ts, ContentsSorted t ∧ NoEmpty t) ∧ PresentsUnion ValCursor.ops ValCursor.init (bs.map (·.storage)) ts := by
  have : ∃ xs : List (Cell ValCursor (ValStorage K V T R) K V T R), xs.map (·.s) = bs.map (·.storage) ∧ (∀ x ∈ xs, Good ValCursor.ops ValPos false x) ∧
      (∀ x ∈ xs, x.p = Pos.start x.t) ∧ (∀ x ∈ xs, x.c = ValCursor.init) ∧ (∀ x ∈ xs, NoEmpty x.t) ∧
      ∀ x ∈ xs, x.s.readAll = some (flattenTrie x.t) := by
    induction bs with
    | nil => exact ⟨[], rfl, by simp, by simp, by simp, by simp, by simp⟩
    | cons b bs ih =>
      obtain ⟨xs, g1, g2, g3, g4, g5, g6⟩ := ih fun x hx => hb x (List.mem_cons_of_mem _ hx)
      obtain ⟨t, h1, h2, h3, h4⟩ := contents_of_reachable (hb b List.mem_cons_self)
      refine ⟨⟨b.storage, t, ValCursor.init, Pos.start t⟩ :: xs, by simp [g1], ?_, ?_, ?_, ?_, ?_⟩
      · intro x hx
        rcases List.mem_cons.mp hx with rfl | hx
        · exact ⟨valPos_presents h1 h2, ⟨h1, h2, valRel_init t⟩, h2⟩
        · exact g2 x hx
      all_goals
        intro x hx
        rcases List.mem_cons.mp hx with rfl | hx
      · rfl
      · exact g3 x hx
      · rfl
      · exact g4 x hx
      · exact h3
      · exact g5 x hx
      · exact h4
      · exact g6 x hx
  obtain ⟨xs, g1, g2, g3, g4, g5, g6⟩ := this
  refine ⟨xs.map (·.t), ?_, ?_, ?_⟩
  · have : (bs.map fun b => b.storage.readAll) = (bs.map (·.storage)).map ValStorage.readAll := by rw [List.map_map]; rfl
    rw [this, ← g1, List.map_map, List.map_map]
    apply List.map_congr_left
    intro x hx
    exact g6 x hx
  · intro t ht
    obtain ⟨x, hx, rfl⟩ := List.mem_map.mp ht
    exact ⟨(g2 x hx).sorted, g5 x hx⟩
  · rw [← g1]
    exact presentsUnion_of xs g2 g3 _ g4 fun s t _ _ => valPos_seeksVals s t

end

/-! ### Key-only batches -/

section
variable {K T R : Type*} [LinearOrder K]

private def KeyPos (s : KeyStorage K T R) (u : Contents K Unit T R) (c : KeyCursor) (p : Pos K Unit T R) : Prop :=
  ∃ t, u = unitVals t ∧ KRepr s t ∧ KeyRel t c p

private theorem unitVals_inj {t t' : List (K × List (T × R))} (h : unitVals t = unitVals t') : t = t' := by
  unfold unitVals at h
  refine (List.map_injective_iff.mpr ?_) h
  rintro ⟨a, b⟩ ⟨a', b'⟩ h
  simp only [Prod.mk.injEq, List.cons.injEq, true_and, and_true] at h
  rw [h.1, h.2]

private theorem keyPos_presents {s : KeyStorage K T R} {t : List (K × List (T × R))} (hr : KRepr s t) (hs : t.Pairwise fun x y => x.1 < y.1) :
    Presents KeyCursor.ops s (unitVals t) (KeyPos s (unitVals t)) := by
  have h := keyCursor_presents hr hs
  have un : ∀ {c : KeyCursor} {p : Pos K Unit T R}, KeyPos s (unitVals t) c p → KeyRel t c p := by
    rintro c p ⟨t', h1, h2, h3⟩
    rw [unitVals_inj h1]; exact h3
  have lift : ∀ {o : Option KeyCursor} {p : Pos K Unit T R}, (∃ c', o = some c' ∧ KeyRel t c' p) → ∃ c', o = some c' ∧ KeyPos s (unitVals t) c' p :=
    fun ⟨c', g1, g2⟩ => ⟨c', g1, t, rfl, hr, g2⟩
  exact ⟨fun c p hp => h.inside c p (un hp), fun c p hp => h.key_valid c p (un hp), fun c p hp => h.get_key c p (un hp),
    fun c p hp => h.key c p (un hp), fun c p hp => h.val_valid c p (un hp), fun c p hp => h.get_val c p (un hp), fun c p hp => h.val c p (un hp),
    fun c p hp => h.map_times c p (un hp), fun c p hp => lift (h.step_key c p (un hp)), fun c p k hp => lift (h.seek_key c p k (un hp)),
    fun c p hp hk => lift (h.step_val c p (un hp) hk), fun c p hp => lift (h.rewind_keys c p (un hp)),
    fun c p hp hk => lift (h.rewind_vals c p (un hp) hk)⟩

private theorem keyPos_seeksVals (s : KeyStorage K T R) (u : Contents K Unit T R) : SeeksVals KeyCursor.ops s (KeyPos s u) := by
  rintro c p v ⟨t, h1, h2, h3⟩ hk
  obtain ⟨c', g1, g2⟩ := keyCursor_seeksVals (s := s) c p v h3 hk
  exact ⟨c', g1, t, h1, h2, g2⟩

variable [DecidableEq T] [LinearOrder (Lin T)] [AddCommMonoid R] [DecidableEq R] [Lattice T] [DecidableLE T] [Bot T]

private theorem key_contents {b : KeyBatch K T R} (hb : ReachableKeyBatch b) :
    ∃ t : List (K × List (T × R)), KRepr b.storage t ∧ t.Pairwise (fun x y => x.1 < y.1) ∧ (∀ kv ∈ t, kv.2 ≠ []) ∧
      b.storage.readAll = some (t.flatMap fun kv => kv.2.map fun u => (kv.1, u.1, u.2)) := by
  obtain ⟨t, h1, h2⟩ := hb.repr
  exact ⟨t, h1, h2.sorted, fun x hx => (h2.upds x hx).1, keyReadAll_spec h1⟩

private theorem unitVals_sorted {t : List (K × List (T × R))} (h : t.Pairwise fun x y => x.1 < y.1) : ContentsSorted (unitVals t) := by
  constructor
  · exact List.pairwise_map.mpr h
  · intro kv hkv
    obtain ⟨x, _, rfl⟩ := List.mem_map.mp hkv
    simp

/-- C18 for one key-only batch: its cursor presents its contents, with one unit value under each key, under every valid sequence of moves. -/
theorem C18_key_batch (b : KeyBatch K T R) (hb : ReachableKeyBatch b) :
    ∃ t : List (K × List (T × R)), t.Pairwise (fun x y => x.1 < y.1) ∧ (∀ kv ∈ t, kv.2 ≠ []) ∧
      b.storage.readAll = some (t.flatMap fun kv => kv.2.map fun u => (kv.1, u.1, u.2)) ∧
      ∀ (ms : List (Move K Unit)) (p : Pos K Unit T R),
        Pos.run (t.map fun kv => (kv.1, [((), kv.2)])) (Pos.start (t.map fun kv => (kv.1, [((), kv.2)]))) ms = some p →
        ∃ c, KeyCursor.ops.run b.storage KeyCursor.init ms = some c ∧ Shows KeyCursor.ops b.storage c p := by
  obtain ⟨t, h1, h2, h3, h4⟩ := key_contents hb
  refine ⟨t, h2, h3, h4, fun ms p hr => ?_⟩
  have hp := keyPos_presents h1 h2
  obtain ⟨c, g1, g2⟩ := hp.run ms (c := KeyCursor.init) ⟨t, rfl, h1, keyRel_init t⟩ (fun _ _ => Or.inr (keyPos_seeksVals _ _)) hr
  exact ⟨c, g1, hp.shows g2⟩

/-- C18 for several key-only batches, as `C18_val_list_partial`. -/
theorem C18_key_list_partial (bs : List (KeyBatch K T R)) (hb : ∀ b ∈ bs, ReachableKeyBatch b) :
    ∃ ts : List (List (K × List (T × R))),
      (bs.map fun b => b.storage.readAll) = (ts.map fun t => some (t.flatMap fun kv => kv.2.map fun u => (kv.1, u.1, u.2))) ∧
      (∀ t ∈ ts, t.Pairwise (fun x y => x.1 < y.1) ∧ ∀ kv ∈ t, kv.2 ≠ []) ∧
      PresentsUnion KeyCursor.ops KeyCursor.init (bs.map (·.storage)) (ts.map fun t => t.map fun kv => (kv.1, [((), kv.2)])) := by
  have : ∃ xs : List (Cell KeyCursor (KeyStorage K T R) K Unit T R × List (K × List (T × R))), xs.map (·.1.s) = bs.map (·.storage) ∧
      (∀ x ∈ xs, Good KeyCursor.ops KeyPos false x.1) ∧
      (∀ x ∈ xs, x.1.p = Pos.start x.1.t) ∧ (∀ x ∈ xs, x.1.c = KeyCursor.init) ∧
      (∀ x ∈ xs, x.1.t = unitVals x.2 ∧ x.2.Pairwise (fun x y => x.1 < y.1) ∧ ∀ kv ∈ x.2, kv.2 ≠ []) ∧
      ∀ x ∈ xs, x.1.s.readAll = some (x.2.flatMap fun kv => kv.2.map fun u => (kv.1, u.1, u.2)) := by
    induction bs with
    | nil => exact ⟨[], rfl, by simp, by simp, by simp, by simp, by simp⟩
    | cons b bs ih =>
      obtain ⟨xs, g1, g2, g3, g4, g5, g6⟩ := ih fun x hx => hb x (List.mem_cons_of_mem _ hx)
      obtain ⟨t, h1, h2, h3, h4⟩ := key_contents (hb b List.mem_cons_self)
      refine ⟨(⟨b.storage, unitVals t, KeyCursor.init, Pos.start (unitVals t)⟩, t) :: xs, by simp [g1], ?_, ?_, ?_, ?_, ?_⟩
      · intro x hx
        rcases List.mem_cons.mp hx with rfl | hx
        · exact ⟨keyPos_presents h1 h2, ⟨t, rfl, h1, keyRel_init t⟩, unitVals_sorted h2⟩
        · exact g2 x hx
      all_goals
        intro x hx
        rcases List.mem_cons.mp hx with rfl | hx
      · rfl
      · exact g3 x hx
      · rfl
      · exact g4 x hx
      · exact ⟨rfl, h2, h3⟩
      · exact g5 x hx
      · exact h4
      · exact g6 x hx
  obtain ⟨xs, g1, g2, g3, g4, g5, g6⟩ := this
  refine ⟨xs.map (·.2), ?_, ?_, ?_⟩
  · have : (bs.map fun b => b.storage.readAll) = (bs.map (·.storage)).map KeyStorage.readAll := by rw [List.map_map]; rfl
    rw [this, ← g1, List.map_map, List.map_map]
    apply List.map_congr_left
    intro x hx
    exact g6 x hx
  · intro t ht
    obtain ⟨x, hx, rfl⟩ := List.mem_map.mp ht
    exact (g5 x hx).2
  · have h := presentsUnion_of (ops := KeyCursor.ops) (Rel := KeyPos) (xs.map (·.1)) (by
      intro x hx
      obtain ⟨y, hy, rfl⟩ := List.mem_map.mp hx
      exact g2 y hy) (by
      intro x hx
      obtain ⟨y, hy, rfl⟩ := List.mem_map.mp hx
      exact g3 y hy) KeyCursor.init (by
      intro x hx
      obtain ⟨y, hy, rfl⟩ := List.mem_map.mp hx
      exact g4 y hy) (fun s t _ _ => keyPos_seeksVals s t)
    rw [List.map_map, List.map_map] at h
    rw [← g1, List.map_map]
    have e : xs.map ((fun x => x.t) ∘ fun x => x.1) = xs.map ((fun t => t.map fun kv => (kv.1, [((), kv.2)])) ∘ fun x => x.2) := by
      apply List.map_congr_left
      intro x hx
      exact (g5 x hx).1
    rw [← e]
    exact h

end

/-! ### Seeks among values: what goes wrong -/

/-- Two batches: `(0, 5)`; `(1, 1)`, `(1, 9)`. -/
def seekA : Option (ValBatch Nat Nat Nat Int) := ValBatch.build [[(toLex (0, 5), 0, 1)]] ⟨[0], [1], [0]⟩
def seekB : Option (ValBatch Nat Nat Nat Int) := ValBatch.build [[(toLex (1, 1), 1, 1), (toLex (1, 9), 1, 1)]] ⟨[1], [2], [0]⟩

/-- The values a cursor shows after some moves, starting anew. -/
def showAfter (bs : List (ValBatch Nat Nat Nat Int)) (ms : List (Move Nat Nat)) : Option (Option Nat × Option Nat) :=
  match CursorList.new ValCursor.ops (bs.map fun _ => ValCursor.init) (bs.map (·.storage)) with
  | none => none
  | some l =>
    match (CursorList.ops ValCursor.ops).run (bs.map (·.storage)) l ms with
    | none => none
    | some l =>
      match CursorList.get_key ValCursor.ops (bs.map (·.storage)) l, CursorList.get_val ValCursor.ops (bs.map (·.storage)) l with
      | some k, some v => some (k, v)
      | _, _ => none

/-- C18, negated: after a seek among the values of key 0 and a step to key 1, the first value of key 1 is skipped, because the seek was
also applied to the cursor already waiting at key 1. Without the seek it is visited. -/
theorem C18_seek_val_loses : ∃ a b, seekA = some a ∧ seekB = some b ∧ ReachableBatch a ∧ ReachableBatch b ∧
    showAfter [a, b] [.stepKey] = some (some 1, some 1) ∧ showAfter [a, b] [.seekVal 5, .stepKey] = some (some 1, some 9) := by
  obtain ⟨a, ha⟩ : ∃ a, seekA = some a := by
    cases h : seekA with
    | some a => exact ⟨a, rfl⟩
    | none => exact absurd h (by decide +kernel)
  obtain ⟨b, hb⟩ : ∃ b, seekB = some b := by
    cases h : seekB with
    | some a => exact ⟨a, rfl⟩
    | none => exact absurd h (by decide +kernel)
  refine ⟨a, b, ha, hb, .built _ _ a ?_ ha, .built _ _ b ?_ hb, ?_, ?_⟩
  · exact ⟨by decide +kernel, by decide +kernel⟩
  · exact ⟨by decide +kernel, by decide +kernel⟩
  · have : (seekA.bind fun a => seekB.bind fun b => showAfter [a, b] [.stepKey]) = some (some 1, some 1) := by decide +kernel
    simpa [ha, hb] using this
  · have : (seekA.bind fun a => seekB.bind fun b => showAfter [a, b] [.seekVal 5, .stepKey]) = some (some 1, some 9) := by decide +kernel
    simpa [ha, hb] using this

/-- C18, negated: a seek among the values of key 1 panics, because the cursor of the other batch is past its last key. -/
theorem C18_seek_val_panics : ∃ a b, seekA = some a ∧ seekB = some b ∧ ReachableBatch a ∧ ReachableBatch b ∧
    showAfter [a, b] [.seekKey 1] = some (some 1, some 1) ∧ showAfter [a, b] [.seekKey 1, .seekVal 5] = none := by
  obtain ⟨a, b, ha, hb, ra, rb, _, _⟩ := C18_seek_val_loses
  refine ⟨a, b, ha, hb, ra, rb, ?_, ?_⟩
  · have : (seekA.bind fun a => seekB.bind fun b => showAfter [a, b] [.seekKey 1]) = some (some 1, some 1) := by decide +kernel
    simpa [ha, hb] using this
  · have : (seekA.bind fun a => seekB.bind fun b => (showAfter [a, b] [.seekKey 1, .seekVal 5]).map fun _ => ()) = none := by decide +kernel
    simpa [ha, hb] using this

/-- Two batches that share the key 0 and the value 5 under it. -/
def shareA : Option (ValBatch Nat Nat Nat Int) := ValBatch.build [[(toLex (0, 5), 0, 1), (toLex (2, 1), 0, 1)]] ⟨[0], [1], [0]⟩
def shareB : Option (ValBatch Nat Nat Nat Int) := ValBatch.build [[(toLex (0, 3), 1, 1), (toLex (0, 5), 1, -1), (toLex (1, 1), 1, 1)]] ⟨[1], [2], [0]⟩
def shareVec : Option (Contents Nat Nat Nat Int) :=
  shareA.bind fun a => shareB.bind fun b =>
    (CursorList.new ValCursor.ops [ValCursor.init, ValCursor.init] [a.storage, b.storage]).bind fun l =>
      (CursorList.ops ValCursor.ops).toVec [a.storage, b.storage] 10 l

/-- Non-vacuity of `C18_val_list_partial`: the batches can be built from consolidated chunks, and `to_vec` walks their union. -/
example : (shareA.isSome ∧ shareB.isSome) ∧
    shareVec.map Contents.flatten = some [((0, 3), 1, 1), ((0, 5), 0, 1), ((0, 5), 1, -1), ((1, 1), 1, 1), ((2, 1), 0, 1)] := by decide +kernel

end DD
