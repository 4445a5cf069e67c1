import Verif.Model.Spill
import Verif.Model.ChunkHarness

/-!
# Lemmas on spilling: the chunks, resident or paged, move in step with the tries they stand for
-/

namespace DD

set_option linter.unusedSectionVars false

/-! ### Bytes -/

theorem le64_length (n : Nat) : (le64 n).length = 8 := by simp [le64]

theorem fromLe_le64 {n : Nat} (h : n < 2 ^ 64) : fromLe (le64 n) = n := by
  simp only [le64, fromLe, List.range_succ, List.range_zero, List.nil_append, List.map_cons, List.map_nil, List.foldr_cons, List.foldr_nil,
    UInt8.toNat_ofNat', List.cons_append]
  simp only [Nat.reducePow, Nat.div_one, pow_zero, pow_one]
  omega

theorem extractTo_append {a b : List UInt8} {n : Nat} (h : n = a.length) : extractTo (a ++ b) n = some (a, b) := by
  subst h
  rw [extractTo, if_pos (by simp)]
  simp

variable {K V T R S H : Type}

theorem readFrom_writeTo {c : TrieCodec K V T R} (hc : c.Lawful) {t : ColTrie K V T R} {bytes : List UInt8} (h : c.writeTo t = some bytes) (more : List UInt8) :
    c.readFrom (bytes ++ more) = some t := by
  rw [TrieCodec.writeTo] at h
  split_ifs at h with hf
  simp only [Option.some.injEq] at h
  subst h
  rw [TrieCodec.fits, decide_eq_true_eq] at hf
  have hk : c.keys.size t.keys < 2 ^ 64 := by omega
  have hv : c.vals.size t.vals < 2 ^ 64 := by omega
  have ht : c.times.size t.times < 2 ^ 64 := by omega
  have hd : c.diffs.size t.diffs < 2 ^ 64 := by omega
  have e : ([c.keys.size t.keys, c.vals.size t.vals, c.times.size t.times, c.diffs.size t.diffs].flatMap le64 ++
      c.keys.write t.keys ++ c.vals.write t.vals ++ c.times.write t.times ++ c.diffs.write t.diffs) ++ more =
      (le64 (c.keys.size t.keys) ++ (le64 (c.vals.size t.vals) ++ (le64 (c.times.size t.times) ++ le64 (c.diffs.size t.diffs)))) ++
        (c.keys.write t.keys ++ (c.vals.write t.vals ++ (c.times.write t.times ++ (c.diffs.write t.diffs ++ more)))) := by
    simp [List.flatMap_cons]
  rw [e]
  simp only [TrieCodec.readFrom]
  rw [extractTo_append (by simp [le64_length])]
  have d0 : ∀ (a b : List UInt8), a.length = 8 → (a ++ b).take 8 = a := fun a b h => by rw [← h]; simp
  have d1 : ∀ (a b : List UInt8) (n : Nat), a.length = 8 → (a ++ b).drop (n + 8) = b.drop n := by
    intro a b n h
    rw [List.drop_append, h]
    simp [List.drop_eq_nil_of_le (show a.length ≤ n + 8 by omega)]
  simp only [Option.bind_eq_bind, Option.bind_some, Nat.zero_mul, List.drop_zero, Nat.one_mul]
  rw [d0 _ _ (le64_length _), fromLe_le64 hk, extractTo_append (hc.keys.size _)]
  simp only [Option.bind_some, hc.keys.read]
  rw [show (8 : Nat) = 0 + 8 from rfl, d1 _ _ _ (le64_length _), List.drop_zero, d0 _ _ (le64_length _), fromLe_le64 hv, extractTo_append (hc.vals.size _)]
  simp only [Option.bind_some, hc.vals.read]
  rw [show (2 * 8 : Nat) = (0 + 8) + 8 from rfl, d1 _ _ _ (le64_length _), d1 _ _ _ (le64_length _), List.drop_zero,
    d0 _ _ (le64_length _), fromLe_le64 ht, extractTo_append (hc.times.size _)]
  simp only [Option.bind_some, hc.times.read]
  rw [show (3 * 8 : Nat) = ((0 + 8) + 8) + 8 from rfl, d1 _ _ _ (le64_length _), d1 _ _ _ (le64_length _), d1 _ _ _ (le64_length _), List.drop_zero,
    List.take_of_length_le (by rw [le64_length]), fromLe_le64 hd, extractTo_append (hc.diffs.size _)]
  simp only [Option.bind_some, hc.diffs.read]
  rfl

theorem writeTo_length {c : TrieCodec K V T R} (hc : c.Lawful) {t : ColTrie K V T R} {bytes : List UInt8} (h : c.writeTo t = some bytes) :
    bytes.length = c.lengthInBytes t := by
  rw [TrieCodec.writeTo] at h
  split_ifs at h with hf
  simp only [Option.some.injEq] at h
  subst h
  simp only [TrieCodec.lengthInBytes, hc.keys.size, hc.vals.size, hc.times.size, hc.diffs.size, List.length_append, List.flatMap_cons, List.flatMap_nil, le64_length, List.length_nil]

/-! ### The chunks and the tries -/

section reads
variable (codec : TrieCodec K V T R) (st : ByteStore S H)

/-- In the world `w`, the chunk stands for the trie. -/
def SpillChunk.Reads (w : World K V T R S H) : SpillChunk K V T R → ColTrie K V T R → Prop
  | .resident t', t => t' = t
  | .paged m cell, t => metaOf t = some m ∧ ∃ p bytes, w.cells[cell]? = some p ∧ st.load w.backing p.1 = some bytes ∧ codec.readFrom bytes = some t ∧ (p.2 = none ∨ p.2 = some t)

/-- What chunks stand for in `w` they stand for in `w'`. -/
def World.Ext (w w' : World K V T R S H) : Prop := ∀ (c : SpillChunk K V T R) t, c.Reads codec st w t → c.Reads codec st w' t

/-- The computation `f` from `w` moves in step: it succeeds if `z` does, and if it succeeds so does `y`; results are related. -/
def SpillRefines {A B : Type} (w : World K V T R S H) (f : SpillM K V T R S H A) (z y : Option B) (Rel : World K V T R S H → A → B → Prop) : Prop :=
  (∀ b, z = some b → ∃ a w', f w = some (a, w') ∧ World.Ext codec st w w' ∧ Rel w' a b) ∧
  (∀ a w', f w = some (a, w') → ∃ b, y = some b ∧ World.Ext codec st w w' ∧ Rel w' a b)

variable {codec st}

theorem World.Ext.rfl' (w : World K V T R S H) : World.Ext codec st w w := fun _ _ h => h
theorem World.Ext.trans {w w' w'' : World K V T R S H} (h : World.Ext codec st w w') (h' : World.Ext codec st w' w'') : World.Ext codec st w w'' := fun c t k => h' c t (h c t k)

theorem refines_pure {A B : Type} {w : World K V T R S H} {Rel : World K V T R S H → A → B → Prop} {a : A} {b : B} (h : Rel w a b) :
    SpillRefines codec st w (pure a) (some b) (some b) Rel := by
  constructor
  · rintro b' ⟨⟩; exact ⟨a, w, rfl, .rfl' w, h⟩
  · rintro a' w' ⟨⟩; exact ⟨b, rfl, .rfl' w, h⟩

theorem refines_lift {A : Type} (w : World K V T R S H) (x : Option A) : SpillRefines codec st w (liftM x : SpillM K V T R S H A) x x fun _ a b => a = b := by
  cases x with
  | none => exact ⟨fun _ h => (by cases h), fun _ _ h => (by cases h)⟩
  | some a => exact refines_pure (codec := codec) (st := st) (A := A) rfl

theorem refines_none {A B : Type} (w : World K V T R S H) {Rel : World K V T R S H → A → B → Prop} :
    SpillRefines codec st w (liftM (none : Option A) : SpillM K V T R S H A) (none : Option B) none Rel := ⟨fun _ h => (by cases h), fun _ _ h => (by cases h)⟩

theorem SpillRefines.bind {A B A' B' : Type} {w : World K V T R S H} {f : SpillM K V T R S H A} {z y : Option B} {Rel : World K V T R S H → A → B → Prop}
    {k : A → SpillM K V T R S H A'} {z' y' : B → Option B'} {Rel' : World K V T R S H → A' → B' → Prop} (h : SpillRefines codec st w f z y Rel)
    (hk : ∀ w' a b, World.Ext codec st w w' → Rel w' a b → SpillRefines codec st w' (k a) (z' b) (y' b) Rel') : SpillRefines codec st w (f >>= k) (z.bind z') (y.bind y') Rel' := by
  have e : ∀ w, (f >>= k) w = (f w).bind fun p => k p.1 p.2 := fun _ => rfl
  constructor
  · intro b' hb'
    obtain ⟨b, h1, h2⟩ := Option.bind_eq_some_iff.1 hb'
    obtain ⟨a, w', h3, h4, h5⟩ := h.1 b h1
    obtain ⟨a', w'', k1, k2, k3⟩ := (hk w' a b h4 h5).1 b' h2
    exact ⟨a', w'', by rw [e, h3]; exact k1, h4.trans k2, k3⟩
  · intro a' w'' ha
    rw [e] at ha
    obtain ⟨⟨a, w'⟩, h1, h2⟩ := Option.bind_eq_some_iff.1 ha
    obtain ⟨b, h3, h4, h5⟩ := h.2 a w' h1
    obtain ⟨b', k1, k2, k3⟩ := (hk w' a b h4 h5).2 a' w'' h2
    exact ⟨b', by rw [h3]; exact k1, h4.trans k2, k3⟩

theorem SpillRefines.mono {A B : Type} {w : World K V T R S H} {f : SpillM K V T R S H A} {z y : Option B} {Rel Rel' : World K V T R S H → A → B → Prop} (h : SpillRefines codec st w f z y Rel)
    (hr : ∀ w' a b, World.Ext codec st w w' → Rel w' a b → Rel' w' a b) : SpillRefines codec st w f z y Rel' := by
  constructor
  · intro b hb
    obtain ⟨a, w', h1, h2, h3⟩ := h.1 b hb
    exact ⟨a, w', h1, h2, hr _ _ _ h2 h3⟩
  · intro a w' hb
    obtain ⟨b, h1, h2, h3⟩ := h.2 a w' hb
    exact ⟨b, h1, h2, hr _ _ _ h2 h3⟩

/-- The same storage and cells: chunks stand for the same tries. -/
theorem ext_state {w w' : World K V T R S H} (hb : w'.backing = w.backing) (hc : w'.cells = w.cells) : World.Ext codec st w w' := by
  intro c t h
  cases c with
  | resident t' => exact h
  | paged m cell => simp only [SpillChunk.Reads, hb, hc] at h ⊢; exact h

theorem reads_len {w : World K V T R S H} {c : SpillChunk K V T R} {t : ColTrie K V T R} (h : c.Reads codec st w t) : c.len = t.len := by
  cases c with
  | resident t' => exact congrArg ColTrie.len h
  | paged m cell =>
    obtain ⟨h1, -⟩ := h
    rw [metaOf] at h1
    obtain ⟨b, -, rfl⟩ := Option.map_eq_some_iff.1 h1
    rfl

theorem reads_bounds {w : World K V T R S H} {c : SpillChunk K V T R} {t : ColTrie K V T R} (h : c.Reads codec st w t) :
    SpillRefines codec st w (c.bounds) t.bounds t.bounds fun _ a b => a = b := by
  cases c with
  | resident t' => cases h; exact refines_lift w _
  | paged m cell =>
    obtain ⟨h1, -⟩ := h
    rw [metaOf] at h1
    obtain ⟨b, h2, rfl⟩ := Option.map_eq_some_iff.1 h1
    rw [h2]
    exact refines_pure rfl

/-- The world after a fetch is noted. -/
def World.noted (w : World K V T R S H) : World K V T R S H :=
  { w with state := w.state.map fun s => { s with stats := { s.stats with fetched_chunks := s.stats.fetched_chunks + 1 } } }

theorem decode_run {w : World K V T R S H} {source : H} {bytes : List UInt8} {t : ColTrie K V T R} (h1 : st.load w.backing source = some bytes) (h2 : codec.readFrom bytes = some t) :
    (noteFetched >>= fun _ => spillDecode codec st source : SpillM K V T R S H _) w = some (t, w.noted) := by
  change Option.bind (Option.bind (st.load w.backing source) fun a => some (a, w.noted)) (fun p => Option.bind (codec.readFrom p.1) fun a => some (a, p.2)) = _
  rw [h1]
  change Option.bind (codec.readFrom bytes) _ = _
  rw [h2]
  rfl

theorem refines_lift_bind {A A' B' : Type} {w : World K V T R S H} {x : Option A} {k : A → SpillM K V T R S H A'} {z' y' : A → Option B'} {Rel' : World K V T R S H → A' → B' → Prop}
    (hk : ∀ a, x = some a → SpillRefines codec st w (k a) (z' a) (y' a) Rel') : SpillRefines codec st w ((liftM x : SpillM K V T R S H A) >>= k) (x.bind z') (x.bind y') Rel' := by
  cases x with
  | none => exact ⟨fun _ h => (by cases h), fun _ _ h => (by cases h)⟩
  | some a => exact hk a rfl

theorem reads_intoTrie {w : World K V T R S H} {c : SpillChunk K V T R} {t : ColTrie K V T R} (h : c.Reads codec st w t) :
    SpillRefines codec st w (c.intoTrie codec st) (some t) (some t) fun _ a _ => a = t := by
  cases c with
  | resident t' => cases h; exact refines_pure rfl
  | paged m cell =>
    obtain ⟨-, p, bytes, h0, h1, h2, h3⟩ := h
    have key : ∃ w', SpillChunk.intoTrie codec st (.paged m cell) w = some (t, w') ∧ w'.backing = w.backing ∧ w'.cells = w.cells := by
      rcases h3 with h3 | h3
      · have e : SpillChunk.intoTrie codec st (.paged m cell) w = (noteFetched >>= fun _ => spillDecode codec st p.1 : SpillM K V T R S H _) w := by
          change (Option.bind (w.cells[cell]?.bind fun a => some (a, w)) _) = _
          rw [h0]
          change (match p.2 with | some t => _ | none => _ : SpillM K V T R S H _) w = _
          rw [h3]
        rw [e, decode_run (w := w) h1 h2]
        exact ⟨_, rfl, rfl, rfl⟩
      · refine ⟨w, ?_, rfl, rfl⟩
        change (Option.bind (w.cells[cell]?.bind fun a => some (a, w)) _) = _
        rw [h0]
        change (match p.2 with | some t => _ | none => _ : SpillM K V T R S H _) w = _
        rw [h3]
        rfl
    obtain ⟨w', k1, k2, k3⟩ := key
    constructor
    · rintro b ⟨⟩; exact ⟨t, w', k1, ext_state k2 k3, rfl⟩
    · intro a w'' ha
      rw [k1] at ha
      cases ha
      exact ⟨t, rfl, ext_state k2 k3, rfl⟩

/-- Filling a cell with the trie of its chunk. -/
theorem ext_fill {w : World K V T R S H} {cell : Nat} {h : H} {t : ColTrie K V T R} {o : Option (ColTrie K V T R)} {bytes : List UInt8} (h0 : w.cells[cell]? = some (h, o))
    (h1 : st.load w.backing h = some bytes) (h2 : codec.readFrom bytes = some t)
    {w' : World K V T R S H} (hb : w'.backing = w.backing) (hc : w'.cells = w.cells.set cell (h, some t)) : World.Ext codec st w w' := by
  intro c t' h'
  cases c with
  | resident t'' => exact h'
  | paged m' cell' =>
    obtain ⟨g1, p, b', g2, g3, g4, g5⟩ := h'
    refine ⟨g1, ?_⟩
    rw [hc, hb, List.getElem?_set]
    by_cases e : cell = cell'
    · subst e
      rw [g2] at h0
      cases h0
      rw [if_pos rfl, if_pos (List.getElem?_eq_some_iff.1 g2).1]
      rw [g3] at h1
      cases h1
      rw [g4] at h2
      cases h2
      exact ⟨_, _, rfl, g3, g4, Or.inr rfl⟩
    · rw [if_neg e]; exact ⟨p, b', g2, g3, g4, g5⟩

theorem reads_trie {w : World K V T R S H} {c : SpillChunk K V T R} {t : ColTrie K V T R} (h : c.Reads codec st w t) :
    SpillRefines codec st w (c.trie codec st) (some t) (some t) fun _ a _ => a = t := by
  cases c with
  | resident t' => cases h; exact refines_pure rfl
  | paged m cell =>
    obtain ⟨-, p, bytes, h0, h1, h2, h3⟩ := h
    have key : ∃ w', SpillChunk.trie codec st (.paged m cell) w = some (t, w') ∧ World.Ext codec st w w' := by
      rcases h3 with h3 | h3
      · have e : SpillChunk.trie codec st (.paged m cell) w =
            ((noteFetched >>= fun _ => spillDecode codec st p.1) >>= fun t => (modify fun w => { w with cells := w.cells.set cell (p.1, some t) }) >>= fun _ => pure t : SpillM K V T R S H _) w := by
          change (Option.bind (w.cells[cell]?.bind fun a => some (a, w)) _) = _
          rw [h0]
          change (match p.2 with | some t => _ | none => _ : SpillM K V T R S H _) w = _
          rw [h3]
          simp only [bind_assoc]
        have e' : ∀ (f : SpillM K V T R S H (ColTrie K V T R)) (k : ColTrie K V T R → SpillM K V T R S H (ColTrie K V T R)) w, (f >>= k) w = (f w).bind fun p => k p.1 p.2 := fun _ _ _ => rfl
        rw [e, e', decode_run (w := w) h1 h2]
        exact ⟨_, rfl, ext_fill (h := p.1) (o := p.2) h0 h1 h2 rfl rfl⟩
      · refine ⟨w, ?_, .rfl' w⟩
        change (Option.bind (w.cells[cell]?.bind fun a => some (a, w)) _) = _
        rw [h0]
        change (match p.2 with | some t => _ | none => _ : SpillM K V T R S H _) w = _
        rw [h3]
        rfl
    obtain ⟨w', k1, k2⟩ := key
    constructor
    · rintro b ⟨⟩; exact ⟨t, w', k1, k2, rfl⟩
    · intro a w'' ha
      rw [k1] at ha
      cases ha
      exact ⟨t, rfl, k2, rfl⟩

/-- The world after a chunk is kept. -/
def World.keep (w : World K V T R S H) (s : SpillState) (n : Nat) : World K V T R S H := { w with state := some { s with resident_records := s.resident_records + n } }

/-- The world after a chunk is paged out. -/
def World.page (st : ByteStore S H) (w : World K V T R S H) (s : SpillState) (n : Nat) (buf : List UInt8) : World K V T R S H where
  state := some { s with stats := { s.stats with spilled_chunks := s.stats.spilled_chunks + 1, spilled_records := s.stats.spilled_records + n, bytes_written := s.stats.bytes_written + buf.length } }
  backing := (st.store w.backing buf).1
  cells := w.cells ++ [((st.store w.backing buf).2, none)]

theorem seal_run (w : World K V T R S H) (t : ColTrie K V T R) :
    SpillChunk.sealChunk codec st (.resident t) w =
      match w.state with
      | none => some (.resident t, w)
      | some s => (metaOf t).bind fun m =>
        if s.resident_records + t.len ≤ s.budget_records then some (.resident t, w.keep s t.len)
        else (codec.writeTo t).map fun buf => (.paged m w.cells.length, w.page st s t.len buf) := by
  change (match w.state with | none => _ | some _ => _ : SpillM K V T R S H _) w = _
  cases hs : w.state with
  | none => rfl
  | some s =>
    change Option.bind (Option.bind (metaOf t) fun a => some (a, w)) _ = _
    cases hm : metaOf t with
    | none => rfl
    | some m =>
      have e : ∀ (A B : Type) (f : SpillM K V T R S H A) (k : A → SpillM K V T R S H B) w, (f >>= k) w = (f w).bind fun p => k p.1 p.2 := fun _ _ _ _ _ => rfl
      have ht : tryPage codec st t w = if s.resident_records + t.len ≤ s.budget_records then some (none, w.keep s t.len)
          else (codec.writeTo t).map fun buf => (some (st.store w.backing buf).2,
            { state := (w.page st s t.len buf).state, backing := (w.page st s t.len buf).backing, cells := w.cells }) := by
        change (match w.state with | none => _ | some s => _ : SpillM K V T R S H _) w = _
        rw [hs]
        dsimp only
        split_ifs with hb
        · rfl
        · change Option.bind (Option.bind (codec.writeTo t) fun a => some (a, w)) _ = _
          cases codec.writeTo t with
          | none => rfl
          | some buf => rfl
      simp only [Option.bind_some]
      rw [e, ht]
      split_ifs with hb
      · rfl
      · cases codec.writeTo t with
        | none => rfl
        | some buf => rfl

/-- A chunk that may be committed: it has bounds, and its encoding fits in memory. -/
def sealOk (codec : TrieCodec K V T R) (t : ColTrie K V T R) : Bool := t.bounds.isSome && codec.fits t

theorem ext_page (hf : st.Faithful) (w : World K V T R S H) (s : SpillState) (n : Nat) (buf : List UInt8) : World.Ext codec st w (w.page st s n buf) := by
  intro c t h
  cases c with
  | resident t' => exact h
  | paged m cell =>
    obtain ⟨h0, p, bytes, h1, h2, h3, h4⟩ := h
    refine ⟨h0, p, bytes, ?_, hf.load_later _ _ _ _ h2, h3, h4⟩
    change (w.cells ++ _)[cell]? = _
    rw [List.getElem?_append_left (List.getElem?_eq_some_iff.1 h1).1, h1]

theorem writeTo_of_fits {t : ColTrie K V T R} (h : codec.fits t = true) : ∃ buf, codec.writeTo t = some buf := by
  rw [TrieCodec.writeTo, if_pos h]
  exact ⟨_, rfl⟩

theorem reads_seal (hf : st.Faithful) (hc : codec.Lawful) {w : World K V T R S H} {c : SpillChunk K V T R} {t : ColTrie K V T R} (h : c.Reads codec st w t) :
    SpillRefines codec st w (c.sealChunk codec st) (if sealOk codec t then some t else none) (some t) fun w' a b => a.Reads codec st w' b := by
  cases c with
  | paged m cell =>
    constructor
    · intro b hb
      split_ifs at hb
      cases hb
      exact ⟨_, w, rfl, .rfl' w, h⟩
    · rintro a w' ⟨⟩
      exact ⟨t, rfl, .rfl' w, h⟩
  | resident t' =>
    cases h
    rw [SpillRefines, seal_run]
    cases hs : w.state with
    | none =>
      constructor
      · intro b hb
        split_ifs at hb
        cases hb
        exact ⟨_, w, rfl, .rfl' w, rfl⟩
      · rintro a w' ⟨⟩
        exact ⟨t, rfl, .rfl' w, rfl⟩
    | some s =>
      dsimp only
      cases hm : metaOf t with
      | none =>
        have hn : t.bounds = none := by
          rw [metaOf, Option.map_eq_none_iff] at hm
          exact hm
        refine ⟨fun b hb => ?_, fun a w' ha => by cases ha⟩
        rw [sealOk, hn] at hb
        cases hb
      | some m =>
        simp only [Option.bind_some]
        by_cases h1 : s.resident_records + t.len ≤ s.budget_records
        · rw [if_pos h1]
          refine ⟨fun b hb => ?_, ?_⟩
          · split_ifs at hb
            cases hb
            exact ⟨_, _, rfl, ext_state rfl rfl, rfl⟩
          · rintro a w' ⟨⟩; exact ⟨_, rfl, ext_state rfl rfl, rfl⟩
        · rw [if_neg h1]
          have key : ∀ buf, codec.writeTo t = some buf → (SpillChunk.paged m w.cells.length : SpillChunk K V T R).Reads codec st (w.page st s t.len buf) t := by
            intro buf hbuf
            refine ⟨hm, ((st.store w.backing buf).2, none), buf, ?_, hf.load_store _ _, ?_, Or.inl rfl⟩
            · change (w.cells ++ _)[w.cells.length]? = _
              simp
            · have := readFrom_writeTo hc hbuf []
              rwa [List.append_nil] at this
          refine ⟨fun b hb => ?_, fun a w' ha => ?_⟩
          · split_ifs at hb with hx
            cases hb
            rw [sealOk, Bool.and_eq_true] at hx
            obtain ⟨buf, hbuf⟩ := writeTo_of_fits hx.2
            rw [hbuf]
            exact ⟨_, _, rfl, ext_page hf _ _ _ _, key buf hbuf⟩
          · obtain ⟨buf, hbuf, hx⟩ := Option.map_eq_some_iff.1 ha
            cases hx
            exact ⟨_, rfl, ext_page hf _ _ _ _, key buf hbuf⟩

theorem reads_bind {A' B' : Type} {w : World K V T R S H} {c : SpillChunk K V T R} {t : ColTrie K V T R} (h : c.Reads codec st w t) {k : ColTrie K V T R → SpillM K V T R S H A'}
    {z y : Option B'} {Rel' : World K V T R S H → A' → B' → Prop} (hk : ∀ w', World.Ext codec st w w' → SpillRefines codec st w' (k t) z y Rel') :
    SpillRefines codec st w (c.intoTrie codec st >>= k) z y Rel' :=
  (reads_intoTrie h).bind (z := some t) (y := some t) (z' := fun _ => z) (y' := fun _ => y) fun w' a _ e ha => by
    subst ha
    exact hk w' e

/-! ### Lists of chunks -/

/-- The chunks stand for the tries, in order. -/
abbrev SpillChunk.ReadsAll (codec : TrieCodec K V T R) (st : ByteStore S H) (w : World K V T R S H) (cs : List (SpillChunk K V T R)) (ts : List (ColTrie K V T R)) : Prop :=
  List.Forall₂ (SpillChunk.Reads codec st w) cs ts

theorem World.Ext.all {w w' : World K V T R S H} (h : World.Ext codec st w w') {cs : List (SpillChunk K V T R)} {ts : List (ColTrie K V T R)}
    (hr : SpillChunk.ReadsAll codec st w cs ts) : SpillChunk.ReadsAll codec st w' cs ts := hr.imp fun c t => h c t

theorem readsAll_append {w : World K V T R S H} {cs cs' : List (SpillChunk K V T R)} {ts ts' : List (ColTrie K V T R)} (h : SpillChunk.ReadsAll codec st w cs ts)
    (h' : SpillChunk.ReadsAll codec st w cs' ts') : SpillChunk.ReadsAll codec st w (cs ++ cs') (ts ++ ts') := List.rel_append h h'

theorem readsAll_snoc {w : World K V T R S H} {cs : List (SpillChunk K V T R)} {ts : List (ColTrie K V T R)} {c : SpillChunk K V T R} {t : ColTrie K V T R}
    (h : SpillChunk.ReadsAll codec st w cs ts) (h' : c.Reads codec st w t) : SpillChunk.ReadsAll codec st w (cs ++ [c]) (ts ++ [t]) := readsAll_append h (.cons h' .nil)

theorem reads_emit {w : World K V T R S H} {cs : List (SpillChunk K V T R)} {ts : List (ColTrie K V T R)} (h : SpillChunk.ReadsAll codec st w cs ts) (u : ColTrie K V T R) :
    SpillChunk.ReadsAll codec st w (SpillChunk.emit u cs) (ColTrie.emit u ts) := by
  rw [SpillChunk.emit, ColTrie.emit]
  split_ifs
  · exact readsAll_snoc h rfl
  · exact h

section ops
variable [LinearOrder K] [LinearOrder V] [LinearOrder (Lin T)] [AddCommMonoid R] [DecidableEq R] [Lattice T] [DecidableLE T]

theorem reads_pushBack {w : World K V T R S H} {cs : List (SpillChunk K V T R)} {ts : List (ColTrie K V T R)} (h : SpillChunk.ReadsAll codec st w cs ts)
    (cursor : Option (Nat × Nat × Nat)) (u : ColTrie K V T R) :
    SpillRefines codec st w (liftM (SpillChunk.pushBack cursor u cs) : SpillM K V T R S H _) (ColTrie.pushBack cursor u ts) (ColTrie.pushBack cursor u ts)
      (SpillChunk.ReadsAll codec st) := by
  cases cursor with
  | none => exact refines_pure (codec := codec) (st := st) h
  | some cursor =>
    rw [SpillChunk.pushBack, ColTrie.pushBack]
    cases ColTrie.suffixChunk cursor u with
    | none => exact refines_none w
    | some x =>
      refine refines_pure (codec := codec) (st := st) ?_
      dsimp only
      split_ifs
      · exact .cons rfl h
      · exact h

theorem reads_merge {w : World K V T R S H} {in1 in2 out : List (SpillChunk K V T R)} {t1 t2 ts : List (ColTrie K V T R)} (h1 : SpillChunk.ReadsAll codec st w in1 t1)
    (h2 : SpillChunk.ReadsAll codec st w in2 t2) (h3 : SpillChunk.ReadsAll codec st w out ts) :
    SpillRefines codec st w (SpillChunk.merge codec st in1 in2 out) (ColTrie.chunkMerge t1 t2 ts) (ColTrie.chunkMerge t1 t2 ts)
      fun w' a b => SpillChunk.ReadsAll codec st w' a.1 b.1 ∧ SpillChunk.ReadsAll codec st w' a.2.1 b.2.1 ∧ SpillChunk.ReadsAll codec st w' a.2.2 b.2.2 := by
  cases h1 with
  | nil => exact refines_none w
  | @cons c1 u1 in1 t1 r1 h1 =>
    cases h2 with
    | nil => exact refines_none w
    | @cons c2 u2 in2 t2 r2 h2 =>
      simp only [SpillChunk.merge, ColTrie.chunkMerge]
      refine reads_bind r1 fun w1 x1 => reads_bind (x1 _ _ r2) fun w2 x2 => refines_lift_bind fun r _ => refines_lift_bind fun m _ => ?_
      have x := x1.trans x2
      refine (reads_pushBack (x.all h1) _ _).bind ?_
      intro w5 a1 b1 x5 k1
      simp only [Option.map_eq_bind]
      refine (reads_pushBack ((x.trans x5).all h2) _ _).bind ?_
      intro w6 a2 b2 x6 k2
      exact refines_pure ⟨x6.all k1, k2, reads_emit (((x.trans x5).trans x6).all h3) _⟩

theorem reads_extract {w : World K V T R S H} {input keep ship : List (SpillChunk K V T R)} {ti tk ts : List (ColTrie K V T R)} (h1 : SpillChunk.ReadsAll codec st w input ti)
    (h2 : SpillChunk.ReadsAll codec st w keep tk) (h3 : SpillChunk.ReadsAll codec st w ship ts) (frontier residual : List T) :
    SpillRefines codec st w (SpillChunk.extract codec st input frontier residual keep ship) (ColTrie.chunkExtract ti frontier residual tk ts) (ColTrie.chunkExtract ti frontier residual tk ts)
      fun w' a b => SpillChunk.ReadsAll codec st w' a.1 b.1 ∧ a.2.1 = b.2.1 ∧ SpillChunk.ReadsAll codec st w' a.2.2.1 b.2.2.1 ∧ SpillChunk.ReadsAll codec st w' a.2.2.2 b.2.2.2 := by
  cases h1 with
  | nil => exact refines_pure ⟨.nil, rfl, h2, h3⟩
  | @cons c u input ti r h1 =>
    simp only [SpillChunk.extract, ColTrie.chunkExtract, Option.map_eq_bind]
    refine reads_bind r fun w1 x => refines_lift_bind fun r _ => ?_
    obtain ⟨r1, r2, r3⟩ := r
    refine refines_pure ⟨x.all h1, rfl, ?_, ?_⟩
    · cases r3 with
      | none => exact x.all h2
      | some c => exact reads_emit (x.all h2) c
    · cases r2 with
      | none => exact x.all h3
      | some c => exact reads_emit (x.all h3) c

theorem refines_foldlM {A B X Y : Type} {f : A → X → SpillM K V T R S H A} {z y : B → Y → Option B} {Rel : World K V T R S H → A → B → Prop} {In : World K V T R S H → X → Y → Prop}
    (hin : ∀ w w' x y, World.Ext codec st w w' → In w x y → In w' x y)
    (hs : ∀ w a b x y', Rel w a b → In w x y' → SpillRefines codec st w (f a x) (z b y') (y b y') Rel) {xs : List X} {ys : List Y} {w : World K V T R S H} (h : List.Forall₂ (In w) xs ys)
    {a : A} {b : B} (hr : Rel w a b) : SpillRefines codec st w (xs.foldlM f a) (ys.foldlM z b) (ys.foldlM y b) Rel := by
  induction xs generalizing ys w a b with
  | nil => cases h; exact refines_pure hr
  | cons x xs ih =>
    cases h with
    | cons h1 h2 =>
      simp only [List.foldlM_cons]
      refine (hs w a b x _ hr h1).bind ?_
      intro w' a' b' e k
      exact ih (h2.imp fun x y => hin _ _ x y e) k

theorem reads_advance {w : World K V T R S H} {input out : List (SpillChunk K V T R)} {ti ts : List (ColTrie K V T R)} (h1 : SpillChunk.ReadsAll codec st w input ti)
    (h2 : SpillChunk.ReadsAll codec st w out ts) (frontier : List T) (fin : Bool) :
    SpillRefines codec st w (SpillChunk.advance codec st input frontier fin out) (ColTrie.chunkAdvance ti frontier fin ts) (ColTrie.chunkAdvance ti frontier fin ts)
      fun w' a b => SpillChunk.ReadsAll codec st w' a.1 b.1 ∧ SpillChunk.ReadsAll codec st w' a.2 b.2 := by
  simp only [SpillChunk.advance, ColTrie.chunkAdvance]
  refine (refines_foldlM (Rel := fun w' a b => a.1 = b.1 ∧ SpillChunk.ReadsAll codec st w' a.2 b.2) (fun _ _ c t e h => e c t h) ?_ h1 ⟨rfl, h2⟩).bind ?_
  · rintro w ⟨a1, a2⟩ ⟨b1, b2⟩ c t ⟨rfl, k⟩ r
    simp only [SpillChunk.advanceStep, ColTrie.advanceStep] at k ⊢
    refine reads_bind r fun w1 x1 => refines_lift_bind fun comb _ => ?_
    split_ifs with e1
    · exact refines_pure ⟨rfl, x1.all k⟩
    · refine refines_lift_bind fun tail _ => ?_
      split_ifs with e2
      · exact refines_pure ⟨rfl, x1.all k⟩
      · simp only [Option.map_eq_bind]
        refine refines_lift_bind fun r _ => refines_lift_bind fun c _ => ?_
        exact refines_pure ⟨rfl, reads_emit (x1.all k) _⟩
  · rintro w1 ⟨a1, a2⟩ ⟨b1, b2⟩ x1 ⟨rfl, k⟩
    cases a1 with
    | none => exact refines_pure ⟨.nil, k⟩
    | some c =>
      cases fin with
      | false => exact refines_pure ⟨.cons rfl .nil, k⟩
      | true =>
        simp only [if_true, Option.map_eq_bind]
        exact refines_lift_bind fun c _ => refines_pure ⟨.nil, reads_emit k _⟩

/-! ### Packing -/

section packing
variable {combine : SpillChunk K V T R → SpillChunk K V T R → SpillM K V T R S H (SpillChunk K V T R)} {split : SpillChunk K V T R → Nat → SpillM K V T R S H (SpillChunk K V T R × SpillChunk K V T R)}
variable {ok : ColTrie K V T R → Bool} {cap : Nat}

/-- The carry and the output stand for a carry and an output. -/
def CarryRel (codec : TrieCodec K V T R) (st : ByteStore S H) (w : World K V T R S H) (a : Option (SpillChunk K V T R) × List (SpillChunk K V T R)) (b : Option (ColTrie K V T R) × List (ColTrie K V T R)) : Prop :=
  Option.Rel (SpillChunk.Reads codec st w) a.1 b.1 ∧ SpillChunk.ReadsAll codec st w a.2 b.2

theorem reads_split {w : World K V T R S H} {c : SpillChunk K V T R} {t : ColTrie K V T R} (h : c.Reads codec st w t) (n : Nat) :
    SpillRefines codec st w (do
      let t ← c.intoTrie codec st
      let r ← (liftM (t.splitAt n) : SpillM K V T R S H _)
      return (SpillChunk.resident r.1, SpillChunk.resident r.2)) (t.splitAt n) (t.splitAt n) fun _ a b => a.1 = .resident b.1 ∧ a.2 = .resident b.2 := by
  have e : t.splitAt n = (t.splitAt n).bind fun r => some r := by simp
  rw [e]
  exact reads_bind h fun w1 x1 => refines_lift_bind fun r _ => refines_pure ⟨rfl, rfl⟩

theorem reads_combine {w : World K V T R S H} {c d : SpillChunk K V T R} {t u : ColTrie K V T R} (h : c.Reads codec st w t) (h' : d.Reads codec st w u) :
    SpillRefines codec st w (do
      let a ← c.intoTrie codec st
      let b ← d.intoTrie codec st
      let c ← (liftM (ColTrie.melded a b) : SpillM K V T R S H _)
      return SpillChunk.resident c) (ColTrie.melded t u) (ColTrie.melded t u) fun _ a b => a = .resident b := by
  have e : ColTrie.melded t u = (ColTrie.melded t u).bind fun r => some r := by simp
  rw [e]
  exact reads_bind h fun w1 x1 => reads_bind (x1 _ _ h') fun w2 x2 => refines_lift_bind fun r _ => refines_pure rfl

/-- What the parts of packing do. -/
structure PackSim (codec : TrieCodec K V T R) (st : ByteStore S H) (combine : SpillChunk K V T R → SpillChunk K V T R → SpillM K V T R S H (SpillChunk K V T R))
    (split : SpillChunk K V T R → Nat → SpillM K V T R S H (SpillChunk K V T R × SpillChunk K V T R)) (commit : SpillChunk K V T R → SpillM K V T R S H (SpillChunk K V T R))
    (ok ok' : ColTrie K V T R → Option (ColTrie K V T R)) : Prop where
  combine : ∀ w c d t u, c.Reads codec st w t → d.Reads codec st w u → SpillRefines codec st w (combine c d) (ColTrie.melded t u) (ColTrie.melded t u) fun w' a b => a.Reads codec st w' b
  split : ∀ w c t n, c.Reads codec st w t → SpillRefines codec st w (split c n) (t.splitAt n) (t.splitAt n) fun w' a b => a.1.Reads codec st w' b.1 ∧ a.2.Reads codec st w' b.2
  commit : ∀ w c t, c.Reads codec st w t → SpillRefines codec st w (commit c) (ok t) (ok' t) fun w' a b => a.Reads codec st w' b

variable {commit : SpillChunk K V T R → SpillM K V T R S H (SpillChunk K V T R)} {ok ok' : ColTrie K V T R → Option (ColTrie K V T R)}

theorem PackSim.peel (h : PackSim codec st combine split commit ok ok') (n : Nat) {w : World K V T R S H} {c : SpillChunk K V T R} {t : ColTrie K V T R} (hr : c.Reads codec st w t)
    {out : List (SpillChunk K V T R)} {ts : List (ColTrie K V T R)} (ho : SpillChunk.ReadsAll codec st w out ts) :
    SpillRefines codec st w (peelM SpillChunk.len split commit cap n c out) (peelM ColTrie.len ColTrie.splitAt ok cap n t ts) (peelM ColTrie.len ColTrie.splitAt ok' cap n t ts) (CarryRel codec st) := by
  induction n generalizing w c t out ts with
  | zero => exact refines_none w
  | succ n ih =>
    simp only [peelM]
    refine (h.split w c t cap hr).bind ?_
    rintro w1 a b x1 ⟨k1, k2⟩
    refine (h.commit w1 _ _ k1).bind ?_
    intro w2 a' b' x2 k3
    have ho' := readsAll_snoc ((x1.trans x2).all ho) k3
    rw [reads_len k2]
    by_cases e : b.2.len ≥ cap
    · rw [if_pos e, if_pos e, if_pos e]
      exact ih (x2 _ _ k2) ho'
    · rw [if_neg e, if_neg e, if_neg e]
      refine refines_pure ⟨?_, ho'⟩
      dsimp only
      split_ifs
      · exact .some (x2 _ _ k2)
      · exact .none

theorem PackSim.absorb (h : PackSim codec st combine split commit ok ok') {w : World K V T R S H} {c : SpillChunk K V T R} {t : ColTrie K V T R} (hr : c.Reads codec st w t)
    {out : List (SpillChunk K V T R)} {ts : List (ColTrie K V T R)} (ho : SpillChunk.ReadsAll codec st w out ts) :
    SpillRefines codec st w (packAbsorbM SpillChunk.len split commit cap c out) (packAbsorbM ColTrie.len ColTrie.splitAt ok cap t ts) (packAbsorbM ColTrie.len ColTrie.splitAt ok' cap t ts)
      (CarryRel codec st) := by
  simp only [packAbsorbM, reads_len hr]
  by_cases e1 : t.len = cap
  · simp only [if_pos e1]
    refine (h.commit w c t hr).bind ?_
    intro w1 a b x1 k
    exact refines_pure ⟨.none, readsAll_snoc (x1.all ho) k⟩
  · simp only [if_neg e1]
    by_cases e2 : t.len < cap
    · simp only [if_pos e2]
      exact refines_pure ⟨.some hr, ho⟩
    · simp only [if_neg e2]
      exact h.peel _ hr ho

theorem PackSim.step (h : PackSim codec st combine split commit ok ok') {w : World K V T R S H} {s : Option (SpillChunk K V T R) × List (SpillChunk K V T R)}
    {s' : Option (ColTrie K V T R) × List (ColTrie K V T R)} (hs : CarryRel codec st w s s') {c : SpillChunk K V T R} {t : ColTrie K V T R} (hr : c.Reads codec st w t) :
    SpillRefines codec st w (packStepM SpillChunk.len combine split commit cap s c) (packStepM ColTrie.len ColTrie.melded ColTrie.splitAt ok cap s' t)
      (packStepM ColTrie.len ColTrie.melded ColTrie.splitAt ok' cap s' t) (CarryRel codec st) := by
  obtain ⟨a, out⟩ := s
  obtain ⟨b, ts⟩ := s'
  obtain ⟨h1, h2⟩ := hs
  dsimp only at h1 h2
  cases h1 with
  | none => exact h.absorb hr h2
  | @some a b h1 =>
    simp only [packStepM, reads_len hr, reads_len h1]
    by_cases e1 : b.len + t.len ≤ cap
    · simp only [if_pos e1]
      refine (h.combine w a c b t h1 hr).bind ?_
      intro w1 a b x1 k1
      simp only [reads_len k1]
      by_cases e2 : b.len = cap
      · simp only [if_pos e2]
        refine (h.commit w1 a b k1).bind ?_
        intro w2 a b x2 k2
        exact refines_pure ⟨.none, readsAll_snoc ((x1.trans x2).all h2) k2⟩
      · simp only [if_neg e2]
        exact refines_pure ⟨.some k1, x1.all h2⟩
    · simp only [if_neg e1]
      refine (h.commit w a b h1).bind ?_
      intro w1 a b x1 k1
      exact h.absorb (x1 _ _ hr) (readsAll_snoc (x1.all h2) k1)

theorem PackSim.pack (h : PackSim codec st combine split commit ok ok') {w : World K V T R S H} {input out : List (SpillChunk K V T R)} {ti ts : List (ColTrie K V T R)}
    (h1 : SpillChunk.ReadsAll codec st w input ti) (h2 : SpillChunk.ReadsAll codec st w out ts) (fin : Bool) :
    SpillRefines codec st w (packM SpillChunk.len combine split commit cap input fin out) (packM ColTrie.len ColTrie.melded ColTrie.splitAt ok cap ti fin ts)
      (packM ColTrie.len ColTrie.melded ColTrie.splitAt ok' cap ti fin ts)
      fun w' a b => SpillChunk.ReadsAll codec st w' a.1 b.1 ∧ SpillChunk.ReadsAll codec st w' a.2 b.2 := by
  simp only [packM]
  refine (refines_foldlM (Rel := CarryRel codec st) (fun _ _ c t e h => e c t h) (fun w a b c t k r => h.step k r) h1 ⟨.none, h2⟩).bind ?_
  rintro w1 ⟨a, out⟩ ⟨b, ts⟩ x1 ⟨k1, k2⟩
  dsimp only at k1 k2
  cases k1 with
  | none => exact refines_pure ⟨.nil, k2⟩
  | @some a b k1 =>
    cases fin with
    | false => exact refines_pure ⟨.cons k1 .nil, k2⟩
    | true =>
      simp only [if_true]
      refine (h.commit w1 a b k1).bind ?_
      intro w2 a b x2 k3
      exact refines_pure ⟨.nil, readsAll_snoc (x2.all k2) k3⟩

theorem reads_settle (hf : st.Faithful) (hc : codec.Lawful) {w : World K V T R S H} {input out : List (SpillChunk K V T R)} {ti ts : List (ColTrie K V T R)}
    (h1 : SpillChunk.ReadsAll codec st w input ti) (h2 : SpillChunk.ReadsAll codec st w out ts) (fin : Bool) :
    SpillRefines codec st w (SpillChunk.settle codec st cap input fin out) ((trieImpl (sealOk codec) cap).settle ti fin ts) ((trieImpl (fun _ => true) cap).settle ti fin ts)
      fun w' a b => SpillChunk.ReadsAll codec st w' a.1 b.1 ∧ SpillChunk.ReadsAll codec st w' a.2 b.2 := by
  refine PackSim.pack ⟨?_, ?_, ?_⟩ h1 h2 fin
  · intro w c d t u k1 k2
    exact (reads_combine k1 k2).mono fun w' a b _ e => by subst e; rfl
  · intro w c t n k
    exact (reads_split k n).mono fun w' a b _ e => by rw [e.1, e.2]; exact ⟨rfl, rfl⟩
  · intro w c t k
    simp only [if_true]
    exact reads_seal hf hc k

end packing
/-! ### Programs -/

theorem reads_update {w : World K V T R S H} {ds : Nat → List (SpillChunk K V T R)} {ts : Nat → List (ColTrie K V T R)} (h : ∀ d, SpillChunk.ReadsAll codec st w (ds d) (ts d)) (d : Nat)
    {cs : List (SpillChunk K V T R)} {us : List (ColTrie K V T R)} (hc : SpillChunk.ReadsAll codec st w cs us) (d' : Nat) :
    SpillChunk.ReadsAll codec st w (Function.update ds d cs d') (Function.update ts d us d') := by
  by_cases e : d' = d
  · subst e; simpa using hc
  · simpa [Function.update_of_ne e] using h d'

theorem reads_get {A' B' : Type} {w : World K V T R S H} {cs : List (SpillChunk K V T R)} {ts : List (ColTrie K V T R)} (h : SpillChunk.ReadsAll codec st w cs ts) (i : Nat)
    {k : SpillChunk K V T R → SpillM K V T R S H A'} {z y : ColTrie K V T R → Option B'} {Rel' : World K V T R S H → A' → B' → Prop}
    (hk : ∀ c t, c.Reads codec st w t → SpillRefines codec st w (k c) (z t) (y t) Rel') :
    SpillRefines codec st w ((liftM cs[i]? : SpillM K V T R S H _) >>= k) (ts[i]?.bind z) (ts[i]?.bind y) Rel' := by
  by_cases hi : i < cs.length
  · have hi' : i < ts.length := by rw [← h.length_eq]; exact hi
    rw [List.getElem?_eq_getElem hi, List.getElem?_eq_getElem hi']
    exact hk _ _ (h.get hi hi')
  · have hi' : ¬ i < ts.length := by rw [← h.length_eq]; exact hi
    rw [List.getElem?_eq_none (by omega), List.getElem?_eq_none (by omega)]
    exact ⟨fun _ h => (by cases h), fun _ _ h => (by cases h)⟩

theorem reads_set {w : World K V T R S H} {cs : List (SpillChunk K V T R)} {ts : List (ColTrie K V T R)} (h : SpillChunk.ReadsAll codec st w cs ts) (i : Nat)
    {c : SpillChunk K V T R} {t : ColTrie K V T R} (hc : c.Reads codec st w t) : SpillChunk.ReadsAll codec st w (cs.set i c) (ts.set i t) := by
  induction h generalizing i with
  | nil => exact .nil
  | cons h1 h2 ih =>
    cases i with
    | zero => exact .cons hc h2
    | succ i => exact .cons h1 (ih i)

theorem reads_run {B : Type} {cap : Nat} (hf : st.Faithful) (hc : codec.Lawful) (p : Client K V T R B) {w : World K V T R S H} {ds : Nat → List (SpillChunk K V T R)}
    {ts : Nat → List (ColTrie K V T R)} (h : ∀ d, SpillChunk.ReadsAll codec st w (ds d) (ts d)) :
    SpillRefines codec st w (p.run (spillImpl codec st cap) ds) (p.run (trieImpl (sealOk codec) cap) ts) (p.run (trieImpl (fun _ => true) cap) ts) fun _ a b => a = b := by
  induction p generalizing w ds ts with
  | done b => exact refines_pure rfl
  | make t d next ih => exact ih (reads_update h d (readsAll_snoc (h d) rfl))
  | size d next ih =>
    simp only [Client.run, (h d).length_eq]
    exact ih _ h
  | move src dst next ih =>
    have hs := h src
    simp only [Client.run]
    generalize ds src = cs at hs
    generalize ts src = us at hs
    cases hs with
    | nil => exact ih h
    | cons h1 h2 =>
      have hu := reads_update h src h2
      exact ih (reads_update hu dst (readsAll_snoc (hu dst) h1))
  | clone d i dst next ih => exact reads_get (h d) i fun c t r => ih (reads_update h dst (readsAll_snoc (h dst) r))
  | len d i next ih =>
    refine reads_get (h d) i fun c t r => ?_
    have e : (spillImpl codec st cap).len c = t.len := reads_len r
    rw [e]
    exact ih _ h
  | bounds d i next ih =>
    refine reads_get (h d) i fun c t r => (reads_bounds r).bind ?_
    rintro w' a _ x rfl
    exact ih _ fun d => x.all (h d)
  | read d i next ih =>
    refine reads_get (h d) i fun c t r => ?_
    refine (reads_trie r).bind (z := some t) (y := some t) (z' := fun _ => (next t).run (trieImpl (sealOk codec) cap) ts) (y' := fun _ => (next t).run (trieImpl (fun _ => true) cap) ts) ?_
    rintro w' a _ x rfl
    exact ih _ fun d => x.all (h d)
  | edit d i f next ih =>
    refine reads_get (h d) i fun c t r => ?_
    have e : (spillImpl codec st cap).edit c f = (c.intoTrie codec st >>= fun t => pure (.resident (f t))) := rfl
    rw [e, bind_assoc]
    refine reads_bind r fun w' x => ?_
    rw [pure_bind]
    have h' := fun d => x.all (h d)
    exact ih (reads_update h' d (reads_set (h' d) i rfl))
  | merge in1 in2 out next ih =>
    refine (reads_merge (h in1) (h in2) (h out)).bind ?_
    rintro w' a b x ⟨k1, k2, k3⟩
    exact ih (reads_update (reads_update (reads_update (fun d => x.all (h d)) in1 k1) in2 k2) out k3)
  | extract input keep ship frontier residual next ih =>
    refine (reads_extract (h input) (h keep) (h ship) frontier residual).bind ?_
    rintro w' a b x ⟨k1, k2, k3, k4⟩
    rw [k2]
    exact ih _ (reads_update (reads_update (reads_update (fun d => x.all (h d)) input k1) keep k3) ship k4)
  | advance input out frontier fin next ih =>
    refine (reads_advance (h input) (h out) frontier fin).bind ?_
    rintro w' a b x ⟨k1, k2⟩
    exact ih (reads_update (reads_update (fun d => x.all (h d)) input k1) out k2)
  | settle input out fin next ih =>
    refine (reads_settle hf hc (h input) (h out) fin).bind ?_
    rintro w' a b x ⟨k1, k2⟩
    exact ih (reads_update (reads_update (fun d => x.all (h d)) input k1) out k2)
  | install budget next ih =>
    have hx : World.Ext codec st w { w with state := some ⟨budget, 0, ⟨0, 0, 0, 0⟩⟩ } := ext_state rfl rfl
    obtain ⟨k1, k2⟩ := ih fun d => hx.all (h d)
    refine ⟨fun b hb => ?_, fun a w' ha => ?_⟩
    · obtain ⟨a, w', g1, g2, g3⟩ := k1 b hb
      exact ⟨a, w', g1, hx.trans g2, g3⟩
    · obtain ⟨b, g1, g2, g3⟩ := k2 a w' ha
      exact ⟨b, g1, hx.trans g2, g3⟩
  | uninstall next ih =>
    have hx : World.Ext codec st w { w with state := none } := ext_state rfl rfl
    obtain ⟨k1, k2⟩ := ih fun d => hx.all (h d)
    refine ⟨fun b hb => ?_, fun a w' ha => ?_⟩
    · obtain ⟨a, w', g1, g2, g3⟩ := k1 b hb
      exact ⟨a, w', g1, hx.trans g2, g3⟩
    · obtain ⟨b, g1, g2, g3⟩ := k2 a w' ha
      exact ⟨b, g1, hx.trans g2, g3⟩

end ops

end reads

end DD
