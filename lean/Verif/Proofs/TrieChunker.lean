import Verif.Proofs.ColCollection

/-!
# The chunker of columnar updates
-/

namespace DD
set_option linter.unusedSectionVars false
variable {K V T R : Type*}

section
variable [DecidableEq K] [DecidableEq V] [DecidableEq T] [AddCommMonoid R]

/-- The same totals, and no datum or time that is not there. -/
def Refines (ws us : Upds (K ×ₗ V) T R) : Prop := (∀ d q, total ws d q = total us d q) ∧ ∀ w ∈ ws, ∃ u ∈ us, u.1 = w.1 ∧ u.2.1 = w.2.1

theorem Refines.refl (us : Upds (K ×ₗ V) T R) : Refines us us := ⟨fun _ _ => rfl, fun w hw => ⟨w, hw, rfl, rfl⟩⟩

theorem Refines.trans {a b c : Upds (K ×ₗ V) T R} (h : Refines a b) (h' : Refines b c) : Refines a c := by
  refine ⟨fun d q => (h.1 d q).trans (h'.1 d q), fun w hw => ?_⟩
  obtain ⟨u, h1, h2, h3⟩ := h.2 w hw
  obtain ⟨v, k1, k2, k3⟩ := h'.2 u h1
  exact ⟨v, k1, k2.trans h2, k3.trans h3⟩

theorem Refines.append {a b c d : Upds (K ×ₗ V) T R} (h : Refines a b) (h' : Refines c d) : Refines (a ++ c) (b ++ d) := by
  refine ⟨fun x q => by rw [total_append, total_append, h.1, h'.1], fun w hw => ?_⟩
  rcases List.mem_append.1 hw with hw | hw
  · obtain ⟨u, h1, h2⟩ := h.2 w hw; exact ⟨u, List.mem_append_left _ h1, h2⟩
  · obtain ⟨u, h1, h2⟩ := h'.2 w hw; exact ⟨u, List.mem_append_right _ h1, h2⟩

theorem Refines.of_perm {a b : Upds (K ×ₗ V) T R} (h : a.Perm b) : Refines a b := ⟨fun d q => total_perm h d q, fun w hw => ⟨w, h.mem_iff.1 hw, rfl, rfl⟩⟩

end

variable [LinearOrder K] [LinearOrder V] [LinearOrder (Lin T)] [DecidableEq T] [AddCommMonoid R] [DecidableEq R]

theorem RecUpd.Carries.of_records {t : ColTrie K V T R} {n : Nat} {b : Bool} {us : Upds (K ×ₗ V) T R} (h : RecUpd.Carries ⟨t, n, b⟩ us) (m : Nat) : RecUpd.Carries ⟨t, m, b⟩ us := ⟨h.1, h.2⟩

/-- What is held in a blob. -/
def TrieBlobOk (b : ColTrie K V T R × Bool) (p : Upds (K ×ₗ V) T R) : Prop := RecUpd.Carries ⟨b.1, 0, b.2⟩ p ∧ p ≠ []

/-- What is held in a chunk. -/
def ReadyOk (c : ColTrie K V T R) (p : Upds (K ×ₗ V) T R) : Prop := c.Holds p ∧ Consolidated p ∧ p ≠ []

/-- What a chunker holds. -/
structure Chunked (s : TrieChunker K V T R) (bp rp : List (Upds (K ×ₗ V) T R)) : Prop where
  blobs : List.Forall₂ TrieBlobOk s.blobs bp
  records : s.blob_records = (bp.map List.length).sum
  ready : List.Forall₂ ReadyOk s.ready rp

namespace Chunked
variable {s : TrieChunker K V T R} {bp rp : List (Upds (K ×ₗ V) T R)}

theorem absorb (h : Chunked s bp rp) {t : ColTrie K V T R} {b : Bool} {p : Upds (K ×ₗ V) T R} (hb : TrieBlobOk (t, b) p) : Chunked (s.absorb t b) (bp ++ [p]) rp := by
  refine ⟨List.rel_append h.blobs (.cons hb .nil), ?_, h.ready⟩
  have := hb.1.len
  simp only [TrieChunker.absorb, h.records, List.map_append, List.sum_append]
  simpa using this

theorem absorb? (h : Chunked s bp rp) {r : Option (ColTrie K V T R × Bool)} {ep : List (Upds (K ×ₗ V) T R)} (hb : List.Forall₂ TrieBlobOk r.toList ep) : Chunked (s.absorb? r) (bp ++ ep) rp := by
  cases r with
  | none => cases hb; simpa [TrieChunker.absorb?] using h
  | some b =>
    rw [Option.toList_some] at hb
    cases hb with
    | cons h1 h2 => cases h2; exact h.absorb h1

theorem ship (h : Chunked s bp rp) {target : Nat} (ht : 0 < target) {cons : ColTrie K V T R} {ws : Upds (K ×ₗ V) T R} (hc : RecUpd.Carries ⟨cons, 0, true⟩ ws) :
    ∃ ep ep', List.Forall₂ TrieBlobOk (TrieChunker.ship target s cons).1.toList ep ∧ Chunked (TrieChunker.ship target s cons).2 bp (rp ++ ep') ∧ ep.flatten ++ ep'.flatten = ws := by
  have hl := hc.len
  simp only at hl
  rw [TrieChunker.ship]
  split_ifs with h1 h2
  · obtain ⟨c1, c2⟩ := hc.canonical rfl
    exact ⟨[], [ws], .nil, ⟨h.blobs, h.records, List.rel_append h.ready (.cons ⟨c1, c2, by rintro rfl; simp at hl; omega⟩ .nil)⟩, by simp⟩
  · exact ⟨[ws], [], .cons ⟨hc, by rintro rfl; simp at hl; omega⟩ .nil, by simpa using h, by simp⟩
  · refine ⟨[], [], .nil, by simpa using h, ?_⟩
    have : ws.length = 0 := by omega
    simpa using (List.length_eq_zero_iff.1 this).symm

theorem mapM_iter {blobs : List (ColTrie K V T R × Bool)} {bp : List (Upds (K ×ₗ V) T R)} (h : List.Forall₂ TrieBlobOk blobs bp) :
    (blobs.mapM fun (b : ColTrie K V T R × Bool) => b.1.iter) = some bp := by
  induction h with
  | nil => rfl
  | cons h1 _ ih => rw [List.mapM_cons, ih, h1.1.iter]; rfl

theorem consolidateBlobs (h : Chunked s bp rp) : ∃ t ws, s.consolidateBlobs = some (t, { s with blobs := [], blob_records := 0 }) ∧ RecUpd.Carries ⟨t, 0, true⟩ ws ∧
    Refines ws bp.flatten ∧ Chunked { s with blobs := [], blob_records := 0 } [] rp := by
  have h' : Chunked { s with blobs := [], blob_records := 0 } [] rp := ⟨.nil, rfl, h.ready⟩
  rw [TrieChunker.consolidateBlobs]
  split
  · rename_i t heq
    have hb := h.blobs
    rw [heq] at hb
    cases hb with
    | cons h1 h2 =>
      cases h2
      exact ⟨t, _, rfl, h1.1, by simpa using Refines.refl _, h'⟩
  · obtain ⟨t, ws, e, k1, k2, k3⟩ := formUnsorted_forms bp.flatten 0
    refine ⟨t, ws, ?_, k1, ⟨k2, k3⟩, h'⟩
    rw [mapM_iter h.blobs]
    simp only [Option.bind_some]
    rw [e]; rfl

theorem pushInto (h : Chunked s bp rp) {target : Nat} (ht : 0 < target) {c : RecUpd K V T R} {us : Upds (K ×ₗ V) T R} (hc : c.Carries us) :
    ∃ s' bp' rp', s.pushInto target c = some s' ∧ Chunked s' bp' (rp ++ rp') ∧ Refines (bp'.flatten ++ rp'.flatten) (bp.flatten ++ us) := by
  have hl := hc.len
  rw [TrieChunker.pushInto]
  by_cases h0 : c.updates.len = 0
  · rw [if_pos h0]
    have : us = [] := List.length_eq_zero_iff.1 (by omega)
    subst this
    exact ⟨s, bp, [], rfl, by simpa using h, by simpa using Refines.refl _⟩
  rw [if_neg h0]
  simp only
  by_cases h1 : c.consolidated = true ∧ c.updates.len ≥ target
  · rw [if_pos h1]
    obtain ⟨c1, c2⟩ := hc.canonical h1.1
    refine ⟨_, bp, [us], rfl, ⟨h.blobs, h.records, List.rel_append h.ready (.cons ⟨c1, c2, ?_⟩ .nil)⟩, by simpa using Refines.refl _⟩
    rintro rfl; simp at hl; omega
  rw [if_neg h1]
  by_cases h2 : s.blob_records + c.updates.len < 2 * target
  · rw [if_pos h2]
    refine ⟨_, bp ++ [us], [], rfl, ?_, by simpa using Refines.refl _⟩
    rw [List.append_nil]
    exact h.absorb ⟨RecUpd.Carries.of_records (n := c.records) hc 0, by rintro rfl; simp at hl; omega⟩
  · rw [if_neg h2]
    have hne : us ≠ [] := by rintro rfl; simp at hl; omega
    have stage1 : ∃ r s1 ep ep', (if c.updates.len ≥ target then (if c.consolidated = true then some c.updates else c.updates.consolidate).map (TrieChunker.ship target s)
          else some (some (c.updates, c.consolidated), s)) = some (r, s1) ∧ List.Forall₂ TrieBlobOk r.toList ep ∧ Chunked s1 bp (rp ++ ep') ∧ Refines (ep.flatten ++ ep'.flatten) us := by
      split_ifs with g1 g2
      · exact absurd ⟨g2, g1⟩ h1
      · obtain ⟨t, ws, e, k1, k2, k3⟩ := formUnsorted_forms us 0
        obtain ⟨ep, ep', q1, q2, q3⟩ := h.ship ht k1
        refine ⟨(TrieChunker.ship target s t).1, (TrieChunker.ship target s t).2, ep, ep', ?_, q1, q2, by rw [q3]; exact ⟨k2, k3⟩⟩
        rw [ColTrie.consolidate, hc.iter]
        simp only [Option.bind_some]
        rw [e]; rfl
      · exact ⟨_, _, [us], [], rfl, .cons ⟨RecUpd.Carries.of_records (n := c.records) hc 0, hne⟩ .nil, by simpa using h, by simpa using Refines.refl _⟩
    obtain ⟨r, s1, ep, ep', e1, q1, q2, q3⟩ := stage1
    rw [e1]
    simp only [Option.bind_some]
    split_ifs with g3
    · obtain ⟨t, ws, e, k1, k2, k3⟩ := q2.consolidateBlobs
      obtain ⟨fp, fp', p1, p2, p3⟩ := k3.ship ht k1
      rw [e]
      refine ⟨_, _, _, rfl, by rw [← List.append_assoc]; exact (p2.absorb? q1).absorb? p1, ?_⟩
      have hp : (([] ++ ep ++ fp).flatten ++ (ep' ++ fp').flatten).Perm ((fp.flatten ++ fp'.flatten) ++ (ep.flatten ++ ep'.flatten)) := by
        simp only [List.nil_append, List.flatten_append]
        apply List.perm_iff_count.2; intro x; simp only [List.count_append]; omega
      refine (Refines.of_perm hp).trans ?_
      rw [p3]
      exact k2.append q3
    · refine ⟨_, _, _, rfl, q2.absorb? q1, ?_⟩
      have hp : ((bp ++ ep).flatten ++ ep'.flatten).Perm (bp.flatten ++ (ep.flatten ++ ep'.flatten)) := by
        simp
      exact (Refines.of_perm hp).trans ((Refines.refl _).append q3)

theorem extract (h : Chunked s bp rp) : ∃ op rp', List.Forall₂ ReadyOk s.extract.1.toList op ∧ Chunked s.extract.2 bp rp' ∧ rp = op ++ rp' := by
  rw [TrieChunker.extract]
  have hr := h.ready
  cases e : s.ready with
  | nil => rw [e] at hr; cases hr; exact ⟨[], [], .nil, h, rfl⟩
  | cons c ready =>
    rw [e] at hr
    cases hr with
    | cons h1 h2 => exact ⟨[_], _, .cons h1 .nil, ⟨h.blobs, h.records, h2⟩, rfl⟩

theorem finish (h : Chunked s bp rp) : ∃ o s' op rp', s.finish = some (o, s') ∧ List.Forall₂ ReadyOk o.toList op ∧ Chunked s' [] rp' ∧ Refines (op.flatten ++ rp'.flatten) (bp.flatten ++ rp.flatten) ∧
    (o = none → s'.ready = []) ∧ (o.isSome → s'.ready.length < s.ready.length + if s.blobs = [] then 0 else 1) := by
  have hex : ∀ s : TrieChunker K V T R, (s.extract.1 = none → s.extract.2.ready = []) ∧ (s.extract.1.isSome → s.extract.2.ready.length + 1 = s.ready.length) := by
    intro s
    rw [TrieChunker.extract]
    cases e : s.ready with
    | nil => simp [e]
    | cons c ready => simp
  rw [TrieChunker.finish]
  by_cases h0 : s.blobs = []
  · rw [if_pos (List.isEmpty_iff.2 h0)]
    have hb := h.blobs
    rw [h0] at hb
    cases hb
    obtain ⟨op, rp', q1, q2, q3⟩ := h.extract
    refine ⟨s.extract.1, s.extract.2, op, rp', rfl, q1, q2, by subst q3; simpa using Refines.refl _, (hex s).1, fun ho => ?_⟩
    have := (hex s).2 ho; omega
  · rw [if_neg (by rwa [List.isEmpty_iff]), if_neg h0]
    obtain ⟨t, ws, e, k1, k2, k3⟩ := h.consolidateBlobs
    rw [e]
    simp only [Option.map_some]
    have hl := k1.len
    simp only at hl
    by_cases ht : t.len > 0
    · rw [if_pos ht]
      obtain ⟨c1, c2⟩ := k1.canonical rfl
      have k4 : Chunked { s with blobs := [], blob_records := 0, ready := s.ready ++ [t] } [] (rp ++ [ws]) :=
        ⟨.nil, rfl, List.rel_append h.ready (.cons ⟨c1, c2, by rintro rfl; simp at hl; omega⟩ .nil)⟩
      obtain ⟨op, rp', q1, q2, q3⟩ := k4.extract
      refine ⟨(TrieChunker.extract { s with blobs := [], blob_records := 0, ready := s.ready ++ [t] }).1, (TrieChunker.extract { s with blobs := [], blob_records := 0, ready := s.ready ++ [t] }).2, op, rp', rfl, q1, q2, ?_, (hex _).1, fun ho => ?_⟩
      · rw [← List.flatten_append, ← q3, List.flatten_append, List.flatten_singleton]
        exact (Refines.of_perm List.perm_append_comm).trans (k2.append (Refines.refl _))
      · have := (hex _).2 ho
        rw [List.length_append, List.length_singleton] at this
        omega
    · rw [if_neg ht]
      obtain ⟨op, rp', q1, q2, q3⟩ := k3.extract
      refine ⟨(TrieChunker.extract { s with blobs := [], blob_records := 0 }).1, (TrieChunker.extract { s with blobs := [], blob_records := 0 }).2, op, rp', rfl, q1, q2, ?_, (hex _).1, fun ho => ?_⟩
      · rw [← List.flatten_append, ← q3]
        have : ws = [] := List.length_eq_zero_iff.1 (by omega)
        subst this
        simpa using k2.append (Refines.refl rp.flatten)
      · have := (hex _).2 ho
        simp only at this
        omega

end Chunked

/-- What a chunker was given, handed out, and holds. -/
def ChunkInv (pushed : Upds (K ×ₗ V) T R) (x : TrieChunker K V T R × List (ColTrie K V T R)) : Prop :=
  ∃ bp rp op, Chunked x.1 bp rp ∧ List.Forall₂ ReadyOk x.2 op ∧ Refines (op.flatten ++ (bp.flatten ++ rp.flatten)) pushed

theorem ChunkInv.finish {pushed : Upds (K ×ₗ V) T R} {s : TrieChunker K V T R} {out : List (ColTrie K V T R)} (h : ChunkInv pushed (s, out)) :
    ∃ o s', s.finish = some (o, s') ∧ ChunkInv pushed (s', out ++ o.toList) ∧ s'.blobs = [] ∧ s'.blob_records = 0 ∧ (o = none → s'.ready = []) ∧
      (o.isSome → s'.ready.length < s.ready.length + if s.blobs = [] then 0 else 1) := by
  obtain ⟨bp, rp, op, h1, h2, h3⟩ := h
  obtain ⟨o, s', op', rp', e, q1, q2, q3, q4, q5⟩ := h1.finish
  refine ⟨o, s', e, ⟨[], rp', op ++ op', q2, List.rel_append h2 q1, ?_⟩, List.forall₂_nil_right_iff.1 q2.blobs, q2.records, q4, q5⟩
  have : (op ++ op').flatten ++ (([] : List (Upds (K ×ₗ V) T R)).flatten ++ rp'.flatten) = op.flatten ++ (op'.flatten ++ rp'.flatten) := by simp
  rw [this]
  exact ((Refines.refl _).append q3).trans h3

theorem ChunkInv.step {target : Nat} (ht : 0 < target) {pushed : Upds (K ×ₗ V) T R} {x : TrieChunker K V T R × List (ColTrie K V T R)} (h : ChunkInv pushed x) (op : TrieChunker.Op K V T R)
    (us : Upds (K ×ₗ V) T R) (hop : match op with | .push c => c.Carries us | _ => us = []) : ∃ x', TrieChunker.step target x op = some x' ∧ ChunkInv (pushed ++ us) x' := by
  cases op with
  | push c =>
    obtain ⟨bp, rp, op, h1, h2, h3⟩ := h
    obtain ⟨s', bp', rp', e, q1, q2⟩ := h1.pushInto ht hop
    refine ⟨(s', x.2), by rw [TrieChunker.step, e]; rfl, bp', rp ++ rp', op, q1, h2, ?_⟩
    have hp : (op.flatten ++ (bp'.flatten ++ (rp ++ rp').flatten)).Perm (op.flatten ++ rp.flatten ++ (bp'.flatten ++ rp'.flatten)) := by
      apply List.perm_iff_count.2; intro x; simp only [List.count_append, List.flatten_append]; omega
    have hp' : (op.flatten ++ rp.flatten ++ (bp.flatten ++ us)).Perm (op.flatten ++ (bp.flatten ++ rp.flatten) ++ us) := by
      apply List.perm_iff_count.2; intro x; simp only [List.count_append]; omega
    exact (Refines.of_perm hp).trans ((((Refines.refl _).append q2).trans (Refines.of_perm hp')).trans (h3.append (Refines.refl us)))
  | extract =>
    subst hop
    obtain ⟨bp, rp, op, h1, h2, h3⟩ := h
    obtain ⟨op', rp', q1, q2, rfl⟩ := h1.extract
    refine ⟨_, rfl, bp, rp', op ++ op', q2, List.rel_append h2 q1, ?_⟩
    rw [List.append_nil]
    refine (Refines.of_perm ?_).trans h3
    apply List.perm_iff_count.2; intro x; simp only [List.count_append, List.flatten_append]; omega
  | finish =>
    subst hop
    obtain ⟨o, s', e, q, -⟩ := ChunkInv.finish (s := x.1) (out := x.2) h
    refine ⟨(s', x.2 ++ o.toList), by rw [TrieChunker.step, e]; rfl, by rw [List.append_nil]; exact q⟩

theorem ChunkInv.finishAll {pushed : Upds (K ×ₗ V) T R} : ∀ (n : Nat) {s : TrieChunker K V T R} {out : List (ColTrie K V T R)}, ChunkInv pushed (s, out) →
    s.ready.length + (if s.blobs = [] then 0 else 1) < n →
    ∃ out' op, s.finishAll n out = some (out', TrieChunker.empty) ∧ List.Forall₂ ReadyOk out' op ∧ Refines op.flatten pushed := by
  intro n
  induction n with
  | zero => intro s out _ h; omega
  | succ n ih =>
    intro s out h hn
    obtain ⟨o, s', e, h1, h2, h3, h4, h5⟩ := h.finish
    rw [TrieChunker.finishAll, e]
    cases o with
    | none =>
      have h4 := h4 rfl
      have : s' = TrieChunker.empty := by cases s'; simp_all [TrieChunker.empty]
      subst this
      obtain ⟨bp, rp, op, q1, q2, q3⟩ := h1
      have hb : bp = [] := List.forall₂_nil_left_iff.1 q1.blobs
      have hr : rp = [] := List.forall₂_nil_left_iff.1 q1.ready
      subst hb hr
      exact ⟨out, op, rfl, by simpa using q2, by simpa using q3⟩
    | some c =>
      have h5 := h5 rfl
      exact ih h1 (by rw [h2]; simp only [if_true]; omega)

/-! ### Sizes -/

theorem consolidateBlobs_rest {s s' : TrieChunker K V T R} {t : ColTrie K V T R} (h : s.consolidateBlobs = some (t, s')) : s' = { s with blobs := [], blob_records := 0 } := by
  rw [TrieChunker.consolidateBlobs] at h
  split at h
  · cases h; rfl
  · obtain ⟨us, -, h⟩ := Option.bind_eq_some_iff.1 h
    obtain ⟨r, -, h⟩ := Option.map_eq_some_iff.1 h
    cases h; rfl

/-- Chunks ready to be taken are large, and not much is held back. -/
def Sized (target : Nat) (s : TrieChunker K V T R) : Prop := s.blob_records < 2 * target ∧ ∀ c ∈ s.ready, target ≤ c.len

/-- A residual is small. -/
def Small (target : Nat) (r : Option (ColTrie K V T R × Bool)) : Prop := ∀ b ∈ r, b.1.len < target

theorem ship_sized {target : Nat} {s : TrieChunker K V T R} (h : ∀ c ∈ s.ready, target ≤ c.len) (t : ColTrie K V T R) :
    Small target (TrieChunker.ship target s t).1 ∧ (TrieChunker.ship target s t).2.blob_records = s.blob_records ∧ ∀ c ∈ (TrieChunker.ship target s t).2.ready, target ≤ c.len := by
  rw [TrieChunker.ship]
  split_ifs with h1 h2
  · refine ⟨by simp [Small], rfl, ?_⟩
    intro c hc
    rcases List.mem_append.1 hc with hc | hc
    · exact h c hc
    · rw [List.mem_singleton] at hc; subst hc; exact h1
  · exact ⟨by simp only [Small, Option.mem_def, Option.some.injEq]; rintro b rfl; simp only; omega, rfl, h⟩
  · exact ⟨by simp [Small], rfl, h⟩

theorem absorb?_sized {target m : Nat} {s : TrieChunker K V T R} (ht : 0 < target) {r : Option (ColTrie K V T R × Bool)} (h : Small target r) (hs : s.blob_records ≤ m) :
    (s.absorb? r).blob_records < m + target ∧ (s.absorb? r).ready = s.ready := by
  cases r with
  | none => exact ⟨by simp only [TrieChunker.absorb?]; omega, rfl⟩
  | some b =>
    have := h b rfl
    exact ⟨by simp only [TrieChunker.absorb?, TrieChunker.absorb]; omega, rfl⟩

theorem pushInto_sized {target : Nat} (ht : 0 < target) {s s' : TrieChunker K V T R} {c : RecUpd K V T R} (h : Sized target s) (e : s.pushInto target c = some s') : Sized target s' := by
  obtain ⟨h1, h2⟩ := h
  rw [TrieChunker.pushInto] at e
  by_cases g0 : c.updates.len = 0
  · rw [if_pos g0] at e; cases e; exact ⟨h1, h2⟩
  rw [if_neg g0] at e
  simp only at e
  by_cases g1 : c.consolidated = true ∧ c.updates.len ≥ target
  · rw [if_pos g1] at e
    cases e
    refine ⟨h1, fun c hc => ?_⟩
    rcases List.mem_append.1 hc with hc | hc
    · exact h2 c hc
    · rw [List.mem_singleton] at hc; subst hc; exact g1.2
  rw [if_neg g1] at e
  by_cases g2 : s.blob_records + c.updates.len < 2 * target
  · rw [if_pos g2] at e; cases e; exact ⟨g2, h2⟩
  · rw [if_neg g2] at e
    obtain ⟨⟨r, s1⟩, e1, e⟩ := Option.bind_eq_some_iff.1 e
    simp only at e
    have k1 : s1.blob_records = s.blob_records ∧ (∀ c ∈ s1.ready, target ≤ c.len) ∧ (Small target r) := by
      split_ifs at e1 with q1 q2
      · obtain ⟨t, -, e1⟩ := Option.map_eq_some_iff.1 e1
        have := ship_sized h2 t
        rw [e1] at this
        exact ⟨this.2.1, this.2.2, this.1⟩
      · obtain ⟨t, -, e1⟩ := Option.map_eq_some_iff.1 e1
        have := ship_sized h2 t
        rw [e1] at this
        exact ⟨this.2.1, this.2.2, this.1⟩
      · cases e1
        exact ⟨rfl, h2, by simp only [Small, Option.mem_def, Option.some.injEq]; rintro b rfl; simp only; omega⟩
    obtain ⟨⟨r', s2⟩, e2, e⟩ := Option.map_eq_some_iff.1 e
    simp only at e
    subst e
    split_ifs at e2 with q3
    · obtain ⟨⟨t, s3⟩, e3, e4⟩ := Option.map_eq_some_iff.1 e2
      simp only at e4
      have := consolidateBlobs_rest e3
      subst this
      have := ship_sized (s := { s1 with blobs := [], blob_records := 0 }) (target := target) k1.2.1 t
      rw [e4] at this
      obtain ⟨w1, w2⟩ := absorb?_sized (m := 0) ht k1.2.2 (s := s2) (by rw [this.2.1])
      obtain ⟨w3, w4⟩ := absorb?_sized (m := target) ht this.1 (s := s2.absorb? r) (by omega)
      simp only at w3
      exact ⟨by omega, by rw [w4, w2]; exact this.2.2⟩
    · cases e2
      obtain ⟨w1, w2⟩ := absorb?_sized (m := target - 1) ht k1.2.2 (s := s1) (by omega)
      have w3 : (s1.absorb? r).absorb? none = s1.absorb? r := rfl
      exact ⟨by simp only [w3]; omega, by simp only [w3]; rw [w2]; exact k1.2.1⟩

end DD
