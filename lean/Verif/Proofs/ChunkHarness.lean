import Verif.Proofs.ChunkBatch
import Verif.Spec.ChunkContract

/-! Batches of chunks of any type with the operations of `Chunk`. -/

namespace DD
set_option linter.unusedSectionVars false

namespace ChunkContract
variable {C D T R : Type*} [LinearOrder D] [LinearOrder (Lin T)] [AddCommMonoid R] [DecidableEq R] [Lattice T] [DecidableLE T] [DecidableEq T]
variable {ops : ChunkOps C T} {view : C → Upds D T R} {valid : C → Prop} {cap : Nat} {rest : List C → List C → Prop}

theorem consolidated_suffix {a b : Upds D T R} (h : Consolidated b) (hs : a <:+ b) : Consolidated a := Consolidated.sublist h hs.sublist

/-- `merge`, by merging flat lists. -/
theorem mergeFlat (h : ChunkContract ops view valid cap rest) {in1 in2 out : List C} (v1 : ∀ c ∈ in1, valid c) (v2 : ∀ c ∈ in2, valid c) (vo : ∀ c ∈ out, valid c)
    (n1 : in1 ≠ []) (n2 : in2 ≠ []) (c1 : Consolidated (in1.flatMap view)) (c2 : Consolidated (in2.flatMap view)) :
    ∃ in1' in2' more, ops.merge in1 in2 out = some (in1', in2', out ++ more) ∧ (∀ c ∈ in1', valid c) ∧ (∀ c ∈ in2', valid c) ∧ (∀ c ∈ more, valid c) ∧
      in1'.length + in2'.length < in1.length + in2.length ∧ in1'.flatMap view <:+ in1.flatMap view ∧ in2'.flatMap view <:+ in2.flatMap view ∧
      (more.flatMap view).length + (in1'.flatMap view).length + (in2'.flatMap view).length ≤ (in1.flatMap view).length + (in2.flatMap view).length ∧
      ∀ rest1 rest2, Consolidated (in1.flatMap view ++ rest1) → Consolidated (in2.flatMap view ++ rest2) →
        more.flatMap view ++ flatMerge (in1'.flatMap view ++ rest1) (in2'.flatMap view ++ rest2) = flatMerge (in1.flatMap view ++ rest1) (in2.flatMap view ++ rest2) := by
  obtain ⟨in1', in2', more, g1, g2, g3, g4, g5, g6, g7, g8, g9⟩ := h.merge in1 in2 out v1 v2 vo n1 n2 c1 c2
  refine ⟨in1', in2', more, g1, g2, g3, g4, g5, g6, g7, g8, fun rest1 rest2 k1 k2 => ?_⟩
  obtain ⟨w, w1, w2⟩ := g9 rest1 rest2 k1 k2
  have suf : ∀ {a b r : Upds D T R}, a <:+ b → a ++ r <:+ b ++ r := by
    rintro a b r ⟨p, rfl⟩
    exact ⟨p, by simp⟩
  rw [flatMerge_consolidate (consolidated_suffix k1 (suf g6)) (consolidated_suffix k2 (suf g7))] at w1
  rw [flatMerge_consolidate k1 k2] at w2
  rw [Option.some.inj w1, Option.some.inj w2]

/-! ### The merge batcher's merger -/

theorem mergerLoop_spec (h : ChunkContract ops view valid cap rest) (M : Upds D T R) (hM : SortedD M) (n : Nat) : ∀ {in1 in2 staged settled : List C},
    (∀ c ∈ in1, valid c) → (∀ c ∈ in2, valid c) → (∀ c ∈ staged, valid c) → (∀ c ∈ settled, valid c) → rest staged settled →
    Consolidated (in1.flatMap view) → Consolidated (in2.flatMap view) → in1.length + in2.length ≤ n →
    settled.flatMap view ++ staged.flatMap view ++ flatMerge (in1.flatMap view) (in2.flatMap view) = M →
    ∃ in1' in2' staged' settled', ops.mergerLoop n in1 in2 staged settled = some (in1', in2', staged', settled') ∧
      (∀ c ∈ in1', valid c) ∧ (∀ c ∈ in2', valid c) ∧ (∀ c ∈ staged', valid c) ∧ (∀ c ∈ settled', valid c) ∧ rest staged' settled' ∧ (in1' = [] ∨ in2' = []) ∧
      settled'.flatMap view ++ staged'.flatMap view ++ flatMerge (in1'.flatMap view) (in2'.flatMap view) = M := by
  induction n with
  | zero =>
    intro in1 in2 staged settled v1 v2 v3 v4 hr c1 c2 hn e
    exact ⟨in1, in2, staged, settled, rfl, v1, v2, v3, v4, hr, Or.inl (List.length_eq_zero_iff.1 (by omega)), e⟩
  | succ n ih =>
    intro in1 in2 staged settled v1 v2 v3 v4 hr c1 c2 hn e
    rw [ChunkOps.mergerLoop]
    by_cases hc : ¬ in1.isEmpty ∧ ¬ in2.isEmpty
    · rw [if_pos hc]
      simp only [List.isEmpty_iff] at hc
      obtain ⟨in1', in2', more, g1, g2, g3, g4, g5, g6, g7, g8, g9⟩ := h.mergeFlat v1 v2 v3 hc.1 hc.2 c1 c2
      have q := g9 [] [] (by simpa using c1) (by simpa using c2)
      simp only [List.append_nil] at q
      rw [← q] at e
      obtain ⟨st', se', k1, k2, k3, k4, k5, k6⟩ := h.settle staged more false settled hr v3 g4 v4 (by
        subst e
        refine List.Pairwise.sublist ?_ hM
        rw [List.flatMap_append, List.append_assoc]
        refine List.Sublist.trans ?_ (List.sublist_append_right _ _)
        exact (List.sublist_append_left _ _).append_left _)
      rw [g1, Option.bind_some]
      simp only
      rw [k1, Option.bind_some]
      refine ih g2 g3 k2 k3 (k6 rfl) (consolidated_suffix c1 g6) (consolidated_suffix c2 g7) (by omega) ?_
      simp only [k4, ← e, List.append_assoc]
    · rw [if_neg hc]
      refine ⟨in1, in2, staged, settled, rfl, v1, v2, v3, v4, hr, ?_, e⟩
      simp only [List.isEmpty_iff] at hc
      by_cases h1 : in1 = []
      · exact Or.inl h1
      · exact Or.inr (by by_contra h2; exact hc ⟨h1, h2⟩)

theorem settleTail_spec (h : ChunkContract ops view valid cap rest) (tail : List C) : ∀ {r : List C × List C}, (∀ c ∈ tail, valid c) → (∀ c ∈ r.1, valid c) → (∀ c ∈ r.2, valid c) →
    rest r.1 r.2 → SortedD (r.2.flatMap view ++ r.1.flatMap view ++ tail.flatMap view) →
    ∃ r', ops.settleTail tail r = some r' ∧ (∀ c ∈ r'.1, valid c) ∧ (∀ c ∈ r'.2, valid c) ∧ rest r'.1 r'.2 ∧
      r'.2.flatMap view ++ r'.1.flatMap view = r.2.flatMap view ++ r.1.flatMap view ++ tail.flatMap view := by
  induction tail with
  | nil => intro r _ v1 v2 hr _; exact ⟨r, rfl, v1, v2, hr, by simp⟩
  | cons c tail ih =>
    intro r vt v1 v2 hr hs
    have hone : ∀ x ∈ [c], valid x := by intro x hx; rw [List.mem_singleton.1 hx]; exact vt c (by simp)
    obtain ⟨a, b, k1, k2, k3, k4, k5, k6⟩ := h.settle r.1 [c] false r.2 hr v1 hone v2 (by
      refine List.Pairwise.sublist ?_ hs
      rw [List.flatMap_append, List.append_assoc]
      refine List.Sublist.trans ?_ (List.sublist_append_right _ _)
      refine List.Sublist.append_left ?_ _
      simp)
    obtain ⟨r', e, w1, w2, w3, w4⟩ := ih (r := (a, b)) (fun x hx => vt x (by simp [hx])) k2 k3 (k6 rfl) (by
      simp only [k4]
      rw [List.flatMap_cons] at hs
      simpa [List.append_assoc] using hs)
    refine ⟨r', ?_, w1, w2, w3, ?_⟩
    · rw [ChunkOps.settleTail, List.foldlM_cons, k1]; exact e
    · rw [w4]
      simp only [k4]
      simp

theorem mergerMerge_spec (h : ChunkContract ops view valid cap rest) {list1 list2 : List C} (v1 : ∀ c ∈ list1, valid c) (v2 : ∀ c ∈ list2, valid c)
    (c1 : Consolidated (list1.flatMap view)) (c2 : Consolidated (list2.flatMap view)) :
    ∃ out, ops.mergerMerge list1 list2 = some out ∧ (∀ c ∈ out, valid c) ∧ Graded cap (out.map view) ∧ out.flatMap view = flatMerge (list1.flatMap view) (list2.flatMap view) := by
  have hM := (consolidated_flatMerge _ _ c1 c2).sortedDT.data
  obtain ⟨in1, in2, staged, settled, e, g1, g2, g3, g4, g5, g6, g7⟩ := h.mergerLoop_spec _ hM (list1.length + list2.length) (in1 := list1) (in2 := list2) (staged := []) (settled := [])
    v1 v2 (by simp) (by simp) h.rest_nil c1 c2 le_rfl (by simp)
  have g7' : settled.flatMap view ++ staged.flatMap view ++ (in1 ++ in2).flatMap view = flatMerge (list1.flatMap view) (list2.flatMap view) := by
    rw [← g7]
    rcases g6 with rfl | rfl
    · simp [flatMerge]
    · simp [flatMerge_nil_right]
  obtain ⟨r', e', w1, w2, w3, w4⟩ := h.settleTail_spec (in1 ++ in2) (r := (staged, settled)) (fun c hc => (List.mem_append.1 hc).elim (g1 c) (g2 c)) g3 g4 g5 (by rw [g7']; exact hM)
  rw [g7'] at w4
  obtain ⟨a, b, k1, k2, k3, k4, k5, k6⟩ := h.settle r'.1 [] true r'.2 w3 w1 (by simp) w2 (by
    rw [List.append_nil]
    rw [← w4] at hM
    exact (List.pairwise_append.1 hM).2.1)
  rw [List.append_nil] at k1
  obtain ⟨rfl, k7⟩ := k5 rfl
  refine ⟨b, ?_, k3, k7, ?_⟩
  · rw [ChunkOps.mergerMerge, e, Option.bind_some, e', Option.bind_some, k1]; rfl
  · simpa [w4] using k4

theorem extractLoop_spec (h : ChunkContract ops view valid cap rest) (upper : List T) (n : Nat) : ∀ {input : List C} {frontier : List T} {k s : List C × List C},
    input.length = n → (∀ c ∈ input, valid c) → (∀ c ∈ k.1, valid c) → (∀ c ∈ k.2, valid c) → (∀ c ∈ s.1, valid c) → (∀ c ∈ s.2, valid c) → rest k.1 k.2 → rest s.1 s.2 →
    SortedD (k.2.flatMap view ++ k.1.flatMap view ++ (input.flatMap view).filter fun u => Beyond upper u.2.1) →
    SortedD (s.2.flatMap view ++ s.1.flatMap view ++ (input.flatMap view).filter fun u => ¬ Beyond upper u.2.1) →
    ∃ F' k' s', ops.extractLoop upper n input frontier k s = some (F', k', s') ∧ (∀ c ∈ k'.1, valid c) ∧ (∀ c ∈ k'.2, valid c) ∧ (∀ c ∈ s'.1, valid c) ∧ (∀ c ∈ s'.2, valid c) ∧
      rest k'.1 k'.2 ∧ rest s'.1 s'.2 ∧
      k'.2.flatMap view ++ k'.1.flatMap view = k.2.flatMap view ++ k.1.flatMap view ++ (input.flatMap view).filter (fun u => Beyond upper u.2.1) ∧
      s'.2.flatMap view ++ s'.1.flatMap view = s.2.flatMap view ++ s.1.flatMap view ++ (input.flatMap view).filter (fun u => ¬ Beyond upper u.2.1) ∧
      (∀ q, Beyond F' q ↔ Beyond frontier q ∨ ∃ u ∈ input.flatMap view, Beyond upper u.2.1 ∧ u.2.1 ≤ q) ∧ (IsAntichainList frontier → IsAntichainList F') := by
  induction n with
  | zero =>
    intro input frontier k s hn _ v1 v2 v3 v4 r1 r2 _ _
    obtain rfl := List.length_eq_zero_iff.1 hn
    exact ⟨frontier, k, s, rfl, v1, v2, v3, v4, r1, r2, by simp, by simp, by simp, id⟩
  | succ n ih =>
    intro input frontier k s hn vi v1 v2 v3 v4 r1 r2 o1 o2
    obtain ⟨c, input, rfl⟩ : ∃ c l, input = c :: l := List.exists_cons_of_length_eq_add_one hn
    obtain ⟨F', mk, ms, e, hk, hs, ek, es, eF, aF⟩ := h.extract c input upper frontier k.1 s.1 (vi c (by simp)) v1 v3
    rw [List.flatMap_cons, List.filter_append] at o1 o2
    have keep : ∀ {q : List C × List C} {p r : Upds D T R} {more : List C}, (∀ c ∈ q.1, valid c) → (∀ c ∈ q.2, valid c) → rest q.1 q.2 → (∀ c ∈ more, valid c) → more.flatMap view = p →
        SortedD (q.2.flatMap view ++ q.1.flatMap view ++ (p ++ r)) → ∃ q' : List C × List C, ops.settle (q.1 ++ more) false q.2 = some q' ∧ (∀ c ∈ q'.1, valid c) ∧ (∀ c ∈ q'.2, valid c) ∧
          rest q'.1 q'.2 ∧ q'.2.flatMap view ++ q'.1.flatMap view = q.2.flatMap view ++ q.1.flatMap view ++ p := by
      intro q p r more w1 w2 w3 w4 w5 w6
      obtain ⟨a, b, k1, k2, k3, k4, k5, k6⟩ := h.settle q.1 more false q.2 w3 w1 w4 w2 (by
        refine List.Pairwise.sublist ?_ w6
        rw [List.flatMap_append, w5, List.append_assoc]
        refine List.Sublist.trans ?_ (List.sublist_append_right _ _)
        exact List.Sublist.append_left (List.sublist_append_left _ _) _)
      exact ⟨(a, b), k1, k2, k3, k6 rfl, by rw [← w5]; exact k4⟩
    obtain ⟨k', ka, kb, kc, kd, ke⟩ := keep v1 v2 r1 hk ek o1
    obtain ⟨s', sa, sb, sc, sd, se⟩ := keep v3 v4 r2 hs es o2
    obtain ⟨F2, k2, s2, x1, x2, x3, x4, x5, x6, x7, x8, x9, x10, x11⟩ := ih (input := input) (frontier := F') (k := k') (s := s') (by simpa using hn) (fun x hx => vi x (by simp [hx])) kb kc sb sc kd sd
      (by rw [ke]; simpa [List.append_assoc] using o1) (by rw [se]; simpa [List.append_assoc] using o2)
    refine ⟨F2, k2, s2, ?_, x2, x3, x4, x5, x6, x7, ?_, ?_, ?_, fun ha => x11 (aF ha)⟩
    · rw [ChunkOps.extractLoop, if_pos (by simp), e, Option.bind_some]
      simp only
      rw [ka, Option.bind_some, sa, Option.bind_some]
      exact x1
    · rw [x8, ke, List.flatMap_cons, List.filter_append]; simp
    · rw [x9, se, List.flatMap_cons, List.filter_append]; simp
    · intro q
      rw [x10, eF, List.flatMap_cons]
      simp only [List.mem_append]
      constructor
      · rintro ((hq | ⟨u, hu, hq⟩) | ⟨u, hu, hq⟩)
        · exact Or.inl hq
        · exact Or.inr ⟨u, Or.inl hu, hq⟩
        · exact Or.inr ⟨u, Or.inr hu, hq⟩
      · rintro (hq | ⟨u, hu | hu, hq⟩)
        · exact Or.inl (Or.inl hq)
        · exact Or.inl (Or.inr ⟨u, hu, hq⟩)
        · exact Or.inr ⟨u, hu, hq⟩

theorem mergerExtract_spec (h : ChunkContract ops view valid cap rest) {merged : List C} (vm : ∀ c ∈ merged, valid c) (hs : SortedD (merged.flatMap view)) (upper frontier : List T) :
    ∃ F' shipped kept, ops.mergerExtract merged upper frontier = some (F', shipped, kept) ∧ (∀ c ∈ shipped, valid c) ∧ (∀ c ∈ kept, valid c) ∧
      shipped.flatMap view = (merged.flatMap view).filter (fun u => ¬ Beyond upper u.2.1) ∧ Graded cap (shipped.map view) ∧
      kept.flatMap view = (merged.flatMap view).filter (fun u => Beyond upper u.2.1) ∧ Graded cap (kept.map view) ∧
      (∀ q, Beyond F' q ↔ Beyond frontier q ∨ ∃ u ∈ merged.flatMap view, Beyond upper u.2.1 ∧ u.2.1 ≤ q) ∧ (IsAntichainList frontier → IsAntichainList F') := by
  obtain ⟨F', k, s, x1, x2, x3, x4, x5, x6, x7, x8, x9, x10, x11⟩ := h.extractLoop_spec upper merged.length (frontier := frontier) (k := ([], [])) (s := ([], [])) rfl vm (by simp) (by simp) (by simp) (by simp)
    h.rest_nil h.rest_nil (List.Pairwise.sublist List.filter_sublist hs) (List.Pairwise.sublist List.filter_sublist hs)
  simp only [List.flatMap_nil, List.nil_append] at x8 x9
  have fin : ∀ {q : List C × List C} {p : Upds D T R}, (∀ c ∈ q.1, valid c) → (∀ c ∈ q.2, valid c) → rest q.1 q.2 → q.2.flatMap view ++ q.1.flatMap view = p → SortedD p →
      ∃ o, ops.settle q.1 true q.2 = some ([], o) ∧ (∀ c ∈ o, valid c) ∧ o.flatMap view = p ∧ Graded cap (o.map view) := by
    intro q p w1 w2 w3 w4 w5
    obtain ⟨a, b, k1, k2, k3, k4, k5, k6⟩ := h.settle q.1 [] true q.2 w3 w1 (by simp) w2 (by
      rw [← w4] at w5
      rw [List.append_nil]
      exact (List.pairwise_append.1 w5).2.1)
    rw [List.append_nil] at k1
    obtain ⟨rfl, k7⟩ := k5 rfl
    exact ⟨b, k1, k3, by simpa [w4] using k4, k7⟩
  obtain ⟨kept, ka, kb, kc, kd⟩ := fin x2 x3 x6 x8 (List.Pairwise.sublist List.filter_sublist hs)
  obtain ⟨shipped, sa, sb, sc, sd⟩ := fin x4 x5 x7 x9 (List.Pairwise.sublist List.filter_sublist hs)
  refine ⟨F', shipped, kept, ?_, sb, kb, sc, sd, kc, kd, x10, x11⟩
  rw [ChunkOps.mergerExtract, x1, Option.bind_some]
  simp only
  rw [ka, Option.bind_some, sa]
  rfl

/-! ### The builder -/

theorem newBatch_spec (h : ChunkContract ops view valid cap rest) {chunks : List C} (hv : ∀ c ∈ chunks, valid c) (d : Description T) : ops.newBatch chunks d = some ⟨chunks, d⟩ := by
  rw [ChunkOps.newBatch, if_pos]
  rw [List.all_eq_true]
  intro c hc
  obtain ⟨h1, h2⟩ := h.len c (hv c hc)
  rw [h1]
  simpa [List.length_pos_iff] using h2

theorem pushes_spec (h : ChunkContract ops view valid cap rest) (chunks : List C) : ∀ {b : List C × List C}, (∀ c ∈ chunks, valid c ∨ ops.len c = 0 ∧ view c = []) →
    (∀ c ∈ b.1, valid c) → (∀ c ∈ b.2, valid c) → rest b.1 b.2 → SortedD (b.2.flatMap view ++ b.1.flatMap view ++ chunks.flatMap view) →
    ∃ b', chunks.foldlM ops.push b = some b' ∧ (∀ c ∈ b'.1, valid c) ∧ (∀ c ∈ b'.2, valid c) ∧ rest b'.1 b'.2 ∧
      b'.2.flatMap view ++ b'.1.flatMap view = b.2.flatMap view ++ b.1.flatMap view ++ chunks.flatMap view := by
  induction chunks with
  | nil => intro b _ v1 v2 hr _; exact ⟨b, rfl, v1, v2, hr, by simp⟩
  | cons c chunks ih =>
    intro b hc v1 v2 hr hs
    rw [List.foldlM_cons, ChunkOps.push]
    rcases hc c (by simp) with hv | ⟨h0, h1⟩
    · obtain ⟨l1, l2⟩ := h.len c hv
      rw [if_pos (by rw [l1]; exact List.length_pos_iff.2 l2)]
      have hone : ∀ x ∈ [c], valid x := by intro x hx; rw [List.mem_singleton.1 hx]; exact hv
      obtain ⟨a, b', k1, k2, k3, k4, k5, k6⟩ := h.settle b.1 [c] false b.2 hr v1 hone v2 (by
        refine List.Pairwise.sublist ?_ hs
        rw [List.flatMap_append, List.append_assoc]
        refine List.Sublist.trans ?_ (List.sublist_append_right _ _)
        refine List.Sublist.append_left ?_ _
        simp)
      obtain ⟨r', e, w1, w2, w3, w4⟩ := ih (b := (a, b')) (fun x hx => hc x (by simp [hx])) k2 k3 (k6 rfl) (by
        simp only [k4]
        rw [List.flatMap_cons] at hs
        simpa [List.append_assoc] using hs)
      refine ⟨r', ?_, w1, w2, w3, ?_⟩
      · rw [k1]; exact e
      · rw [w4]
        simp only [k4]
        simp
    · rw [if_neg (by omega)]
      rw [List.flatMap_cons, h1, List.nil_append] at hs ⊢
      exact ih (fun x hx => hc x (by simp [hx])) v1 v2 hr hs

/-! ### Chains -/

theorem chainsLoop_spec (h : ChunkContract ops view valid cap rest) (M : Upds D T R) (n : Nat) : ∀ {in1 in2 out : List C},
    (∀ c ∈ in1, valid c) → (∀ c ∈ in2, valid c) → (∀ c ∈ out, valid c) → Consolidated (in1.flatMap view) → Consolidated (in2.flatMap view) → in1.length + in2.length ≤ n →
    out.flatMap view ++ flatMerge (in1.flatMap view) (in2.flatMap view) = M →
    ∃ in1' in2' out', ops.chainsLoop n in1 in2 out = some (in1', in2', out') ∧ (∀ c ∈ in1', valid c) ∧ (∀ c ∈ in2', valid c) ∧ (∀ c ∈ out', valid c) ∧ (in1' = [] ∨ in2' = []) ∧
      out'.flatMap view ++ flatMerge (in1'.flatMap view) (in2'.flatMap view) = M := by
  induction n with
  | zero =>
    intro in1 in2 out v1 v2 v3 c1 c2 hn e
    exact ⟨in1, in2, out, rfl, v1, v2, v3, Or.inl (List.length_eq_zero_iff.1 (by omega)), e⟩
  | succ n ih =>
    intro in1 in2 out v1 v2 v3 c1 c2 hn e
    rw [ChunkOps.chainsLoop]
    by_cases hc : ¬ in1.isEmpty ∧ ¬ in2.isEmpty
    · rw [if_pos hc]
      simp only [List.isEmpty_iff] at hc
      obtain ⟨in1', in2', more, g1, g2, g3, g4, g5, g6, g7, g8, g9⟩ := h.mergeFlat v1 v2 v3 hc.1 hc.2 c1 c2
      have q := g9 [] [] (by simpa using c1) (by simpa using c2)
      simp only [List.append_nil] at q
      rw [g1, Option.bind_some]
      refine ih (in1 := in1') (in2 := in2') (out := out ++ more) g2 g3 (fun c hc => (List.mem_append.1 hc).elim (v3 c) (g4 c)) (consolidated_suffix c1 g6) (consolidated_suffix c2 g7) (by omega) ?_
      rw [← e, ← q, List.flatMap_append, List.append_assoc]
    · rw [if_neg hc]
      refine ⟨in1, in2, out, rfl, v1, v2, v3, ?_, e⟩
      simp only [List.isEmpty_iff] at hc
      by_cases h1 : in1 = []
      · exact Or.inl h1
      · exact Or.inr (by by_contra h2; exact hc ⟨h1, h2⟩)

/-! ### The merger of batches -/

theorem refill_spec {chunks : List C} (hc : ∀ c ∈ chunks, valid c) {input : List C} (hi : ∀ c ∈ input, valid c) (view : C → Upds D T R) (idx : Nat) :
    (ChunkOps.refill input idx chunks).1.flatMap view ++ (chunks.drop (ChunkOps.refill input idx chunks).2).flatMap view = input.flatMap view ++ (chunks.drop idx).flatMap view ∧
    (ChunkOps.refill input idx chunks).1.length + (chunks.drop (ChunkOps.refill input idx chunks).2).length = input.length + (chunks.drop idx).length ∧
    (∀ c ∈ (ChunkOps.refill input idx chunks).1, valid c) ∧
    ((ChunkOps.refill input idx chunks).1 = [] → chunks.drop (ChunkOps.refill input idx chunks).2 = []) := by
  simp only [ChunkOps.refill]
  have e : chunks.drop (idx + ((chunks.drop idx).take (burst - input.length)).length) = (chunks.drop idx).drop (burst - input.length) := by
    rw [List.drop_drop, List.length_take]
    rcases Nat.le_total (burst - input.length) (chunks.drop idx).length with h | h
    · rw [Nat.min_eq_left h]
    · rw [Nat.min_eq_right h, List.drop_eq_nil_of_le (by rw [List.length_drop]; omega), List.drop_eq_nil_of_le (by rw [List.length_drop] at h; omega)]
  rw [e]
  refine ⟨?_, ?_, ?_, ?_⟩
  · conv_rhs => rw [← List.take_append_drop (burst - input.length) (chunks.drop idx)]
    rw [List.flatMap_append, List.flatMap_append, List.append_assoc]
  · have := congrArg List.length (List.take_append_drop (burst - input.length) (chunks.drop idx))
    rw [List.length_append] at this ⊢
    omega
  · intro c hc'
    rcases List.mem_append.1 hc' with hc' | hc'
    · exact hi c hc'
    · exact hc c ((List.drop_sublist _ _).subset ((List.take_sublist _ _).subset hc'))
  · intro h
    obtain ⟨h1, h2⟩ := List.append_eq_nil_iff.1 h
    subst h1
    rcases List.take_eq_nil_iff.1 h2 with h | h
    · simp [burst] at h
    · rw [h]; simp

/-- What holds of a merger between calls: `a` is what has been advanced; `c` is the fuel spent. -/
structure MergerOk (view : C → Upds D T R) (valid : C → Prop) (cap : Nat) (rest : List C → List C → Prop) (b1 b2 : BatchOf C T) (m : ChunkOps.Merger C T) (c : Nat) : Prop where
  valid1 : ∀ c ∈ m.in1, valid c
  valid2 : ∀ c ∈ m.in2, valid c
  suffix1 : m.in1.flatMap view ++ (b1.chunks.drop m.idx1).flatMap view <:+ b1.chunks.flatMap view
  suffix2 : m.in2.flatMap view ++ (b2.chunks.drop m.idx2).flatMap view <:+ b2.chunks.flatMap view
  validm : ∀ c ∈ m.merged, valid c
  valida : ∀ c ∈ m.advanced, valid c
  valids : ∀ c ∈ m.settled, valid c
  count : m.in1.length + (b1.chunks.drop m.idx1).length + (m.in2.length + (b2.chunks.drop m.idx2).length) ≤ b1.chunks.length + b2.chunks.length
  spent : c + (m.in1.flatMap view ++ (b1.chunks.drop m.idx1).flatMap view).length + (m.in2.flatMap view ++ (b2.chunks.drop m.idx2).flatMap view).length ≤
    (b1.chunks.flatMap view).length + (b2.chunks.flatMap view).length
  open' : m.complete = false → ∃ a, a ++ m.merged.flatMap view ++ flatMerge (m.in1.flatMap view ++ (b1.chunks.drop m.idx1).flatMap view) (m.in2.flatMap view ++ (b2.chunks.drop m.idx2).flatMap view) =
      flatMerge (b1.chunks.flatMap view) (b2.chunks.flatMap view) ∧ (∀ u ∈ a, ∀ v ∈ m.merged.flatMap view, u.1 < v.1) ∧ (m.merged.flatMap view = [] → a = []) ∧
      rest m.advanced m.settled ∧ m.settled.flatMap view ++ m.advanced.flatMap view = DD.advanced m.frontier a
  closed : m.complete = true → m.merged = [] ∧ m.advanced = [] ∧ Graded cap (m.settled.map view) ∧
    m.settled.flatMap view = DD.advanced m.frontier (flatMerge (b1.chunks.flatMap view) (b2.chunks.flatMap view))

theorem newMerger_ok (h : ChunkContract ops view valid cap rest) (b1 b2 : BatchOf C T) (F : List T) : MergerOk view valid cap rest b1 b2 (ChunkOps.newMerger b1 b2 F) 0 where
  valid1 := by simp [ChunkOps.newMerger]
  valid2 := by simp [ChunkOps.newMerger]
  suffix1 := by simp [ChunkOps.newMerger]
  suffix2 := by simp [ChunkOps.newMerger]
  validm := by simp [ChunkOps.newMerger]
  valida := by simp [ChunkOps.newMerger]
  valids := by simp [ChunkOps.newMerger]
  count := by simp [ChunkOps.newMerger]
  spent := by simp [ChunkOps.newMerger]
  open' := fun _ => ⟨[], by simp [ChunkOps.newMerger], by simp, by simp, h.rest_nil, by
    simp only [ChunkOps.newMerger, List.flatMap_nil, List.append_nil]
    exact (consolidatedU_of_canon (v := ([] : Upds D T R)) (by simp [Consolidated])).symm⟩
  closed := fun h => by simp [ChunkOps.newMerger] at h

theorem produce_spec (h : ChunkContract ops view valid cap rest) {in1 in2 : List C} (v1 : ∀ c ∈ in1, valid c) (v2 : ∀ c ∈ in2, valid c)
    (c1 : Consolidated (in1.flatMap view)) (c2 : Consolidated (in2.flatMap view)) :
    (in1 = [] ∧ in2 = [] ∧ ops.produce in1 in2 = none) ∨
    ∃ in1' in2' produced, ops.produce in1 in2 = some (some (in1', in2', produced)) ∧ (∀ c ∈ in1', valid c) ∧ (∀ c ∈ in2', valid c) ∧ (∀ c ∈ produced, valid c) ∧
      in1'.length + in2'.length < in1.length + in2.length ∧ in1'.flatMap view <:+ in1.flatMap view ∧ in2'.flatMap view <:+ in2.flatMap view ∧
      (produced.flatMap view).length + (in1'.flatMap view).length + (in2'.flatMap view).length ≤ (in1.flatMap view).length + (in2.flatMap view).length ∧
      ∀ rest1 rest2, Consolidated (in1.flatMap view ++ rest1) → Consolidated (in2.flatMap view ++ rest2) → (in1 = [] → rest1 = []) → (in2 = [] → rest2 = []) →
        produced.flatMap view ++ flatMerge (in1'.flatMap view ++ rest1) (in2'.flatMap view ++ rest2) = flatMerge (in1.flatMap view ++ rest1) (in2.flatMap view ++ rest2) := by
  cases in1 with
  | nil =>
    cases in2 with
    | nil => exact Or.inl ⟨rfl, rfl, rfl⟩
    | cons c in2 =>
      refine Or.inr ⟨[], in2, [c], rfl, v1, fun x hx => v2 x (by simp [hx]), fun x hx => v2 x (by simp [List.mem_singleton.1 hx]), by simp, List.suffix_rfl,
        by simp [List.suffix_append], by simp, ?_⟩
      intro rest1 rest2 _ _ h1 _
      rw [h1 rfl]
      simp [flatMerge]
  | cons c in1 =>
    cases in2 with
    | nil =>
      refine Or.inr ⟨in1, [], [c], rfl, fun x hx => v1 x (by simp [hx]), v2, fun x hx => v1 x (by simp [List.mem_singleton.1 hx]), by simp, by simp [List.suffix_append],
        List.suffix_rfl, by simp, ?_⟩
      intro rest1 rest2 _ _ _ h2
      rw [h2 rfl]
      simp [flatMerge_nil_right]
    | cons c' in2 =>
      obtain ⟨in1', in2', more, g1, g2, g3, g4, g5, g6, g7, g8, g9⟩ := h.mergeFlat (out := []) v1 v2 (by simp) (List.cons_ne_nil c in1) (List.cons_ne_nil c' in2) c1 c2
      exact Or.inr ⟨in1', in2', more, by rw [ChunkOps.produce, g1]; rfl, g2, g3, g4, g5, g6, g7, g8, fun rest1 rest2 k1 k2 _ _ => g9 rest1 rest2 k1 k2⟩

theorem sum_len (h : ChunkContract ops view valid cap rest) {cs : List C} (hv : ∀ c ∈ cs, valid c) : (cs.map ops.len).sum = (cs.flatMap view).length := by
  rw [List.length_flatMap]
  congr 1
  exact List.map_congr_left fun c hc => (h.len c (hv c hc)).1

theorem workLoop_spec (h : ChunkContract ops view valid cap rest) {b1 b2 : BatchOf C T} (v1 : ∀ c ∈ b1.chunks, valid c) (v2 : ∀ c ∈ b2.chunks, valid c)
    (k1 : Consolidated (b1.chunks.flatMap view)) (k2 : Consolidated (b2.chunks.flatMap view)) (n : Nat) :
    ∀ (m : ChunkOps.Merger C T) (c : Nat) (fuel : Int), MergerOk view valid cap rest b1 b2 m c → m.complete = false →
    m.in1.length + (b1.chunks.drop m.idx1).length + (m.in2.length + (b2.chunks.drop m.idx2).length) < n →
    ∃ m' left c', ops.workLoop b1 b2 n m fuel = some (m', left) ∧ MergerOk view valid cap rest b1 b2 m' c' ∧ c ≤ c' ∧ left = fuel - ((c' : Int) - c) ∧
      (0 < left → m'.complete = true) ∧ m'.frontier = m.frontier ∧ m'.lower = m.lower ∧ m'.upper = m.upper := by
  induction n with
  | zero => intro m c fuel _ _ hn; omega
  | succ n ih =>
    intro m c fuel hm hc hn
    rw [ChunkOps.workLoop]
    by_cases hfuel : fuel > 0
    · rw [if_pos hfuel]
      simp only
      obtain ⟨r11, r12, r13, r14⟩ := refill_spec v1 hm.valid1 view m.idx1
      obtain ⟨r21, r22, r23, r24⟩ := refill_spec v2 hm.valid2 view m.idx2
      generalize ChunkOps.refill m.in1 m.idx1 b1.chunks = r1 at *
      generalize ChunkOps.refill m.in2 m.idx2 b2.chunks = r2 at *
      obtain ⟨i1, idx1⟩ := r1
      obtain ⟨i2, idx2⟩ := r2
      simp only at r11 r12 r13 r14 r21 r22 r23 r24 ⊢
      have suf1 := hm.suffix1
      have suf2 := hm.suffix2
      have spent := hm.spent
      obtain ⟨a, o1, o2, o3, o4, o5⟩ := hm.open' hc
      rw [← r11] at suf1 spent o1
      rw [← r21] at suf2 spent o1
      have sd1 := consolidated_suffix k1 suf1
      have sd2 := consolidated_suffix k2 suf2
      have hcons : SortedDT (flatMerge (b1.chunks.flatMap view) (b2.chunks.flatMap view)) := (consolidated_flatMerge _ _ k1 k2).sortedDT
      rcases h.produce_spec r13 r23 (sd1.sublist (List.sublist_append_left _ _)) (sd2.sublist (List.sublist_append_left _ _)) with
        ⟨e1, e2, hp⟩ | ⟨in1', in2', produced, hp, p1, p2, p3, p4, p5, p6, p7, p8⟩
      · rw [hp]
        simp only
        rw [r14 e1, r24 e2, e1, e2] at o1
        simp only [List.flatMap_nil, List.append_nil, flatMerge] at o1
        have hsd : SortedD (m.merged.flatMap view) := by
          rw [← o1] at hcons
          exact SortedDT.data (List.pairwise_append.1 hcons).2.1
        obtain ⟨left, more, a', g1, g2, g3, g4, g5, g6, g7, g8⟩ := h.advance m.merged m.frontier true m.advanced hm.validm hm.valida hsd
        obtain rfl := g7 rfl
        rw [consolidateUpdates_eq] at g5
        have g5 := Option.some.inj g5
        simp only [List.flatMap_nil, List.append_nil] at g4
        obtain ⟨q, w, s1, s2, s3, s4, s5, s6⟩ := h.settle m.advanced more true m.settled o4 hm.valida g3 hm.valids (by
          rw [List.flatMap_append]
          have hall : Consolidated (m.settled.flatMap view ++ (m.advanced.flatMap view ++ more.flatMap view)) := by
            rw [← List.append_assoc, o5, ← g5]
            change Consolidated (DD.advanced m.frontier a ++ DD.advanced m.frontier a')
            rw [← advanced_append]
            · exact consolidated_consolidatedU _
            · intro u hu v hv; exact o2 u hu v (by rw [g4]; exact hv)
          exact (hall.sublist (List.sublist_append_right _ _)).sortedDT.data)
        obtain ⟨rfl, s7⟩ := s5 rfl
        rw [ChunkOps.flush]
        simp only [g1, Option.bind_some, s1, Option.map_some]
        refine ⟨_, fuel, c, rfl, ?_, le_rfl, by omega, fun _ => rfl, rfl, rfl, rfl⟩
        refine ⟨r13, r23, suf1, suf2, by simp, by simp, s3, by have := hm.count; simp only; omega, spent, by simp, fun _ => ⟨rfl, rfl, s7, ?_⟩⟩
        simp only
        simp only [List.flatMap_nil, List.append_nil] at s4
        rw [s4, o5, ← g5]
        change DD.advanced m.frontier a ++ DD.advanced m.frontier a' = _
        rw [← advanced_append, ← o1, g4]
        intro u hu v hv
        exact o2 u hu v (by rw [g4]; exact hv)
      · rw [hp]
        simp only [Option.bind_some]
        have q := p8 ((b1.chunks.drop idx1).flatMap view) ((b2.chunks.drop idx2).flatMap view) sd1 sd2 (fun h => by rw [r14 h]; rfl) (fun h => by rw [r24 h]; rfl)
        rw [← q] at o1
        have o1' : a ++ (m.merged ++ produced).flatMap view ++ flatMerge (in1'.flatMap view ++ (b1.chunks.drop idx1).flatMap view) (in2'.flatMap view ++ (b2.chunks.drop idx2).flatMap view) =
            flatMerge (b1.chunks.flatMap view) (b2.chunks.flatMap view) := by rw [← o1]; simp
        have hsd : SortedDT (a ++ (m.merged ++ produced).flatMap view) := by
          rw [← o1'] at hcons
          exact (List.pairwise_append.1 hcons).1
        have hab : ∀ u ∈ a, ∀ v ∈ (m.merged ++ produced).flatMap view, u.1 < v.1 := by
          intro u hu v hv
          rw [List.flatMap_append] at hv
          rcases List.mem_append.1 hv with hv | hv
          · exact o2 u hu v hv
          · cases hmf : m.merged.flatMap view with
            | nil => rw [o3 hmf] at hu; simp at hu
            | cons w ws =>
              have h1 := o2 u hu w (by rw [hmf]; simp)
              have h2 := (List.pairwise_append.1 hsd.data).2.1
              rw [List.flatMap_append] at h2
              exact h1.trans_le ((List.pairwise_append.1 h2).2.2 w (by rw [hmf]; simp) v hv)
        obtain ⟨left, more, a', g1, g2, g3, g4, g5, g6, g7, g8⟩ := h.advance (m.merged ++ produced) m.frontier false m.advanced
          (fun c hc => (List.mem_append.1 hc).elim (hm.validm c) (p3 c)) hm.valida (List.pairwise_append.1 hsd.data).2.1
        rw [consolidateUpdates_eq] at g5
        have g5 := Option.some.inj g5
        have haa : ∀ u ∈ a, ∀ v ∈ a', u.1 < v.1 := fun u hu v hv => hab u hu v (by rw [g4]; simp [hv])
        have happ : m.settled.flatMap view ++ m.advanced.flatMap view ++ more.flatMap view = DD.advanced m.frontier (a ++ a') := by
          rw [o5, ← g5]
          exact (advanced_append m.frontier haa).symm
        obtain ⟨st, se, s1, s2, s3, s4, s5, s6⟩ := h.settle m.advanced more false m.settled o4 hm.valida g3 hm.valids (by
          rw [List.flatMap_append]
          have hall : Consolidated (m.settled.flatMap view ++ (m.advanced.flatMap view ++ more.flatMap view)) := by
            rw [← List.append_assoc, happ]
            exact consolidated_consolidatedU _
          exact (hall.sublist (List.sublist_append_right _ _)).sortedDT.data)
        rw [ChunkOps.absorb]
        simp only [g1, Option.bind_some, s1, Option.map_some, h.sum_len p3]
        set m1 : ChunkOps.Merger C T := { m with in1 := in1', in2 := in2', idx1 := idx1, idx2 := idx2, merged := left, advanced := st, settled := se } with hm1
        have hok : MergerOk view valid cap rest b1 b2 m1 (c + (produced.flatMap view).length) := by
          have suf : ∀ {a b r : Upds D T R}, a <:+ b → a ++ r <:+ b ++ r := by
            rintro a b r ⟨p, rfl⟩
            exact ⟨p, by simp⟩
          refine ⟨p1, p2, (suf p5).trans suf1, (suf p6).trans suf2, g2, s2, s3, by have := hm.count; simp only [hm1]; omega, ?_, ?_, ?_⟩
          · show c + (produced.flatMap view).length + (in1'.flatMap view ++ (b1.chunks.drop idx1).flatMap view).length + (in2'.flatMap view ++ (b2.chunks.drop idx2).flatMap view).length ≤ _
            rw [List.length_append, List.length_append] at spent ⊢
            omega
          · intro _
            refine ⟨a ++ a', ?_, ?_, ?_, s6 rfl, ?_⟩
            · show a ++ a' ++ left.flatMap view ++ flatMerge (in1'.flatMap view ++ (b1.chunks.drop idx1).flatMap view) (in2'.flatMap view ++ (b2.chunks.drop idx2).flatMap view) = _
              rw [← o1', g4]
              simp
            · intro u hu v hv
              have hv : v ∈ left.flatMap view := hv
              rcases List.mem_append.1 hu with hu | hu
              · exact hab u hu v (by rw [g4]; simp only [List.mem_append]; exact Or.inr hv)
              · exact g6 u hu v hv
            · intro he
              have he : left.flatMap view = [] := he
              have hl : left = [] := by
                cases left with
                | nil => rfl
                | cons x l =>
                  rw [List.flatMap_cons] at he
                  exact absurd (List.append_eq_nil_iff.1 he).1 (h.len x (g2 x (by simp))).2
              have hin := g8 rfl hl
              rw [hin, List.flatMap_nil, he, List.append_nil] at g4
              have : m.merged = [] := (List.append_eq_nil_iff.1 hin).1
              rw [o3 (by rw [this]; rfl), ← g4]; rfl
            · show se.flatMap view ++ st.flatMap view = DD.advanced m.frontier (a ++ a')
              rw [s4, happ]
          · intro h
            have : m.complete = true := h
            rw [hc] at this; cases this
        obtain ⟨m', left', c', w1, w2, w3, w4, w5, w6, w7, w8⟩ := ih m1 (c + (produced.flatMap view).length) (fuel - ((produced.flatMap view).length : Nat)) hok hc (by
          show in1'.length + (b1.chunks.drop idx1).length + (in2'.length + (b2.chunks.drop idx2).length) < n
          omega)
        refine ⟨m', left', c', w1, w2, by omega, ?_, w5, w6, w7, w8⟩
        rw [w4]
        push_cast
        omega
    · rw [if_neg hfuel]
      exact ⟨m, fuel, c, rfl, hm, le_rfl, by omega, fun h => absurd h hfuel, rfl, rfl, rfl⟩

theorem work_spec (h : ChunkContract ops view valid cap rest) {b1 b2 : BatchOf C T} (v1 : ∀ c ∈ b1.chunks, valid c) (v2 : ∀ c ∈ b2.chunks, valid c)
    (k1 : Consolidated (b1.chunks.flatMap view)) (k2 : Consolidated (b2.chunks.flatMap view)) {m : ChunkOps.Merger C T} {c : Nat} (hm : MergerOk view valid cap rest b1 b2 m c) (fuel : Int) :
    ∃ m' left c', ops.work m b1 b2 fuel = some (m', left) ∧ MergerOk view valid cap rest b1 b2 m' c' ∧ c ≤ c' ∧ left = fuel - ((c' : Int) - c) ∧
      (0 < left → m'.complete = true) ∧ m'.frontier = m.frontier ∧ m'.lower = m.lower ∧ m'.upper = m.upper ∧ (m.complete = true → m'.complete = true) := by
  unfold ChunkOps.work
  cases hc : m.complete with
  | true => exact ⟨m, fuel, c, by simp, hm, le_rfl, by omega, fun _ => hc, rfl, rfl, rfl, fun _ => hc⟩
  | false =>
    simp only [Bool.false_eq_true, if_false]
    obtain ⟨m', left, c', w⟩ := h.workLoop_spec v1 v2 k1 k2 (b1.chunks.length + b2.chunks.length + 1) m c fuel hm hc (by have := hm.count; omega)
    exact ⟨m', left, c', w.1, w.2.1, w.2.2.1, w.2.2.2.1, w.2.2.2.2.1, w.2.2.2.2.2.1, w.2.2.2.2.2.2.1, w.2.2.2.2.2.2.2, by simp⟩

end ChunkContract

end DD
