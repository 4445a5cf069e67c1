import Verif.Proofs.ChunkHarness
import Verif.Props.TrieMerger

/-! The chunks of lists and the columnar chunks satisfy the contract. -/

namespace DD
set_option linter.unusedSectionVars false

section vec
variable {D T R : Type*} [LinearOrder D] [LinearOrder (Lin T)] [AddCommMonoid R] [DecidableEq R] [Lattice T] [DecidableLE T] [DecidableEq T]

theorem vecChunk_lawful {cap : Nat} (hcap : 0 < cap) : ChunkContract (vecChunkOps (D := D) (T := T) (R := R) cap) id (fun us => us ≠ []) cap (SettleOk cap) where
  len := fun c hc => ⟨rfl, hc⟩
  merge := by
    intro in1 in2 out v1 v2 v3 n1 n2 c1 c2
    simp only [List.flatMap_id] at *
    obtain ⟨in1', in2', out', g1, g2, g3, g4, g5, g6, g7, g8, g9, g10⟩ := chunkMerge_spec hcap n1 n2 v1 v2 v3 c1.sortedDT c2.sortedDT
    obtain ⟨more, rfl, hm⟩ := exists_more (chunkMerge_prefix g1) g4
    have g10' : ∀ rest1 rest2, more.flatten ++ flatMerge (in1'.flatten ++ rest1) (in2'.flatten ++ rest2) = flatMerge (in1.flatten ++ rest1) (in2.flatten ++ rest2) := by
      intro rest1 rest2
      have := g10 rest1 rest2
      rw [List.flatten_append, List.append_assoc] at this
      exact List.append_cancel_left this
    have suf : ∀ {a b r : Upds D T R}, a <:+ b → a ++ r <:+ b ++ r := by
      rintro a b r ⟨p, rfl⟩
      exact ⟨p, by simp⟩
    refine ⟨in1', in2', more, g1, g2, g3, hm, ?_, g8, g9, ?_, fun rest1 rest2 k1 k2 => ?_⟩
    · have h1 := List.length_pos_iff.2 n1
      have h2 := List.length_pos_iff.2 n2
      rcases g5 with rfl | rfl
      · simp only [List.length_nil]; omega
      · simp only [List.length_nil]; omega
    · have h := g10' [] []
      simp only [List.append_nil] at h
      have h1 := congrArg List.length h
      have h2 := length_flatMerge_le in1.flatten in2.flatten
      rw [List.length_append] at h1
      rcases g5 with rfl | rfl
      · simp only [List.flatten_nil, flatMerge] at h1 ⊢; simp only [List.length_nil]; omega
      · simp only [List.flatten_nil, flatMerge_nil_right] at h1 ⊢; simp only [List.length_nil]; omega
    · exact ⟨_, flatMerge_consolidate (ChunkContract.consolidated_suffix k1 (suf g8)) (ChunkContract.consolidated_suffix k2 (suf g9)), by rw [flatMerge_consolidate k1 k2, g10']⟩
  extract := by
    intro c input frontier residual keep ship hc vk vs
    simp only [List.flatMap_id, vecChunkOps, chunkExtract, extractChunk_fold, List.nil_append]
    have ed : ∀ t : T, lessEqual frontier t = decide (Beyond frontier t) := fun t => by
      rw [Bool.eq_iff_iff, lessEqual_iff]; simp
    have split : ∀ (q : Chain D T R) (p : Upds D T R), (if p ≠ [] then q ++ [p] else q) = q ++ (if p = [] then [] else [p]) ∧ (∀ c ∈ (if p = [] then [] else [p]), c ≠ []) ∧ (if p = [] then [] else [p]).flatten = p := by
      intro q p
      by_cases hp : p = []
      · simp [hp]
      · simp [hp]
    obtain ⟨a1, a2, a3⟩ := split keep (c.filter fun u => lessEqual frontier u.2.1)
    obtain ⟨b1, b2, b3⟩ := split ship (c.filter fun u => !lessEqual frontier u.2.1)
    rw [a1, b1]
    refine ⟨_, _, _, rfl, a2, b2, ?_, ?_, fun q => ?_, fun ha => isAntichain_acExtend _ _ ha⟩
    · rw [a3]
      exact List.filter_congr fun u _ => ed _
    · rw [b3]
      refine List.filter_congr fun u _ => ?_
      rw [ed]; simp
    · rw [beyond_acExtend]
      refine or_congr Iff.rfl ?_
      constructor
      · rintro ⟨f, hf, hq⟩
        obtain ⟨u, hu, rfl⟩ := List.mem_map.1 hf
        obtain ⟨hu, hb⟩ := List.mem_filter.1 hu
        exact ⟨u, hu, (lessEqual_iff _ _).1 hb, hq⟩
      · rintro ⟨u, hu, hb, hq⟩
        exact ⟨_, List.mem_map.2 ⟨u, List.mem_filter.2 ⟨hu, (lessEqual_iff _ _).2 hb⟩, rfl⟩, hq⟩
  advance := by
    intro input frontier done out vi vo hs
    simp only [List.flatMap_id] at *
    obtain ⟨a, b, k1, k2, k3, k4, k5, k6, k7, k8⟩ := chunkAdvance_spec cap frontier input out done hs vo
    obtain ⟨more, e, hm⟩ := exists_more (chunkAdvance_prefix cap input frontier done out) k5
    have full_nil : ∀ {cs : Chain D T R}, Full cs → cs.flatten = [] → cs = [] := by
      intro cs hf he
      cases cs with
      | nil => rfl
      | cons c cs =>
        rw [List.flatten_cons] at he
        exact absurd (List.append_eq_nil_iff.1 he).1 (hf c (by simp))
    refine ⟨(chunkAdvance cap input frontier done out).1, more, a, ?_, k3, hm, by rw [k2, k1], ?_, ?_, ?_, ?_⟩
    · show some (chunkAdvance cap input frontier done out) = _
      rw [← e]
    · rw [consolidateUpdates_eq]
      rw [e, List.flatten_append] at k4
      exact congrArg some (List.append_cancel_left k4).symm
    · rw [k2]; exact k6
    · intro hd
      exact full_nil k3 (by rw [k2, k7 hd])
    · intro hd hl
      rw [hl] at k2
      have hb : b = [] := k2.symm
      exact full_nil vi (by rw [k1, k8 hd hb, hb]; rfl)
  settle := by
    intro input more done out hr vi vm vo _
    simp only [List.flatMap_id, List.map_id]
    cases done with
    | false =>
      obtain ⟨k1, k2⟩ := settle_more hcap hr vm
      have hf := k1.full
      have hg := k1.graded.full
      exact ⟨_, _, rfl, hf, hg, k2, by simp, fun _ => k1⟩
    | true =>
      obtain ⟨k1, k2, k3⟩ := settle_done hcap hr vm
      exact ⟨(chunkSettle cap (input ++ more) true out).1, (chunkSettle cap (input ++ more) true out).2, rfl, by rw [k1]; simp, k2.full, by rw [k1, k3]; simp, fun _ => ⟨k1, k2⟩, by simp⟩
  rest_nil := settleOk_init cap
  rest_graded := fun input out h => by rw [List.map_id]; exact h.graded

end vec

section col
variable {K V T R : Type*} [LinearOrder K] [LinearOrder V] [LinearOrder (Lin T)] [AddCommMonoid R] [DecidableEq R] [Lattice T] [DecidableLE T] [DecidableEq T]

/-- The updates of a chunk, read by its iterator. -/
def colView (t : ColTrie K V T R) : Upds (K ×ₗ V) T R := t.iter.getD []

/-- The chunk holds some updates. -/
def ColValid (t : ColTrie K V T R) : Prop := ∃ us, t.Holds us ∧ us ≠ []

theorem colView_holds {t : ColTrie K V T R} {us : Upds (K ×ₗ V) T R} (h : t.Holds us) : colView t = us := by rw [colView, iter_holds h]; rfl

theorem holdsAll_of_valid {cs : List (ColTrie K V T R)} (h : ∀ c ∈ cs, ColValid c) : HoldsAll cs (cs.map colView) ∧ Full (cs.map colView) := by
  induction cs with
  | nil => exact ⟨.nil, by simp [Full]⟩
  | cons c cs ih =>
    obtain ⟨h1, h2⟩ := ih fun x hx => h x (by simp [hx])
    obtain ⟨us, hu, hn⟩ := h c (by simp)
    rw [List.map_cons, colView_holds hu]
    refine ⟨.cons hu h1, fun x hx => ?_⟩
    rcases List.mem_cons.1 hx with rfl | hx
    · exact hn
    · exact h2 x hx

theorem valid_of_holdsAll {cs : List (ColTrie K V T R)} {U : Chain (K ×ₗ V) T R} (h : HoldsAll cs U) (hf : Full U) : U = cs.map colView ∧ ∀ c ∈ cs, ColValid c := by
  induction h with
  | nil => exact ⟨rfl, by simp⟩
  | @cons c us cs U h1 _ ih =>
    obtain ⟨k1, k2⟩ := ih fun x hx => hf x (by simp [hx])
    refine ⟨by rw [List.map_cons, colView_holds h1, k1], fun x hx => ?_⟩
    rcases List.mem_cons.1 hx with rfl | hx
    · exact ⟨us, h1, hf us (by simp)⟩
    · exact k2 x hx

theorem emit_prefix (t : ColTrie K V T R) (out : List (ColTrie K V T R)) : out <+: ColTrie.emit t out := by
  rw [ColTrie.emit]
  split_ifs
  · exact List.prefix_append _ _
  · exact List.prefix_rfl

theorem colMerge_prefix {in1 in2 out in1' in2' out' : List (ColTrie K V T R)} (h : ColTrie.chunkMerge in1 in2 out = some (in1', in2', out')) : out <+: out' := by
  cases in1 with
  | nil => simp [ColTrie.chunkMerge] at h
  | cons c1 in1 =>
    cases in2 with
    | nil => simp [ColTrie.chunkMerge] at h
    | cons c2 in2 =>
      simp only [ColTrie.chunkMerge, Option.bind_eq_some_iff, Option.map_eq_some_iff, Prod.mk.injEq] at h
      obtain ⟨_, _, _, _, _, _, _, _, _, _, rfl⟩ := h
      exact emit_prefix _ _

theorem colExtract_prefix {c : ColTrie K V T R} {input input' keep ship keep' ship' : List (ColTrie K V T R)} {F r r' : List T}
    (h : ColTrie.chunkExtract (c :: input) F r keep ship = some (input', r', keep', ship')) : keep <+: keep' ∧ ship <+: ship' := by
  simp only [ColTrie.chunkExtract, Option.map_eq_some_iff, Prod.mk.injEq] at h
  obtain ⟨x, _, _, _, rfl, rfl⟩ := h
  constructor
  · cases x.2.2 with
    | none => exact List.prefix_rfl
    | some c => exact emit_prefix _ _
  · cases x.2.1 with
    | none => exact List.prefix_rfl
    | some c => exact emit_prefix _ _

theorem advanceStep_prefix {F : List T} {s s' : Option (ColTrie K V T R) × List (ColTrie K V T R)} {t : ColTrie K V T R} (h : ColTrie.advanceStep F s t = some s') : s.2 <+: s'.2 := by
  simp only [ColTrie.advanceStep, Option.bind_eq_some_iff] at h
  obtain ⟨m, _, h⟩ := h
  split_ifs at h
  · cases h; exact List.prefix_rfl
  · simp only [Option.bind_eq_some_iff] at h
    obtain ⟨tail, _, h⟩ := h
    split_ifs at h
    · cases h; exact List.prefix_rfl
    · simp only [Option.bind_eq_some_iff, Option.map_eq_some_iff] at h
      obtain ⟨_, _, _, _, rfl⟩ := h
      exact emit_prefix _ _

theorem advanceFold_prefix {F : List T} {input : List (ColTrie K V T R)} : ∀ {s s' : Option (ColTrie K V T R) × List (ColTrie K V T R)},
    input.foldlM (ColTrie.advanceStep F) s = some s' → s.2 <+: s'.2 := by
  induction input with
  | nil => intro s s' h; cases h; exact List.prefix_rfl
  | cons c input ih =>
    intro s s' h
    rw [List.foldlM_cons] at h
    obtain ⟨x, hx, h⟩ := Option.bind_eq_some_iff.1 h
    exact (advanceStep_prefix hx).trans (ih h)

theorem colAdvance_prefix {F : List T} {input out left out' : List (ColTrie K V T R)} {done : Bool} (h : ColTrie.chunkAdvance input F done out = some (left, out')) : out <+: out' := by
  simp only [ColTrie.chunkAdvance, Option.bind_eq_some_iff] at h
  obtain ⟨⟨sc, o⟩, hx, h⟩ := h
  have hp := advanceFold_prefix hx
  cases sc with
  | none => cases h; exact hp
  | some c =>
    simp only at h
    split_ifs at h
    · simp only [Option.map_eq_some_iff, Prod.mk.injEq] at h
      obtain ⟨_, _, _, rfl⟩ := h
      exact hp.trans (emit_prefix _ _)
    · cases h; exact hp

/-- What is appended. -/
theorem colMore {out out' : List (ColTrie K V T R)} {O' : Chain (K ×ₗ V) T R} {us : Upds (K ×ₗ V) T R} (hp : out <+: out') (ho : HoldsAll out' O') (hf : Full O')
    (he : O'.flatten = (out.map colView).flatten ++ us) : ∃ more, out' = out ++ more ∧ (∀ c ∈ more, ColValid c) ∧ more.flatMap colView = us := by
  obtain ⟨more, rfl⟩ := hp
  obtain ⟨rfl, k⟩ := valid_of_holdsAll ho hf
  refine ⟨more, rfl, fun c hc => k c (by simp [hc]), ?_⟩
  rw [List.map_append, List.flatten_append] at he
  rw [List.flatMap_def]
  exact List.append_cancel_left he

theorem colChunk_lawful {cap : Nat} (hcap : 0 < cap) :
    ChunkContract (colChunkOps (K := K) (V := V) (T := T) (R := R) cap) colView ColValid cap (fun input out => SettleOk cap (input.map colView) (out.map colView)) where
  len := by
    rintro c ⟨us, h, hn⟩
    rw [colView_holds h]
    exact ⟨len_layout h, hn⟩
  merge := by
    intro in1 in2 out v1 v2 v3 n1 n2 c1 c2
    obtain ⟨h1, f1⟩ := holdsAll_of_valid v1
    obtain ⟨h2, f2⟩ := holdsAll_of_valid v2
    obtain ⟨h3, f3⟩ := holdsAll_of_valid v3
    simp only [List.flatMap_def] at c1 c2 ⊢
    obtain ⟨in1', in2', out', U1', U2', O', p0, p1, e, a1, a2, a3, a4, a5, a6, -, -, a7, a8, a9, a10, a11⟩ :=
      colMerge_spec h1 h2 h3 (by simpa using n1) (by simpa using n2) f1 f2 f3 c1 c2
    obtain ⟨more, rfl, m1, m2⟩ := colMore (colMerge_prefix e) a3 a6 a10
    obtain ⟨rfl, w1⟩ := valid_of_holdsAll a1 a4
    obtain ⟨rfl, w2⟩ := valid_of_holdsAll a2 a5
    rw [List.flatMap_def] at m2
    refine ⟨in1', in2', more, e, w1, w2, m1, by simpa using a7, ⟨p0, a8.symm⟩, ⟨p1, a9.symm⟩, ?_, fun rest1 rest2 k1 k2 => ?_⟩
    · have := length_flatMerge_le p0 p1
      rw [m2, a8, a9, List.length_append, List.length_append]
      omega
    · obtain ⟨b1, b2⟩ := a11 rest1 rest2 k1.sortedDT k2.sortedDT
      have t1 := ChunkContract.consolidated_suffix k1 (a := (in1'.map colView).flatten ++ rest1) ⟨p0, by rw [a8]; simp⟩
      have t2 := ChunkContract.consolidated_suffix k2 (a := (in2'.map colView).flatten ++ rest2) ⟨p1, by rw [a9]; simp⟩
      refine ⟨_, flatMerge_consolidate t1 t2, ?_⟩
      rw [flatMerge_consolidate k1 k2, m2, a8, a9, List.append_assoc, List.append_assoc, flatMerge_split _ p0 p1 _ _ le_rfl b1 b2]
  extract := by
    rintro c input frontier residual keep ship ⟨us, hc, hn⟩ vk vs
    obtain ⟨h1, f1⟩ := holdsAll_of_valid vk
    obtain ⟨h2, f2⟩ := holdsAll_of_valid vs
    obtain ⟨residual', keep', ship', KP', SH', e, a1, a2, a3, a4, -, -, a5, a6, a7, a8⟩ := C63_extract (input := input) hc h1 h2 f1 f2 frontier residual
    obtain ⟨p1, p2⟩ := colExtract_prefix e
    obtain ⟨mk, rfl, k1, k2⟩ := colMore p1 a1 a3 a5
    obtain ⟨ms, rfl, s1, s2⟩ := colMore p2 a2 a4 a6
    rw [colView_holds hc]
    exact ⟨residual', mk, ms, e, k1, s1, k2, s2, a7, a8⟩
  advance := by
    intro input frontier done out vi vo hs
    obtain ⟨h1, f1⟩ := holdsAll_of_valid vi
    obtain ⟨h2, f2⟩ := holdsAll_of_valid vo
    rw [List.flatMap_def] at hs
    obtain ⟨left, out', L, O', a, b, e, a1, a2, a3, a4, a5, a6, a7, a8, a9, a10, -⟩ := colAdvance_spec frontier h1 h2 hs f2 done
    obtain ⟨more, rfl, m1, m2⟩ := colMore (colAdvance_prefix e) a2 a7 a6
    obtain ⟨rfl, w⟩ := valid_of_holdsAll a1 a5
    have full_nil : ∀ {cs : List (ColTrie K V T R)}, (∀ c ∈ cs, ColValid c) → (cs.map colView).flatten = [] → cs = [] := by
      intro cs hv he
      cases cs with
      | nil => rfl
      | cons c cs =>
        obtain ⟨us, hu, hn⟩ := hv c (by simp)
        rw [List.map_cons, List.flatten_cons, colView_holds hu] at he
        exact absurd (List.append_eq_nil_iff.1 he).1 hn
    refine ⟨left, more, a, e, w, m1, by rw [List.flatMap_def, List.flatMap_def, a4, a3], ?_, ?_, ?_, ?_⟩
    · rw [consolidateUpdates_eq, m2]; rfl
    · rw [List.flatMap_def, a4]; exact a8
    · intro hd
      exact full_nil w (by rw [a4, a9 hd])
    · intro hd hl
      rw [hl] at a4
      have hb : b = [] := a4.symm
      exact full_nil vi (by rw [a3, a10 hd hb, hb]; rfl)
  settle := by
    intro input more done out hr vi vm vo hs
    obtain ⟨h1, f1⟩ := holdsAll_of_valid (cs := input ++ more) fun c hc => (List.mem_append.1 hc).elim (vi c) (vm c)
    obtain ⟨-, fm⟩ := holdsAll_of_valid vm
    obtain ⟨h2, f2⟩ := holdsAll_of_valid vo
    rw [List.flatMap_def] at hs
    obtain ⟨r, e, g1, g2⟩ := colSettle_rel hcap h1 h2 hs done
    simp only [List.flatMap_def]
    rw [List.map_append] at g1 g2
    cases done with
    | false =>
      obtain ⟨k1, k2⟩ := settle_more hcap hr fm
      obtain ⟨e1, w1⟩ := valid_of_holdsAll g1 k1.full
      obtain ⟨e2, w2⟩ := valid_of_holdsAll g2 k1.graded.full
      rw [e1, e2] at k1 k2
      exact ⟨r.1, r.2, e, w1, w2, k2, by simp, fun _ => k1⟩
    | true =>
      obtain ⟨k1, k2, k3⟩ := settle_done hcap hr fm
      obtain ⟨e1, w1⟩ := valid_of_holdsAll g1 (by rw [k1]; simp [Full])
      obtain ⟨e2, w2⟩ := valid_of_holdsAll g2 k2.full
      rw [e1] at k1
      rw [e2] at k2 k3
      exact ⟨r.1, r.2, e, w1, w2, by rw [k1, k3]; simp, fun _ => ⟨by simpa using k1, k2⟩, by simp⟩
  rest_nil := settleOk_init cap
  rest_graded := fun input out h => h.graded

end col

end DD
