import Verif.Proofs.ColAdvance
import Verif.Props.Chunk

/-!
# C63: chunks that are columnar tries are merged, split, advanced and packed as the sequences of updates they hold

`ColTrie.Holds t us`: the trie `t` is the canonical layout of the updates `us`. `HoldsAll chunks us`: the same for each of a list of chunks.
-/

namespace DD

section
variable {K V T R : Type*} [LinearOrder K] [LinearOrder V]

/-- **C63**, merging: given two non-empty deques of non-empty chunks, each with its updates consolidated, `merge` does not panic; it leaves fewer chunks in the
deques, in each of them a final part of its updates; and what it appends to the output, followed by the consolidation of what it leaves, is the consolidation of
the updates of both deques. -/
theorem C63_merge [LinearOrder (Lin T)] [AddCommMonoid R] [DecidableEq R] [DecidableEq T] {in1 in2 out : List (ColTrie K V T R)} {U1 U2 O : Chain (K ×ₗ V) T R}
    (k1 : HoldsAll in1 U1) (k2 : HoldsAll in2 U2) (ko : HoldsAll out O) (n1 : U1 ≠ []) (n2 : U2 ≠ []) (f1 : Full U1) (f2 : Full U2) (fo : Full O)
    (s1 : Consolidated U1.flatten) (s2 : Consolidated U2.flatten) :
    ∃ in1' in2' out' U1' U2' O', ColTrie.chunkMerge in1 in2 out = some (in1', in2', out') ∧ HoldsAll in1' U1' ∧ HoldsAll in2' U2' ∧ HoldsAll out' O' ∧
      Full U1' ∧ Full U2' ∧ Full O' ∧ U1'.length + U2'.length < U1.length + U2.length ∧ U1'.flatten <:+ U1.flatten ∧ U2'.flatten <:+ U2.flatten ∧
      ∃ whole rest, consolidateUpdates (U1.flatten ++ U2.flatten) = some whole ∧ consolidateUpdates (U1'.flatten ++ U2'.flatten) = some rest ∧
        O'.flatten ++ rest = O.flatten ++ whole := by
  obtain ⟨in1', in2', out', U1', U2', O', p0, p1, e, a1, a2, a3, a4, a5, a6, -, -, a7, a8, a9, a10, a11⟩ := colMerge_spec k1 k2 ko n1 n2 f1 f2 fo s1 s2
  obtain ⟨b1, b2⟩ := a11 [] [] (by simpa using s1.sortedDT) (by simpa using s2.sortedDT)
  have t1 : Consolidated U1'.flatten := s1.sublist (by rw [a8]; exact List.sublist_append_right _ _)
  have t2 : Consolidated U2'.flatten := s2.sublist (by rw [a9]; exact List.sublist_append_right _ _)
  refine ⟨in1', in2', out', U1', U2', O', e, a1, a2, a3, a4, a5, a6, a7, ⟨p0, a8.symm⟩, ⟨p1, a9.symm⟩, _, _, flatMerge_consolidate s1 s2, flatMerge_consolidate t1 t2, ?_⟩
  rw [a10, List.append_assoc, a8, a9]
  rw [← flatMerge_split _ p0 p1 _ _ le_rfl (by simpa using b1) (by simpa using b2)]

/-- **C63**, extracting: the first chunk is taken off the deque; its updates not beyond the frontier are shipped and the others kept, each in order, in at most one
non-empty chunk; and the residual becomes the frontier generated by itself and the times kept. -/
theorem C63_extract [PartialOrder T] [DecidableLE T] {c : ColTrie K V T R} {input keep ship : List (ColTrie K V T R)} {us : Upds (K ×ₗ V) T R} {KP SH : Chain (K ×ₗ V) T R}
    (hc : c.Holds us) (kk : HoldsAll keep KP) (ks : HoldsAll ship SH) (fk : Full KP) (fs : Full SH) (frontier residual : List T) :
    ∃ residual' keep' ship' KP' SH', ColTrie.chunkExtract (c :: input) frontier residual keep ship = some (input, residual', keep', ship') ∧
      HoldsAll keep' KP' ∧ HoldsAll ship' SH' ∧ Full KP' ∧ Full SH' ∧ KP'.length ≤ KP.length + 1 ∧ SH'.length ≤ SH.length + 1 ∧
      KP'.flatten = KP.flatten ++ us.filter (fun u => Beyond frontier u.2.1) ∧ SH'.flatten = SH.flatten ++ us.filter (fun u => ¬ Beyond frontier u.2.1) ∧
      (∀ q, Beyond residual' q ↔ Beyond residual q ∨ ∃ u ∈ us, Beyond frontier u.2.1 ∧ u.2.1 ≤ q) ∧ (IsAntichainList residual → IsAntichainList residual') := by
  obtain ⟨keep', ship', KP', SH', e, a1, a2, a3, a4, a5, a6⟩ := colExtract_spec (input := input) hc kk ks fk fs frontier residual
  have ed : ∀ t : T, lessEqual frontier t = decide (Beyond frontier t) := fun t => by
    rw [Bool.eq_iff_iff, lessEqual_iff]; simp
  have hr : ∀ (us : Upds (K ×ₗ V) T R) (res : List T), (∀ q, Beyond (us.foldl (fun r u => if lessEqual frontier u.2.1 then acInsert r u.2.1 else r) res) q ↔
      Beyond res q ∨ ∃ u ∈ us, Beyond frontier u.2.1 ∧ u.2.1 ≤ q) ∧
      (IsAntichainList res → IsAntichainList (us.foldl (fun r u => if lessEqual frontier u.2.1 then acInsert r u.2.1 else r) res)) := by
    intro us
    induction us with
    | nil => intro res; simp
    | cons u us ih =>
      intro res
      rw [List.foldl_cons]
      have hins : acInsert res u.2.1 = acExtend res [u.2.1] := rfl
      by_cases h : lessEqual frontier u.2.1
      · rw [if_pos h]
        obtain ⟨i1, i2⟩ := ih (acInsert res u.2.1)
        refine ⟨fun q => ?_, fun ha => i2 ?_⟩
        · rw [i1 q, hins, beyond_acExtend]
          have hb : Beyond [u.2.1] q ↔ u.2.1 ≤ q := by simp [Beyond]
          have hf := (lessEqual_iff _ _).1 h
          simp only [List.mem_cons, exists_eq_or_imp, hb, hf, true_and, or_assoc]
        · rw [hins]; exact isAntichain_acExtend _ _ ha
      · rw [if_neg h]
        obtain ⟨i1, i2⟩ := ih res
        refine ⟨fun q => ?_, i2⟩
        have h' : ¬ Beyond frontier u.2.1 := fun h' => h ((lessEqual_iff _ _).2 h')
        rw [i1 q]
        simp [h']
  refine ⟨_, keep', ship', KP', SH', e, a1, a2, a3, a4, ?_, ?_, ?_, ?_, (hr us residual).1, (hr us residual).2⟩
  · rw [a5, List.length_append]; split_ifs <;> simp
  · rw [a6, List.length_append]; split_ifs <;> simp
  · rw [a5, List.flatten_append]
    congr 1
    simp only [← ed]
    split_ifs with h
    · rw [List.flatten_nil, h]
    · simp
  · rw [a6, List.flatten_append]
    congr 1
    have : (us.filter fun u => decide (¬ Beyond frontier u.2.1)) = us.filter fun u => !lessEqual frontier u.2.1 := List.filter_congr fun u _ => by rw [ed]; simp
    rw [this]
    split_ifs with h
    · rw [List.flatten_nil, h]
    · simp

/-- **C63**, splitting: a trie is split after any number of updates. -/
theorem C63_split {t : ColTrie K V T R} {us : Upds (K ×ₗ V) T R} (h : t.Holds us) (n : Nat) :
    ∃ a b, t.splitAt n = some (a, b) ∧ a.Holds (us.take n) ∧ b.Holds (us.drop n) := splitAt_spec h n

/-- **C63**, advancing: `advance` consumes an initial part `a` of the updates, in which no data of the rest occurs, and appends its consolidation with the times
advanced to the frontier; the rest is put back in at most one chunk; with `done` nothing is left, and otherwise something is left if there was anything. -/
theorem C63_advance [LinearOrder (Lin T)] [AddCommMonoid R] [DecidableEq R] [Lattice T] [DecidableEq T] (F : List T) {input out : List (ColTrie K V T R)} {U O : Chain (K ×ₗ V) T R}
    (hi : HoldsAll input U) (ho : HoldsAll out O) (hs : U.flatten.Pairwise fun u v => u.1 ≤ v.1) (hf : Full O) (done : Bool) :
    ∃ left out' L O' a b whole, ColTrie.chunkAdvance input F done out = some (left, out') ∧ HoldsAll left L ∧ HoldsAll out' O' ∧ U.flatten = a ++ b ∧
      L.flatten = b ∧ Full L ∧ L.length ≤ 1 ∧ consolidateUpdates (retimed (fun t => advanceBy t F) a) = some whole ∧ O'.flatten = O.flatten ++ whole ∧ Full O' ∧
      (∀ u ∈ a, ∀ v ∈ b, u.1 < v.1) ∧ (done = true → b = []) ∧ (done = false → b = [] → U.flatten = []) := by
  obtain ⟨left, out', L, O', a, b, e, a1, a2, a3, a4, a5, a6, a7, a8, a9, a10, a11⟩ := colAdvance_spec F hi ho hs hf done
  refine ⟨left, out', L, O', a, b, _, e, a1, a2, a3, a4, a5, a11, consolidateUpdates_eq _, a6, a7, a8, a9, fun h1 h2 => ?_⟩
  rw [a3, a10 h1 h2, h2]; rfl

/-- A caller of `settle`: each delivery of chunks is appended to what the last call left, and settled with `done = false`. -/
def colSettleRun (cap : Nat) (deliveries : List (List (ColTrie K V T R))) : Option (List (ColTrie K V T R) × List (ColTrie K V T R)) :=
  deliveries.foldlM (fun r more => ColTrie.chunkSettle cap (r.1 ++ more) false r.2) ([], [])

theorem colSettleRun_rel {cap : Nat} (hcap : 0 < cap) {deliveries : List (List (ColTrie K V T R))} {D : List (Chain (K ×ₗ V) T R)} (h : List.Forall₂ HoldsAll deliveries D)
    (hf : ∀ more ∈ D, Full more) : ∀ {r : List (ColTrie K V T R) × List (ColTrie K V T R)} {q : Chain (K ×ₗ V) T R × Chain (K ×ₗ V) T R}, HoldsAll r.1 q.1 → HoldsAll r.2 q.2 → SettleOk cap q.1 q.2 →
    SortedD (q.1.flatten ++ D.flatten.flatten) →
    ∃ r', deliveries.foldlM (fun r more => ColTrie.chunkSettle cap (r.1 ++ more) false r.2) r = some r' ∧
      HoldsAll r'.1 (D.foldl (fun r more => chunkSettle cap (r.1 ++ more) false r.2) q).1 ∧ HoldsAll r'.2 (D.foldl (fun r more => chunkSettle cap (r.1 ++ more) false r.2) q).2 := by
  induction h with
  | nil => intro r q h1 h2 _ _; exact ⟨r, rfl, h1, h2⟩
  | @cons m M ms Ms hm _ ih =>
    intro r q h1 h2 ok hs
    rw [List.flatten_cons, List.flatten_append, ← List.append_assoc] at hs
    have hin : HoldsAll (r.1 ++ m) (q.1 ++ M) := List.rel_append h1 hm
    obtain ⟨r1, e1, x1, x2⟩ := colSettle_rel hcap hin h2 (by rw [List.flatten_append]; exact (List.pairwise_append.1 hs).1) false
    obtain ⟨ok1, fl⟩ := settle_more hcap ok (hf M List.mem_cons_self)
    have hsub : (chunkSettle cap (q.1 ++ M) false q.2).1.flatten <:+ q.1.flatten ++ M.flatten := by
      have hle : ∃ z, (chunkSettle cap (q.1 ++ M) false q.2).2.flatten = q.2.flatten ++ z := by
        obtain ⟨z, hz⟩ := chunkSettle_prefix cap (q.1 ++ M) false q.2
        exact ⟨z.flatten, by rw [← hz, List.flatten_append]⟩
      obtain ⟨z, hz⟩ := hle
      rw [hz, List.append_assoc, List.append_assoc] at fl
      exact ⟨z, List.append_cancel_left fl⟩
    obtain ⟨r2, e2, y1, y2⟩ := ih (fun more hmore => hf more (by simp [hmore])) x1 x2 ok1 (hs.sublist (hsub.sublist.append_right _))
    exact ⟨r2, by rw [List.foldlM_cons, e1]; exact e2, y1, y2⟩

/-- **C63**, packing: however non-empty chunks (of any sizes, in the order of their data) are delivered, no call of `settle` panics; after each call what has been
settled is a maximal packing, and what has been settled followed by what has been left is the sequence of updates delivered; and once `settle` is called with
`done`, nothing is left. -/
theorem C63_settle {cap : Nat} (hcap : 0 < cap) {deliveries : List (List (ColTrie K V T R))} {D : List (Chain (K ×ₗ V) T R)} (h : List.Forall₂ HoldsAll deliveries D)
    (hf : ∀ more ∈ D, Full more) (hs : D.flatten.flatten.Pairwise fun u v => u.1 ≤ v.1) :
    ∃ left settled L S settled' S', colSettleRun cap deliveries = some (left, settled) ∧ HoldsAll left L ∧ HoldsAll settled S ∧
      Graded cap S ∧ S.flatten ++ L.flatten = D.flatten.flatten ∧ L.flatten.length < cap ∧
      ColTrie.chunkSettle cap left true settled = some ([], settled') ∧ HoldsAll settled' S' ∧ Graded cap S' ∧ S'.flatten = D.flatten.flatten := by
  obtain ⟨c1, c2, c3, c4, c5, c6⟩ := C37_settle hcap D hf
  obtain ⟨r, e, h1, h2⟩ := colSettleRun_rel hcap h hf (r := ([], [])) (q := ([], [])) .nil .nil (settleOk_init cap) (by rw [List.flatten_nil, List.nil_append]; exact hs)
  obtain ⟨r', e', h1', h2'⟩ := colSettle_rel hcap (U := (settleRun cap D).1) (O := (settleRun cap D).2) h1 h2 (by
    refine List.Pairwise.sublist ?_ hs
    rw [← c2]; exact List.sublist_append_right _ _) true
  rw [c4] at h1'
  obtain ⟨l', s'⟩ := r'
  have : l' = [] := by cases h1'; rfl
  subst this
  exact ⟨r.1, r.2, _, _, s', _, e, h1, h2, c1, c2, c3, e', h2', c5, c6⟩

/-- **C63**: the bounds of a non-empty chunk are the data and times of its first and last updates. -/
theorem C63_bounds {t : ColTrie K V T R} {us : Upds (K ×ₗ V) T R} (h : t.Holds us) (hne : us ≠ []) :
    t.bounds = some (((ofLex (us.head hne).1).1, (ofLex (us.head hne).1).2, (us.head hne).2.1), ((ofLex (us.getLast hne).1).1, (ofLex (us.getLast hne).1).2, (us.getLast hne).2.1)) := by
  obtain ⟨c, h1, h2, rfl, rfl⟩ := h
  have hc : c ≠ [] := fun e => hne ((upds_eq_nil h2).2 e)
  rw [layout_forest hc]
  have hfirst : ∃ k v u, (layoutC c).keys.values.head? = some k ∧ (layoutC c).vals.values.head? = some v ∧ (layoutC c).times.values.head? = some u.1 ∧
      c.upds.head hne = ((toLex (k, v) : K ×ₗ V), u) := by
    obtain ⟨k, v, ts, vs, h0, rfl, hts⟩ := split_first hc h2
    obtain ⟨u, ts, rfl⟩ := List.exists_cons_of_ne_nil hts
    refine ⟨k, v, u, ?_, ?_, ?_, ?_⟩ <;> simp [layoutC, Lists.of, Contents.upds]
  have hlast : ∃ k v u, (layoutC c).keys.values.getLast? = some k ∧ (layoutC c).vals.values.getLast? = some v ∧ (layoutC c).times.values.getLast? = some u.1 ∧
      c.upds.getLast hne = ((toLex (k, v) : K ×ₗ V), u) := by
    obtain ⟨g0, k, vs0, v, ts, rfl, hts⟩ := split_last hc h2
    obtain ⟨ts, u, rfl⟩ : ∃ ts' u, ts = ts' ++ [u] := ⟨ts.dropLast, ts.getLast hts, (List.dropLast_append_getLast hts).symm⟩
    refine ⟨k, v, u, ?_, ?_, ?_, ?_⟩
    · simp [layoutC, Lists.of]
    · simp [layoutC, Lists.of, ← List.append_assoc]
    · simp [layoutC, Lists.of, ← List.append_assoc]
    · have : Contents.upds (g0 ++ [(k, vs0 ++ [(v, ts ++ [u])])]) = (Contents.upds g0 ++ (vs0.flatMap fun v => v.2.map fun u => (toLex (k, v.1), u)) ++ ts.map fun u => (toLex (k, v), u)) ++ [(toLex (k, v), u)] := by
        rw [Contents.upds_append, Contents.upds_cons]; simp
      simp only [this, List.getLast_append_singleton]
  obtain ⟨k, v, u, e1, e2, e3, e4⟩ := hfirst
  obtain ⟨k', v', u', e1', e2', e3', e4'⟩ := hlast
  rw [ColTrie.bounds, e1, e2, e3, e1', e2', e3', e4, e4']
  rfl

end

/-! ## The hypotheses are met -/

section examples

/-- Three chunks: the second continues a value of the first. -/
def exU1 : Chain (Nat ×ₗ Nat) Nat Int := [[(toLex (1, 1), 0, 1), (toLex (1, 2), 0, 1), (toLex (1, 2), 3, 2)], [(toLex (1, 2), 5, 1), (toLex (4, 1), 2, 1)]]
def exU2 : Chain (Nat ×ₗ Nat) Nat Int := [[(toLex (1, 2), 3, -2), (toLex (1, 2), 4, 1), (toLex (3, 1), 0, 7)]]
def exT1 : ColTrie Nat Nat Nat Int := Forest.layout [[(1, [(1, [(0, [1])]), (2, [(0, [1]), (3, [2])])])]]
def exT2 : ColTrie Nat Nat Nat Int := Forest.layout [[(1, [(2, [(5, [1])])]), (4, [(1, [(2, [1])])])]]
def exT3 : ColTrie Nat Nat Nat Int := Forest.layout [[(1, [(2, [(3, [-2]), (4, [1])])]), (3, [(1, [(0, [7])])])]]

theorem exT1_holds : exT1.Holds exU1[0] := ⟨[(1, [(1, [(0, 1)]), (2, [(0, 1), (3, 2)])])], ⟨by simp, by simp⟩, by unfold NoEmpty; decide +kernel, rfl, rfl⟩
theorem exT2_holds : exT2.Holds exU1[1] := ⟨[(1, [(2, [(5, 1)])]), (4, [(1, [(2, 1)])])], ⟨by simp, by simp⟩, by simp [NoEmpty], rfl, rfl⟩
theorem exT3_holds : exT3.Holds exU2[0] := ⟨[(1, [(2, [(3, -2), (4, 1)])]), (3, [(1, [(0, 7)])])], ⟨by simp, by simp⟩, by simp [NoEmpty], rfl, rfl⟩

example : HoldsAll [exT1, exT2] exU1 ∧ HoldsAll [exT3] exU2 := ⟨.cons exT1_holds (.cons exT2_holds .nil), .cons exT3_holds .nil⟩
example : Full exU1 ∧ Full exU2 ∧ exU1 ≠ [] ∧ exU2 ≠ [] := by unfold Full; decide +kernel
example : Consolidated exU1.flatten ∧ Consolidated exU2.flatten := ⟨⟨by decide +kernel, by decide +kernel⟩, ⟨by decide +kernel, by decide +kernel⟩⟩

set_option synthInstance.maxSize 2000 in
/-- The first call uses up the first chunk; the update at time 3 cancels. -/
example : ColTrie.chunkMerge [exT1, exT2] [exT3] [] =
    some ([exT2], [Forest.layout [[(1, [(2, [(4, [1])])]), (3, [(1, [(0, [7])])])]]], [Forest.layout [[(1, [(1, [(0, [1])]), (2, [(0, [1])])])]]]) := by decide +kernel
set_option synthInstance.maxSize 2000 in
example : ColTrie.chunkMerge [exT2] [Forest.layout [[(1, [(2, [(4, [1])])]), (3, [(1, [(0, [7])])])]]] [] =
    some ([Forest.layout [[(4, [(1, [(2, [1])])])]]], [], [Forest.layout [[(1, [(2, [(4, [1]), (5, [1])])]), (3, [(1, [(0, [7])])])]]]) := by decide +kernel
set_option synthInstance.maxSize 2000 in
example : ColTrie.chunkExtract [exT1, exT2] [3] [] [] [] =
    some ([exT2], [3], [Forest.layout [[(1, [(2, [(3, [2])])])]]], [Forest.layout [[(1, [(1, [(0, [1])]), (2, [(0, [1])])])]]]) := by decide +kernel
example : exT1.splitAt 2 = some (Forest.layout [[(1, [(1, [(0, [1])]), (2, [(0, [1])])])]], Forest.layout [[(1, [(2, [(3, [2])])])]]) := by decide +kernel
set_option synthInstance.maxSize 2000 in
/-- The updates of the last key and value are carried: there may be more of them. -/
example : ColTrie.chunkAdvance [exT1, exT2] [4] false [] =
    some ([Forest.layout [[(4, [(1, [(2, [1])])])]]], [Forest.layout [[(1, [(1, [(4, [1])])])]], Forest.layout [[(1, [(2, [(4, [3]), (5, [1])])])]]]) := by decide +kernel
set_option synthInstance.maxSize 2000 in
example : ColTrie.chunkSettle 4 [exT1, exT2] false [] =
    some ([exT2], [exT1]) := by decide +kernel
set_option synthInstance.maxSize 2000 in
example : colSettleRun 2 [[exT1], [exT2]] =
    some ([], [Forest.layout [[(1, [(1, [(0, [1])]), (2, [(0, [1])])])]], Forest.layout [[(1, [(2, [(3, [2])])])]], exT2]) := by decide +kernel
set_option synthInstance.maxSize 2000 in
example : colSettleRun 3 [[exT2], [Forest.layout [[(5, [(1, [(0, [1])])])]]]] = some ([], [Forest.layout [[(1, [(2, [(5, [1])])]), (4, [(1, [(2, [1])])]), (5, [(1, [(0, [1])])])]]]) := by decide +kernel
example : exT1.bounds = some ((1, 1, 0), (1, 2, 3)) := by decide +kernel

end examples

end DD
