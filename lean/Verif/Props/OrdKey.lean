import Verif.Proofs.OrdKey
import Verif.Proofs.TimeOrd
import Mathlib.Order.Nat
import Mathlib.Algebra.Order.Group.Int
import Mathlib.Data.Int.Order.Basic

/-!
# Properties C09, C12, C13 for key-only batches
-/

namespace DD

section
variable {K T R : Type*} [LinearOrder K] [DecidableEq T] [LinearOrder (Lin T)] [AddCommMonoid R] [DecidableEq R]

/-! ### C09 -/

/-- C09: building a batch from chunks whose concatenation is sorted and consolidated succeeds; walking the batch with its cursor
yields exactly the updates, in order; and the reported number of updates is their number. -/
theorem C09_key_round_trip (chain : Chain K T R) (desc : Description T) (hc : Consolidated chain.flatten) :
    ∃ b, KeyBatch.build chain desc = some b ∧ b.storage.readAll = some chain.flatten ∧ b.updates = chain.flatten.length ∧
      b.description = desc := by
  obtain ⟨b, t, h1, h2, _, h4, h5, h6⟩ := keyBuild_spec chain desc hc
  exact ⟨b, h1, by rw [keyReadAll_spec h2, h4], by rw [h5, ← length_flatKeys, h4], h6⟩

variable [Lattice T] [DecidableLE T] [Bot T]

/-- The batches a program can hold: empty ones, ones built from sorted consolidated chunks, and results of merges run to completion
(some call to `work` left some fuel) with any fuel amounts and any compaction frontier. -/
inductive ReachableKeyBatch : KeyBatch K T R → Prop
  | empty (lower upper : List T) : ReachableKeyBatch (KeyBatch.empty lower upper)
  | built (chain : Chain K T R) (desc : Description T) (b : KeyBatch K T R) :
      Consolidated chain.flatten → KeyBatch.build chain desc = some b → ReachableKeyBatch b
  | merged (b1 b2 : KeyBatch K T R) (frontier : List T) (m m' : KeyMerger K T R) (fuels lefts : List Int) (left : Int) :
      ReachableKeyBatch b1 → ReachableKeyBatch b2 → KeyMerger.new b1 b2 frontier = some m → m.works b1 b2 fuels = some (m', lefts) →
      left ∈ lefts → 0 < left → ReachableKeyBatch m'.done

/-- What the proofs need of a batch. -/
private def BatchOk (b : KeyBatch K T R) : Prop := ∃ t, KRepr b.storage t ∧ ValsWf t ∧ b.updates = sizeVals t

private theorem init_inv {b1 b2 : KeyBatch K T R} {frontier : List T} {m : KeyMerger K T R} (h : KeyMerger.new b1 b2 frontier = some m)
    (t1 t2 : List (K × List (T × R))) : KMInv m.description.since t1 t2 m [] ∧ m.staging.total = 0 ∧
      m.description = ⟨b1.description.lower, b2.description.upper, acJoin (acJoin b1.description.since b2.description.since) frontier⟩ := by
  rw [KeyMerger.new] at h
  split_ifs at h
  cases h
  exact ⟨⟨⟨kInProg_init, rfl, rfl, rfl⟩, by simp, by simp, by simp⟩, rfl, rfl⟩

private theorem kworks_inv {since : List T} {t1 t2 : List (K × List (T × R))} {b1 b2 : KeyBatch K T R} (h1 : KRepr b1.storage t1) (h2 : KRepr b2.storage t2)
    (fuels : List Int) : ∀ {m : KeyMerger K T R}, (∃ res, KMInv since t1 t2 m res) →
    ∃ m' lefts, m.works b1 b2 fuels = some (m', lefts) ∧ (∃ res, KMInv since t1 t2 m' res) ∧ m'.description = m.description ∧
      lefts.length = fuels.length ∧ (fuels.sum - lefts.sum = (m'.staging.total : Int) - m.staging.total) ∧
      (∀ left ∈ lefts, 0 < left → m'.complete b1 b2) := by
  induction fuels with
  | nil => intro m h; exact ⟨m, [], rfl, h, rfl, rfl, by simp, by simp⟩
  | cons f fuels ih =>
    intro m h
    obtain ⟨m1, left, g1, g2, g3, _, g4, g5⟩ := kwork_spec h1 h2 h f
    obtain ⟨m2, lefts, k1, k2, k3, k4, k5, k6⟩ := ih g2
    have hmono : m1.complete b1 b2 → m2.complete b1 b2 := by
      intro hc
      clear k6 ih
      -- cursors never move back: a completed merge stays complete
      have key : ∀ (fs : List Int) (ma mb : KeyMerger K T R) (ls : List Int), (∃ res, KMInv since t1 t2 ma res) → ma.complete b1 b2 →
          ma.works b1 b2 fs = some (mb, ls) → mb.complete b1 b2 := by
        intro fs
        induction fs with
        | nil => intro ma mb ls _ hc h; rw [KeyMerger.works] at h; cases h; exact hc
        | cons f fs ih =>
          intro ma mb ls hma hc h
          have hw : ma.work b1 b2 f = some (ma, f) := by
            obtain ⟨hc1, hc2⟩ := hc
            have hb : ∀ n e, KeyMerger.workBoth b1.storage b2.storage ma.staging.total f n ma e = some (ma, e) := by
              intro n e; cases n with
              | zero => rfl
              | succ n => rw [KeyMerger.workBoth, if_neg (by omega)]
            have ho : ∀ n e, KeyMerger.workOne b1.storage ma.staging.total f n ma e = some (ma, e) := by
              intro n e; cases n with
              | zero => rfl
              | succ n => rw [KeyMerger.workOne, if_neg (by omega)]
            have ht : ∀ n e, KeyMerger.workTwo b2.storage ma.staging.total f n ma e = some (ma, e) := by
              intro n e; cases n with
              | zero => rfl
              | succ n => rw [KeyMerger.workTwo, if_neg (by omega)]
            simp only [KeyMerger.work, hb, ho, ht, sub_zero]
          rw [KeyMerger.works, hw] at h
          simp only at h
          cases hws : ma.works b1 b2 fs with
          | none => rw [hws] at h; cases h
          | some x =>
            rw [hws] at h
            obtain ⟨mc, ls'⟩ := x
            cases h
            exact ih ma _ _ hma hc hws
      exact key fuels m1 m2 lefts g2 hc k1
    refine ⟨m2, left :: lefts, ?_, k2, k3.trans g3, by simp [k4], ?_, ?_⟩
    · rw [KeyMerger.works, g1]; simp only [k1]
    · simp only [List.sum_cons]; omega
    · intro l hl hpos
      rcases List.mem_cons.mp hl with hl | hl
      · subst hl
        rcases g5 with g5 | g5
        · exact hmono g5
        · omega
      · exact k6 l hl hpos

private theorem complete_trie {since : List T} {t1 t2 : List (K × List (T × R))} {b1 b2 : KeyBatch K T R} (h1 : KRepr b1.storage t1)
    (h2 : KRepr b2.storage t2) {m : KeyMerger K T R} {res : List (K × List (T × R))} (h : KMInv since t1 t2 m res) (hc : m.complete b1 b2) :
    res = compactVals since (zipVals t1 t2) := by
  have e1 : m.key_cursor1 = t1.length := by rw [hc.1, h1.keys, List.length_map]
  have e2 : m.key_cursor2 = t2.length := by rw [hc.2, h2.keys, List.length_map]
  have := h.rest
  rw [e1, e2, List.drop_length, List.drop_length, kzip_nil_left] at this
  simpa [compactVals] using this

private theorem reachable_ok {b : KeyBatch K T R} (h : ReachableKeyBatch b) : BatchOk b := by
  induction h with
  | empty lower upper => exact ⟨[], kInProg_init.repr, ⟨List.Pairwise.nil, by simp⟩, rfl⟩
  | built chain desc b hc hb =>
    obtain ⟨b', t, h1, h2, h3, _, h5, _⟩ := keyBuild_spec chain desc hc
    rw [hb] at h1; cases h1
    exact ⟨t, h2, h3, h5⟩
  | merged b1 b2 frontier m m' fuels lefts left _ _ hn hw hl hpos ih1 ih2 =>
    obtain ⟨t1, r1, w1, _⟩ := ih1
    obtain ⟨t2, r2, w2, _⟩ := ih2
    obtain ⟨i1, i2, i3⟩ := init_inv hn t1 t2
    obtain ⟨m'', lefts', g1, ⟨res, g2⟩, g3, _, _, g6⟩ := kworks_inv r1 r2 fuels ⟨[], i1⟩
    rw [hw] at g1; cases g1
    have := complete_trie r1 r2 g2 (g6 left hl hpos)
    subst this
    refine ⟨_, g2.ok.prog.repr, compactVals_wf _ _ (zipMerge_sorted _ _ _ w1.sorted w2.sorted), ?_⟩
    show m'.staging.total = _
    rw [g2.ok.total]

/-- What the storage of a reachable batch stands for. -/
theorem ReachableKeyBatch.repr {b : KeyBatch K T R} (h : ReachableKeyBatch b) : ∃ t, KRepr b.storage t ∧ ValsWf t := by
  obtain ⟨t, h1, h2, _⟩ := reachable_ok h
  exact ⟨t, h1, h2⟩

/-- C09: every batch that can be built or merged can be walked by its cursor; what is read is sorted by key and time without
duplicates or zero differences, and its length is the reported number of updates. -/
theorem C09_key_reachable (b : KeyBatch K T R) (hb : ReachableKeyBatch b) :
    ∃ us, b.storage.readAll = some us ∧ Consolidated us ∧ b.updates = us.length := by
  obtain ⟨t, h1, h2, h3⟩ := reachable_ok hb
  exact ⟨_, keyReadAll_spec h1, flatKeys_consolidated h2, by rw [h3, length_flatKeys]⟩

/-! ### C12 -/

/-- C12: adjacent batches can begin a merge, no sequence of fuel amounts makes it fail, and if some call left fuel then the
result reads as the updates of both, their times advanced by the compaction frontier, consolidated. In particular the result does not depend
on the fuel amounts. Its bounds are the lower of the first and the upper of the second. -/
theorem C12_key_merge (b1 b2 : KeyBatch K T R) (hb1 : ReachableKeyBatch b1) (hb2 : ReachableKeyBatch b2) (us1 us2 : Upds K T R)
    (hu1 : b1.storage.readAll = some us1) (hu2 : b2.storage.readAll = some us2) (frontier : List T)
    (hadj : acEq b1.description.upper b2.description.lower = true) (fuels : List Int) :
    ∃ m m' lefts, KeyMerger.new b1 b2 frontier = some m ∧ m.works b1 b2 fuels = some (m', lefts) ∧
      (∀ left, left ∈ lefts → 0 < left →
        ReachableKeyBatch m'.done ∧
        m'.done.description = ⟨b1.description.lower, b2.description.upper,
          acJoin (acJoin b1.description.since b2.description.since) frontier⟩ ∧
        ∃ us, m'.done.storage.readAll = some us ∧ Consolidated us ∧
          ∀ d t, total us d t = total ((us1 ++ us2).map fun u => (u.1, advanceBy u.2.1 m'.done.description.since, u.2.2)) d t) := by
  obtain ⟨t1, r1, w1, _⟩ := reachable_ok hb1
  obtain ⟨t2, r2, w2, _⟩ := reachable_ok hb2
  rw [keyReadAll_spec r1] at hu1; cases hu1
  rw [keyReadAll_spec r2] at hu2; cases hu2
  obtain ⟨m, hm⟩ : ∃ m, KeyMerger.new b1 b2 frontier = some m := by
    rw [KeyMerger.new, if_pos hadj]; exact ⟨_, rfl⟩
  obtain ⟨i1, i2, i3⟩ := init_inv hm t1 t2
  obtain ⟨m', lefts, g1, ⟨res, g2⟩, g3, _, _, g6⟩ := kworks_inv r1 r2 fuels ⟨[], i1⟩
  refine ⟨m, m', lefts, hm, g1, fun left hl hpos => ⟨.merged b1 b2 frontier m m' fuels lefts left hb1 hb2 hm g1 hl hpos, ?_, ?_⟩⟩
  · show m'.description = _
    rw [g3, i3]
  · have := complete_trie r1 r2 g2 (g6 left hl hpos)
    subst this
    refine ⟨_, keyReadAll_spec (s := m'.result) g2.ok.prog.repr, flatKeys_consolidated (compactVals_wf _ _ (zipMerge_sorted _ _ _ w1.sorted w2.sorted)), fun d t => ?_⟩
    rw [total_compactKeys]
    have hd : m'.done.description.since = m.description.since := by show m'.description.since = _; rw [g3]
    rw [hd]
    exact total_perm ((flatKeys_zip t1 t2).map _) d t

private theorem accum_advance (us : Upds K T R) (since : List T) (d : K) (q : T) (hq : Beyond since q) :
    accum (us.map fun u => (u.1, advanceBy u.2.1 since, u.2.2)) d q = accum us d q := by
  unfold accum
  rw [List.map_map]
  congr 1
  apply List.map_congr_left
  intro u _
  simp only [Function.comp, advanceBy_le_iff _ _ _ hq]

/-- C12: the merged batch accumulates, at every time beyond the compaction frontier and the frontiers the inputs were already compacted
to, exactly as the two inputs together. -/
theorem C12_key_accum (b1 b2 : KeyBatch K T R) (hb1 : ReachableKeyBatch b1) (hb2 : ReachableKeyBatch b2) (us1 us2 us : Upds K T R)
    (hu1 : b1.storage.readAll = some us1) (hu2 : b2.storage.readAll = some us2) (frontier : List T)
    (fuels lefts : List Int) (m m' : KeyMerger K T R) (hm : KeyMerger.new b1 b2 frontier = some m)
    (hw : m.works b1 b2 fuels = some (m', lefts)) (left : Int) (hl : left ∈ lefts) (hpos : 0 < left)
    (hu : m'.done.storage.readAll = some us) (d : K) (q : T) (hq : Beyond frontier q) (hq1 : Beyond b1.description.since q)
    (hq2 : Beyond b2.description.since q) :
    accum us d q = accum us1 d q + accum us2 d q := by
  have hadj : acEq b1.description.upper b2.description.lower = true := by
    rw [KeyMerger.new] at hm
    split_ifs at hm with h
    exact h
  obtain ⟨n, n', ls, h1, h2, h3⟩ := C12_key_merge b1 b2 hb1 hb2 us1 us2 hu1 hu2 frontier hadj fuels
  rw [hm] at h1; cases h1
  rw [hw] at h2; cases h2
  obtain ⟨_, h4, us', h5, _, h6⟩ := h3 left hl hpos
  rw [hu] at h5; cases h5
  rw [accum_of_total h6, accum_advance _ _ _ _ ?_, accum_append]
  rw [h4, beyond_acJoin, beyond_acJoin]
  exact ⟨⟨hq1, hq2⟩, hq⟩

/-- C12: two completed merges of the same batches read the same, whatever the fuel amounts. -/
theorem C12_key_fuel_irrelevant (b1 b2 : KeyBatch K T R) (hb1 : ReachableKeyBatch b1) (hb2 : ReachableKeyBatch b2) (frontier : List T)
    (m m' m'' : KeyMerger K T R) (fuels lefts fuels' lefts' : List Int) (hm : KeyMerger.new b1 b2 frontier = some m)
    (hw : m.works b1 b2 fuels = some (m', lefts)) (hw' : m.works b1 b2 fuels' = some (m'', lefts')) (left left' : Int)
    (hl : left ∈ lefts) (hpos : 0 < left) (hl' : left' ∈ lefts') (hpos' : 0 < left') :
    m'.done.storage.readAll = m''.done.storage.readAll ∧ m'.done.updates = m''.done.updates := by
  obtain ⟨t1, r1, w1, _⟩ := reachable_ok hb1
  obtain ⟨t2, r2, w2, _⟩ := reachable_ok hb2
  obtain ⟨i1, i2, i3⟩ := init_inv hm t1 t2
  obtain ⟨n, ls, g1, ⟨res, g2⟩, g3, _, _, g6⟩ := kworks_inv r1 r2 fuels ⟨[], i1⟩
  rw [hw] at g1; cases g1
  obtain ⟨n, ls, k1, ⟨res', k2⟩, k3, _, _, k6⟩ := kworks_inv r1 r2 fuels' ⟨[], i1⟩
  rw [hw'] at k1; cases k1
  have e1 := complete_trie r1 r2 g2 (g6 left hl hpos)
  have e2 := complete_trie r1 r2 k2 (k6 left' hl' hpos')
  subst e1; subst e2
  constructor
  · show m'.result.readAll = m''.result.readAll
    rw [keyReadAll_spec g2.ok.prog.repr, keyReadAll_spec k2.ok.prog.repr]
  · show m'.staging.total = m''.staging.total
    rw [g2.ok.total, k2.ok.total]

/-! ### C13 -/

private theorem size_compactVals (since : List T) (vs : List (K × List (T × R))) : sizeVals (compactVals since vs) ≤ sizeVals vs := by
  induction vs with
  | nil => exact le_refl _
  | cons vu vs ih =>
    rw [compactVals_cons, sizeVals_append]
    have : sizeVals (keepVal vu.1 (compactUpds since vu.2)) ≤ vu.2.length := by
      have h := length_consTimes (vu.2.map fun u => (advanceBy u.1 since, u.2))
      rw [List.length_map] at h
      rw [keepVal]
      split_ifs
      · simp [sizeVals]
      · simpa [sizeVals, compactUpds] using h
    have h2 : sizeVals (vu :: vs) = vu.2.length + sizeVals vs := by simp [sizeVals]
    omega

/-- C13: each call to `work` either completes the merge or consumes at least the fuel supplied. Completion is observable: a further
call changes nothing and consumes nothing, however much fuel it is given. -/
theorem C13_key_work (b1 b2 : KeyBatch K T R) (hb1 : ReachableKeyBatch b1) (hb2 : ReachableKeyBatch b2) (frontier : List T)
    (m m' : KeyMerger K T R) (fuels lefts : List Int) (hm : KeyMerger.new b1 b2 frontier = some m)
    (hw : m.works b1 b2 fuels = some (m', lefts)) (fuel : Int) :
    ∃ m'' left, m'.work b1 b2 fuel = some (m'', left) ∧ left ≤ fuel ∧ (left ≤ 0 ∨ ∀ f, m''.work b1 b2 f = some (m'', f)) := by
  obtain ⟨t1, r1, w1, _⟩ := reachable_ok hb1
  obtain ⟨t2, r2, w2, _⟩ := reachable_ok hb2
  obtain ⟨i1, i2, i3⟩ := init_inv hm t1 t2
  obtain ⟨n, ls, g1, g2, g3, _, _, g6⟩ := kworks_inv r1 r2 fuels ⟨[], i1⟩
  rw [hw] at g1; cases g1
  obtain ⟨m'', left, k1, ⟨res, k2⟩, k3, kmono, k4, k5⟩ := kwork_spec r1 r2 g2 fuel
  obtain ⟨res0, g2'⟩ := g2
  refine ⟨m'', left, k1, ?_, ?_⟩
  · have hmono : (m'.staging.total : Int) ≤ m''.staging.total := by exact_mod_cast kmono
    omega
  · rcases k5 with k5 | k5
    · right
      intro f
      obtain ⟨hc1, hc2⟩ := k5
      have hb : ∀ n e, KeyMerger.workBoth b1.storage b2.storage m''.staging.total f n m'' e = some (m'', e) := by
        intro n e; cases n with
        | zero => rfl
        | succ n => rw [KeyMerger.workBoth, if_neg (by omega)]
      have ho : ∀ n e, KeyMerger.workOne b1.storage m''.staging.total f n m'' e = some (m'', e) := by
        intro n e; cases n with
        | zero => rfl
        | succ n => rw [KeyMerger.workOne, if_neg (by omega)]
      have ht : ∀ n e, KeyMerger.workTwo b2.storage m''.staging.total f n m'' e = some (m'', e) := by
        intro n e; cases n with
        | zero => rfl
        | succ n => rw [KeyMerger.workTwo, if_neg (by omega)]
      simp only [KeyMerger.work, hb, ho, ht, sub_zero]
    · exact Or.inl k5

/-- C13: the fuel consumed over all calls is at most the number of updates in the two inputs. -/
theorem C13_key_total (b1 b2 : KeyBatch K T R) (hb1 : ReachableKeyBatch b1) (hb2 : ReachableKeyBatch b2) (frontier : List T)
    (m m' : KeyMerger K T R) (fuels lefts : List Int) (hm : KeyMerger.new b1 b2 frontier = some m)
    (hw : m.works b1 b2 fuels = some (m', lefts)) :
    fuels.sum - lefts.sum ≤ (b1.updates : Int) + b2.updates := by
  obtain ⟨t1, r1, w1, s1⟩ := reachable_ok hb1
  obtain ⟨t2, r2, w2, s2⟩ := reachable_ok hb2
  obtain ⟨i1, i2, i3⟩ := init_inv hm t1 t2
  obtain ⟨n, ls, g1, ⟨res, g2⟩, g3, _, g5, g6⟩ := kworks_inv r1 r2 fuels ⟨[], i1⟩
  rw [hw] at g1; cases g1
  rw [g5, i2, s1, s2]
  have h1 : m'.staging.total = sizeVals res := by rw [g2.ok.total]
  have h2 : sizeVals res ≤ sizeVals (compactVals m.description.since (zipVals t1 t2)) := by
    rw [← g2.rest, sizeVals_append]; omega
  have h3 := size_compactVals m.description.since (zipVals t1 t2)
  have h4 : sizeVals (zipVals t1 t2) = sizeVals t1 + sizeVals t2 := by
    rw [← length_flatKeys, (flatKeys_zip t1 t2).length_eq, List.length_append, length_flatKeys, length_flatKeys]
  rw [h1]; push_cast; omega

/-- C13: the fuel consumed over all calls is exactly the number of updates written to the result. -/
theorem C13_key_consumed (b1 b2 : KeyBatch K T R) (hb1 : ReachableKeyBatch b1) (hb2 : ReachableKeyBatch b2) (frontier : List T)
    (m m' : KeyMerger K T R) (fuels lefts : List Int) (hm : KeyMerger.new b1 b2 frontier = some m)
    (hw : m.works b1 b2 fuels = some (m', lefts)) :
    fuels.sum - lefts.sum = (m'.done.updates : Int) := by
  obtain ⟨t1, r1, w1, s1⟩ := reachable_ok hb1
  obtain ⟨t2, r2, w2, s2⟩ := reachable_ok hb2
  obtain ⟨i1, i2, i3⟩ := init_inv hm t1 t2
  obtain ⟨n, ls, g1, _, g3, _, g5, g6⟩ := kworks_inv r1 r2 fuels ⟨[], i1⟩
  rw [hw] at g1; cases g1
  rw [g5, i2]
  exact sub_zero _

/-- C13: if the supplied fuel in total exceeds the number of input updates then the merge is complete (a further call finds nothing to do). -/
theorem C13_key_completes (b1 b2 : KeyBatch K T R) (hb1 : ReachableKeyBatch b1) (hb2 : ReachableKeyBatch b2) (frontier : List T)
    (m m' : KeyMerger K T R) (fuels lefts : List Int) (hm : KeyMerger.new b1 b2 frontier = some m)
    (hw : m.works b1 b2 fuels = some (m', lefts)) (hf : (b1.updates : Int) + b2.updates < fuels.sum) :
    ∃ left ∈ lefts, 0 < left := by
  by_contra hcon
  push Not at hcon
  have h1 := C13_key_total b1 b2 hb1 hb2 frontier m m' fuels lefts hm hw
  have h2 : lefts.sum ≤ 0 := by
    clear h1 hw
    induction lefts with
    | nil => simp
    | cons l ls ih =>
      rw [List.sum_cons]
      have := hcon l List.mem_cons_self
      have := ih (fun x hx => hcon x (List.mem_cons_of_mem _ hx))
      omega
  omega

end

/-! ### Non-vacuity -/

private def keysA : Chain Nat Nat Int := [[(1, 0, 1), (1, 1, 1)], [(1, 2, -1), (2, 0, 3), (3, 0, 3)]]
private def keysB : Chain Nat Nat Int := [[(2, 2, -3), (4, 2, 1)]]

example : Consolidated keysA.flatten ∧ Consolidated keysB.flatten := by
  constructor <;> unfold Consolidated <;> decide +kernel

/-- Four of the five updates are stored, all five are read back. -/
example : (KeyBatch.build keysA ⟨[0], [2], [0]⟩).map (fun b => (b.storage.upds.times, b.storage.upds.offs, b.updates))
    = some ([0, 1, 2, 0], [0, 3, 4, 4], 5) := by decide +kernel
example : (KeyBatch.build keysA ⟨[0], [2], [0]⟩).bind (fun b => b.storage.readAll) = some keysA.flatten := by decide +kernel

private def mergeKeysAB (fuels : List Int) : Option (KeyMerger Nat Nat Int × List Int) :=
  match KeyBatch.build keysA ⟨[0], [2], [0]⟩, KeyBatch.build keysB ⟨[2], [4], [0]⟩ with
  | some b1, some b2 =>
    match KeyMerger.new b1 b2 [2] with
    | some m => m.works b1 b2 fuels
    | none => none
  | _, _ => none

/-- A merge suspended after one key, in which key 2 cancels. -/
example : (mergeKeysAB [1, 100]).map (fun r => (r.2, r.1.done.updates)) = some ([0, 98], 3) := by decide +kernel
example : (mergeKeysAB [1, 100]).bind (fun r => r.1.done.storage.readAll) = some [(1, 2, 1), (3, 2, 3), (4, 2, 1)] := by decide +kernel

end DD
