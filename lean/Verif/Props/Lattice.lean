import Verif.Proofs.TimeOrd
import Mathlib.Order.Bounds.Basic
import Mathlib.Order.Nat

/-!
# Properties C01–C04, C34, C40: timestamps, lattices, frontiers
-/

namespace DD

/-! ### C01: join is the least upper bound and meet the greatest lower bound -/

/-- C01, integer-like times (`u8 … i128`, `Duration`, `()`): `max`/`min` of a total order. -/
theorem C01_int {T : Type*} [LinearOrder T] (a b : T) :
    IsLUB {a, b} (cmpMax a b) ∧ IsGLB {a, b} (cmpMin a b) := by
  constructor
  · have : cmpMax a b = a ⊔ b := by
      unfold cmpMax; split_ifs with h
      · exact (sup_eq_left.2 h.le).symm
      · exact (sup_eq_right.2 (not_lt.1 h)).symm
    rw [this]; exact isLUB_pair
  · have : cmpMin a b = a ⊓ b := by
      unfold cmpMin; split_ifs with h
      · exact (inf_eq_right.2 h.le).symm
      · exact (inf_eq_left.2 (not_lt.1 h)).symm
    rw [this]; exact isGLB_pair

/-- C01, `Product`: componentwise join and meet are the lub and glb of the componentwise order. -/
theorem C01_product {T1 T2 : Type*} [Lattice T1] [Lattice T2] (a b : ProductT T1 T2) :
    IsLUB {a, b} (ProductT.join a b) ∧ IsGLB {a, b} (ProductT.meet a b) :=
  ⟨isLUB_pair (a := a) (b := b), isGLB_pair (a := a) (b := b)⟩

/-- C01, lexicographic pairs, including the case of incomparable first coordinates. -/
theorem C01_lex {T1 T2 : Type*} [Lattice T1] [DecidableEq T1] [DecidableLT T1] [Lattice T2] [BoundedOrder T2]
    (a b : LexT T1 T2) : IsLUB {a, b} (LexT.join a b) ∧ IsGLB {a, b} (LexT.meet a b) :=
  ⟨isLUB_pair (a := a) (b := b), isGLB_pair (a := a) (b := b)⟩

/-- C01, `AltNeu`. -/
theorem C01_altneu {T : Type*} [Lattice T] [DecidableEq T] (a b : AltNeu T) :
    IsLUB {a, b} (AltNeu.join a b) ∧ IsGLB {a, b} (AltNeu.meet a b) :=
  ⟨isLUB_pair (a := a) (b := b), isGLB_pair (a := a) (b := b)⟩

/-- C01, `PointStamp`, in terms of the infinite sequences that the vectors denote: `less_equal` is the pointwise order,
`join`/`meet` are pointwise, and results are again normalized, so that equal sequences are equal stamps. -/
theorem C01_pointstamp {T : Type*} [Lattice T] [OrderBot T] [DecidableEq T] [DecidableLE T] (a b : PointStamp T) :
    (PointStamp.less_equal a b = true ↔ ∀ i, coord a.vector i ≤ coord b.vector i) ∧
    (∀ i, coord (PointStamp.join a b).vector i = coord a.vector i ⊔ coord b.vector i) ∧
    (∀ i, coord (PointStamp.meet a b).vector i = coord a.vector i ⊓ coord b.vector i) ∧
    (PointStamp.join a b).Norm ∧ (PointStamp.meet a b).Norm ∧
    (a.Norm → b.Norm → (∀ i, coord a.vector i = coord b.vector i) → a = b) :=
  ⟨less_equal_iff a b, coord_join a b, coord_meet a b, norm_new _, norm_new _,
    fun ha hb h => PointStamp.ext (eq_of_coord ha hb h)⟩

/-- C01, `PointStamp`: lub and glb among normalized stamps, by the code's own `less_equal`. -/
theorem C01_pointstamp_lub {T : Type*} [Lattice T] [OrderBot T] [DecidableEq T] [DecidableLE T] (a b : PS T) :
    IsLUB {a, b} (⟨PointStamp.join a.1 b.1, norm_new _⟩ : PS T) ∧
    IsGLB {a, b} (⟨PointStamp.meet a.1 b.1, norm_new _⟩ : PS T) :=
  ⟨isLUB_pair (a := a) (b := b), isGLB_pair (a := a) (b := b)⟩

/-- C01, the in-place variants of `PointStamp` agree with the by-value ones on normalized stamps; `join_assign` does so
although it does not re-normalize. -/
theorem C01_pointstamp_assign {T : Type*} [Lattice T] [OrderBot T] [DecidableEq T] (a b : PointStamp T)
    (ha : a.Norm) (hb : b.Norm) :
    PointStamp.join_assign a b = PointStamp.join a b ∧ PointStamp.meet_assign a b = PointStamp.meet a b :=
  ⟨join_assign_eq ha hb, meet_assign_eq a b⟩

example : (PointStamp.mk [3, 0, 1] : PointStamp Nat).Norm ∧ (PointStamp.mk [1, 2] : PointStamp Nat).Norm := by
  constructor <;> simp [PointStamp.Norm]
example : PointStamp.join (⟨[3, 0, 1]⟩ : PointStamp Nat) ⟨[1, 2]⟩ = ⟨[3, 2, 1]⟩ ∧
    PointStamp.meet (⟨[3, 0, 1]⟩ : PointStamp Nat) ⟨[1, 2]⟩ = ⟨[1]⟩ := by decide

/-! ### C02: `advance_by` -/

/-- C02: readers at or beyond the frontier cannot tell the advanced time from the original. -/
theorem C02_advance_indistinguishable {T : Type*} [Lattice T] (t q : T) (F : List T) (hq : Beyond F q) :
    advanceBy t F ≤ q ↔ t ≤ q := advanceBy_le_iff t q F hq

/-- C02: advancing never moves a time backwards, is idempotent and monotone. -/
theorem C02_advance_closure {T : Type*} [Lattice T] (F : List T) :
    (∀ t, t ≤ advanceBy t F) ∧ (∀ t, advanceBy (advanceBy t F) F = advanceBy t F) ∧
    (∀ s t, s ≤ t → advanceBy s F ≤ advanceBy t F) :=
  ⟨fun t => le_advanceBy t F, fun t => advanceBy_idem t F, fun _ _ h => advanceBy_mono h F⟩

/-- C02: the result is the *largest* time readers beyond a non-empty frontier cannot tell from `t`. -/
theorem C02_advance_largest {T : Type*} [Lattice T] (s t : T) (F : List T) (hF : F ≠ [])
    (h : ∀ q, Beyond F q → (s ≤ q ↔ t ≤ q)) : s ≤ advanceBy t F :=
  advanceBy_le_of_forall s t hF fun q hq => (h q hq).2

/-- C02: times that readers beyond a non-empty frontier cannot tell apart advance to the same time (and only those). -/
theorem C02_advance_canonical {T : Type*} [Lattice T] (s t : T) (F : List T) (hF : F ≠ []) :
    advanceBy s F = advanceBy t F ↔ ∀ q, Beyond F q → (s ≤ q ↔ t ≤ q) := by
  constructor
  · intro h q hq
    rw [← advanceBy_le_iff s q F hq, h, advanceBy_le_iff t q F hq]
  · intro h
    apply le_antisymm
    · exact advanceBy_le_of_forall _ _ hF fun q hq hst => (advanceBy_le_iff s q F hq).2 ((h q hq).2 hst)
    · exact advanceBy_le_of_forall _ _ hF fun q hq hst => (advanceBy_le_iff t q F hq).2 ((h q hq).1 hst)

/-- C02: the empty frontier leaves the time unchanged. -/
theorem C02_advance_empty {T : Type*} [Lattice T] (t : T) : advanceBy t [] = t := rfl

-- the documentation's own example: (3,7) advanced by {(4,8),(5,3)} is (4,7), and (9,9) is a reader beyond.
example : advanceBy (⟨3,7⟩ : ProductT Nat Nat) [⟨4,8⟩, ⟨5,3⟩] = ⟨4,7⟩ := by decide
example : Beyond [⟨4,8⟩, ⟨5,3⟩] (⟨9,9⟩ : ProductT Nat Nat) := ⟨⟨4,8⟩, by simp, by decide⟩

/-! ### C03: frontiers -/

/-- C03: inserting any sequence yields an antichain with exactly the union of the up-sets, made of inserted times. -/
theorem C03_insert {T : Type*} [PartialOrder T] [DecidableLE T] (ts : List T) :
    IsAntichainList (acExtend [] ts) ∧ (∀ q, Beyond (acExtend [] ts) q ↔ ∃ t ∈ ts, t ≤ q) ∧
    (∀ t ∈ acExtend [] ts, t ∈ ts) := by
  refine ⟨isAntichain_acExtend _ _ isAntichain_nil, fun q => ?_, fun t ht => ?_⟩
  · rw [beyond_acExtend]; simp [Beyond]
  · simpa using mem_acExtend ht

/-- C03: the result, as a set, does not depend on the order (or multiplicity) of insertion. -/
theorem C03_insert_order {T : Type*} [PartialOrder T] [DecidableLE T] (ts us : List T) (h : ∀ t, t ∈ ts ↔ t ∈ us) :
    (acExtend [] ts).Perm (acExtend [] us) := by
  refine perm_of_beyond_eq (isAntichain_acExtend _ _ isAntichain_nil) (isAntichain_acExtend _ _ isAntichain_nil) fun q => ?_
  rw [beyond_acExtend, beyond_acExtend]; simp [Beyond, h]

/-- C03: the join of two frontiers accepts exactly what both accept, the meet exactly what either accepts; both are antichains. -/
theorem C03_join_meet {T : Type*} [Lattice T] [DecidableLE T] (F G : List T) :
    (∀ q, Beyond (acJoin F G) q ↔ Beyond F q ∧ Beyond G q) ∧ IsAntichainList (acJoin F G) ∧
    (∀ q, Beyond (acMeet F G) q ↔ Beyond F q ∨ Beyond G q) ∧ IsAntichainList (acMeet F G) :=
  ⟨beyond_acJoin F G, isAntichain_acJoin F G, beyond_acMeet F G, isAntichain_acMeet F G⟩

/-- C03: the order of frontiers is reverse inclusion of up-sets, and equality of antichains is equality of up-sets. -/
theorem C03_order {T : Type*} [PartialOrder T] [DecidableLE T] [DecidableEq T] (F G : List T) :
    (acLe F G = true ↔ ∀ q, Beyond G q → Beyond F q) ∧
    (IsAntichainList F → IsAntichainList G → (acEq F G = true ↔ ∀ q, Beyond F q ↔ Beyond G q)) := by
  refine ⟨acLe_iff F G, fun hF hG => ⟨fun h q => ?_, fun h => ?_⟩⟩
  · simp only [acEq, Bool.and_eq_true, beq_iff_eq, List.all_eq_true, List.contains_iff_mem] at h
    have hs : F.Perm G := (List.subperm_of_subset (nodup_of_isAntichain hF) h.2).perm_of_length_le (by omega)
    simp [Beyond, hs.mem_iff]
  · have hp := perm_of_beyond_eq hF hG h
    simp only [acEq, Bool.and_eq_true, beq_iff_eq, List.all_eq_true, List.contains_iff_mem]
    exact ⟨hp.length_eq, fun t ht => hp.mem_iff.1 ht⟩

example : acJoin [⟨3,7⟩, ⟨5,6⟩] [(⟨4,6⟩ : ProductT Nat Nat)] = [⟨4,7⟩, ⟨5,6⟩] := by decide
example : acMeet [⟨3,7⟩, ⟨5,6⟩] [(⟨4,6⟩ : ProductT Nat Nat)] = [⟨3,7⟩, ⟨4,6⟩] := by decide

/-! ### C04: the total order extends the partial order -/

/-- C04: for products, lexicographic pairs, AltNeu and normalized point stamps over coordinate types for which
it holds, the derived total order is a total order and extends the partial order. -/
theorem C04_product {T1 T2 : Type*} [PartialOrder T1] [TimeOrd T1] [PartialOrder T2] [TimeOrd T2] :
    IsTotalOrd (ProductT.ordLe (T1 := T1) (T2 := T2)) ∧ ∀ a b : ProductT T1 T2, a ≤ b → ProductT.ordLe a b :=
  ⟨ProductT.ordLe_total, fun _ _ => ProductT.ordLe_of_le⟩

theorem C04_lex {T1 T2 : Type*} [PartialOrder T1] [TimeOrd T1] [PartialOrder T2] [TimeOrd T2] :
    IsTotalOrd (LexT.ordLe (T1 := T1) (T2 := T2)) ∧ ∀ a b : LexT T1 T2, a ≤ b → LexT.ordLe a b :=
  ⟨LexT.ordLe_total, fun _ _ => LexT.ordLe_of_le⟩

theorem C04_altneu {T : Type*} [PartialOrder T] [TimeOrd T] :
    IsTotalOrd (AltNeu.ordLe (T := T)) ∧ ∀ a b : AltNeu T, a ≤ b → AltNeu.ordLe a b :=
  ⟨AltNeu.ordLe_total, fun _ _ => AltNeu.ordLe_of_le⟩

theorem C04_pointstamp {T : Type*} [PartialOrder T] [TimeOrd T] [OrderBot T] [DecidableEq T] [DecidableLE T] :
    IsTotalOrd (PointStamp.ordLe (T := T)) ∧
    ∀ a b : PointStamp T, a.Norm → PointStamp.less_equal a b = true → PointStamp.ordLe a b :=
  ⟨⟨fun _ => vecOrdLe_total.refl _, fun _ _ _ => vecOrdLe_total.trans _ _ _,
    fun _ _ h1 h2 => PointStamp.ext (vecOrdLe_total.antisymm _ _ h1 h2), fun _ _ => vecOrdLe_total.total _ _⟩,
    fun a b ha h => vecOrdLe_of_coord ha ((less_equal_iff a b).1 h)⟩

/-- C04: the normalization hypothesis is needed: a stamp with a trailing minimum would break the order. -/
theorem C04_pointstamp_needs_norm :
    PointStamp.less_equal (⟨[0]⟩ : PointStamp Nat) ⟨[]⟩ = true ∧ ¬ PointStamp.ordLe (⟨[0]⟩ : PointStamp Nat) ⟨[]⟩ := by
  constructor
  · decide
  · simp [PointStamp.ordLe, vecOrdLe]

example : (⟨[1, 2]⟩ : PointStamp Nat).Norm ∧ PointStamp.less_equal (⟨[1, 2]⟩ : PointStamp Nat) ⟨[1, 2, 5]⟩ = true := by
  constructor
  · simp [PointStamp.Norm]
  · decide

/-! ### C34: dynamic-scope summaries -/

open PointStampSummary in
/-- C34: if following the path piece by piece succeeds, then the composed summary exists and gives the same time. -/
theorem C34_followed_by {T TS : Type*} [PartialOrder T] [OrderBot T] [DecidableEq T] [PathSummary TS T] [LawfulSummary TS T]
    (s o : PointStampSummary TS) (t u w : PointStamp T)
    (h1 : s.results_in t = some u) (h2 : o.results_in u = some w) :
    ∃ c, followed_by T s o = some c ∧ c.results_in t = some w := by
  have hc : ∃ c, followed_by T s o = some c := by
    unfold followed_by
    simp only
    obtain ⟨r, hr⟩ : ∃ r, collect (List.zipWith (PathSummary.followed_by T) (retained o.retain s.actions) o.actions) = some r := by
      apply collect_isSome
      intro x hx
      obtain ⟨i, hi, rfl⟩ := List.mem_iff_getElem.1 hx
      simp only [List.length_zipWith, lt_inf_iff] at hi
      have hs : (retained o.retain s.actions)[i]? = some (retained o.retain s.actions)[i] := List.getElem?_eq_getElem hi.1
      have hs' := hs
      rw [retained_getElem?] at hs'
      have hsa : s.actions[i]? = some (retained o.retain s.actions)[i] ∧ ∀ y : T, keep o.retain y i = y := by
        generalize (retained o.retain s.actions)[i] = a at hs'
        split at hs'
        · rename_i r ho
          split_ifs at hs' with hir
          exact ⟨hs', fun _ => by simp [keep, ho, hir]⟩
        · rename_i ho
          exact ⟨hs', fun _ => by simp [keep, ho]⟩
      have hoa : o.actions[i]? = some o.actions[i] := List.getElem?_eq_getElem hi.2
      have a1 := results_in_coord h1 i
      have a2 := results_in_coord h2 i
      rw [hsa.2] at a2
      unfold act at a1 a2
      rw [hsa.1] at a1
      rw [hoa] at a2
      obtain ⟨c, hc, -⟩ := LawfulSummary.comp _ _ _ _ _ a1 a2
      simp [hc]
    rw [hr]
    exact ⟨_, rfl⟩
  obtain ⟨c, hc⟩ := hc
  refine ⟨c, hc, ?_⟩
  have hcoord : ∀ i, act c.actions i (keep c.retain (coord t.vector i) i) = some (coord w.vector i) := fun i => by
    rw [← act_comp hc i _ _ (results_in_coord h1 i)]; exact results_in_coord h2 i
  obtain ⟨w', hw'⟩ := results_in_isSome (s := c) (t := t) fun i => by rw [hcoord i]; rfl
  rw [hw']
  congr 1
  refine PointStamp.ext (eq_of_coord (results_in_norm hw') (results_in_norm h2) fun i => ?_)
  have := results_in_coord hw' i
  rw [hcoord i] at this
  exact (Option.some.inj this).symm

open PointStampSummary in
/-- C34, converse: whenever the composed summary applies to a time and the first piece applies, the second piece
applies to the intermediate time and gives the composed result. -/
theorem C34_followed_by_conv {T TS : Type*} [PartialOrder T] [OrderBot T] [DecidableEq T] [PathSummary TS T] [LawfulSummary TS T]
    (s o c : PointStampSummary TS) (t u w : PointStamp T) (hc : followed_by T s o = some c)
    (h1 : s.results_in t = some u) (h2 : c.results_in t = some w) : o.results_in u = some w := by
  have hcoord : ∀ i, act o.actions i (keep o.retain (coord u.vector i) i) = some (coord w.vector i) := fun i => by
    rw [act_comp hc i _ _ (results_in_coord h1 i)]; exact results_in_coord h2 i
  obtain ⟨w', hw'⟩ := results_in_isSome (s := o) (t := u) fun i => by rw [hcoord i]; rfl
  rw [hw']
  congr 1
  refine PointStamp.ext (eq_of_coord (results_in_norm hw') (results_in_norm h2) fun i => ?_)
  have := results_in_coord hw' i
  rw [hcoord i] at this
  exact (Option.some.inj this).symm

open PointStampSummary in
/-- C34: applying a summary is monotone in the time. -/
theorem C34_monotone {T TS : Type*} [PartialOrder T] [OrderBot T] [DecidableEq T] [DecidableLE T] [PathSummary TS T] [LawfulSummary TS T]
    (s : PointStampSummary TS) (t t' u u' : PointStamp T) (h : PointStamp.less_equal t t' = true)
    (h1 : s.results_in t = some u) (h2 : s.results_in t' = some u') : PointStamp.less_equal u u' = true := by
  rw [less_equal_iff] at *
  intro i
  have a1 := results_in_coord h1 i
  have a2 := results_in_coord h2 i
  have hk : keep s.retain (coord t.vector i) i ≤ keep s.retain (coord t'.vector i) i := by
    unfold keep; split
    · split_ifs
      · exact h i
      · exact le_rfl
    · exact h i
  unfold act at a1 a2
  split at a1
  · rename_i a ha
    rw [ha] at a2
    exact LawfulSummary.mono a _ _ _ _ hk a1 a2
  · rename_i ha
    rw [ha] at a2
    simp only [Option.some.injEq] at a1 a2
    rw [← a1, ← a2]; exact hk

open PointStampSummary in
/-- C34: ordered summaries give ordered results (so discarding the greater of two is safe). The order on coordinate
summaries is only assumed to imply the order of their results. -/
theorem C34_order {T TS : Type*} [PartialOrder T] [OrderBot T] [DecidableEq T] [DecidableLE T] [PathSummary TS T] [LawfulSummary TS T]
    [LE TS] [DecidableLE TS]
    (hle : ∀ (a b : TS) (t u u' : T), a ≤ b → PathSummary.results_in a t = some u → PathSummary.results_in b t = some u' → u ≤ u')
    (s s' : PointStampSummary TS) (t u u' : PointStamp T) (h : s.less_equal s' = true)
    (h1 : s.results_in t = some u) (h2 : s'.results_in t = some u') : PointStamp.less_equal u u' = true := by
  rw [less_equal_iff]
  intro i
  have a1 := results_in_coord h1 i
  have a2 := results_in_coord h2 i
  simp only [PointStampSummary.less_equal, Bool.and_eq_true, decide_eq_true_eq, List.all_eq_true] at h
  obtain ⟨⟨hr, hl⟩, hz⟩ := h
  rw [hr] at a1
  generalize keep s'.retain (coord t.vector i) i = y at *
  unfold act at a1 a2
  cases hs : s.actions[i]? with
  | none =>
    rw [hs] at a1
    simp only [Option.some.injEq] at a1
    rw [← a1]
    cases hs' : s'.actions[i]? with
    | none => rw [hs'] at a2; simp only [Option.some.injEq] at a2; exact a2.le
    | some b => rw [hs'] at a2; exact LawfulSummary.infl b _ _ a2
  | some a =>
    rw [hs] at a1
    have hi : i < s.actions.length := (List.getElem?_eq_some_iff.1 hs).1
    have hi' : i < s'.actions.length := by omega
    have hs' : s'.actions[i]? = some s'.actions[i] := List.getElem?_eq_getElem hi'
    rw [hs'] at a2
    refine hle a s'.actions[i] _ _ _ ?_ a1 a2
    apply hz (a, s'.actions[i])
    apply List.mem_iff_getElem?.2 ⟨i, by simp [List.getElem?_zip_eq_some, hs, hs']⟩

open PointStampSummary in
/-- C34: `leave_dynamic` sends data at exactly the times its declared summary predicts; the result keeps the first
`level - 1` coordinates and is monotone. -/
theorem C34_leave {T TS : Type*} [PartialOrder T] [OrderBot T] [DecidableEq T] [DecidableLE T] [PathSummary TS T]
    (level : Nat) (t t' : PointStamp T) :
    (leaveSummary level : PointStampSummary TS).results_in t = some (leaveDynamic level t) ∧
    (∀ i, coord (leaveDynamic level t).vector i = if i < level - 1 then coord t.vector i else ⊥) ∧
    (PointStamp.less_equal t t' = true → PointStamp.less_equal (leaveDynamic level t) (leaveDynamic level t') = true) := by
  have hc : ∀ (t : PointStamp T) i, coord (leaveDynamic level t).vector i = if i < level - 1 then coord t.vector i else ⊥ := by
    intro t i
    simp only [leaveDynamic, PointStamp.new, coord_popMin]
    simp only [coord, List.getD_eq_getElem?_getD, List.getElem?_take]
    split_ifs <;> rfl
  refine ⟨?_, hc t, fun h => ?_⟩
  · obtain ⟨u, hu⟩ := results_in_isSome (s := (leaveSummary level : PointStampSummary TS)) (t := t)
      fun i => by simp [act, leaveSummary]
    rw [hu]
    congr 1
    refine PointStamp.ext (eq_of_coord (results_in_norm hu) (norm_new _) fun i => ?_)
    have := results_in_coord hu i
    simp only [act, leaveSummary, List.getElem?_nil, keep, Option.some.injEq] at this
    rw [← this]
    exact (hc t i).symm
  · rw [less_equal_iff] at *
    intro i
    rw [hc, hc]
    split_ifs
    · exact h i
    · exact le_rfl

open PointStampSummary in
/-- C34: the feedback summary at `level` applies the given summary to coordinate `level - 1` and leaves all others
unchanged, provided the default summary is the identity. -/
theorem C34_feedback {T TS : Type*} [PartialOrder T] [OrderBot T] [DecidableEq T] [PathSummary TS T]
    (dflt summary : TS) (hd : ∀ t : T, PathSummary.results_in dflt t = some t) (level : Nat) (hl : 0 < level)
    (t u : PointStamp T) (h : (feedbackSummary dflt level summary).results_in t = some u) :
    (∀ i, i ≠ level - 1 → coord u.vector i = coord t.vector i) ∧
    PathSummary.results_in summary (coord t.vector (level - 1)) = some (coord u.vector (level - 1)) := by
  refine ⟨fun i hi => ?_, ?_⟩
  · have := results_in_coord h i
    simp only [feedbackSummary, keep, act] at this
    by_cases hlt : i < level - 1
    · rw [List.getElem?_append_left (by simpa using hlt), List.getElem?_replicate, if_pos hlt] at this
      simp only [hd, Option.some.injEq] at this
      exact this.symm
    · rw [List.getElem?_append_right (by simp; omega), List.length_replicate,
        List.getElem?_eq_none (by simp; omega)] at this
      simp only [Option.some.injEq] at this
      exact this.symm
  · have := results_in_coord h (level - 1)
    simp only [feedbackSummary, keep, act] at this
    rw [List.getElem?_append_right (by simp)] at this
    simpa using this

/-- The summary type of `u64` in timely: addition, `None` on overflow of 64 bits. -/
instance u64Summary : PathSummary Nat Nat where
  results_in a t := if t + a < 2^64 then some (t + a) else none
  followed_by a b := if a + b < 2^64 then some (a + b) else none

/-- Non-vacuity: unsigned 64-bit timestamps satisfy what C34 assumes of the coordinate's summary. -/
instance : LawfulSummary Nat Nat where
  comp a b t u w h1 h2 := by
    simp only [PathSummary.results_in, Option.ite_none_right_eq_some, Option.some.injEq] at h1 h2
    refine ⟨a + b, ?_, ?_⟩
    · simp only [PathSummary.followed_by]; rw [if_pos (by omega)]
    · simp only [PathSummary.results_in]; rw [if_pos (by omega)]; congr 1; omega
  comp' a b c t u hc h1 := by
    simp only [PathSummary.results_in, PathSummary.followed_by, Option.ite_none_right_eq_some, Option.some.injEq] at *
    obtain ⟨h1, rfl⟩ := h1
    obtain ⟨hc, rfl⟩ := hc
    rw [Nat.add_assoc]
  mono a t t' u u' h h1 h2 := by
    simp only [PathSummary.results_in, Option.ite_none_right_eq_some, Option.some.injEq] at *; omega
  infl a t u h := by
    simp only [PathSummary.results_in, Option.ite_none_right_eq_some, Option.some.injEq] at *; omega

example : (⟨some 2, [0, 1]⟩ : PointStampSummary Nat).results_in (⟨[5, 6, 7]⟩ : PointStamp Nat) = some ⟨[5, 7]⟩ ∧
    (⟨some 1, [0, 3]⟩ : PointStampSummary Nat).results_in (⟨[5, 7]⟩ : PointStamp Nat) = some ⟨[5, 3]⟩ := by decide

/-! ### C40: equality with slices -/

/-- C40 fails: a `PointStamp` compares equal to any slice it is a prefix of, so `stamp == slice` does not imply that
the stamp equals the stamp made from the slice, and the comparison is not symmetric.
Witness: the stamp `[]` equals the slice `[7]` but not conversely. -/
theorem C40_slice_equality_fails :
    ∃ (p : PointStamp Nat) (s : List Nat), p.Norm ∧ PointStamp.eq_slice p s = true ∧ p ≠ PointStamp.new s ∧
      PointStamp.slice_eq s p = false :=
  ⟨⟨[]⟩, [7], by simp [PointStamp.Norm], by decide, by decide, by decide⟩

/-- C40, the part that holds: the comparison never misses an equality, and is right for slices not longer than the stamp. -/
theorem C40_slice_equality_partial {T : Type*} [PartialOrder T] [OrderBot T] [DecidableEq T] (p : PointStamp T) (s : List T)
    (hp : p.Norm) :
    (p = PointStamp.new s → PointStamp.eq_slice p s = true) ∧
    (s.length ≤ p.vector.length → (PointStamp.eq_slice p s = true ↔ p = PointStamp.new s)) := by
  have key : ∀ v s : List T, (PointStamp.zipMin v s).all (fun q => decide (q.1 = q.2)) = true ↔
      ∀ i, i < v.length → coord v i = coord s i := by
    intro v
    induction v with
    | nil => intro s; simp [PointStamp.zipMin]
    | cons a v ih =>
      intro s
      cases s with
      | nil =>
        simp only [PointStamp.zipMin, List.all_cons, Bool.and_eq_true, decide_eq_true_eq, ih]
        constructor
        · rintro ⟨h1, h2⟩ i hi
          cases i with
          | zero => simpa using h1
          | succ i => simpa using h2 i (by simpa using hi)
        · exact fun h => ⟨by simpa using h 0 (by simp), fun i hi => by simpa using h (i+1) (by simpa using hi)⟩
      | cons b s =>
        simp only [PointStamp.zipMin, List.all_cons, Bool.and_eq_true, decide_eq_true_eq, ih]
        constructor
        · rintro ⟨h1, h2⟩ i hi
          cases i with
          | zero => simpa using h1
          | succ i => simpa using h2 i (by simpa using hi)
        · exact fun h => ⟨by simpa using h 0 (by simp), fun i hi => by simpa using h (i+1) (by simpa using hi)⟩
  have fwd : p = PointStamp.new s → PointStamp.eq_slice p s = true := by
    intro h
    unfold PointStamp.eq_slice
    rw [key]
    intro i _
    rw [h]; exact coord_popMin s i
  refine ⟨fwd, fun hl => ⟨fun h => ?_, fwd⟩⟩
  unfold PointStamp.eq_slice at h
  rw [key] at h
  refine PointStamp.ext (eq_of_coord hp (norm_new _) fun i => ?_)
  rw [PointStamp.new, coord_popMin]
  by_cases hi : i < p.vector.length
  · exact h i hi
  · simp only [coord, List.getD_eq_getElem?_getD]
    rw [List.getElem?_eq_none (by omega), List.getElem?_eq_none (by omega)]

end DD
