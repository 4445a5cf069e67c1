import Verif.Spec.LookupMap
import Verif.Proofs.HalfJoin
import Verif.Proofs.TraceCursor
import Mathlib.Data.List.Dedup
import Mathlib.Algebra.BigOperators.Group.Finset.Basic

/-! # Lookups -/

namespace DD
variable {D K V T R R2 ROut DOut : Type*}

/-! ### Counts in sorted contents -/

section
variable [LinearOrder K] [LinearOrder V] [LE T] [DecidableLE T] [AddCommMonoid R2]

theorem at_of_ne {c : Contents K V T R2} {k : K} (h : ∀ kv ∈ c, kv.1 ≠ k) (v : V) : c.at k v = [] := by
  unfold Contents.at
  rw [List.flatMap_eq_nil_iff]
  intro kv hkv
  rw [if_neg (h kv hkv)]

theorem at_append_cons {pre rest : Contents K V T R2} {k : K} {vals : List (V × List (T × R2))} (hpre : ∀ kv ∈ pre, kv.1 ≠ k) (hrest : ∀ kv ∈ rest, kv.1 ≠ k) (v : V) :
    Contents.at (pre ++ (k, vals) :: rest) k v = vals.flatMap fun vu => if vu.1 = v then vu.2 else [] := by
  have h1 := at_of_ne hpre v
  have h2 := at_of_ne hrest v
  unfold Contents.at at *
  rw [List.flatMap_append, List.flatMap_cons, h1, h2, if_pos rfl, List.nil_append, List.append_nil]

theorem flatMap_val {vals : List (V × List (T × R2))} (hs : vals.Pairwise fun x y => x.1 < y.1) : ∀ {v : V} {us : List (T × R2)}, (v, us) ∈ vals →
    (vals.flatMap fun vu => if vu.1 = v then vu.2 else []) = us := by
  induction vals with
  | nil => intro v us h; simp at h
  | cons w vals ih =>
    intro v us h
    obtain ⟨h1, h2⟩ := List.pairwise_cons.1 hs
    rw [List.flatMap_cons]
    rcases List.mem_cons.1 h with rfl | h
    · rw [if_pos rfl]
      have : (vals.flatMap fun vu => if vu.1 = v then vu.2 else []) = [] := by
        rw [List.flatMap_eq_nil_iff]
        intro vu hvu
        rw [if_neg (h1 vu hvu).ne']
      rw [this, List.append_nil]
    · rw [if_neg (h1 _ h).ne, List.nil_append, ih h2 h]

theorem flatMap_val_none {vals : List (V × List (T × R2))} {v : V} (h : ∀ vu ∈ vals, vu.1 ≠ v) : (vals.flatMap fun vu => if vu.1 = v then vu.2 else []) = [] := by
  rw [List.flatMap_eq_nil_iff]
  intro vu hvu
  rw [if_neg (h vu hvu)]

theorem foldl_count (time : T) (us : List (T × R2)) : ∀ a : R2, us.foldl (fun count td => if td.1 ≤ time then count + td.2 else count) a
    = a + (us.map fun td => if td.1 ≤ time then td.2 else 0).sum := by
  induction us with
  | nil => intro a; simp
  | cons u us ih =>
    intro a
    rw [List.foldl_cons, ih, List.map_cons, List.sum_cons]
    by_cases h : u.1 ≤ time
    · simp [h, add_assoc]
    · simp [h]

end

theorem sum_map_nodup {M : Type*} [AddCommMonoid M] [DecidableEq V] (l1 l2 : List V) (h1 : l1.Nodup) (h2 : l2.Nodup) (f : V → M) (z1 : ∀ v, v ∉ l1 → f v = 0)
    (z2 : ∀ v, v ∉ l2 → f v = 0) : (l1.map f).sum = (l2.map f).sum := by
  rw [← List.sum_toFinset f h1, ← List.sum_toFinset f h2]
  have e1 := Finset.sum_subset (f := f) (Finset.subset_union_left (s₁ := l1.toFinset) (s₂ := l2.toFinset)) fun v _ hv => z1 v (by simpa using hv)
  have e2 := Finset.sum_subset (f := f) (Finset.subset_union_right (s₁ := l1.toFinset) (s₂ := l2.toFinset)) fun v _ hv => z2 v (by simpa using hv)
  rw [e1, e2]

/-! ### One prefix -/

section
variable [DecidableEq K] [DecidableEq V] [LE T] [DecidableLE T] [DecidableEq T] [AddCommMonoid R2] [DecidableEq R2] [AddCommMonoid ROut] [DecidableEq DOut]
variable (key : D → K) (output_func : D → R → V → R2 → DOut × ROut)

/-- What a value with some count contributes to an output. -/
def ansV (x : DOut) (t : T) (p : D × T × R) (v : V) (c : R2) : ROut :=
  if c = 0 then 0 else if (output_func p.1 p.2.2 v c).1 = x ∧ p.2.1 = t then (output_func p.1 p.2.2 v c).2 else 0

/-- What a prefix contributes to an output. -/
def ans (x : DOut) (t : T) (trace : Upds (K × V) T R2) (p : D × T × R) : ROut :=
  ((trace.map fun u => u.1.2).dedup.map fun v => ansV output_func x t p v (accum trace (key p.1, v) p.2.1)).sum

theorem total_lookups (trace : Upds (K × V) T R2) (ps : Upds D T R) (x : DOut) (t : T) :
    total (lookups key output_func trace ps) x t = (ps.map (ans key output_func x t trace)).sum := by
  unfold lookups
  induction ps with
  | nil => simp [total_nil]
  | cons p ps ih =>
    rw [List.flatMap_cons, total_append, ih, List.map_cons, List.sum_cons]
    congr 1
    unfold ans
    generalize (trace.map fun u => u.1.2).dedup = vs
    induction vs with
    | nil => simp [total_nil]
    | cons v vs ihv =>
      rw [List.flatMap_cons, total_append, ihv, List.map_cons, List.sum_cons]
      congr 1
      unfold ansV
      by_cases hc : accum trace (key p.1, v) p.2.1 = 0
      · rw [if_pos hc, if_pos hc, total_nil]
      · rw [if_neg hc, if_neg hc, total_cons, total_nil, add_zero]

theorem accum_of_not_mem (trace : Upds (K × V) T R2) (k : K) (v : V) (q : T) (h : v ∉ (trace.map fun u => u.1.2).dedup) : accum trace (k, v) q = 0 := by
  unfold accum
  apply List.sum_eq_zero
  intro x hx
  obtain ⟨u, hu, rfl⟩ := List.mem_map.1 hx
  refine if_neg fun hh => h ?_
  rw [List.mem_dedup, List.mem_map]
  exact ⟨u, hu, by rw [hh.1]⟩

theorem ansV_zero (x : DOut) (t : T) (p : D × T × R) (v : V) : ansV output_func x t p v (0 : R2) = 0 := if_pos rfl

end

section
variable [LinearOrder K] [LinearOrder V] [Lattice T] [DecidableLE T] [DecidableEq T] [Zero R] [DecidableEq R] [AddCommMonoid R2] [DecidableEq R2]
  [AddCommMonoid ROut] [DecidableEq ROut] [DecidableEq DOut]
variable (key : D → K) (output_func : D → R → V → R2 → DOut × ROut)

theorem total_lookupVals (pfx : D) (time : T) (diff : R) (x : DOut) (t : T) (vals : List (V × List (T × R2))) :
    total (lookupVals output_func pfx time diff vals) x t
      = (vals.map fun vu => ansV output_func x t (pfx, time, diff) vu.1 ((vu.2.map fun td => if td.1 ≤ time then td.2 else 0).sum)).sum := by
  induction vals with
  | nil => simp [lookupVals, total_nil]
  | cons vu vals ih =>
    obtain ⟨v, us⟩ := vu
    simp only [lookupVals]
    rw [total_append, ih, List.map_cons, List.sum_cons, foldl_count, zero_add]
    congr 1
    unfold ansV
    simp only
    generalize (us.map fun td => if td.1 ≤ time then td.2 else 0).sum = c
    by_cases hc : c = 0
    · rw [if_neg (by simpa using hc), if_pos hc, total_nil]
    · rw [if_pos hc, if_neg hc]
      by_cases ho : (output_func pfx diff v c).2 = 0
      · rw [if_neg (by simpa using ho), total_nil, ho, ite_self]
      · rw [if_pos ho, total_cons, total_nil, add_zero]

/-- The counts that a cursor presents are those of the trace. -/
def ExactAt (contents : Contents K V T R2) (trace : Upds (K × V) T R2) (p : D × T × R) : Prop :=
  ∀ v, contents.count (key p.1) v p.2.1 = accum trace (key p.1, v) p.2.1

/-- A key found. -/
theorem ans_found {contents pre rest : Contents K V T R2} (hs : ContentsSorted contents) {trace : Upds (K × V) T R2} {p : D × T × R} (hex : ExactAt key contents trace p)
    {vals : List (V × List (T × R2))} (hc : contents = pre ++ (key p.1, vals) :: rest) (x : DOut) (t : T) :
    (vals.map fun vu => ansV output_func x t p vu.1 ((vu.2.map fun td => if td.1 ≤ p.2.1 then td.2 else 0).sum)).sum = ans key output_func x t trace p := by
  subst hc
  obtain ⟨hp1, hp2, hp3⟩ := List.pairwise_append.1 hs.keys
  have hpre : ∀ kv ∈ pre, kv.1 ≠ key p.1 := fun kv hkv => (hp3 kv hkv _ (List.mem_cons_self)).ne
  have hrest : ∀ kv ∈ rest, kv.1 ≠ key p.1 := fun kv hkv => ((List.pairwise_cons.1 hp2).1 kv hkv).ne'
  have hv := hs.vals (key p.1, vals) (by simp)
  have hcount : ∀ v us, (v, us) ∈ vals → accum trace (key p.1, v) p.2.1 = (us.map fun td => if td.1 ≤ p.2.1 then td.2 else 0).sum := by
    intro v us h
    rw [← hex v, Contents.count, at_append_cons hpre hrest, flatMap_val hv h]
  have hnone : ∀ v, (∀ vu ∈ vals, vu.1 ≠ v) → accum trace (key p.1, v) p.2.1 = 0 := by
    intro v h
    rw [← hex v, Contents.count, at_append_cons hpre hrest, flatMap_val_none h]; rfl
  have e : (vals.map fun vu => ansV output_func x t p vu.1 ((vu.2.map fun td => if td.1 ≤ p.2.1 then td.2 else 0).sum))
      = (vals.map Prod.fst).map fun v => ansV output_func x t p v (accum trace (key p.1, v) p.2.1) := by
    rw [List.map_map]
    apply List.map_congr_left
    intro vu hvu
    simp only [Function.comp]
    rw [hcount vu.1 vu.2 hvu]
  rw [e, ans]
  refine sum_map_nodup _ _ ?_ (List.nodup_dedup _) _ ?_ ?_
  · exact (List.pairwise_map.2 hv).imp fun h => ne_of_lt h
  · intro v hv'
    rw [hnone v fun vu hvu h => hv' (List.mem_map.2 ⟨vu, hvu, h⟩), ansV_zero]
  · intro v hv'
    rw [accum_of_not_mem _ _ _ _ hv', ansV_zero]

/-- A key not found. -/
theorem ans_missing {contents : Contents K V T R2} {trace : Upds (K × V) T R2} {p : D × T × R} (hex : ExactAt key contents trace p) (hc : ∀ kv ∈ contents, kv.1 ≠ key p.1) (x : DOut) (t : T) :
    ans key output_func x t trace p = 0 := by
  unfold ans
  apply List.sum_eq_zero
  intro m hm
  obtain ⟨v, -, rfl⟩ := List.mem_map.1 hm
  rw [← hex v, Contents.count, at_of_ne hc]
  exact ansV_zero _ _ _ _ _

/-! ### The prefixes of a capability -/

/-- The difference is set to zero or the prefix must wait. -/
def Looked (frontier2 : List T) (p p' : D × T × R) : Prop := p'.1 = p.1 ∧ p'.2.1 = p.2.1 ∧ (p'.2.2 = 0 ∨ p'.2.2 = p.2.2 ∧ Beyond frontier2 p.2.1)

theorem seekKey_keys {pre : Contents K V T R2} {contents : Contents K V T R2} (hs : ContentsSorted contents) (cursor : Pos K V T R2) (hc : contents = pre ++ cursor.keys) (k : K)
    (hpre : ∀ kv ∈ pre, kv.1 < k) : ∃ pre', contents = pre' ++ (cursor.seekKey k).keys ∧ (∀ kv ∈ pre', kv.1 < k) ∧ (∀ kv ∈ (cursor.seekKey k).keys, k ≤ kv.1) := by
  refine ⟨pre ++ cursor.keys.takeWhile fun kv => kv.1 < k, ?_, ?_, ?_⟩
  · rw [List.append_assoc]
    show _ = pre ++ (_ ++ cursor.keys.dropWhile _)
    rw [List.takeWhile_append_dropWhile, hc]
  · intro kv hkv
    rcases List.mem_append.1 hkv with h | h
    · exact hpre kv h
    · simpa using List.all_eq_true.1 List.all_takeWhile _ h
  · show ∀ kv ∈ cursor.keys.dropWhile (fun kv => decide (kv.1 < k)), k ≤ kv.1
    have hsk : cursor.keys.Pairwise fun x y => x.1 < y.1 := by
      have := hs.keys
      rw [hc] at this
      exact (List.pairwise_append.1 this).2.1
    intro kv hkv
    cases hd : cursor.keys.dropWhile (fun kv => decide (kv.1 < k)) with
    | nil => rw [hd] at hkv; simp at hkv
    | cons a l =>
      have ha : ¬ a.1 < k := by
        have := List.head?_dropWhile_not (fun kv : K × List (V × List (T × R2)) => decide (kv.1 < k)) cursor.keys
        rw [hd] at this
        simpa using this
      rw [hd] at hkv
      have hsub : (a :: l).Pairwise fun x y => x.1 < y.1 := by
        rw [← hd]
        exact hsk.sublist (List.dropWhile_sublist _)
      rcases List.mem_cons.1 hkv with rfl | h
      · exact not_lt.1 ha
      · exact (not_lt.1 ha).trans ((List.pairwise_cons.1 hsub).1 kv h).le

theorem lookupPrefixes_ok {contents : Contents K V T R2} (hs : ContentsSorted contents) (trace : Upds (K × V) T R2) (frontier2 : List T)
    (hzero : ∀ d v c, (output_func d 0 v c).2 = 0) :
    ∀ (ps : Upds D T R) (cursor : Pos K V T R2) (pre : Contents K V T R2), contents = pre ++ cursor.keys →
    ps.Pairwise (fun p q => key p.1 ≤ key q.1) → (∀ p ∈ ps, ∀ kv ∈ pre, kv.1 < key p.1) →
    (∀ p ∈ ps, ¬ Beyond frontier2 p.2.1 → ExactAt key contents trace p) →
    List.Forall₂ (Looked frontier2) ps (lookupPrefixes key output_func frontier2 cursor ps).1 ∧
    (∀ o ∈ (lookupPrefixes key output_func frontier2 cursor ps).2, ∃ p ∈ ps, o.2.1 = p.2.1) ∧
    ∀ x t, total (lookupPrefixes key output_func frontier2 cursor ps).2 x t + ((lookupPrefixes key output_func frontier2 cursor ps).1.map (ans key output_func x t trace)).sum
      = (ps.map (ans key output_func x t trace)).sum
  | [], _, _, _, _, _, _ => ⟨.nil, by simp [lookupPrefixes], fun x t => by simp [lookupPrefixes, total_nil]⟩
  | (pfx, time, diff) :: ps, cursor, pre, hc, hsort, hpre, hex => by
    obtain ⟨hs1, hs2⟩ := List.pairwise_cons.1 hsort
    have hans0 : ∀ x t, ans key output_func x t trace (pfx, time, (0 : R)) = 0 := by
      intro x t
      unfold ans
      apply List.sum_eq_zero
      intro m hm
      obtain ⟨v, -, rfl⟩ := List.mem_map.1 hm
      unfold ansV
      simp only [hzero, ite_self]
    simp only [lookupPrefixes]
    by_cases hb : Beyond frontier2 time
    · have hb' : ¬ (!lessEqual frontier2 time) = true := by rw [(lessEqual_iff _ _).2 hb]; simp
      rw [if_neg hb']
      obtain ⟨i1, i2, i3⟩ := lookupPrefixes_ok hs trace frontier2 hzero ps cursor pre hc hs2 (fun q hq => hpre q (by simp [hq])) (fun q hq => hex q (by simp [hq]))
      refine ⟨.cons ⟨rfl, rfl, Or.inr ⟨rfl, hb⟩⟩ i1, ?_, ?_⟩
      · intro o ho
        obtain ⟨q, hq, e⟩ := i2 o ho
        exact ⟨q, by simp [hq], e⟩
      · intro x t
        simp only [List.map_cons, List.sum_cons]
        rw [← i3 x t, add_left_comm]
    · have hb' : (!lessEqual frontier2 time) = true := by
        have : ¬ lessEqual frontier2 time = true := fun h => hb ((lessEqual_iff _ _).1 h)
        simpa using this
      rw [if_pos hb']
      have hexp := hex (pfx, time, diff) (by simp) hb
      obtain ⟨pre', k1, k2, k3⟩ := seekKey_keys hs cursor hc (key pfx) (hpre (pfx, time, diff) (by simp))
      have hpre' : ∀ p ∈ ps, ∀ kv ∈ pre', kv.1 < key p.1 := fun q hq kv hkv => lt_of_lt_of_le (k2 kv hkv) (hs1 q hq)
      by_cases hk : (cursor.seekKey (key pfx)).key? = some (key pfx)
      · rw [if_pos hk]
        obtain ⟨i1, i2, i3⟩ := lookupPrefixes_ok hs trace frontier2 hzero ps
          ({ cursor.seekKey (key pfx) with vals := [] } : Pos K V T R2).rewindVals pre' k1 hs2 hpre' (fun q hq => hex q (by simp [hq]))
        have hcur : (cursor.seekKey (key pfx)) = Pos.start (cursor.seekKey (key pfx)).keys := rfl
        obtain ⟨vals, rest, hkeys⟩ : ∃ vals rest, (cursor.seekKey (key pfx)).keys = (key pfx, vals) :: rest := by
          unfold Pos.key? at hk
          cases hkk : (cursor.seekKey (key pfx)).keys with
          | nil => rw [hkk] at hk; simp at hk
          | cons a l => rw [hkk] at hk; simp at hk; exact ⟨a.2, l, by rw [show key pfx = a.1 from hk.symm]⟩
        have hvals : (cursor.seekKey (key pfx)).vals = vals := by rw [hcur, hkeys]; rfl
        have hone : ∀ x t, total (lookupVals output_func pfx time diff (cursor.seekKey (key pfx)).vals) x t = ans key output_func x t trace (pfx, time, diff) := by
          intro x t
          rw [total_lookupVals, hvals]
          exact ans_found key output_func (pre := pre') (rest := rest) hs hexp (hkeys ▸ k1) x t
        refine ⟨.cons ⟨rfl, rfl, Or.inl rfl⟩ i1, ?_, ?_⟩
        · intro o ho
          rcases List.mem_append.1 ho with ho | ho
          · refine ⟨_, List.mem_cons_self, ?_⟩
            clear * - ho
            generalize (cursor.seekKey (key pfx)).vals = vals at ho
            induction vals with
            | nil => simp [lookupVals] at ho
            | cons vu vals ih =>
              simp only [lookupVals] at ho
              rcases List.mem_append.1 ho with ho | ho
              · split_ifs at ho
                · simp at ho; rw [ho]
                · simp at ho
                · simp at ho
              · exact ih ho
          · obtain ⟨q, hq, e⟩ := i2 o ho
            exact ⟨q, by simp [hq], e⟩
        · intro x t
          simp only [List.map_cons, List.sum_cons]
          rw [total_append, hans0, zero_add, add_assoc, i3 x t, hone]
      · rw [if_neg hk]
        obtain ⟨i1, i2, i3⟩ := lookupPrefixes_ok hs trace frontier2 hzero ps (cursor.seekKey (key pfx)) pre' k1 hs2 hpre' (fun q hq => hex q (by simp [hq]))
        have hone : ∀ x t, ans key output_func x t trace (pfx, time, diff) = 0 := by
          refine ans_missing key output_func hexp ?_
          rw [k1]
          intro kv hkv
          rcases List.mem_append.1 hkv with h | h
          · exact (k2 kv h).ne
          · intro heq
            cases hkk : (cursor.seekKey (key pfx)).keys with
            | nil => rw [hkk] at h; simp at h
            | cons a l =>
              have ha : a.1 ≠ key pfx := by
                intro ha
                apply hk
                unfold Pos.key?
                rw [hkk]; simp [ha]
              have hsub : (a :: l).Pairwise fun x y => x.1 < y.1 := by
                have := hs.keys
                rw [k1, hkk] at this
                exact (List.pairwise_append.1 this).2.1
              rw [hkk] at h
              rcases List.mem_cons.1 h with rfl | h
              · exact ha heq
              · have h1 := (List.pairwise_cons.1 hsub).1 kv h
                rw [heq] at h1
                exact absurd (k3 a (by rw [hkk]; exact List.mem_cons_self)) (not_le.2 h1)
        refine ⟨.cons ⟨rfl, rfl, Or.inl rfl⟩ i1, ?_, ?_⟩
        · intro o ho
          obtain ⟨q, hq, e⟩ := i2 o ho
          exact ⟨q, by simp [hq], e⟩
        · intro x t
          simp only [List.map_cons, List.sum_cons]
          rw [hans0, zero_add, hone, zero_add, i3 x t]

/-! ### The stash -/

/-- What the prefixes of a stash contribute to an output. -/
def stashAns (x : DOut) (t : T) (trace : Upds (K × V) T R2) (s : List (T × Upds D T R)) : ROut := ((stashFlat s).map (ans key output_func x t trace)).sum

theorem ans_zero (hzero : ∀ d v c, (output_func d 0 v c).2 = 0) (x : DOut) (t : T) (trace : Upds (K × V) T R2) (p : D × T × R) (hp : p.2.2 = 0) :
    ans key output_func x t trace p = 0 := by
  obtain ⟨d, time, r⟩ := p
  simp only at hp
  subst hp
  unfold ans
  apply List.sum_eq_zero
  intro m hm
  obtain ⟨v, -, rfl⟩ := List.mem_map.1 hm
  unfold ansV
  simp only [hzero, ite_self]

theorem sum_ans_filter (hzero : ∀ d v c, (output_func d 0 v c).2 = 0) (x : DOut) (t : T) (trace : Upds (K × V) T R2) (ps : Upds D T R) :
    ((ps.filter fun p => p.2.2 ≠ 0).map (ans key output_func x t trace)).sum = (ps.map (ans key output_func x t trace)).sum := by
  induction ps with
  | nil => rfl
  | cons p ps ih =>
    by_cases hp : p.2.2 = 0
    · rw [List.filter_cons_of_neg (by simp [hp]), ih, List.map_cons, List.sum_cons, ans_zero key output_func hzero x t trace p hp, zero_add]
    · rw [List.filter_cons_of_pos (by simp [hp]), List.map_cons, List.sum_cons, ih, List.map_cons, List.sum_cons]

theorem lookupEntry_ok {contents : Contents K V T R2} (hs : ContentsSorted contents) (trace : Upds (K × V) T R2) (frontier2 : List T)
    (hzero : ∀ d v c, (output_func d 0 v c).2 = 0) (e : T × Upds D T R) (hle : ∀ p ∈ e.2, e.1 ≤ p.2.1)
    (hex : ∀ p ∈ e.2, ¬ Beyond frontier2 p.2.1 → ExactAt key contents trace p) :
    (lookupEntry key output_func contents frontier2 e).1.1 = e.1 ∧
    (∀ p ∈ (lookupEntry key output_func contents frontier2 e).1.2, e.1 ≤ p.2.1 ∧ (Beyond frontier2 p.2.1)) ∧
    (∀ o ∈ (lookupEntry key output_func contents frontier2 e).2, o.1 = e.1 ∧ o.1 ≤ o.2.2.1) ∧
    ∀ x t, total ((lookupEntry key output_func contents frontier2 e).2.map Prod.snd) x t + ((lookupEntry key output_func contents frontier2 e).1.2.map (ans key output_func x t trace)).sum
      = (e.2.map (ans key output_func x t trace)).sum := by
  unfold lookupEntry
  by_cases hb : Beyond frontier2 e.1
  · have hb' : ¬ (!lessEqual frontier2 e.1) = true := by rw [(lessEqual_iff _ _).2 hb]; simp
    rw [if_neg hb']
    exact ⟨rfl, fun p hp => ⟨hle p hp, beyond_mono hb (hle p hp)⟩, by simp, fun x t => by simp [total_nil]⟩
  · have hb' : (!lessEqual frontier2 e.1) = true := by
      have : ¬ lessEqual frontier2 e.1 = true := fun h => hb ((lessEqual_iff _ _).1 h)
      simpa using this
    rw [if_pos hb']
    have hperm := List.perm_insertionSort (fun x y : D × T × R => key x.1 ≤ key y.1) e.2
    have hsorted : (e.2.insertionSort fun x y => key x.1 ≤ key y.1).Pairwise fun x y => key x.1 ≤ key y.1 := by
      haveI : Std.Total (fun x y : D × T × R => key x.1 ≤ key y.1) := ⟨fun a b => le_total _ _⟩
      haveI : IsTrans (D × T × R) (fun x y => key x.1 ≤ key y.1) := ⟨fun a b c => le_trans⟩
      exact List.pairwise_insertionSort _ _
    obtain ⟨h1, h2, h3⟩ := lookupPrefixes_ok key output_func hs trace frontier2 hzero (e.2.insertionSort fun x y => key x.1 ≤ key y.1) (Pos.start contents) [] rfl hsorted
      (by simp) (fun p hp => hex p (hperm.subset hp))
    refine ⟨rfl, ?_, ?_, ?_⟩
    · intro p' hp'
      obtain ⟨hp1, hp2⟩ := List.mem_filter.1 hp'
      obtain ⟨p, hp, hl⟩ : ∃ p ∈ e.2, Looked frontier2 p p' := by
        have : ∀ (l l' : Upds D T R), List.Forall₂ (Looked frontier2) l l' → p' ∈ l' → ∃ p ∈ l, Looked frontier2 p p' := by
          intro l l' hf hm
          induction hf with
          | nil => simp at hm
          | cons h _ ih =>
            rcases List.mem_cons.1 hm with rfl | hm
            · exact ⟨_, by simp, h⟩
            · obtain ⟨p, hp, hz⟩ := ih hm; exact ⟨p, by simp [hp], hz⟩
        obtain ⟨p, hp, hl⟩ := this _ _ h1 hp1
        exact ⟨p, hperm.subset hp, hl⟩
      obtain ⟨l1, l2, l3⟩ := hl
      rw [l2]
      rcases l3 with l3 | ⟨-, l3⟩
      · exact absurd l3 (by simpa using hp2)
      · exact ⟨hle p hp, l3⟩
    · intro o ho
      obtain ⟨u, hu, rfl⟩ := List.mem_map.1 ho
      obtain ⟨p, hp, e'⟩ := h2 u hu
      exact ⟨rfl, by show e.1 ≤ u.2.1; rw [e']; exact hle p (hperm.subset hp)⟩
    · intro x t
      rw [List.map_map]
      have : (Prod.snd ∘ fun u : DOut × T × ROut => (e.1, u)) = id := rfl
      rw [this, List.map_id, sum_ans_filter key output_func hzero, h3 x t]
      exact (hperm.map _).sum_eq

/-- What holds between activations. -/
structure LookupInv (F1 : List T) (st : LookupMap D T R) : Prop where
  ok : StashAll (fun c p => c ≤ p.2.1) st.stash
  ne : ∀ e ∈ st.stash, e.2 ≠ []
  cover : st.live = true → ∀ h, (h ∈ F1 ∨ ∃ e ∈ st.stash, e.1 = h) → Beyond st.logical h
  dead : st.live = false → F1 = [] ∧ st.stash = []

theorem lookup_activate_ok (hzero : ∀ d v c, (output_func d 0 v c).2 = 0) {trace : Upds (K × V) T R2} {F1 : List T} {st : LookupMap D T R} (hinv : LookupInv F1 st)
    {act : LookupAct D K V T R R2} (hl : LegalLookup trace F1 st.logical act) :
    LookupInv act.frontier1 (st.activate key output_func act).1 ∧
    (∀ x t, total ((st.activate key output_func act).2.map Prod.snd) x t + stashAns key output_func x t trace (st.activate key output_func act).1.stash
      = stashAns key output_func x t trace st.stash + ((act.msgs.flatMap Prod.snd).map (ans key output_func x t trace)).sum) ∧
    (∀ o ∈ (st.activate key output_func act).2, o.1 ≤ o.2.2.1 ∧ (Beyond F1 o.1 ∨ ∃ e ∈ st.stash, e.1 = o.1)) ∧
    StashAll (fun _ p => Beyond act.frontier2 p.2.1) (st.activate key output_func act).1.stash ∧
    FrontierLe st.logical (st.activate key output_func act).1.logical := by
  obtain ⟨m1, m2, m3, m4⟩ := stashExtend_ok act.msgs st.stash
  set stash1 := act.msgs.foldl (fun s e => stashAppend s e.1 e.2) st.stash with hstash1
  set stash2 := act.order stash1 with hstash2
  have hperm : stash2.Perm stash1 := hl.order stash1
  have hok2 : StashAll (fun c (p : D × T × R) => c ≤ p.2.1) stash2 := by
    have : StashAll (fun c (p : D × T × R) => c ≤ p.2.1) stash1 := m2 _ hinv.ok fun e he p hp => (hl.msgs e he).2 p hp
    exact fun e he => this e (hperm.subset he)
  have hkeys : ∀ e ∈ stash2, Beyond F1 e.1 ∨ ∃ e' ∈ st.stash, e'.1 = e.1 := by
    intro e he
    obtain ⟨e', h | h, hh⟩ := m3 e (hperm.subset he)
    · exact Or.inr ⟨e', h, hh⟩
    · exact Or.inl (hh ▸ (hl.msgs e' h).1)
  have hans : ∀ x t, stashAns key output_func x t trace stash2
      = stashAns key output_func x t trace st.stash + ((act.msgs.flatMap Prod.snd).map (ans key output_func x t trace)).sum := by
    intro x t
    unfold stashAns
    rw [← List.sum_append, ← List.map_append]
    have : (stashFlat stash2).Perm (stashFlat st.stash ++ act.msgs.flatMap Prod.snd) := (hperm.flatMap_right _).trans m1
    exact (this.map _).sum_eq
  set visited := (if st.live then stash2.map (lookupEntry key output_func act.contents act.frontier2) else stash2.map fun e => (e, [])) with hvisited
  -- the loop over the stash
  have hv : visited.map (fun r => r.1.1) = stash2.map Prod.fst ∧ (∀ r ∈ visited, ∀ p ∈ r.1.2, r.1.1 ≤ p.2.1 ∧ Beyond act.frontier2 p.2.1) ∧
      (∀ r ∈ visited, ∀ o ∈ r.2, (∃ e ∈ stash2, e.1 = o.1) ∧ o.1 ≤ o.2.2.1) ∧
      ∀ x t, total ((visited.flatMap Prod.snd).map Prod.snd) x t + stashAns key output_func x t trace (visited.map Prod.fst) = stashAns key output_func x t trace stash2 := by
    by_cases hlive : st.live = true
    · rw [if_pos hlive] at hvisited
      obtain ⟨now, later, t1, t2, t3⟩ := hl.shows
      have hex : ∀ e ∈ stash2, ∀ p ∈ e.2, ¬ Beyond act.frontier2 p.2.1 → ExactAt key act.contents trace p := by
        intro e he p hp hfr v
        have hbl : Beyond st.logical p.2.1 := by
          have hle := hok2 e he p hp
          rcases hkeys e he with ⟨f, hf', hle'⟩ | ⟨e', he', h⟩
          · exact beyond_mono (hinv.cover hlive f (Or.inl hf')) (hle'.trans hle)
          · exact beyond_mono (hinv.cover hlive e.1 (Or.inr ⟨e', he', h⟩)) hle
        rw [t3 _ _ _ hbl, accum_perm t1, accum_append]
        have : accum later (key p.1, v) p.2.1 = 0 := by
          unfold accum
          apply List.sum_eq_zero
          intro m hm
          obtain ⟨u, hu, rfl⟩ := List.mem_map.1 hm
          exact if_neg fun hh => hfr (beyond_mono (t2 u hu) hh.2)
        rw [this, add_zero]
      have hentry : ∀ e ∈ stash2, _ := fun e he => lookupEntry_ok key output_func hl.sorted trace act.frontier2 hzero e (hok2 e he) (hex e he)
      rw [hvisited]
      refine ⟨?_, ?_, ?_, ?_⟩
      · rw [List.map_map]
        exact List.map_congr_left fun e he => (hentry e he).1
      · intro r hr p hp
        obtain ⟨e, he, rfl⟩ := List.mem_map.1 hr
        have := (hentry e he).2.1 p hp
        exact ⟨by rw [(hentry e he).1]; exact this.1, this.2⟩
      · intro r hr o ho
        obtain ⟨e, he, rfl⟩ := List.mem_map.1 hr
        have := (hentry e he).2.2.1 o ho
        exact ⟨⟨e, he, this.1.symm⟩, this.2⟩
      · intro x t
        clear_value stash2
        clear hvisited visited hperm hok2 hkeys hans hex hstash2
        unfold stashAns stashFlat
        induction stash2 with
        | nil => simp [total_nil]
        | cons e l ih =>
          have h1 := (hentry e (by simp)).2.2.2 x t
          have h2 := ih fun e he => hentry e (by simp [he])
          simp only [List.map_cons, List.flatMap_cons, List.map_append, List.sum_append] at h2 ⊢
          rw [total_append, ← h1, ← h2, add_add_add_comm]
    · rw [if_neg hlive] at hvisited
      obtain ⟨hF, hS⟩ := hinv.dead (by simpa using hlive)
      have hempty : stash2 = [] := by
        apply List.eq_nil_iff_forall_not_mem.2
        intro e he
        rcases hkeys e he with h | ⟨e', he', -⟩
        · rw [hF] at h; obtain ⟨f, hf', -⟩ := h; simp at hf'
        · rw [hS] at he'; simp at he'
      rw [hvisited, hempty]
      simp [stashAns, stashFlat, total_nil]
  obtain ⟨v1, v2, v3, v4⟩ := hv
  set stash4 := (visited.map Prod.fst).filter fun e => !e.2.isEmpty with hstash4
  have hact : st.activate key output_func act = (⟨stash4, st.live && !(act.frontier1.isEmpty && stash4.isEmpty),
      if st.live then acExtend (acExtend [] act.frontier1) (stash4.map Prod.fst) else st.logical⟩, visited.flatMap Prod.snd) := rfl
  have hkeys4 : ∀ e ∈ stash4, ∃ e' ∈ stash2, e'.1 = e.1 := by
    intro e he
    obtain ⟨r, hr, rfl⟩ := List.mem_map.1 (List.mem_filter.1 he).1
    have : r.1.1 ∈ stash2.map Prod.fst := by rw [← v1]; exact List.mem_map.2 ⟨r, hr, rfl⟩
    obtain ⟨e', he', h⟩ := List.mem_map.1 this
    exact ⟨e', he', h⟩
  have hkeys4' : ∀ e ∈ stash4, Beyond F1 e.1 ∨ ∃ e' ∈ st.stash, e'.1 = e.1 := by
    intro e he
    obtain ⟨e', he', h⟩ := hkeys4 e he
    rw [← h]; exact hkeys e' he'
  have hlog : ∀ q, Beyond (acExtend (acExtend [] act.frontier1) (stash4.map Prod.fst)) q ↔ ∃ h, (h ∈ act.frontier1 ∨ ∃ e ∈ stash4, e.1 = h) ∧ h ≤ q := by
    intro q
    rw [beyond_acExtend, beyond_acExtend]
    constructor
    · rintro ((⟨f, hf, -⟩ | ⟨f, hf, h⟩) | ⟨f, hf, h⟩)
      · simp at hf
      · exact ⟨f, Or.inl hf, h⟩
      · obtain ⟨e, he, rfl⟩ := List.mem_map.1 hf
        exact ⟨e.1, Or.inr ⟨e, he, rfl⟩, h⟩
    · rintro ⟨h, hh | ⟨e, he, rfl⟩, hq⟩
      · exact Or.inl (Or.inr ⟨h, hh, hq⟩)
      · exact Or.inr ⟨e.1, List.mem_map.2 ⟨e, he, rfl⟩, hq⟩
  rw [hact]
  refine ⟨⟨?_, ?_, ?_, ?_⟩, ?_, ?_, ?_, ?_⟩
  · intro e he p hp
    obtain ⟨r, hr, rfl⟩ := List.mem_map.1 (List.mem_filter.1 he).1
    exact (v2 r hr p hp).1
  · intro e he
    have := (List.mem_filter.1 he).2
    simpa using this
  · intro hlive h hh
    have hlive' : st.live = true := by simp only [Bool.and_eq_true] at hlive; exact hlive.1
    simp only [hlive', if_true]
    exact (hlog h).2 ⟨h, hh, le_refl _⟩
  · intro hdead
    simp only [Bool.and_eq_false_iff] at hdead
    rcases hdead with h | h
    · obtain ⟨hF, hS⟩ := hinv.dead h
      constructor
      · apply List.eq_nil_iff_forall_not_mem.2
        intro f hf'
        obtain ⟨g, hg, -⟩ := hl.advances f hf'
        rw [hF] at hg; simp at hg
      · apply List.eq_nil_iff_forall_not_mem.2
        intro e he
        rcases hkeys4' e he with ⟨g, hg, -⟩ | ⟨e', he', -⟩
        · rw [hF] at hg; simp at hg
        · rw [hS] at he'; simp at he'
    · simpa using h
  · intro x t
    rw [← hans, ← v4 x t]
    congr 1
    unfold stashAns
    congr 2
    show stashFlat ((visited.map Prod.fst).filter fun e => !e.2.isEmpty) = _
    unfold stashFlat
    generalize visited.map Prod.fst = l
    induction l with
    | nil => rfl
    | cons e l ih =>
      by_cases he : e.2.isEmpty = true
      · rw [List.filter_cons_of_neg (by simp [he]), ih, List.flatMap_cons]
        simp only [List.isEmpty_iff] at he
        rw [he]; rfl
      · rw [List.filter_cons_of_pos (by simpa using he), List.flatMap_cons, List.flatMap_cons, ih]
  · intro o ho
    obtain ⟨r, hr, ho⟩ := List.mem_flatMap.1 ho
    obtain ⟨⟨e, he, h⟩, h'⟩ := v3 r hr o ho
    refine ⟨h', ?_⟩
    rw [← h]
    exact hkeys e he
  · intro e he p hp
    obtain ⟨r, hr, rfl⟩ := List.mem_map.1 (List.mem_filter.1 he).1
    exact (v2 r hr p hp).2
  · intro q hq
    by_cases hlive : st.live = true
    · simp only [hlive, if_true] at hq
      obtain ⟨h, hh, hb⟩ := (hlog q).1 hq
      rcases hh with hh | ⟨e, he, rfl⟩
      · obtain ⟨f, hf', hle⟩ := hl.advances h hh
        exact beyond_mono (hinv.cover hlive f (Or.inl hf')) (hle.trans hb)
      · rcases hkeys4' e he with ⟨f, hf', hle⟩ | h
        · exact beyond_mono (hinv.cover hlive f (Or.inl hf')) (hle.trans hb)
        · exact beyond_mono (hinv.cover hlive e.1 (Or.inr h)) hb
    · have : st.live = false := by simpa using hlive
      simp only [this, Bool.false_eq_true, if_false] at hq
      exact hq

theorem lookupInv_init [OrderBot T] : LookupInv [⊥] (LookupMap.init : LookupMap D T R) :=
  ⟨by simp [LookupMap.init, StashAll], by simp [LookupMap.init], fun _ _ _ => ⟨⊥, by simp [LookupMap.init], bot_le⟩, by simp [LookupMap.init]⟩

/-- The frontier of the first input after some activations. -/
def lookupF1 (F1 : List T) (acts : List (LookupAct D K V T R R2)) : List T := acts.foldl (fun _ a => a.frontier1) F1

theorem lookup_run_ok (hzero : ∀ d v c, (output_func d 0 v c).2 = 0) {trace : Upds (K × V) T R2} :
    ∀ (acts : List (LookupAct D K V T R R2)) (F1 : List T) (st : LookupMap D T R), LookupInv F1 st → LegalLookupRun key output_func trace F1 st acts →
    LookupInv (lookupF1 F1 acts) (st.run key output_func acts).1 ∧
    (∀ x t, total ((st.run key output_func acts).2.map Prod.snd) x t + stashAns key output_func x t trace (st.run key output_func acts).1.stash
      = stashAns key output_func x t trace st.stash + ((acts.flatMap fun a => a.msgs.flatMap Prod.snd).map (ans key output_func x t trace)).sum) ∧
    ∀ o ∈ (st.run key output_func acts).2, o.1 ≤ o.2.2.1
  | [], F1, st, hinv, _ => ⟨hinv, fun x t => by simp [LookupMap.run, total_nil], by simp [LookupMap.run]⟩
  | act :: acts, F1, st, hinv, hl => by
    obtain ⟨hl1, hl2⟩ := hl
    obtain ⟨h1, h2, h3, -⟩ := lookup_activate_ok key output_func hzero hinv hl1
    obtain ⟨k1, k2, k3⟩ := lookup_run_ok hzero acts act.frontier1 _ h1 hl2
    refine ⟨k1, fun x t => ?_, ?_⟩
    · have c1 := h2 x t
      have c2 := k2 x t
      simp only [LookupMap.run]
      rw [List.map_append, total_append, add_assoc, c2, ← add_assoc, c1, List.flatMap_cons, List.map_append, List.sum_append, add_assoc]
    · intro o ho
      simp only [LookupMap.run] at ho
      rcases List.mem_append.1 ho with ho | ho
      · exact (h3 o ho).1
      · exact k3 o ho

theorem legalLookupRun_append {trace : Upds (K × V) T R2} : ∀ (acts acts2 : List (LookupAct D K V T R R2)) (F1 : List T) (st : LookupMap D T R),
    LegalLookupRun key output_func trace F1 st (acts ++ acts2) →
    LegalLookupRun key output_func trace F1 st acts ∧ LegalLookupRun key output_func trace (lookupF1 F1 acts) (st.run key output_func acts).1 acts2
  | [], acts2, F1, st, h => ⟨trivial, h⟩
  | act :: acts, acts2, F1, st, ⟨h1, h2⟩ => by
    have ih := legalLookupRun_append acts acts2 act.frontier1 _ h2
    exact ⟨⟨h1, ih.1⟩, ih.2⟩

theorem lookup_run_append : ∀ (acts acts2 : List (LookupAct D K V T R R2)) (st : LookupMap D T R),
    st.run key output_func (acts ++ acts2) = (((st.run key output_func acts).1.run key output_func acts2).1,
      (st.run key output_func acts).2 ++ ((st.run key output_func acts).1.run key output_func acts2).2)
  | [], acts2, st => rfl
  | act :: acts, acts2, st => by
    rw [List.cons_append, LookupMap.run, LookupMap.run, lookup_run_append acts acts2]
    simp only [List.append_assoc]

end

end DD
