import Verif.Spec.HalfJoin
import Verif.Proofs.Consolidation
import Verif.Proofs.Lattice
import Mathlib.Algebra.Group.Hom.Instances
import Mathlib.Algebra.BigOperators.Group.Finset.Basic
import Mathlib.Algebra.BigOperators.Pi
import Mathlib.Tactic.Abel

namespace DD

/-! ### Linear functionals of updates -/

section meas
variable {D T R M : Type*} [AddCommMonoid R] [AddCommMonoid M]

/-- A linear functional of updates. -/
def meas (φ : D → T → R →+ M) (us : Upds D T R) : M := (us.map fun u => φ u.1 u.2.1 u.2.2).sum

theorem meas_nil (φ : D → T → R →+ M) : meas φ [] = 0 := rfl
theorem meas_cons (φ : D → T → R →+ M) (u : D × T × R) (us : Upds D T R) : meas φ (u :: us) = φ u.1 u.2.1 u.2.2 + meas φ us := by simp [meas]
theorem meas_append (φ : D → T → R →+ M) (us vs : Upds D T R) : meas φ (us ++ vs) = meas φ us + meas φ vs := by simp [meas]
theorem meas_perm (φ : D → T → R →+ M) {us vs : Upds D T R} (h : us.Perm vs) : meas φ us = meas φ vs := (h.map _).sum_eq

theorem meas_flatMap {X : Type*} (φ : D → T → R →+ M) (f : X → Upds D T R) (l : List X) : meas φ (l.flatMap f) = (l.map fun x => meas φ (f x)).sum := by
  induction l with
  | nil => rfl
  | cons x l ih => rw [List.flatMap_cons, meas_append, ih]; simp

variable [DecidableEq D] [DecidableEq T]

/-- The functional that picks one datum and time. -/
def pick (d : D) (t : T) : D → T → R →+ R := fun d' t' => if d' = d ∧ t' = t then AddMonoidHom.id R else 0

theorem total_eq_meas (us : Upds D T R) (d : D) (t : T) : total us d t = meas (pick d t) us := by
  unfold total meas pick
  congr 1
  apply List.map_congr_left
  intro u _
  split_ifs <;> simp

theorem meas_eq_sum (φ : D → T → R →+ M) (us : Upds D T R) (S : Finset (D × T)) (hS : ∀ u ∈ us, (u.1, u.2.1) ∈ S) :
    meas φ us = ∑ x ∈ S, φ x.1 x.2 (total us x.1 x.2) := by
  induction us with
  | nil => simp [meas, total_nil]
  | cons u us ih =>
    rw [meas_cons, ih fun x hx => hS x (by simp [hx])]
    simp only [total_cons, map_add, Finset.sum_add_distrib]
    congr 1
    have : ∀ x : D × T, φ x.1 x.2 (if u.1 = x.1 ∧ u.2.1 = x.2 then u.2.2 else 0) = if (u.1, u.2.1) = x then φ u.1 u.2.1 u.2.2 else 0 := by
      rintro ⟨d, t⟩
      by_cases h : u.1 = d ∧ u.2.1 = t
      · obtain ⟨rfl, rfl⟩ := h; simp
      · have : ¬ (u.1, u.2.1) = (d, t) := by simpa using h
        rw [if_neg h, if_neg this, map_zero]
    simp only [this, Finset.sum_ite_eq, hS u (by simp), if_true]

theorem meas_congr (φ : D → T → R →+ M) {us vs : Upds D T R} (h : ∀ d t, total us d t = total vs d t) : meas φ us = meas φ vs := by
  let S : Finset (D × T) := (us.map fun u => (u.1, u.2.1)).toFinset ∪ (vs.map fun u => (u.1, u.2.1)).toFinset
  rw [meas_eq_sum φ us S (by intro u hu; simp only [S, Finset.mem_union, List.mem_toFinset, List.mem_map]; exact Or.inl ⟨u, hu, rfl⟩),
    meas_eq_sum φ vs S (by intro u hu; simp only [S, Finset.mem_union, List.mem_toFinset, List.mem_map]; exact Or.inr ⟨u, hu, rfl⟩)]
  simp only [h]

end meas

/-! ### The answers to a proposal -/

section
variable {K V V2 T R R2 M DOut : Type*} [LinearOrder K] [LinearOrder V] [LinearOrder V2] [Lattice T] [DecidableLE T] [DecidableEq T] [LinearOrder (Lin T)]
  [AddCommMonoid R] [DecidableEq R] [AddCommMonoid R2] [DecidableEq R2] [AddCommMonoid M] [DecidableEq DOut]
variable (comparison : T → T → Bool) (logic : K → V → V2 → DOut) (mul : R →+ R2 →+ M)

/-- What an update of the trace contributes to one output, as a function of both differences. -/
def matchForm (x : DOut × T) (i : T) (d : PropData K V T) (initial : T) (kv : K × V2) (t : T) : R →+ R2 →+ M :=
  if kv.1 = d.key ∧ comparison t initial = true ∧ (logic d.key d.val kv.2, t ⊔ d.time) = x ∧ initial = i then mul else 0

/-- What a proposal is owed by the trace, as one output. -/
def owed (x : DOut × T) (i : T) (trace : Upds (K × V2) T R2) (p : PropData K V T × T × R) : M :=
  meas (fun kv t => matchForm comparison logic mul x i p.1 p.2.1 kv t p.2.2) trace

omit [LinearOrder V] [LinearOrder V2] [DecidableLE T] [LinearOrder (Lin T)] [DecidableEq R] [DecidableEq R2] in
theorem total_halfMatches (ps : Upds (PropData K V T) T R) (trace : Upds (K × V2) T R2) (x : DOut × T) (i : T) :
    total (halfMatches comparison logic (fun a b => mul a b) ps trace) x i = (ps.map (owed comparison logic mul x i trace)).sum := by
  unfold halfMatches
  rw [total_eq_meas, meas_flatMap]
  congr 1
  apply List.map_congr_left
  intro p _
  rw [meas_flatMap]
  unfold owed meas
  congr 1
  apply List.map_congr_left
  intro u _
  by_cases h : u.1.1 = p.1.key ∧ comparison u.2.1 p.2.1 = true
  · rw [if_pos h]
    obtain ⟨h1, h2⟩ := h
    simp only [List.map_cons, List.map_nil, List.sum_cons, List.sum_nil, add_zero, pick, matchForm, h1, h2, true_and]
    split_ifs <;> simp
  · rw [if_neg h]
    have : matchForm comparison logic mul x i p.1 p.2.1 u.1 u.2.1 = 0 := by
      unfold matchForm; rw [if_neg]; exact fun hh => h ⟨hh.1, hh.2.1⟩
    change _ = (matchForm comparison logic mul x i p.1 p.2.1 u.1 u.2.1) p.2.2 u.2.2
    rw [this]; simp

omit [LinearOrder V] [LinearOrder V2] [DecidableLE T] [LinearOrder (Lin T)] [DecidableEq R] [DecidableEq R2] in
theorem owed_zero (x : DOut × T) (i : T) (trace : Upds (K × V2) T R2) (d : PropData K V T) (t : T) : owed comparison logic mul x i trace (d, t, 0) = 0 := by
  unfold owed meas; simp

/-- What a proposal is owed, as a function of its difference. -/
def owedHom (x : DOut × T) (i : T) (trace : Upds (K × V2) T R2) (d : PropData K V T) (t : T) : R →+ M where
  toFun r := owed comparison logic mul x i trace (d, t, r)
  map_zero' := owed_zero comparison logic mul x i trace d t
  map_add' r s := by
    unfold owed meas
    rw [← List.sum_map_add]
    simp only [map_add, AddMonoidHom.add_apply]

omit [LinearOrder V] [LinearOrder V2] [DecidableLE T] [LinearOrder (Lin T)] [DecidableEq R] [DecidableEq R2] in
theorem sum_owed (x : DOut × T) (i : T) (trace : Upds (K × V2) T R2) (ps : Upds (PropData K V T) T R) :
    (ps.map (owed comparison logic mul x i trace)).sum = meas (owedHom comparison logic mul x i trace) ps := rfl

/-- What one value owes. -/
theorem answerVals_ok (d : PropData K V T) (initial : T) (diff1 : R) (vals : List (V2 × List (T × R2))) :
    ∃ outs, answerVals comparison logic (fun a b => mul a b) d.key d.val d.time initial diff1 vals = some outs ∧ (∀ o ∈ outs, o.2.1 = initial) ∧
      ∀ x i, total outs x i = owed comparison logic mul x i (vals.flatMap fun vu => vu.2.map fun u => ((d.key, vu.1), u.1, u.2)) (d, initial, diff1) := by
  induction vals with
  | nil => exact ⟨[], rfl, by simp, fun x i => rfl⟩
  | cons vu vals ih =>
    obtain ⟨outs, h1, h2, h3⟩ := ih
    obtain ⟨v2, edits⟩ := vu
    unfold answerVals
    simp only [consolidate_eq, h1]
    refine ⟨_, rfl, ?_, ?_⟩
    · intro o ho
      rcases List.mem_append.1 ho with ho | ho
      · obtain ⟨td, -, rfl⟩ := List.mem_map.1 ho; rfl
      · exact h2 o ho
    · intro x i
      rw [total_append, h3, List.flatMap_cons]
      unfold owed
      rw [meas_append]
      congr 1
      let φ : Lin T → R2 →+ M := fun (t : T) => if ((logic d.key d.val v2, t) : DOut × T) = x ∧ initial = i then mul diff1 else 0
      have e1 : ∀ l : List (Lin T × R2), total (l.map fun (td : Lin T × R2) => (((logic d.key d.val v2, td.1), initial, mul diff1 td.2) : (DOut × T) × T × M)) x i
          = measure (pairLayout (Lin T) R2) φ l := by
        intro l
        unfold total measure
        rw [List.map_map]
        congr 1
        apply List.map_congr_left
        intro td _
        simp only [Function.comp_apply, φ, pairLayout]
        split_ifs <;> simp
      rw [e1]
      have e2 := measure_consolidatedL _ (pairLayout_lawful (Lin T) R2) φ ((edits.filter fun td => comparison td.1 initial).map fun td => (toLin (td.1 ⊔ d.time), td.2))
      refine e2.trans ?_
      clear e2 e1
      induction edits with
      | nil => rfl
      | cons e edits ih =>
        rw [List.map_cons, meas_cons, ← ih]
        by_cases hc : comparison e.1 initial = true
        · rw [List.filter_cons_of_pos (by simpa using hc), List.map_cons]
          have : ∀ (a : Lin T × R2) l, measure (pairLayout (Lin T) R2) φ (a :: l) = φ a.1 a.2 + measure (pairLayout (Lin T) R2) φ l := by
            intro a l; simp [measure, pairLayout]
          rw [this]
          congr 1
          simp only [φ, matchForm, toLin, hc, true_and]
          split_ifs <;> simp
        · rw [List.filter_cons_of_neg (by simpa using hc)]
          have : matchForm comparison logic mul x i d initial (d.key, v2) e.1 = 0 := by
            unfold matchForm; rw [if_neg]; exact fun hh => hc hh.2.1
          simp only [this, AddMonoidHom.zero_apply, zero_add]

omit [LinearOrder V] [LinearOrder V2] [DecidableLE T] [LinearOrder (Lin T)] [DecidableEq R] [DecidableEq R2] in
theorem owed_append (x : DOut × T) (i : T) (us vs : Upds (K × V2) T R2) (p : PropData K V T × T × R) :
    owed comparison logic mul x i (us ++ vs) p = owed comparison logic mul x i us p + owed comparison logic mul x i vs p := meas_append _ _ _

omit [LinearOrder V] [LinearOrder V2] [DecidableLE T] [LinearOrder (Lin T)] [DecidableEq R] [DecidableEq R2] in
theorem owed_eq_zero (x : DOut × T) (i : T) (us : Upds (K × V2) T R2) (p : PropData K V T × T × R)
    (h : ∀ u ∈ us, ¬ (u.1.1 = p.1.key ∧ comparison u.2.1 p.2.1 = true)) : owed comparison logic mul x i us p = 0 := by
  unfold owed meas
  apply List.sum_eq_zero
  intro m hm
  obtain ⟨u, hu, rfl⟩ := List.mem_map.1 hm
  have : matchForm comparison logic mul x i p.1 p.2.1 u.1 u.2.1 = 0 := by
    unfold matchForm; rw [if_neg]; exact fun hh => h u hu ⟨hh.1, hh.2.1⟩
  change (matchForm comparison logic mul x i p.1 p.2.1 u.1 u.2.1) p.2.2 u.2.2 = 0
  rw [this]; rfl

theorem mem_flatten_key {K V T R : Type*} {c : Contents K V T R} {u : (K × V) × T × R} (hu : u ∈ c.flatten) : ∃ kv ∈ c, u.1.1 = kv.1 := by
  simp only [Contents.flatten, List.mem_flatMap, List.mem_map] at hu
  obtain ⟨kv, hkv, vu, -, w, -, rfl⟩ := hu
  exact ⟨kv, hkv, rfl⟩

/-- Answering one proposal from a cursor that passed only smaller keys. -/
theorem answerProposal_ok {contents pre : Contents K V2 T R2} (hs : ContentsSorted contents) (cursor : Pos K V2 T R2) (hc : contents = pre ++ cursor.keys)
    (d : PropData K V T) (hpre : ∀ kv ∈ pre, kv.1 < d.key) (initial : T) (diff1 : R) :
    ∃ cursor' outs pre', answerProposal comparison logic (fun a b => mul a b) cursor d.key d.val d.time initial diff1 = some (cursor', outs) ∧
      contents = pre' ++ cursor'.keys ∧ (∀ kv ∈ pre', kv.1 < d.key) ∧ (∀ o ∈ outs, o.2.1 = initial) ∧
      ∀ x i, total outs x i = owed comparison logic mul x i contents.flatten (d, initial, diff1) := by
  let P : K × List (V2 × List (T × R2)) → Bool := fun kv => kv.1 < d.key
  have hsplit : cursor.keys = cursor.keys.takeWhile P ++ cursor.keys.dropWhile P := (List.takeWhile_append_dropWhile ..).symm
  set pre' := pre ++ cursor.keys.takeWhile P with hpre'
  set rest := cursor.keys.dropWhile P with hrest
  have hcont : contents = pre' ++ rest := by rw [hc, hpre', List.append_assoc, ← hsplit]
  have hlt : ∀ kv ∈ pre', kv.1 < d.key := by
    intro kv hkv
    rcases List.mem_append.1 hkv with h | h
    · exact hpre kv h
    · simpa [P] using List.all_eq_true.1 List.all_takeWhile _ h
  have hflat : contents.flatten = Contents.flatten pre' ++ Contents.flatten rest := by rw [hcont]; simp [Contents.flatten]
  have hz : ∀ x i, owed comparison logic mul x i (Contents.flatten pre') (d, initial, diff1) = 0 := by
    intro x i
    apply owed_eq_zero
    intro u hu hh
    obtain ⟨kv, hkv, hk⟩ := mem_flatten_key hu
    exact absurd (hlt kv hkv) (by rw [← hk, hh.1]; exact lt_irrefl _)
  have hseek : cursor.seekKey d.key = Pos.start rest := rfl
  unfold answerProposal
  simp only [hseek]
  have hsr : rest.Pairwise fun x y => x.1 < y.1 := by
    have := hs.keys; rw [hcont] at this; exact (List.pairwise_append.1 this).2.1
  cases hr : rest with
  | nil =>
    rw [hr] at hcont hflat
    refine ⟨Pos.start [], [], pre', by simp [Pos.start, Pos.key?], hcont, hlt, by simp, ?_⟩
    intro x i
    rw [hflat, owed_append, hz, zero_add]; rfl
  | cons e rest' =>
    have hge : ¬ e.1 < d.key := by
      have h0 : rest ≠ [] := by rw [hr]; simp
      have := List.head_dropWhile_not P (by rw [← hrest]; exact h0)
      have he : (cursor.keys.dropWhile P).head (by rw [← hrest]; exact h0) = e := by
        simp only [← hrest, hr, List.head_cons]
      rw [he] at this
      simpa [P] using this
    rw [hr] at hcont hflat hsr
    have hrest0 : ∀ u ∈ Contents.flatten rest', u.1.1 ≠ d.key := by
      intro u hu hk
      obtain ⟨kv, hkv, hk'⟩ := mem_flatten_key hu
      have := (List.pairwise_cons.1 hsr).1 kv hkv
      rw [← hk', hk] at this
      exact hge this
    by_cases hk : e.1 = d.key
    · obtain ⟨outs, h1, h2, h3⟩ := answerVals_ok comparison logic mul d initial diff1 e.2
      refine ⟨Pos.start (e :: rest'), outs, pre', ?_, hcont, hlt, h2, ?_⟩
      · simp [Pos.start, Pos.key?, hk, h1, Pos.rewindVals]
      · intro x i
        rw [h3, hflat, owed_append, hz, zero_add]
        have : Contents.flatten (e :: rest') = (e.2.flatMap fun vu => vu.2.map fun u => ((d.key, vu.1), u.1, u.2)) ++ Contents.flatten rest' := by
          simp [Contents.flatten, hk]
        rw [this, owed_append, owed_eq_zero (us := Contents.flatten rest') (h := fun u hu hh => hrest0 u hu hh.1), add_zero]
    · refine ⟨Pos.start (e :: rest'), [], pre', ?_, hcont, hlt, by simp, ?_⟩
      · simp [Pos.start, Pos.key?, hk]
      · intro x i
        rw [hflat, owed_append, hz, zero_add, owed_eq_zero]
        · rfl
        · intro u hu hh
          have : Contents.flatten (e :: rest') = (e.2.flatMap fun vu => vu.2.map fun u => ((e.1, vu.1), u.1, u.2)) ++ Contents.flatten rest' := by
            simp [Contents.flatten]
          rw [this] at hu
          rcases List.mem_append.1 hu with hu | hu
          · simp only [List.mem_flatMap, List.mem_map] at hu
            obtain ⟨vu, -, w, -, rfl⟩ := hu
            exact hk hh.1
          · exact hrest0 u hu hh.1

/-- The trace, as presented, owes what the whole history owes, to proposals whose comparison cannot hold for what is missing. -/
theorem owed_shown {frontier_func : T → List T} (hf : HalfJoinFns comparison frontier_func) {trace now later shown : Upds (K × V2) T R2} {frontier2 logical : List T} {h : T}
    (htr : trace.Perm (now ++ later)) (hlater : ∀ u ∈ later, Beyond frontier2 u.2.1) (hcomp : CompactionOf logical now shown)
    (hsafe : ∀ s t, SameBeyond logical s t → SameBeyond (frontier_func h) s t) (p : PropData K V T × T × R) (hp1 : h ≤ p.2.1) (hp2 : p.2.1 ≤ p.1.time)
    (hfr : ∀ f ∈ frontier2, ¬ comparison f p.2.1 = true) (x : DOut × T) (i : T) :
    owed comparison logic mul x i shown p = owed comparison logic mul x i trace p := by
  have e1 : owed comparison logic mul x i trace p = owed comparison logic mul x i now p := by
    have : owed comparison logic mul x i trace p = owed comparison logic mul x i (now ++ later) p := meas_perm _ htr
    rw [this, owed_append, owed_eq_zero (us := later), add_zero]
    rintro u hu ⟨-, hh⟩
    obtain ⟨f, hf', hle⟩ := hlater u hu
    exact hfr f hf' (hf.down _ _ _ hle hh)
  obtain ⟨us', hall, htot⟩ := hcomp
  have e2 : owed comparison logic mul x i shown p = owed comparison logic mul x i us' p := meas_congr _ htot
  rw [e1, e2]
  clear e1 e2 htot htr hlater
  induction hall with
  | nil => rfl
  | @cons u u' _ _ hu _ ih =>
    obtain ⟨h1, h2, h3⟩ := hu
    unfold owed at ih ⊢
    rw [meas_cons, meas_cons, ih, h1, h2]
    congr 1
    have hsb := hsafe _ _ h3
    have hcmp := hf.stable h p.2.1 _ _ hp1 hsb
    have hj : u'.2.1 ⊔ p.1.time = u.2.1 ⊔ p.1.time := by
      have hb : ∀ z : T, Beyond (frontier_func h) (z ⊔ p.1.time) := fun z => beyond_mono (hf.beyond h p.2.1 hp1) (hp2.trans le_sup_right)
      apply le_antisymm
      · exact sup_le ((hsb _ (hb _)).1 le_sup_left) le_sup_right
      · exact sup_le ((hsb _ (hb _)).2 le_sup_left) le_sup_right
    have : matchForm (M := M) (R := R) (R2 := R2) comparison logic mul x i p.1 p.2.1 u.1 u'.2.1 = matchForm comparison logic mul x i p.1 p.2.1 u.1 u.2.1 := by
      unfold matchForm; rw [hj, hcmp]
    rw [this]

/-- The trace presented to an activation owes `p` what the whole history does. -/
def Exact (contents : Contents K V2 T R2) (trace : Upds (K × V2) T R2) (p : PropData K V T × T × R) : Prop :=
  ∀ x i, owed comparison logic mul x i contents.flatten p = owed comparison logic mul x i trace p

/-- Same proposals, some answered. -/
def Zeroed (frontier : List T) (y' : Bool × Option Nat) (p p' : PropData K V T × T × R) : Prop :=
  p'.1 = p.1 ∧ p'.2.1 = p.2.1 ∧ (p'.2.2 = 0 ∨ p'.2.2 = p.2.2 ∧ (y'.1 = true ∨ ∃ f ∈ frontier, comparison f p.2.1 = true))

theorem askYield_true {y : Bool × Option Nat} (h : y.1 = true) : (askYield y).1 = true := by
  obtain ⟨b, n⟩ := y
  simp only at h; subst h; rfl

omit [DecidableEq DOut] in
theorem answerProposals_yield (frontier : List T) : ∀ (ps : Upds (PropData K V T) T R) (cursor : Pos K V2 T R2) (y : Bool × Option Nat) (ps' y') (outs : Upds (DOut × T) T M),
    answerProposals comparison logic (fun a b => mul a b) frontier cursor y ps = some (ps', y', outs) → (y.1 = true → y'.1 = true) ∧ (y = (false, none) → y' = (false, none))
  | [], cursor, y, ps', y', outs, h => by
    simp only [answerProposals, Option.some.injEq, Prod.mk.injEq] at h
    obtain ⟨-, rfl, -⟩ := h
    exact ⟨id, id⟩
  | p :: ps, cursor, y, ps', y', outs, h => by
    have hy : y = (false, none) → askYield y = (false, none) := by rintro rfl; rfl
    simp only [answerProposals] at h
    split_ifs at h with hc
    · cases ha : answerProposal comparison logic (fun a b => mul a b) cursor p.1.key p.1.val p.1.time p.2.1 p.2.2 with
      | none => rw [ha] at h; simp at h
      | some r =>
        rw [ha] at h
        simp only [Option.map_eq_some_iff, Prod.mk.injEq] at h
        obtain ⟨⟨a, b, c⟩, h1, -, rfl, -⟩ := h
        obtain ⟨k1, k2⟩ := answerProposals_yield frontier ps _ _ _ _ _ h1
        exact ⟨fun h => k1 (askYield_true h), fun h => k2 (hy h)⟩
    · simp only [Option.map_eq_some_iff, Prod.mk.injEq] at h
      obtain ⟨⟨a, b, c⟩, h1, -, rfl, -⟩ := h
      obtain ⟨k1, k2⟩ := answerProposals_yield frontier ps _ _ _ _ _ h1
      exact ⟨fun h => k1 (askYield_true h), fun h => k2 (hy h)⟩

theorem answerProposals_ok {contents : Contents K V2 T R2} (hs : ContentsSorted contents) (trace : Upds (K × V2) T R2) (frontier : List T) :
    ∀ (ps : Upds (PropData K V T) T R) (cursor : Pos K V2 T R2) (pre : Contents K V2 T R2) (y : Bool × Option Nat), contents = pre ++ cursor.keys →
    ps.Pairwise (fun p q => p.1.key ≤ q.1.key) → (∀ p ∈ ps, ∀ kv ∈ pre, kv.1 < p.1.key) →
    (∀ p ∈ ps, (∀ f ∈ frontier, ¬ comparison f p.2.1 = true) → Exact comparison logic mul contents trace p) →
    ∃ ps' y' outs, answerProposals comparison logic (fun a b => mul a b) frontier cursor y ps = some (ps', y', outs) ∧
      List.Forall₂ (Zeroed comparison frontier y') ps ps' ∧ (∀ o ∈ outs, ∃ p ∈ ps, o.2.1 = p.2.1) ∧
      ∀ x i, total outs x i + (ps'.map (owed comparison logic mul x i trace)).sum = (ps.map (owed comparison logic mul x i trace)).sum
  | [], cursor, pre, y, _, _, _, _ => ⟨[], y, [], rfl, .nil, by simp, fun x i => by simp⟩
  | p :: ps, cursor, pre, y, hc, hsort, hpre, hex => by
    obtain ⟨hs1, hs2⟩ := List.pairwise_cons.1 hsort
    simp only [answerProposals]
    by_cases hcond : (!(askYield y).1 && !frontier.any (fun t => comparison t p.2.1)) = true
    · rw [if_pos hcond]
      simp only [Bool.and_eq_true, Bool.not_eq_true', List.any_eq_false] at hcond
      obtain ⟨cursor', outs1, pre', h1, h2, h3, h4, h5⟩ := answerProposal_ok comparison logic mul hs cursor hc p.1 (hpre p (by simp)) p.2.1 p.2.2
      obtain ⟨ps', y', outs, k1, k2, k3, k4⟩ := answerProposals_ok hs trace frontier ps cursor' pre' (askYield y) h2 hs2
        (fun q hq kv hkv => lt_of_lt_of_le (h3 kv hkv) (hs1 q hq)) (fun q hq => hex q (by simp [hq]))
      rw [h1]
      simp only [k1, Option.map_some]
      refine ⟨_, _, _, rfl, .cons ⟨rfl, rfl, Or.inl rfl⟩ k2, ?_, ?_⟩
      · intro o ho
        rcases List.mem_append.1 ho with ho | ho
        · exact ⟨p, by simp, h4 o ho⟩
        · obtain ⟨q, hq, e⟩ := k3 o ho; exact ⟨q, by simp [hq], e⟩
      · intro x i
        have he := hex p (by simp) (fun f hf => hcond.2 f hf) x i
        rw [total_append, List.map_cons, List.sum_cons, owed_zero, zero_add, add_assoc, k4 x i, h5, List.map_cons, List.sum_cons, ← he]
    · rw [if_neg hcond]
      obtain ⟨ps', y', outs, k1, k2, k3, k4⟩ := answerProposals_ok hs trace frontier ps cursor pre (askYield y) hc hs2
        (fun q hq => hpre q (by simp [hq])) (fun q hq => hex q (by simp [hq]))
      simp only [k1, Option.map_some]
      refine ⟨_, _, _, rfl, .cons ⟨rfl, rfl, Or.inr ⟨rfl, ?_⟩⟩ k2, ?_, ?_⟩
      · have := (answerProposals_yield comparison logic mul frontier ps cursor (askYield y) ps' y' outs k1).1
        by_cases hy : (askYield y).1 = true
        · exact Or.inl (this hy)
        · right
          simp only [Bool.not_eq_true] at hy
          simpa [hy] using hcond
      · intro o ho
        obtain ⟨q, hq, e⟩ := k3 o ho; exact ⟨q, by simp [hq], e⟩
      · intro x i
        have := k4 x i
        simp only [List.map_cons, List.sum_cons]
        rw [← this]; abel

/-- What holds of every proposal of a stash. -/
def AllProps (Q : PropData K V T × T × R → Prop) (stash : List (T × Upds (PropData K V T) T R)) : Prop := ∀ e ∈ stash, ∀ p ∈ e.2, Q p

theorem processProposals_ok {contents : Contents K V2 T R2} (hs : ContentsSorted contents) (trace : Upds (K × V2) T R2) (frontier : List T)
    (ps : Upds (PropData K V T) T R) (y : Bool × Option Nat)
    (hex : ∀ p : PropData K V T × T × R, (∃ q ∈ ps, q.1 = p.1 ∧ q.2.1 = p.2.1) → (∀ f ∈ frontier, ¬ comparison f p.2.1 = true) → Exact comparison logic mul contents trace p) :
    ∃ ps' y' outs, processProposals comparison logic (fun a b => mul a b) contents frontier y ps = some (ps', y', outs) ∧
      (∀ p' ∈ ps', (∃ q ∈ ps, q.1 = p'.1 ∧ q.2.1 = p'.2.1) ∧ (p'.2.2 ≠ 0 → y'.1 = true ∨ ∃ f ∈ frontier, comparison f p'.2.1 = true)) ∧
      (y = (false, none) → y' = (false, none)) ∧ (y.1 = true → y'.1 = true) ∧
      (∀ o ∈ outs, ∃ p ∈ ps, o.2.1 = p.2.1) ∧
      ∀ x i, total outs x i + (ps'.map (owed comparison logic mul x i trace)).sum = (ps.map (owed comparison logic mul x i trace)).sum := by
  have hmem : ∀ p ∈ consolidatedU ps, ∃ q ∈ ps, q.1 = p.1 ∧ q.2.1 = p.2.1 := by
    intro p hp
    by_contra hno
    push Not at hno
    have hz : total ps p.1 p.2.1 = 0 := by
      unfold total
      apply List.sum_eq_zero
      intro m hm
      obtain ⟨q, hq, rfl⟩ := List.mem_map.1 hm
      exact if_neg fun hh => hno q hq hh.1 hh.2
    have hcons := consolidated_consolidatedU ps
    rw [← total_consolidatedU] at hz
    obtain ⟨l1, l2, hl⟩ := List.append_of_mem hp
    have hpw := hcons.1
    have hne := hcons.2 p hp
    rw [hl] at hpw hz
    rw [total_append, total_cons, if_pos ⟨rfl, rfl⟩] at hz
    have z1 : total l1 p.1 p.2.1 = 0 := by
      unfold total; apply List.sum_eq_zero
      intro m hm
      obtain ⟨q, hq, rfl⟩ := List.mem_map.1 hm
      refine if_neg fun hh => ?_
      have := (List.pairwise_append.1 hpw).2.2 q hq p (by simp)
      rcases this with h | ⟨-, h⟩
      · rw [hh.1] at h; exact lt_irrefl _ h
      · rw [hh.2] at h; exact lt_irrefl _ h
    have z2 : total l2 p.1 p.2.1 = 0 := by
      unfold total; apply List.sum_eq_zero
      intro m hm
      obtain ⟨q, hq, rfl⟩ := List.mem_map.1 hm
      refine if_neg fun hh => ?_
      have := (List.pairwise_cons.1 (List.pairwise_append.1 hpw).2.1).1 q hq
      rcases this with h | ⟨-, h⟩
      · rw [hh.1] at h; exact lt_irrefl _ h
      · rw [hh.2] at h; exact lt_irrefl _ h
    rw [z1, z2, zero_add, add_zero] at hz
    exact hne hz
  have hsort : (consolidatedU ps).Pairwise (fun p q => p.1.key ≤ q.1.key) := by
    refine (consolidated_consolidatedU ps).1.imp ?_
    intro p q h
    have h' : p.1 ≤ q.1 := by
      rcases h with h | ⟨h, -⟩
      · exact le_of_lt h
      · exact le_of_eq h
    rcases Prod.Lex.le_iff.1 h' with h | ⟨h, -⟩
    · exact le_of_lt h
    · exact le_of_eq h
  obtain ⟨ps', y', outs, k1, k2, k3, k4⟩ := answerProposals_ok comparison logic mul hs trace frontier (consolidatedU ps) (Pos.start contents) [] y rfl hsort (by simp)
    (fun p hp => hex p (hmem p hp))
  refine ⟨ps', y', outs, ?_, ?_, ?_, ?_, ?_, ?_⟩
  · unfold processProposals; rw [consolidateUpdates_eq]; exact k1
  · intro p' hp'
    obtain ⟨p, hp, h1, h2, h3⟩ : ∃ p ∈ consolidatedU ps, Zeroed comparison frontier y' p p' := by
      clear k1 k3 k4 hex hmem hsort
      generalize consolidatedU ps = cs at k2 ⊢
      induction k2 with
      | nil => simp at hp'
      | cons h _ ih =>
        rcases List.mem_cons.1 hp' with rfl | hp'
        · exact ⟨_, by simp, h⟩
        · obtain ⟨p, hp, hz⟩ := ih hp'; exact ⟨p, by simp [hp], hz⟩
    obtain ⟨q, hq, e1, e2⟩ := hmem p hp
    refine ⟨⟨q, hq, e1.trans h1.symm, e2.trans h2.symm⟩, fun hne => ?_⟩
    rcases h3 with h3 | ⟨-, h3⟩
    · exact absurd h3 hne
    · rw [h2]; exact h3
  · exact (answerProposals_yield comparison logic mul frontier _ _ _ _ _ _ k1).2
  · exact (answerProposals_yield comparison logic mul frontier _ _ _ _ _ _ k1).1
  · intro o ho
    obtain ⟨p, hp, e⟩ := k3 o ho
    obtain ⟨q, hq, -, e2⟩ := hmem p hp
    exact ⟨q, hq, e.trans e2.symm⟩
  · intro x i
    rw [k4 x i, sum_owed, sum_owed]
    exact meas_congr _ fun d t => total_consolidatedU ps d t

/-! ### The stash -/

/-- All that a stash holds. -/
def stashFlat {X : Type*} (s : List (T × List X)) : List X := s.flatMap Prod.snd

/-- What holds of every entry and item. -/
def StashAll {X : Type*} (Q : T → X → Prop) (s : List (T × List X)) : Prop := ∀ e ∈ s, ∀ p ∈ e.2, Q e.1 p

omit [Lattice T] [DecidableLE T] [LinearOrder (Lin T)] in
theorem stashAppend_flat {X : Type*} (s : List (T × List X)) (t : T) (d : List X) : (stashFlat (stashAppend s t d)).Perm (stashFlat s ++ d) := by
  induction s with
  | nil => simp [stashFlat, stashAppend]
  | cons e s ih =>
    unfold stashAppend
    split_ifs
    · simp only [stashFlat, List.flatMap_cons, List.append_assoc]
      exact (List.perm_append_comm).append_left _
    · simp only [stashFlat, List.flatMap_cons, List.append_assoc] at ih ⊢
      exact ih.append_left _

omit [Lattice T] [DecidableLE T] [LinearOrder (Lin T)] in
theorem stashAppend_all {X : Type*} {Q : T → X → Prop} {s : List (T × List X)} {t : T} {d : List X} (hs : StashAll Q s) (hd : ∀ p ∈ d, Q t p) :
    StashAll Q (stashAppend s t d) := by
  induction s with
  | nil =>
    intro e he p hp
    simp only [stashAppend, List.mem_singleton] at he
    subst he; exact hd p hp
  | cons e s ih =>
    have ih := ih fun e' he' => hs e' (by simp [he'])
    unfold stashAppend
    split_ifs with h
    · intro e' he' p hp
      rcases List.mem_cons.1 he' with rfl | he'
      · rcases List.mem_append.1 hp with hp | hp
        · exact hs e (by simp) p hp
        · simp only [h]; exact hd p hp
      · exact hs e' (by simp [he']) p hp
    · intro e' he' p hp
      rcases List.mem_cons.1 he' with rfl | he'
      · exact hs e' (by simp) p hp
      · exact ih e' he' p hp

omit [Lattice T] [DecidableLE T] [LinearOrder (Lin T)] in
theorem stashAppend_keys {X : Type*} {s : List (T × List X)} {t : T} {d : List X} {e : T × List X} (he : e ∈ stashAppend s t d) : e.1 = t ∨ ∃ e' ∈ s, e'.1 = e.1 := by
  induction s with
  | nil => simp only [stashAppend, List.mem_singleton] at he; subst he; exact Or.inl rfl
  | cons a s ih =>
    unfold stashAppend at he
    split_ifs at he with h
    · rcases List.mem_cons.1 he with rfl | he
      · exact Or.inr ⟨a, by simp, rfl⟩
      · exact Or.inr ⟨e, by simp [he], rfl⟩
    · rcases List.mem_cons.1 he with rfl | he
      · exact Or.inr ⟨e, by simp, rfl⟩
      · rcases ih he with h | ⟨e', he', h⟩
        · exact Or.inl h
        · exact Or.inr ⟨e', by simp [he'], h⟩

omit [Lattice T] [DecidableLE T] [LinearOrder (Lin T)] in
theorem stashAppend_nonempty {X : Type*} {s : List (T × List X)} {t : T} {d : List X} (hs : ∀ e ∈ s, e.2 ≠ []) (hd : d ≠ []) : ∀ e ∈ stashAppend s t d, e.2 ≠ [] := by
  induction s with
  | nil => intro e he; simp only [stashAppend, List.mem_singleton] at he; subst he; exact hd
  | cons a s ih =>
    have ih := ih fun e' he' => hs e' (by simp [he'])
    intro e he
    unfold stashAppend at he
    split_ifs at he with h
    · rcases List.mem_cons.1 he with rfl | he
      · simp [hd]
      · exact hs e (by simp [he])
    · rcases List.mem_cons.1 he with rfl | he
      · exact hs e (by simp)
      · exact ih e he

omit [Lattice T] [DecidableLE T] [LinearOrder (Lin T)] in
/-- Appending a list of entries. -/
theorem stashExtend_ok {X : Type*} (l : List (T × List X)) : ∀ (s : List (T × List X)),
    (stashFlat (l.foldl (fun s e => stashAppend s e.1 e.2) s)).Perm (stashFlat s ++ stashFlat l) ∧
    (∀ Q : T → X → Prop, StashAll Q s → StashAll Q l → StashAll Q (l.foldl (fun s e => stashAppend s e.1 e.2) s)) ∧
    (∀ e ∈ l.foldl (fun s e => stashAppend s e.1 e.2) s, ∃ e', (e' ∈ s ∨ e' ∈ l) ∧ e'.1 = e.1) ∧
    ((∀ e ∈ s, e.2 ≠ []) → (∀ e ∈ l, e.2 ≠ []) → ∀ e ∈ l.foldl (fun s e => stashAppend s e.1 e.2) s, e.2 ≠ []) := by
  induction l with
  | nil => intro s; exact ⟨by simp [stashFlat], fun Q h _ => h, fun e he => ⟨e, Or.inl he, rfl⟩, fun h _ => h⟩
  | cons a l ih =>
    intro s
    obtain ⟨h1, h2, h3, h4⟩ := ih (stashAppend s a.1 a.2)
    rw [List.foldl_cons]
    refine ⟨?_, ?_, ?_, ?_⟩
    · refine h1.trans (((stashAppend_flat s a.1 a.2).append_right _).trans ?_)
      simp only [stashFlat, List.flatMap_cons, List.append_assoc]
      exact List.Perm.refl _
    · intro Q hs hl
      exact h2 Q (stashAppend_all hs (hl a (by simp))) fun e he => hl e (by simp [he])
    · intro e he
      obtain ⟨e', h | h, hh⟩ := h3 e he
      · rcases stashAppend_keys h with h | ⟨e'', h, h'⟩
        · exact ⟨a, Or.inr (by simp), h.symm.trans hh⟩
        · exact ⟨e'', Or.inl h, h'.trans hh⟩
      · exact ⟨e', Or.inr (by simp [h]), hh⟩
    · intro hs hl
      exact h4 (stashAppend_nonempty hs (hl a (by simp))) fun e he => hl e (by simp [he])

theorem modify_flatten {X : Type*} (l : List (List X)) (i : Nat) (p : X) (hi : i < l.length) : (l.modify i (· ++ [p])).flatten.Perm (l.flatten ++ [p]) := by
  induction l generalizing i with
  | nil => simp at hi
  | cons a l ih =>
    cases i with
    | zero => simp only [List.modify_zero_cons, List.flatten_cons, List.append_assoc]; exact (List.perm_append_comm).append_left _
    | succ i =>
      simp only [List.modify_succ_cons, List.flatten_cons, List.append_assoc]
      exact (ih i (by simpa using hi)).append_left _

omit [LinearOrder K] [LinearOrder V] [DecidableEq T] [LinearOrder (Lin T)] [AddCommMonoid R] [DecidableEq R] in
/-- Assigning proposals to the elements of an antichain. -/
theorem peelOff_ok (A : List T) (ps : Upds (PropData K V T) T R) (hA : ∀ p ∈ ps, Beyond A p.2.1) :
    ∃ r : List (Upds (PropData K V T) T R), peelOff A ps = some r ∧ r.length = A.length ∧ r.flatten.Perm ps ∧ (∀ (i : Nat) (t : T) (l : Upds (PropData K V T) T R), A[i]? = some t → r[i]? = some l → ∀ p ∈ l, t ≤ p.2.1) ∧
      ∀ p ∈ ps, ∀ i, A.findIdx? (fun t => t ≤ p.2.1) = some i → ∃ l, r[i]? = some l ∧ p ∈ l := by
  suffices H : ∀ (adds : List (Upds (PropData K V T) T R)), adds.length = A.length → (∀ (i : Nat) (t : T) (l : Upds (PropData K V T) T R), A[i]? = some t → adds[i]? = some l → ∀ p ∈ l, t ≤ p.2.1) →
      ∃ r : List (Upds (PropData K V T) T R), ps.foldlM (fun additions p => match A.findIdx? fun t => t ≤ p.2.1 with
        | none => none
        | some position => some (additions.modify position (· ++ [p]))) adds = some r ∧ r.length = A.length ∧ r.flatten.Perm (adds.flatten ++ ps) ∧
        (∀ (i : Nat) (t : T) (l : Upds (PropData K V T) T R), A[i]? = some t → r[i]? = some l → ∀ p ∈ l, t ≤ p.2.1) ∧ (∀ (i : Nat) (l : Upds (PropData K V T) T R), adds[i]? = some l → ∃ l', r[i]? = some l' ∧ ∀ p ∈ l, p ∈ l') ∧
        ∀ p ∈ ps, ∀ i, A.findIdx? (fun t => t ≤ p.2.1) = some i → ∃ l, r[i]? = some l ∧ p ∈ l by
    obtain ⟨r, h1, h2, h3, h4, -, h6⟩ := H (A.map fun _ => []) (by simp) (by
      intro i t l _ hl p hp
      rw [List.getElem?_map] at hl
      obtain ⟨_, -, rfl⟩ := Option.map_eq_some_iff.1 hl
      simp at hp)
    refine ⟨r, h1, h2, ?_, h4, h6⟩
    have : (A.map fun _ => ([] : Upds (PropData K V T) T R)).flatten = [] := by simp
    rw [this] at h3
    exact h3
  induction ps with
  | nil => intro adds h1 h2; exact ⟨adds, rfl, h1, by simp, h2, fun i l h => ⟨l, h, fun _ => id⟩, by simp⟩
  | cons p ps ih =>
    intro adds h1 h2
    obtain ⟨f, hf, hfp⟩ := hA p (by simp)
    obtain ⟨i, hi⟩ : ∃ i, A.findIdx? (fun t => t ≤ p.2.1) = some i := by
      cases hh : A.findIdx? (fun t => t ≤ p.2.1) with
      | none => rw [List.findIdx?_eq_none_iff] at hh; have := hh f hf; simp [hfp] at this
      | some i => exact ⟨i, rfl⟩
    obtain ⟨hlt, hple, -⟩ := List.findIdx?_eq_some_iff_getElem.1 hi
    have hlt' : i < adds.length := by omega
    obtain ⟨r, k1, k2, k3, k4, k5, k6⟩ := ih (fun q hq => hA q (by simp [hq])) (adds.modify i (· ++ [p])) (by simpa using h1) (by
      intro j t l hj hl q hq
      rw [List.getElem?_modify] at hl
      obtain ⟨l0, hl0, rfl⟩ := Option.map_eq_some_iff.1 hl
      split_ifs at hq with hij
      · subst hij
        rcases List.mem_append.1 hq with hq | hq
        · exact h2 i t l0 hj hl0 q hq
        · simp only [List.mem_singleton] at hq
          subst hq
          rw [List.getElem?_eq_getElem hlt] at hj
          simp only [Option.some.injEq] at hj
          subst hj
          simpa using hple
      · exact h2 j t l0 hj hl0 q hq)
    refine ⟨r, ?_, k2, ?_, k4, ?_, ?_⟩
    · rw [List.foldlM_cons, hi]
      exact k1
    · refine k3.trans (((modify_flatten adds i p hlt').append_right _).trans ?_)
      simp
    · intro j l hl
      obtain ⟨l', h, hh⟩ := k5 j (if i = j then l ++ [p] else l) (by rw [List.getElem?_modify, hl]; simp)
      refine ⟨l', h, fun q hq => hh q ?_⟩
      split_ifs
      · simp [hq]
      · exact hq
    · intro q hq j hj
      rcases List.mem_cons.1 hq with rfl | hq
      · rw [hi, Option.some.injEq] at hj
        subst hj
        obtain ⟨l', h, hh⟩ := k5 i (adds[i] ++ [q]) (by rw [List.getElem?_modify, List.getElem?_eq_getElem hlt']; simp)
        exact ⟨l', h, hh q (by simp)⟩
      · exact k6 q hq j hj

omit [LinearOrder (Lin T)] in
theorem delayAll {X : Type*} (cap : T) (l : List (T × List X)) (h : ∀ e ∈ l, cap ≤ e.1) : ∀ adds : List (T × List X),
    l.foldlM (fun additions (ta : T × _) => (delayed cap ta.1).map fun time => stashAppend additions time ta.2) adds = some (l.foldl (fun s e => stashAppend s e.1 e.2) adds) := by
  induction l with
  | nil => intro adds; rfl
  | cons a l ih =>
    intro adds
    rw [List.foldlM_cons, delayed, if_pos (h a (by simp))]
    exact ih (fun e he => h e (by simp [he])) _

omit [LinearOrder K] [LinearOrder V] [LinearOrder (Lin T)] [AddCommMonoid R] [DecidableEq R] in
theorem restash_ok (cap : T) (ps : Upds (PropData K V T) T R) (adds : List (T × Upds (PropData K V T) T R)) (hps : ∀ p ∈ ps, cap ≤ p.2.1) (hadds : ∀ e ∈ adds, e.2 ≠ []) :
    ∃ ps' adds', restash cap ps adds = some (ps', adds') ∧ (ps' ++ stashFlat adds').Perm (ps ++ stashFlat adds) ∧ (∀ p ∈ ps', p ∈ ps) ∧
      (∀ Q : T → PropData K V T × T × R → Prop, (∀ p ∈ ps, ∀ c, cap ≤ c → c ≤ p.2.1 → Q c p) → StashAll Q adds → StashAll Q adds') ∧
      (∀ e ∈ adds', cap ≤ e.1 ∨ ∃ e' ∈ adds, e'.1 = e.1) ∧ ∀ e ∈ adds', e.2 ≠ [] := by
  have same : ∃ ps' adds', some (ps, adds) = some (ps', adds') ∧ (ps' ++ stashFlat adds').Perm (ps ++ stashFlat adds) ∧ (∀ p ∈ ps', p ∈ ps) ∧
      (∀ Q : T → PropData K V T × T × R → Prop, (∀ p ∈ ps, ∀ c, cap ≤ c → c ≤ p.2.1 → Q c p) → StashAll Q adds → StashAll Q adds') ∧
      (∀ e ∈ adds', cap ≤ e.1 ∨ ∃ e' ∈ adds, e'.1 = e.1) ∧ ∀ e ∈ adds', e.2 ≠ [] :=
    ⟨ps, adds, rfl, List.Perm.refl _, fun p hp => hp, fun Q _ h => h, fun e he => Or.inr ⟨e, he, rfl⟩, hadds⟩
  have hAb : ∀ p ∈ ps, Beyond (acExtend [] (ps.map fun p => p.2.1)) p.2.1 := by
    intro p hp
    rw [beyond_acExtend]
    exact Or.inr ⟨p.2.1, List.mem_map.2 ⟨p, hp, rfl⟩, le_refl _⟩
  have hAm : ∀ t ∈ acExtend [] (ps.map fun p => p.2.1), ∃ p ∈ ps, p.2.1 = t := by
    intro t ht
    rcases mem_acExtend ht with h | h
    · simp at h
    · exact List.mem_map.1 h
  have hanti := isAntichain_acExtend [] (ps.map fun p => p.2.1) (by simp [IsAntichainList])
  unfold restash
  generalize acExtend [] (ps.map fun p => p.2.1) = A at hAb hAm hanti
  match A, hAb, hAm, hanti with
  | [], _, _, _ => exact same
  | [t], hAb, hAm, hanti =>
    simp only
    split_ifs
    · obtain ⟨p, hp, rfl⟩ := hAm t (by simp)
      have hle := hps p hp
      rw [delayed, if_pos hle]
      refine ⟨[], stashAppend adds p.2.1 ps, rfl, ?_, by simp, ?_, ?_, ?_⟩
      · exact (stashAppend_flat adds p.2.1 ps).trans List.perm_append_comm
      · intro Q h1 h2
        refine stashAppend_all h2 fun q hq => h1 q hq p.2.1 hle ?_
        obtain ⟨f, hf, hle⟩ := hAb q hq
        simp only [List.mem_singleton] at hf
        subst hf; exact hle
      · intro e he
        rcases stashAppend_keys he with h | h
        · exact Or.inl (h ▸ hle)
        · exact Or.inr h
      · exact stashAppend_nonempty hadds (List.ne_nil_of_mem hp)
    · exact same
  | t1 :: t2 :: A', hAb, hAm, hanti =>
    simp only
    obtain ⟨r, h1, h2, h3, h4, h5⟩ := peelOff_ok (t1 :: t2 :: A') ps hAb
    rw [h1]
    simp only
    obtain ⟨B, hB⟩ : ∃ B, B = t1 :: t2 :: A' := ⟨_, rfl⟩
    rw [← hB] at h1 h2 h4 h5 hAb hAm hanti ⊢
    have hcap : ∀ e ∈ B.zip r, cap ≤ e.1 := by
      intro e he
      obtain ⟨p, hp, h⟩ := hAm e.1 (List.of_mem_zip he).1
      rw [← h]; exact hps p hp
    have hflat : stashFlat (B.zip r) = r.flatten := by
      unfold stashFlat
      rw [List.flatMap_def, List.map_snd_zip (by omega)]
    rw [delayAll cap _ hcap]
    obtain ⟨k1, k2, k3, k4⟩ := stashExtend_ok (B.zip r) adds
    refine ⟨[], _, rfl, ?_, by simp, ?_, ?_, ?_⟩
    · rw [hflat] at k1
      exact k1.trans (List.perm_append_comm.trans (h3.append_right _))
    · intro Q q1 q2
      refine k2 Q q2 ?_
      intro e he p hp
      obtain ⟨i, hi, rfl⟩ := List.getElem_of_mem he
      have hiA : i < B.length := by simp at hi; omega
      have hir : i < r.length := by simp at hi; omega
      rw [List.getElem_zip] at hp ⊢
      refine q1 p (h3.subset (List.mem_flatten.2 ⟨r[i], List.getElem_mem _, hp⟩)) _ ?_ ?_
      · have := hcap _ he; rw [List.getElem_zip] at this; exact this
      · exact h4 i B[i] r[i] (List.getElem?_eq_getElem hiA) (List.getElem?_eq_getElem hir) p hp
    · intro e he
      obtain ⟨e', h | h, hh⟩ := k3 e he
      · exact Or.inr ⟨e', h, hh⟩
      · exact Or.inl (hh ▸ hcap e' h)
    · refine k4 hadds ?_
      intro e he
      obtain ⟨i, hi, rfl⟩ := List.getElem_of_mem he
      have hiA : i < B.length := by simp at hi; omega
      have hir : i < r.length := by simp at hi; omega
      rw [List.getElem_zip]
      obtain ⟨p, hp, hpt⟩ := hAm B[i] (List.getElem_mem _)
      obtain ⟨l, hl, hpl⟩ := h5 p hp i (by
        rw [List.findIdx?_eq_some_iff_getElem]
        refine ⟨hiA, by simp [hpt], ?_⟩
        intro j hj
        have := List.pairwise_iff_getElem.1 hanti j i (by omega) hiA hj
        simpa [hpt] using this.1)
      rw [List.getElem?_eq_getElem hir, Option.some.injEq] at hl
      simp only [hl]
      exact List.ne_nil_of_mem hpl

/-- What is owed to all that a stash holds. -/
def stashOwed (x : DOut × T) (i : T) (trace : Upds (K × V2) T R2) (s : List (T × Upds (PropData K V T) T R)) : M :=
  ((stashFlat s).map (owed comparison logic mul x i trace)).sum

omit [LinearOrder V] [LinearOrder V2] [DecidableLE T] [LinearOrder (Lin T)] [DecidableEq R] [DecidableEq R2] in
theorem stashOwed_cons (x : DOut × T) (i : T) (trace : Upds (K × V2) T R2) (e : T × Upds (PropData K V T) T R) (s : List (T × Upds (PropData K V T) T R)) :
    stashOwed comparison logic mul x i trace (e :: s) = (e.2.map (owed comparison logic mul x i trace)).sum + stashOwed comparison logic mul x i trace s := by
  simp [stashOwed, stashFlat]

omit [LinearOrder V] [LinearOrder V2] [DecidableLE T] [LinearOrder (Lin T)] [DecidableEq R2] in
theorem sum_owed_filter (x : DOut × T) (i : T) (trace : Upds (K × V2) T R2) (ps : Upds (PropData K V T) T R) :
    ((ps.filter fun p => p.2.2 ≠ 0).map (owed comparison logic mul x i trace)).sum = (ps.map (owed comparison logic mul x i trace)).sum := by
  induction ps with
  | nil => rfl
  | cons p ps ih =>
    by_cases h : p.2.2 = 0
    · rw [List.filter_cons_of_neg (by simp [h]), ih, List.map_cons, List.sum_cons]
      have : p = (p.1, p.2.1, 0) := by rw [← h]
      rw [this, owed_zero, zero_add]
    · rw [List.filter_cons_of_pos (by simp [h]), List.map_cons, List.map_cons, List.sum_cons, List.sum_cons, ih]

/-- Proposals are at or after their capability, and not after their own time. -/
def PropOk (c : T) (p : PropData K V T × T × R) : Prop := c ≤ p.2.1 ∧ p.2.1 ≤ p.1.time

/-- A proposal that must wait. -/
def MustWait (frontier2 : List T) (c : T) (p : PropData K V T × T × R) : Prop := Beyond frontier2 c ∨ ∃ f ∈ frontier2, comparison f p.2.1 = true

theorem visitStash_ok {contents : Contents K V2 T R2} (hs : ContentsSorted contents) (trace : Upds (K × V2) T R2) (frontier2 : List T) :
    ∀ (stash adds : List (T × Upds (PropData K V T) T R)) (y : Bool × Option Nat), StashAll PropOk stash → StashAll PropOk adds → (∀ e ∈ adds, e.2 ≠ []) →
    (∀ e ∈ stash, ∀ p : PropData K V T × T × R, PropOk e.1 p → (∀ f ∈ frontier2, ¬ comparison f p.2.1 = true) → Exact comparison logic mul contents trace p) →
    ∃ stash' adds' y' outs, visitStash comparison logic (fun a b => mul a b) contents frontier2 stash adds y = some (stash', adds', y', outs) ∧
      StashAll PropOk stash' ∧ StashAll PropOk adds' ∧ stash'.map Prod.fst = stash.map Prod.fst ∧
      (∀ e ∈ adds', (∃ e' ∈ adds, e'.1 = e.1) ∨ ∃ e' ∈ stash, e'.1 ≤ e.1) ∧ (∀ e ∈ adds', e.2 ≠ []) ∧
      (∀ o ∈ outs, (∃ e ∈ stash, e.1 = o.1) ∧ o.1 ≤ o.2.2.1) ∧
      (∀ x i, total (outs.map Prod.snd) x i + stashOwed comparison logic mul x i trace stash' + stashOwed comparison logic mul x i trace adds'
        = stashOwed comparison logic mul x i trace stash + stashOwed comparison logic mul x i trace adds) ∧
      (y = (false, none) → StashAll (MustWait comparison frontier2) adds → StashAll (MustWait comparison frontier2) stash' ∧ StashAll (MustWait comparison frontier2) adds')
  | [], adds, y, _, h2, h3, _ => ⟨[], adds, y, [], rfl, by simp [StashAll], h2, rfl, fun e he => Or.inl ⟨e, he, rfl⟩, h3, by simp,
      fun x i => by simp [total_nil], fun _ h => ⟨by simp [StashAll], h⟩⟩
  | (cap, ps) :: stash, adds, y, h1, h2, h3, hex => by
    simp only [visitStash]
    have h1' : StashAll PropOk stash := fun e he => h1 e (by simp [he])
    have hps : ∀ p ∈ ps, PropOk cap p := h1 (cap, ps) (by simp)
    have hex' : ∀ e ∈ stash, ∀ p : PropData K V T × T × R, PropOk e.1 p → (∀ f ∈ frontier2, ¬ comparison f p.2.1 = true) → Exact comparison logic mul contents trace p :=
      fun e he => hex e (by simp [he])
    by_cases hcond : (!(askYield y).1 && !lessEqual frontier2 cap) = true
    · rw [if_pos hcond]
      obtain ⟨ps', y', outs, k1, k2, k3, k3', k4, k5⟩ := processProposals_ok comparison logic mul hs trace frontier2 ps (askYield y) (by
        rintro p ⟨q, hq, e1, e2⟩ hf
        refine hex (cap, ps) (by simp) p ?_ hf
        have := hps q hq
        unfold PropOk at this ⊢
        rw [e1, e2] at this; exact this)
      have hps' : ∀ p ∈ ps', PropOk cap p := by
        intro p hp
        obtain ⟨⟨q, hq, e1, e2⟩, -⟩ := k2 p hp
        have := hps q hq
        unfold PropOk at this ⊢
        rw [e1, e2] at this; exact this
      obtain ⟨ps2, adds2, r1, r2, r3, r4, r5, r6⟩ := restash_ok cap (ps'.filter fun p => p.2.2 ≠ 0) adds (fun p hp => (hps' p (List.mem_of_mem_filter hp)).1) h3
      have hadds2 : StashAll PropOk adds2 := r4 PropOk (fun p hp c _ hc => ⟨hc, (hps' p (List.mem_of_mem_filter hp)).2⟩) h2
      obtain ⟨stash', adds', y'', outs', s1, s2, s3, s4, s5, s6, s7, s8, s9⟩ := visitStash_ok hs trace frontier2 stash adds2 y' h1' hadds2 r6 hex'
      simp only [k1, r1, s1, Option.map_some]
      refine ⟨_, _, _, _, rfl, ?_, s3, ?_, ?_, s6, ?_, ?_, ?_⟩
      · intro e he
        rcases List.mem_cons.1 he with rfl | he
        · exact fun p hp => hps' p (List.mem_of_mem_filter (r3 p hp))
        · exact s2 e he
      · simp [s4]
      · intro e he
        rcases s5 e he with ⟨e', he', h⟩ | ⟨e', he', h⟩
        · rcases r5 e' he' with h' | ⟨e'', he'', h'⟩
          · exact Or.inr ⟨(cap, ps), by simp, h ▸ h'⟩
          · exact Or.inl ⟨e'', he'', h'.trans h⟩
        · exact Or.inr ⟨e', by simp [he'], h⟩
      · intro o ho
        rcases List.mem_append.1 ho with ho | ho
        · obtain ⟨u, hu, rfl⟩ := List.mem_map.1 ho
          obtain ⟨p, hp, e⟩ := k4 u hu
          refine ⟨⟨(cap, ps), by simp, rfl⟩, ?_⟩
          simp only [e]
          exact (hps p hp).1
        · obtain ⟨⟨e, he, h⟩, h'⟩ := s7 o ho
          exact ⟨⟨e, by simp [he], h⟩, h'⟩
      · intro x i
        have c1 := s8 x i
        have c2 := k5 x i
        have c3 : (ps2.map (owed comparison logic mul x i trace)).sum + stashOwed comparison logic mul x i trace adds2
            = (ps'.map (owed comparison logic mul x i trace)).sum + stashOwed comparison logic mul x i trace adds := by
          rw [← sum_owed_filter comparison logic mul x i trace ps']
          unfold stashOwed
          rw [← List.sum_append, ← List.sum_append, ← List.map_append, ← List.map_append]
          exact (r2.map _).sum_eq
        have e0 : (outs.map fun u => (cap, u)).map Prod.snd = outs := by simp
        rw [List.map_append, e0, total_append, stashOwed_cons, stashOwed_cons]
        calc total outs x i + total (outs'.map Prod.snd) x i + ((ps2.map (owed comparison logic mul x i trace)).sum + stashOwed comparison logic mul x i trace stash')
              + stashOwed comparison logic mul x i trace adds'
            = total outs x i + (ps2.map (owed comparison logic mul x i trace)).sum + (total (outs'.map Prod.snd) x i + stashOwed comparison logic mul x i trace stash'
              + stashOwed comparison logic mul x i trace adds') := by abel
          _ = total outs x i + ((ps2.map (owed comparison logic mul x i trace)).sum + stashOwed comparison logic mul x i trace adds2)
              + stashOwed comparison logic mul x i trace stash := by rw [c1]; abel
          _ = total outs x i + (ps'.map (owed comparison logic mul x i trace)).sum + (stashOwed comparison logic mul x i trace adds
              + stashOwed comparison logic mul x i trace stash) := by rw [c3]; abel
          _ = _ := by rw [c2]; abel
      · intro hy hw
        have hy' : y' = (false, none) := k3 (by subst hy; rfl)
        have hp'w : ∀ p ∈ ps'.filter (fun p => p.2.2 ≠ 0), ∃ f ∈ frontier2, comparison f p.2.1 = true := by
          intro p hp
          obtain ⟨hp1, hp2⟩ := List.mem_filter.1 hp
          rcases (k2 p hp1).2 (by simpa using hp2) with h | h
          · rw [hy'] at h; simp at h
          · exact h
        obtain ⟨w1, w2⟩ := s9 hy' (r4 (MustWait comparison frontier2) (fun p hp c _ _ => Or.inr (hp'w p hp)) hw)
        refine ⟨?_, w2⟩
        intro e he
        rcases List.mem_cons.1 he with rfl | he
        · exact fun p hp => Or.inr (hp'w p (r3 p hp))
        · exact w1 e he
    · rw [if_neg hcond]
      obtain ⟨stash', adds', y', outs, s1, s2, s3, s4, s5, s6, s7, s8, s9⟩ := visitStash_ok hs trace frontier2 stash adds (askYield y) h1' h2 h3 hex'
      simp only [s1, Option.map_some]
      refine ⟨_, _, _, _, rfl, ?_, s3, ?_, ?_, s6, ?_, ?_, ?_⟩
      · intro e he
        rcases List.mem_cons.1 he with rfl | he
        · exact hps
        · exact s2 e he
      · simp [s4]
      · intro e he
        rcases s5 e he with h | ⟨e', he', h⟩
        · exact Or.inl h
        · exact Or.inr ⟨e', by simp [he'], h⟩
      · intro o ho
        obtain ⟨⟨e, he, h⟩, h'⟩ := s7 o ho
        exact ⟨⟨e, by simp [he], h⟩, h'⟩
      · intro x i
        rw [stashOwed_cons, stashOwed_cons]
        have := s8 x i
        calc total (outs.map Prod.snd) x i + ((ps.map (owed comparison logic mul x i trace)).sum + stashOwed comparison logic mul x i trace stash')
              + stashOwed comparison logic mul x i trace adds'
            = (ps.map (owed comparison logic mul x i trace)).sum + (total (outs.map Prod.snd) x i + stashOwed comparison logic mul x i trace stash'
              + stashOwed comparison logic mul x i trace adds') := by abel
          _ = _ := by rw [this]; abel
      · intro hy hw
        have hy' : askYield y = (false, none) := by subst hy; rfl
        obtain ⟨w1, w2⟩ := s9 hy' hw
        refine ⟨?_, w2⟩
        have hb : Beyond frontier2 cap := by
          rw [hy'] at hcond
          rw [← lessEqual_iff]
          simpa using hcond
        intro e he
        rcases List.mem_cons.1 he with rfl | he
        · exact fun p _ => Or.inl hb
        · exact w1 e he

/-- What holds between activations. -/
structure HalfInv (frontier_func : T → List T) (F1 : List T) (st : HalfJoin K V T R) : Prop where
  ok : StashAll PropOk st.stash
  ne : ∀ e ∈ st.stash, e.2 ≠ []
  cover : st.live = true → ∀ h, (h ∈ F1 ∨ ∃ e ∈ st.stash, e.1 = h) → ∀ q, Beyond (frontier_func h) q → Beyond st.logical q
  dead : st.live = false → F1 = [] ∧ st.stash = []

omit [DecidableEq T] [LinearOrder (Lin T)] in
theorem beyond_foldl_acExtend {X : Type*} (g : X → List T) (l : List X) : ∀ (F : List T) (q : T),
    Beyond (l.foldl (fun F x => acExtend F (g x)) F) q ↔ Beyond F q ∨ ∃ x ∈ l, Beyond (g x) q := by
  induction l with
  | nil => intro F q; simp
  | cons a l ih => intro F q; rw [List.foldl_cons, ih, beyond_acExtend]; simp [or_assoc]

theorem activate_ok {frontier_func : T → List T} (hf : HalfJoinFns comparison frontier_func) {trace : Upds (K × V2) T R2} {F1 : List T} {st : HalfJoin K V T R}
    (hinv : HalfInv frontier_func F1 st) {act : HalfJoinAct K V V2 T R R2} (hl : LegalHalf trace F1 st.logical act) :
    ∃ st' outs, st.activate comparison frontier_func logic (fun a b => mul a b) act = some (st', outs) ∧ HalfInv frontier_func act.frontier1 st' ∧
      (∀ x i, total (outs.map Prod.snd) x i + stashOwed comparison logic mul x i trace st'.stash
        = stashOwed comparison logic mul x i trace st.stash + ((act.msgs.flatMap Prod.snd).map (owed comparison logic mul x i trace)).sum) ∧
      (∀ o ∈ outs, o.1 ≤ o.2.2.1 ∧ (Beyond F1 o.1 ∨ ∃ e ∈ st.stash, e.1 = o.1)) ∧
      (∀ e ∈ st'.stash, Beyond F1 e.1 ∨ ∃ e' ∈ st.stash, e'.1 ≤ e.1) ∧
      (act.yields = none → StashAll (MustWait comparison act.frontier2) st'.stash) ∧
      ((∀ h h', h ≤ h' → FrontierLe (frontier_func h) (frontier_func h')) → FrontierLe st.logical st'.logical) := by
  obtain ⟨m1, m2, m3, m4⟩ := stashExtend_ok act.msgs st.stash
  set stash1 := act.msgs.foldl (fun s e => stashAppend s e.1 e.2) st.stash with hstash1
  set stash2 := act.order stash1 with hstash2
  have hperm : stash2.Perm stash1 := hl.order stash1
  have hok1 : StashAll PropOk stash2 := by
    have : StashAll PropOk stash1 := m2 PropOk hinv.ok fun e he p hp => (hl.msgs e he).2 p hp
    exact fun e he => this e (hperm.subset he)
  have hkeys : ∀ e ∈ stash2, Beyond F1 e.1 ∨ ∃ e' ∈ st.stash, e'.1 = e.1 := by
    intro e he
    obtain ⟨e', h | h, hh⟩ := m3 e (hperm.subset he)
    · exact Or.inr ⟨e', h, hh⟩
    · exact Or.inl (hh ▸ (hl.msgs e' h).1)
  have howed : ∀ x i, stashOwed comparison logic mul x i trace stash2
      = stashOwed comparison logic mul x i trace st.stash + ((act.msgs.flatMap Prod.snd).map (owed comparison logic mul x i trace)).sum := by
    intro x i
    unfold stashOwed
    rw [← List.sum_append, ← List.map_append]
    have : (stashFlat stash2).Perm (stashFlat st.stash ++ act.msgs.flatMap Prod.snd) := (hperm.flatMap_right _).trans m1
    exact (this.map _).sum_eq
  -- the loop over the stash
  obtain ⟨stash3, adds, y, outs, v1, v2, v3, v4, v5, v6, v7, v8, v9⟩ :
      ∃ stash' adds' y' outs, (if st.live then visitStash comparison logic (fun a b => mul a b) act.contents act.frontier2 stash2 [] (false, act.yields)
          else some (stash2, [], (false, act.yields), [])) = some (stash', adds', y', outs) ∧
      StashAll PropOk stash' ∧ StashAll PropOk adds' ∧ stash'.map Prod.fst = stash2.map Prod.fst ∧
      (∀ e ∈ adds', ∃ e' ∈ stash2, e'.1 ≤ e.1) ∧ (∀ e ∈ adds', e.2 ≠ []) ∧
      (∀ o ∈ outs, (∃ e ∈ stash2, e.1 = o.1) ∧ o.1 ≤ o.2.2.1) ∧
      (∀ x i, total (outs.map Prod.snd) x i + stashOwed comparison logic mul x i trace stash' + stashOwed comparison logic mul x i trace adds'
        = stashOwed comparison logic mul x i trace stash2) ∧
      (act.yields = none → StashAll (MustWait comparison act.frontier2) stash' ∧ StashAll (MustWait comparison act.frontier2) adds') := by
    by_cases hlive : st.live = true
    · rw [if_pos hlive]
      obtain ⟨now, later, t1, t2, t3⟩ := hl.shows
      obtain ⟨stash', adds', y', outs, w1, w2, w3, w4, w5, w6, w7, w8, w9⟩ :=
        visitStash_ok comparison logic mul hl.sorted trace act.frontier2 stash2 [] (false, act.yields) hok1 (by simp [StashAll]) (by simp) (by
          intro e he p hp hfr x i
          obtain ⟨h, hh, hle⟩ : ∃ h, (h ∈ F1 ∨ ∃ e ∈ st.stash, e.1 = h) ∧ h ≤ e.1 := by
            rcases hkeys e he with ⟨f, hf', hle⟩ | h
            · exact ⟨f, Or.inl hf', hle⟩
            · exact ⟨e.1, Or.inr h, le_refl _⟩
          refine owed_shown comparison logic mul hf t1 t2 t3 (h := h) ?_ p (hle.trans hp.1) hp.2 hfr x i
          intro s t hst q hq
          exact hst q (hinv.cover hlive h hh q hq))
      refine ⟨stash', adds', y', outs, w1, w2, w3, w4, ?_, w6, w7, ?_, ?_⟩
      · intro e he
        rcases w5 e he with ⟨e', he', -⟩ | h
        · simp at he'
        · exact h
      · intro x i
        rw [w8 x i]; simp [stashOwed, stashFlat]
      · intro hy
        exact w9 (by rw [hy]) (by simp [StashAll])
    · rw [if_neg hlive]
      obtain ⟨hF, hS⟩ := hinv.dead (by simpa using hlive)
      have hempty : stash2 = [] := by
        apply List.eq_nil_iff_forall_not_mem.2
        intro e he
        rcases hkeys e he with h | ⟨e', he', -⟩
        · rw [hF] at h; obtain ⟨f, hf', -⟩ := h; simp at hf'
        · rw [hS] at he'; simp at he'
      rw [hempty]
      exact ⟨[], [], _, [], rfl, by simp [StashAll], by simp [StashAll], rfl, by simp, by simp, by simp, fun x i => by simp [stashOwed, stashFlat, total_nil],
        fun _ => ⟨by simp [StashAll], by simp [StashAll]⟩⟩
  have hact : st.activate comparison frontier_func logic (fun a b => mul a b) act = some
      (⟨adds.foldl (fun s e => stashAppend s e.1 e.2) (stash3.filter fun e => !e.2.isEmpty),
        st.live && !(act.frontier1.isEmpty && (adds.foldl (fun s e => stashAppend s e.1 e.2) (stash3.filter fun e => !e.2.isEmpty)).isEmpty),
        if st.live then (adds.foldl (fun s e => stashAppend s e.1 e.2) (stash3.filter fun e => !e.2.isEmpty)).foldl (fun frontier e => acExtend frontier (frontier_func e.1))
          (act.frontier1.foldl (fun frontier time => acExtend frontier (frontier_func time)) []) else st.logical⟩, outs) := by
    unfold HalfJoin.activate
    simp only [← hstash1, ← hstash2, v1]
  obtain ⟨n1, n2, n3, n4⟩ := stashExtend_ok adds (stash3.filter fun e => !e.2.isEmpty)
  set stash4 := adds.foldl (fun s e => stashAppend s e.1 e.2) (stash3.filter fun e => !e.2.isEmpty) with hstash4
  have hkeys4 : ∀ e ∈ stash4, ∃ e' ∈ stash2, e'.1 ≤ e.1 := by
    intro e he
    obtain ⟨e', h | h, hh⟩ := n3 e he
    · have : e'.1 ∈ stash2.map Prod.fst := by rw [← v4]; exact List.mem_map.2 ⟨e', List.mem_of_mem_filter h, rfl⟩
      obtain ⟨e'', he'', h'⟩ := List.mem_map.1 this
      exact ⟨e'', he'', by rw [h', hh]⟩
    · obtain ⟨e'', he'', h'⟩ := v5 e' h
      exact ⟨e'', he'', hh ▸ h'⟩
  have hkeys4' : ∀ e ∈ stash4, Beyond F1 e.1 ∨ ∃ e' ∈ st.stash, e'.1 ≤ e.1 := by
    intro e he
    obtain ⟨e', he', hle⟩ := hkeys4 e he
    rcases hkeys e' he' with h | ⟨e'', he'', h⟩
    · exact Or.inl (beyond_mono h hle)
    · exact Or.inr ⟨e'', he'', by rw [h]; exact hle⟩
  have hsub : ∀ Q : T → PropData K V T × T × R → Prop, StashAll Q stash3 → StashAll Q adds → StashAll Q stash4 :=
    fun Q q1 q2 => n2 Q (fun e he => q1 e (List.mem_of_mem_filter he)) q2
  have hlog : ∀ q, Beyond (stash4.foldl (fun frontier e => acExtend frontier (frontier_func e.1)) (act.frontier1.foldl (fun frontier time => acExtend frontier (frontier_func time)) [])) q
      ↔ ∃ h, (h ∈ act.frontier1 ∨ ∃ e ∈ stash4, e.1 = h) ∧ Beyond (frontier_func h) q := by
    intro q
    rw [beyond_foldl_acExtend (fun e : T × _ => frontier_func e.1), beyond_foldl_acExtend]
    constructor
    · rintro ((h | ⟨x, hx, h⟩) | ⟨e, he, h⟩)
      · obtain ⟨f, hf', -⟩ := h; simp at hf'
      · exact ⟨x, Or.inl hx, h⟩
      · exact ⟨e.1, Or.inr ⟨e, he, rfl⟩, h⟩
    · rintro ⟨h, h' | ⟨e, he, rfl⟩, hb⟩
      · exact Or.inl (Or.inr ⟨h, h', hb⟩)
      · exact Or.inr ⟨e, he, hb⟩
  refine ⟨_, outs, hact, ⟨hsub _ v2 v3, ?_, ?_, ?_⟩, ?_, ?_, hkeys4', ?_, ?_⟩
  · refine n4 ?_ v6
    intro e he
    have := (List.mem_filter.1 he).2
    simpa using this
  · intro hlive h hh q hq
    have hlive' : st.live = true := by simp only [Bool.and_eq_true] at hlive; exact hlive.1
    simp only [hlive', if_true]
    exact (hlog q).2 ⟨h, hh, hq⟩
  · intro hdead
    simp only [Bool.and_eq_false_iff] at hdead
    rcases hdead with h | h
    · obtain ⟨hF, hS⟩ := hinv.dead h
      constructor
      · apply List.eq_nil_iff_forall_not_mem.2
        intro f hf'
        obtain ⟨g, hg, -⟩ := hl.advances f hf'
        rw [hF] at hg; simp at hg
      · apply List.eq_nil_iff_forall_not_mem.2
        intro e he
        rcases hkeys4' e he with ⟨g, hg, -⟩ | ⟨e', he', -⟩
        · rw [hF] at hg; simp at hg
        · rw [hS] at he'; simp at he'
    · simpa using h
  · intro x i
    rw [← howed, ← v8 x i, add_assoc]
    congr 1
    unfold stashOwed
    rw [← List.sum_append, ← List.map_append]
    have e1 : stashFlat (stash3.filter fun e => !e.2.isEmpty) = stashFlat stash3 := by
      unfold stashFlat
      clear n1 n2 n3 n4 hstash4 stash4 hkeys4 hkeys4' hsub hlog hact v1 v2 v4 v8 v9
      induction stash3 with
      | nil => rfl
      | cons e l ih =>
        by_cases he : e.2.isEmpty = true
        · rw [List.filter_cons_of_neg (by simp [he]), ih, List.flatMap_cons]
          simp only [List.isEmpty_iff] at he
          rw [he]; rfl
        · rw [List.filter_cons_of_pos (by simpa using he), List.flatMap_cons, List.flatMap_cons, ih]
    rw [e1] at n1
    exact (n1.map _).sum_eq
  · intro o ho
    obtain ⟨⟨e, he, h⟩, h'⟩ := v7 o ho
    refine ⟨h', ?_⟩
    rw [← h]
    exact hkeys e he
  · intro hy
    obtain ⟨w1, w2⟩ := v9 hy
    exact hsub _ w1 w2
  · intro hmono q hq
    by_cases hlive : st.live = true
    · simp only [hlive, if_true] at hq
      obtain ⟨h, hh, hb⟩ := (hlog q).1 hq
      obtain ⟨h', hh', hle⟩ : ∃ h', (h' ∈ F1 ∨ ∃ e ∈ st.stash, e.1 = h') ∧ h' ≤ h := by
        rcases hh with hh | ⟨e, he, rfl⟩
        · obtain ⟨f, hf', hle⟩ := hl.advances h hh
          exact ⟨f, Or.inl hf', hle⟩
        · rcases hkeys4' e he with ⟨f, hf', hle⟩ | ⟨e', he', hle⟩
          · exact ⟨f, Or.inl hf', hle⟩
          · exact ⟨e'.1, Or.inr ⟨e', he', rfl⟩, hle⟩
      exact hinv.cover hlive h' hh' q (hmono h' h hle q hb)
    · have : st.live = false := by simpa using hlive
      simp only [this, Bool.false_eq_true, if_false] at hq
      exact hq

omit [LinearOrder K] [LinearOrder V] [DecidableLE T] [DecidableEq T] [LinearOrder (Lin T)] [AddCommMonoid R] [DecidableEq R] in
theorem halfInv_init [OrderBot T] (frontier_func : T → List T) : HalfInv frontier_func [⊥] (HalfJoin.init : HalfJoin K V T R) :=
  ⟨by simp [HalfJoin.init, StashAll], by simp [HalfJoin.init], fun _ _ _ q _ => ⟨⊥, by simp [HalfJoin.init], bot_le⟩, by simp [HalfJoin.init]⟩

/-- The frontier of the first input after some activations. -/
def lastF1 (F1 : List T) (acts : List (HalfJoinAct K V V2 T R R2)) : List T := ((acts.getLast?).map HalfJoinAct.frontier1).getD F1

theorem run_ok {frontier_func : T → List T} (hf : HalfJoinFns comparison frontier_func) {trace : Upds (K × V2) T R2} :
    ∀ (acts : List (HalfJoinAct K V V2 T R R2)) (F1 : List T) (st : HalfJoin K V T R), HalfInv frontier_func F1 st →
    LegalHalfRun comparison frontier_func logic (fun a b => mul a b) trace F1 st acts →
    ∃ st' outs, st.run comparison frontier_func logic (fun a b => mul a b) acts = some (st', outs) ∧ HalfInv frontier_func (lastF1 F1 acts) st' ∧
      (∀ x i, total (outs.map Prod.snd) x i + stashOwed comparison logic mul x i trace st'.stash
        = stashOwed comparison logic mul x i trace st.stash + ((acts.flatMap fun a => a.msgs.flatMap Prod.snd).map (owed comparison logic mul x i trace)).sum) ∧
      (∀ o ∈ outs, o.1 ≤ o.2.2.1)
  | [], F1, st, hinv, _ => ⟨st, [], rfl, hinv, fun x i => by simp [total_nil], by simp⟩
  | act :: acts, F1, st, hinv, hl => by
    obtain ⟨hl1, hl2⟩ := hl
    obtain ⟨st1, outs1, h1, h2, h3, h4, -⟩ := activate_ok comparison logic mul hf hinv hl1
    obtain ⟨st', outs, k1, k2, k3, k4⟩ := run_ok hf acts act.frontier1 st1 h2 (hl2 st1 outs1 h1)
    refine ⟨st', outs1 ++ outs, ?_, ?_, ?_, ?_⟩
    · unfold HalfJoin.run; rw [h1]; simp only [k1, Option.map_some]
    · have : lastF1 F1 (act :: acts) = lastF1 act.frontier1 acts := by
        unfold lastF1
        cases acts with
        | nil => rfl
        | cons a as => rw [List.getLast?_cons_cons]; cases h : (a :: as).getLast? with
          | none => simp at h
          | some z => rfl
      rw [this]; exact k2
    · intro x i
      have c1 := h3 x i
      have c2 := k3 x i
      rw [List.map_append, total_append, add_assoc, c2, ← add_assoc, c1, List.flatMap_cons, List.map_append, List.sum_append, add_assoc]
    · intro o ho
      rcases List.mem_append.1 ho with ho | ho
      · exact (h4 o ho).1
      · exact k4 o ho

theorem legalHalfRun_append {frontier_func : T → List T} {trace : Upds (K × V2) T R2} : ∀ (acts acts2 : List (HalfJoinAct K V V2 T R R2)) (F1 : List T) (st : HalfJoin K V T R),
    LegalHalfRun comparison frontier_func logic (fun a b => mul a b) trace F1 st (acts ++ acts2) →
    LegalHalfRun comparison frontier_func logic (fun a b => mul a b) trace F1 st acts ∧
    ∀ st' outs, st.run comparison frontier_func logic (fun a b => mul a b) acts = some (st', outs) →
      LegalHalfRun comparison frontier_func logic (fun a b => mul a b) trace (lastF1 F1 acts) st' acts2
  | [], acts2, F1, st, h => ⟨trivial, fun st' outs hr => by
      simp only [HalfJoin.run, Option.some.injEq, Prod.mk.injEq] at hr
      obtain ⟨rfl, -⟩ := hr
      exact h⟩
  | act :: acts, acts2, F1, st, ⟨h1, h2⟩ => by
    have ih := fun st1 outs hst => legalHalfRun_append acts acts2 act.frontier1 st1 (h2 st1 outs hst)
    refine ⟨⟨h1, fun st1 outs hst => (ih st1 outs hst).1⟩, ?_⟩
    intro st' outs hr
    unfold HalfJoin.run at hr
    cases ha : st.activate comparison frontier_func logic (fun a b => mul a b) act with
    | none => rw [ha] at hr; simp at hr
    | some r =>
      obtain ⟨st1, outs1⟩ := r
      rw [ha] at hr
      simp only [Option.map_eq_some_iff, Prod.mk.injEq] at hr
      obtain ⟨⟨a, b⟩, hr1, rfl, -⟩ := hr
      have := (ih st1 outs1 ha).2 a b hr1
      have e : lastF1 F1 (act :: acts) = lastF1 act.frontier1 acts := by
        unfold lastF1
        cases acts with
        | nil => rfl
        | cons a as => rw [List.getLast?_cons_cons]; cases h : (a :: as).getLast? with
          | none => simp at h
          | some z => rfl
      rw [e]; exact this

omit [DecidableEq DOut] [AddCommMonoid M] in
theorem run_append' {frontier_func : T → List T} (mul' : R → R2 → M) : ∀ (acts acts2 : List (HalfJoinAct K V V2 T R R2)) (st : HalfJoin K V T R),
    st.run comparison frontier_func logic mul' (acts ++ acts2) = (match st.run comparison frontier_func logic mul' acts with
      | none => none
      | some (st', outs) => (st'.run comparison frontier_func logic mul' acts2).map fun r => (r.1, outs ++ r.2))
  | [], acts2, st => by simp only [List.nil_append, HalfJoin.run]; cases st.run comparison frontier_func logic mul' acts2 <;> simp
  | act :: acts, acts2, st => by
    rw [List.cons_append, HalfJoin.run, HalfJoin.run]
    cases ha : st.activate comparison frontier_func logic mul' act with
    | none => rfl
    | some r =>
      simp only
      rw [run_append' mul' acts acts2 r.1]
      cases hr : r.1.run comparison frontier_func logic mul' acts with
      | none => rfl
      | some q =>
        simp only [Option.map_some]
        cases q.1.run comparison frontier_func logic mul' acts2 <;> simp

end

end DD
