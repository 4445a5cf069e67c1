import Verif.Model.PointStamp
import Verif.Proofs.Lattice
import Mathlib.Data.List.GetD

namespace DD
open PointStamp

section
variable {T : Type*} [PartialOrder T] [OrderBot T] [DecidableEq T]

@[simp] theorem coord_nil (i : Nat) : coord ([] : List T) i = ⊥ := by simp [coord]
@[simp] theorem coord_cons_zero (a : T) (v : List T) : coord (a :: v) 0 = a := by simp [coord]
@[simp] theorem coord_cons_succ (a : T) (v : List T) (i : Nat) : coord (a :: v) (i+1) = coord v i := by simp [coord]

theorem coord_append_bot (v : List T) (i : Nat) : coord (v ++ [⊥]) i = coord v i := by
  induction v generalizing i with
  | nil => cases i <;> simp [coord]
  | cons a v ih => cases i <;> simp [ih]

theorem coord_popMin (v : List T) (i : Nat) : coord (popMin v) i = coord v i := by
  induction v using List.reverseRecOn with
  | nil => simp [popMin]
  | append_singleton l x ih =>
    unfold popMin at *
    rw [List.rdropWhile_concat]
    split_ifs with h
    · have h : x = ⊥ := by simpa using h
      subst h
      rw [ih, coord_append_bot]
    · rfl

theorem norm_new (v : List T) : (new v).Norm := by
  unfold Norm new
  induction v using List.reverseRecOn with
  | nil => simp [popMin]
  | append_singleton l x ih =>
    simp only [popMin] at *
    rw [List.rdropWhile_concat]
    split_ifs with h
    · exact ih
    · have h : ¬ x = ⊥ := by simpa using h
      simpa using h

theorem popMin_of_norm {v : List T} (h : (PointStamp.mk v).Norm) : popMin v = v := by
  unfold Norm at h
  induction v using List.reverseRecOn with
  | nil => simp [popMin]
  | append_singleton l x ih =>
    simp only [popMin] at *
    rw [List.rdropWhile_concat]
    simp only [List.getLast?_append, List.getLast?_singleton, Option.some_or] at h
    have : x ≠ ⊥ := fun e => h (by simp [e])
    simp [this]

theorem norm_tail {a : T} {v : List T} (h : (PointStamp.mk (a :: v)).Norm) : (PointStamp.mk v).Norm := by
  unfold Norm at *
  cases v with
  | nil => simp
  | cons b v => simpa [List.getLast?_cons_cons] using h

theorem nil_of_norm_bot {v : List T} (h : (PointStamp.mk v).Norm) (h0 : ∀ i, coord v i = ⊥) : v = [] := by
  induction v with
  | nil => rfl
  | cons a v ih =>
    exfalso
    have hv := ih (norm_tail h) (fun i => by simpa using h0 (i+1))
    subst hv
    have : a = ⊥ := by simpa using h0 0
    subst this
    simp [Norm] at h

theorem eq_of_coord {v w : List T} (hv : (PointStamp.mk v).Norm) (hw : (PointStamp.mk w).Norm)
    (h : ∀ i, coord v i = coord w i) : v = w := by
  induction v generalizing w with
  | nil => exact (nil_of_norm_bot hw fun i => by simpa using (h i).symm).symm
  | cons a v ih =>
    cases w with
    | nil => exact nil_of_norm_bot hv fun i => by simpa using h i
    | cons b w =>
      have := h 0
      simp only [coord_cons_zero] at this
      subst this
      rw [ih (norm_tail hv) (norm_tail hw) fun i => by simpa using h (i+1)]

theorem zipMin_all (v w : List T) (P : T → T → Prop) [DecidableRel P] (hP : ∀ b, P ⊥ b) :
    (zipMin v w).all (fun p => decide (P p.1 p.2)) = true ↔ ∀ i, P (coord v i) (coord w i) := by
  induction v generalizing w with
  | nil => simp [zipMin, hP]
  | cons a v ih =>
    cases w with
    | nil =>
      simp only [zipMin, List.all_cons, Bool.and_eq_true, decide_eq_true_eq, ih]
      constructor
      · rintro ⟨h1, h2⟩ i; cases i <;> simp_all
      · exact fun h => ⟨by simpa using h 0, fun i => by simpa using h (i+1)⟩
    | cons b w =>
      simp only [zipMin, List.all_cons, Bool.and_eq_true, decide_eq_true_eq, ih]
      constructor
      · rintro ⟨h1, h2⟩ i; cases i <;> simp_all
      · exact fun h => ⟨by simpa using h 0, fun i => by simpa using h (i+1)⟩

theorem less_equal_iff [DecidableLE T] (a b : PointStamp T) :
    less_equal a b = true ↔ ∀ i, coord a.vector i ≤ coord b.vector i :=
  zipMin_all a.vector b.vector (fun x y => x ≤ y) fun _ => bot_le

end

section
variable {T : Type*} [Lattice T] [OrderBot T] [DecidableEq T]

theorem coord_joinVec (v w : List T) (i : Nat) :
    coord (List.zipWith (· ⊔ ·) v w ++ v.drop (min v.length w.length) ++ w.drop (min v.length w.length)) i
      = coord v i ⊔ coord w i := by
  induction v generalizing w i with
  | nil => simp
  | cons a v ih =>
    cases w with
    | nil => simp
    | cons b w =>
      have hmin : min (a :: v).length (b :: w).length = min v.length w.length + 1 := by simp
      rw [hmin]
      cases i with
      | zero => simp
      | succ i => simpa using ih w i

theorem coord_meetVec (v w : List T) (i : Nat) :
    coord (List.zipWith (· ⊓ ·) v w) i = coord v i ⊓ coord w i := by
  induction v generalizing w i with
  | nil => simp
  | cons a v ih =>
    cases w with
    | nil => simp
    | cons b w => cases i with
      | zero => simp
      | succ i => simpa using ih w i

theorem coord_join (a b : PointStamp T) (i : Nat) :
    coord (join a b).vector i = coord a.vector i ⊔ coord b.vector i := by
  simp only [join, new, coord_popMin]; exact coord_joinVec _ _ _

theorem coord_meet (a b : PointStamp T) (i : Nat) :
    coord (meet a b).vector i = coord a.vector i ⊓ coord b.vector i := by
  simp only [meet, new, coord_popMin]; exact coord_meetVec _ _ _

theorem join_assign_vec (a b : PointStamp T) : (join_assign a b).vector =
    List.zipWith (· ⊔ ·) a.vector b.vector ++ a.vector.drop (min a.vector.length b.vector.length)
      ++ b.vector.drop (min a.vector.length b.vector.length) := by
  unfold join_assign
  simp only
  congr 1
  split_ifs with h
  · congr 1; omega
  · symm; rw [List.drop_eq_nil_iff]; omega

theorem norm_join_assign {a b : PointStamp T} (ha : a.Norm) (hb : b.Norm) : (join_assign a b).Norm := by
  have key : ∀ v w : List T, (PointStamp.mk v).Norm → (PointStamp.mk w).Norm →
      (PointStamp.mk (List.zipWith (· ⊔ ·) v w ++ v.drop (min v.length w.length) ++ w.drop (min v.length w.length))).Norm := by
    intro v
    induction v with
    | nil => intro w _ hw; simpa using hw
    | cons x v ih =>
      intro w hv hw
      cases w with
      | nil => simpa using hv
      | cons y w =>
        have hmin : min (x :: v).length (y :: w).length = min v.length w.length + 1 := by simp
        have := ih w (norm_tail hv) (norm_tail hw)
        rw [hmin]
        simp only [List.zipWith_cons_cons, List.drop_succ_cons, List.cons_append]
        generalize hl : List.zipWith (· ⊔ ·) v w ++ v.drop (min v.length w.length) ++ w.drop (min v.length w.length) = l at *
        cases l with
        | cons z l => unfold Norm at *; simpa [List.getLast?_cons_cons] using this
        | nil =>
          simp only [List.append_eq_nil_iff, List.drop_eq_nil_iff, List.zipWith_eq_nil_iff] at hl
          have hv0 : v = [] := by
            rcases hl.1.1 with h | h
            · exact h
            · have := hl.1.2; rw [h] at this; simpa using this
          subst hv0
          unfold Norm at *
          simp only [List.getLast?_singleton, ne_eq, Option.some.injEq] at *
          exact fun h => hv (sup_eq_bot_iff.1 h).1
  have := key a.vector b.vector ha hb
  unfold Norm at *
  rwa [join_assign_vec]

theorem join_assign_eq {a b : PointStamp T} (ha : a.Norm) (hb : b.Norm) : join_assign a b = join a b := by
  apply PointStamp.ext
  have := popMin_of_norm (v := (join_assign a b).vector) (norm_join_assign ha hb)
  rw [← this, join_assign_vec]; rfl

theorem meet_assign_eq (a b : PointStamp T) : meet_assign a b = meet a b := by
  unfold meet_assign meet new
  simp only [PointStamp.mk.injEq]
  congr 1
  generalize a.vector = v; generalize b.vector = w
  induction v generalizing w with
  | nil => simp
  | cons x v ih =>
    cases w with
    | nil => simp
    | cons y w => simpa using ih w

end

/-- Normalized point stamps, the values that exist in a running program. -/
def PS (T : Type*) [LE T] [OrderBot T] [DecidableEq T] := { p : PointStamp T // p.Norm }

namespace PS
variable {T : Type*}

instance [PartialOrder T] [OrderBot T] [DecidableEq T] [DecidableLE T] : PartialOrder (PS T) where
  le a b := less_equal a.1 b.1 = true
  le_refl a := by rw [less_equal_iff]; exact fun _ => le_rfl
  le_trans a b c h1 h2 := by rw [less_equal_iff] at *; exact fun i => (h1 i).trans (h2 i)
  le_antisymm a b h1 h2 := by
    rw [less_equal_iff] at *
    exact Subtype.ext (PointStamp.ext (eq_of_coord a.2 b.2 fun i => le_antisymm (h1 i) (h2 i)))

theorem le_iff [PartialOrder T] [OrderBot T] [DecidableEq T] [DecidableLE T] (a b : PS T) :
    a ≤ b ↔ ∀ i, coord a.1.vector i ≤ coord b.1.vector i := less_equal_iff _ _

instance [PartialOrder T] [OrderBot T] [DecidableEq T] [DecidableLE T] : DecidableLE (PS T) :=
  fun a b => inferInstanceAs (Decidable (less_equal a.1 b.1 = true))

instance [LE T] [OrderBot T] [DecidableEq T] : DecidableEq (PS T) :=
  fun a b => decidable_of_iff (a.1 = b.1) Subtype.ext_iff.symm

instance [Lattice T] [OrderBot T] [DecidableEq T] [DecidableLE T] : Lattice (PS T) where
  sup a b := ⟨join a.1 b.1, norm_new _⟩
  inf a b := ⟨meet a.1 b.1, norm_new _⟩
  le_sup_left a b := (le_iff _ _).2 fun i => by rw [coord_join]; exact le_sup_left
  le_sup_right a b := (le_iff _ _).2 fun i => by rw [coord_join]; exact le_sup_right
  sup_le a b c h1 h2 := (le_iff _ _).2 fun i => by
    rw [coord_join]; exact sup_le ((le_iff _ _).1 h1 i) ((le_iff _ _).1 h2 i)
  inf_le_left a b := (le_iff _ _).2 fun i => by rw [coord_meet]; exact inf_le_left
  inf_le_right a b := (le_iff _ _).2 fun i => by rw [coord_meet]; exact inf_le_right
  le_inf a b c h1 h2 := (le_iff _ _).2 fun i => by
    rw [coord_meet]; exact le_inf ((le_iff _ _).1 h1 i) ((le_iff _ _).1 h2 i)

end PS

/-! ### Summaries -/

section Collect
variable {α : Type*}

theorem collect_eq_some {l : List (Option α)} {r : List α} : collect l = some r ↔ l = r.map some := by
  induction l generalizing r with
  | nil => simp only [collect, Option.some.injEq]; cases r <;> simp
  | cons a l ih =>
    cases a with
    | none => cases r <;> simp [collect]
    | some a =>
      simp only [collect, Option.map_eq_some_iff]
      constructor
      · rintro ⟨r', h, rfl⟩; simp [ih.1 h]
      · intro h
        cases r with
        | nil => simp at h
        | cons b r => simp only [List.map_cons, List.cons.injEq, Option.some.injEq] at h; exact ⟨r, ih.2 h.2, by simp [h.1]⟩

end Collect

namespace PointStampSummary
variable {T TS : Type*} [PartialOrder T] [OrderBot T] [DecidableEq T] [PathSummary TS T]

/-- Keep coordinate `i` only if it is retained. -/
def keep (retain : Option Nat) (x : T) (i : Nat) : T :=
  match retain with
  | some r => if i < r then x else ⊥
  | none => x

theorem coord_retained (retain : Option Nat) (v : List T) (i : Nat) :
    coord (retained retain v) i = keep retain (coord v i) i := by
  cases retain with
  | none => rfl
  | some r =>
    simp only [retained, keep]
    split_ifs with h1 h2 h2
    · simp [coord, List.getD_eq_getElem?_getD, List.getElem?_take, h2]
    · simp [coord, List.getD_eq_getElem?_getD, List.getElem?_take, h2]
    · rfl
    · simp only [coord, List.getD_eq_getElem?_getD]
      rw [List.getElem?_eq_none (by omega)]; rfl

theorem retained_getElem? (retain : Option Nat) {α : Type*} (v : List α) (i : Nat) :
    (retained retain v)[i]? = (match retain with | some r => if i < r then v[i]? else none | none => v[i]?) := by
  cases retain with
  | none => rfl
  | some r =>
    simp only [retained]
    split_ifs with h1 h2 h2
    · simp [List.getElem?_take, h2]
    · simp [List.getElem?_take, h2]
    · rfl
    · exact List.getElem?_eq_none (by omega)

/-- Apply the `i`-th action, if there is one. -/
def act (actions : List TS) (i : Nat) (x : T) : Option T :=
  match actions[i]? with
  | some a => PathSummary.results_in a x
  | none => some x

/-- The vector part of `results_in`, by simultaneous recursion. -/
theorem results_vec (as : List TS) (v both rest : List T)
    (h1 : collect (List.zipWith PathSummary.results_in as v) = some both)
    (h2 : collect ((as.drop (min v.length as.length)).map (fun a => PathSummary.results_in a (⊥ : T))) = some rest) (i : Nat) :
    act as i (coord v i) = some (coord (both ++ v.drop (min v.length as.length) ++ rest) i) := by
  rw [collect_eq_some] at h1 h2
  induction as generalizing v both i with
  | nil =>
    have : both = [] := by simpa using h1.symm
    have : rest = [] := by simpa using h2.symm
    subst_vars
    simp [act]
  | cons a as ih =>
    cases v with
    | nil =>
      have : both = [] := by simpa using h1.symm
      subst this
      simp only [List.length_nil, Nat.zero_min, List.drop_zero, List.nil_append] at *
      have : ∀ (as : List TS) (rest : List T), as.map (fun a => PathSummary.results_in a (⊥ : T)) = rest.map some →
          act as i (⊥ : T) = some (coord rest i) := by
        intro as rest h
        unfold act
        have hi := congrArg (fun l => l[i]?) h
        simp only [List.getElem?_map] at hi
        cases has : as[i]? with
        | none =>
          rw [has] at hi
          simp only [Option.map_none] at hi
          have : rest[i]? = none := by simpa using hi.symm
          simp [coord, List.getD_eq_getElem?_getD, this]
        | some a =>
          rw [has] at hi
          simp only [Option.map_some] at hi
          cases hr : rest[i]? with
          | none => rw [hr] at hi; simp at hi
          | some x => rw [hr] at hi; simp only [Option.map_some, Option.some.injEq] at hi; simp [hi, coord, List.getD_eq_getElem?_getD, hr]
      simpa using this _ _ h2
    | cons x v =>
      cases both with
      | nil => simp at h1
      | cons b both =>
        have hmin : min (x :: v).length (a :: as).length = min v.length as.length + 1 := by simp
        rw [hmin] at h2 ⊢
        simp only [List.zipWith_cons_cons, List.map_cons, List.cons.injEq] at h1
        cases i with
        | zero => simp [act, h1.1]
        | succ i => simpa [act] using ih v both h1.2 (by simpa using h2) i

theorem results_in_coord {s : PointStampSummary TS} {t u : PointStamp T} (h : s.results_in t = some u) (i : Nat) :
    act s.actions i (keep s.retain (coord t.vector i) i) = some (coord u.vector i) := by
  unfold results_in at h
  simp only at h
  split at h
  · simp at h
  · rename_i both h1
    split at h
    · simp at h
    · rename_i rest h2
      simp only [Option.some.injEq] at h
      subst h
      simp only [new, coord_popMin]
      rw [← coord_retained]
      exact results_vec _ _ _ _ h1 h2 i

theorem collect_isSome {α : Type*} {l : List (Option α)} (h : ∀ o ∈ l, o.isSome) : ∃ r, collect l = some r := by
  induction l with
  | nil => exact ⟨[], rfl⟩
  | cons a l ih =>
    obtain ⟨r, hr⟩ := ih fun o ho => h o (by simp [ho])
    have := h a (by simp)
    cases a with
    | none => simp at this
    | some a => exact ⟨a :: r, by simp [collect, hr]⟩

/-- `results_in` succeeds exactly when every coordinate's action does. -/
theorem results_in_isSome {s : PointStampSummary TS} {t : PointStamp T}
    (h : ∀ i, (act s.actions i (keep s.retain (coord t.vector i) i)).isSome) : ∃ u, s.results_in t = some u := by
  unfold results_in
  simp only
  have h1 : ∃ r, collect (List.zipWith PathSummary.results_in s.actions (retained s.retain t.vector)) = some r := by
    apply collect_isSome
    intro o ho
    obtain ⟨i, hi, rfl⟩ := List.mem_iff_getElem.1 ho
    have := h i
    rw [← coord_retained] at this
    simp only [List.length_zipWith, lt_inf_iff] at hi
    simpa [act, coord, hi.1, hi.2, List.getD_eq_getElem?_getD] using this
  have h2 : ∃ r, collect ((s.actions.drop (min (retained s.retain t.vector).length s.actions.length)).map
      (fun a => PathSummary.results_in a (⊥ : T))) = some r := by
    apply collect_isSome
    intro o ho
    obtain ⟨i, hi, rfl⟩ := List.mem_iff_getElem.1 ho
    simp only [List.length_map, List.length_drop] at hi
    have hle : (retained s.retain t.vector).length ≤ s.actions.length := by omega
    have hmin : min (retained s.retain t.vector).length s.actions.length = (retained s.retain t.vector).length := by omega
    have := h ((retained s.retain t.vector).length + i)
    rw [← coord_retained] at this
    have hlt : (retained s.retain t.vector).length + i < s.actions.length := by omega
    have hc : coord (retained s.retain t.vector) ((retained s.retain t.vector).length + i) = ⊥ := by
      simp only [coord, List.getD_eq_getElem?_getD]; rw [List.getElem?_eq_none (by omega)]; rfl
    rw [hc] at this
    simpa [act, hlt, hmin] using this
  obtain ⟨r1, h1⟩ := h1
  obtain ⟨r2, h2⟩ := h2
  rw [h1, h2]
  exact ⟨_, rfl⟩

theorem results_in_norm {s : PointStampSummary TS} {t u : PointStamp T} (h : s.results_in t = some u) : u.Norm := by
  unfold results_in at h
  simp only at h
  split at h
  · simp at h
  · split at h
    · simp at h
    · simp only [Option.some.injEq] at h; subst h; exact norm_new _

/-- The actions of `followed_by`, coordinate by coordinate. -/
theorem followed_vec (as bs both : List TS)
    (h1 : collect (List.zipWith (PathSummary.followed_by T) as bs) = some both) (i : Nat) :
    (both ++ as.drop (min as.length bs.length) ++ bs.drop (min as.length bs.length))[i]? =
      (match as[i]?, bs[i]? with
      | some a, some b => PathSummary.followed_by T a b
      | some a, none => some a
      | none, some b => some b
      | none, none => none) := by
  rw [collect_eq_some] at h1
  induction as generalizing bs both i with
  | nil =>
    have : both = [] := by simpa using h1.symm
    subst this
    simp only [List.length_nil, Nat.zero_min, List.drop_zero, List.nil_append, List.drop_nil, List.getElem?_nil]
    cases bs[i]? <;> rfl
  | cons a as ih =>
    cases bs with
    | nil =>
      have : both = [] := by simpa using h1.symm
      subst this
      simp only [List.length_nil, Nat.min_zero, List.drop_zero, List.nil_append, List.getElem?_nil, List.append_nil]
      cases (a :: as)[i]? <;> rfl
    | cons b bs =>
      cases both with
      | nil => simp at h1
      | cons c both =>
        have hmin : min (a :: as).length (b :: bs).length = min as.length bs.length + 1 := by simp
        rw [hmin]
        simp only [List.zipWith_cons_cons, List.map_cons, List.cons.injEq] at h1
        cases i with
        | zero => simp [h1.1]
        | succ i => simpa using ih bs both h1.2 i

end PointStampSummary

namespace PointStampSummary
variable {T TS : Type*} [PartialOrder T] [OrderBot T] [DecidableEq T] [PathSummary TS T]

theorem keep_keep (r s m : Option Nat) (x : T) (i : Nat)
    (hm : m = match r, s with | some x, some y => some (min x y) | some x, none => some x | none, some y => some y | none, none => none) :
    keep s (keep r x i) i = keep m x i := by
  subst hm
  cases r <;> cases s <;> simp only [keep]
  split_ifs <;> first | rfl | omega

theorem followed_by_spec {s o c : PointStampSummary TS} (h : followed_by T s o = some c) :
    (c.retain = match s.retain, o.retain with | some x, some y => some (min x y) | some x, none => some x | none, some y => some y | none, none => none) ∧
    ∀ i : Nat, c.actions[i]? = (match (retained o.retain s.actions)[i]?, o.actions[i]? with
      | some a, some b => PathSummary.followed_by T a b
      | some a, none => some a
      | none, some b => some b
      | none, none => none) := by
  unfold followed_by at h
  simp only at h
  split at h
  · simp at h
  · rename_i both hb
    simp only [Option.some.injEq] at h
    subst h
    exact ⟨rfl, fun i => followed_vec _ _ _ hb i⟩

/-- One coordinate of the composition law. -/
theorem act_comp [LawfulSummary TS T] {s o c : PointStampSummary TS} (h : followed_by T s o = some c) (i : Nat) (x u : T)
    (h1 : act s.actions i (keep s.retain x i) = some u) :
    act o.actions i (keep o.retain u i) = act c.actions i (keep c.retain x i) := by
  obtain ⟨hr, ha⟩ := followed_by_spec h
  rw [← keep_keep s.retain o.retain c.retain x i hr]
  unfold act at *
  rw [ha i, retained_getElem?]
  generalize keep s.retain x i = y at *
  cases ho : o.retain with
  | none =>
    simp only [keep]
    cases hs : s.actions[i]? with
    | none =>
      rw [hs] at h1; simp only [Option.some.injEq] at h1; subst h1
      cases hoa : o.actions[i]? <;> simp
    | some a =>
      rw [hs] at h1; simp only at h1
      cases hoa : o.actions[i]? with
      | none => simp [h1]
      | some b =>
        have hc : ∃ k, PathSummary.followed_by T a b = some k := by
          have := ha i
          rw [retained_getElem?, ho, hs, hoa] at this
          cases hk : PathSummary.followed_by T a b with
          | some k => exact ⟨k, rfl⟩
          | none =>
            exfalso
            unfold followed_by at h
            simp only at h
            split at h
            · simp at h
            · rename_i both hb
              rw [collect_eq_some] at hb
              have := congrArg (fun l => l[i]?) hb
              simp only [List.getElem?_zipWith, retained_getElem?, ho, hs, hoa, hk, List.getElem?_map] at this
              cases both[i]? <;> simp at this
        obtain ⟨k, hk⟩ := hc
        simp only [hk]
        exact LawfulSummary.comp' a b k y u hk h1
  | some r =>
    simp only [keep]
    by_cases hi : i < r
    · simp only [hi, if_true]
      cases hs : s.actions[i]? with
      | none =>
        rw [hs] at h1; simp only [Option.some.injEq] at h1; subst h1
        cases hoa : o.actions[i]? <;> simp
      | some a =>
        rw [hs] at h1; simp only at h1
        cases hoa : o.actions[i]? with
        | none => simp [h1]
        | some b =>
          have hc : ∃ k, PathSummary.followed_by T a b = some k := by
            cases hk : PathSummary.followed_by T a b with
            | some k => exact ⟨k, rfl⟩
            | none =>
              exfalso
              unfold followed_by at h
              simp only at h
              split at h
              · simp at h
              · rename_i both hb
                rw [collect_eq_some] at hb
                have := congrArg (fun l => l[i]?) hb
                simp only [List.getElem?_zipWith, retained_getElem?, ho, hs, hoa, hk, List.getElem?_map, hi, if_true] at this
                cases both[i]? <;> simp at this
          obtain ⟨k, hk⟩ := hc
          simp only [hk]
          exact LawfulSummary.comp' a b k y u hk h1
    · simp only [hi, if_false]
      cases hoa : o.actions[i]? <;> simp

end PointStampSummary

end DD
