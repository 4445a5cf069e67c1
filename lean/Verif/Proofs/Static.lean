import Verif.Proofs.Synchronous
import Mathlib.Data.List.ProdSigma
import Mathlib.Data.List.Nodup

/-!
# Streams of which all updates are there from the start

For showing that what is assumed of runs can be met, also for nested loops.
-/

namespace DD
variable {D D1 D2 T : Type*}

section
variable [DecidableEq D] [PartialOrder T] [DecidableLE T]

/-- A stream of one message. -/
def static [OrderBot T] (us : Upds D T Int) (_ : Nat) : Msgs D T Int := [(⊥, us)]

omit [DecidableEq D] [DecidableLE T] in
theorem upds_static [OrderBot T] (us : Upds D T Int) (n : Nat) : (static us n).upds = us := by simp [static, Msgs.upds]

/-- The updates accumulate to given collections. -/
def Represents (us : Upds D T Int) (c : T → Coll D) : Prop := ∀ q d, accum us d q = weight (c q) d

theorem Represents.holds {us : Upds D T Int} {c : T → Coll D} (h : Represents us c) (q : T) : Holds (fun _ => us) q (c q) := ⟨0, fun _ _ => List.Perm.refl _, h q⟩

theorem Represents.of_holds {us : Upds D T Int} {c : T → Coll D} (h : Represents us c) {q : T} {e : Coll D} (he : Holds (fun _ => us) q e) : Coll.Same (c q) e := (h.holds q).unique he

theorem Represents.congr {us : Upds D T Int} {c c' : T → Coll D} (h : Represents us c) (hc : ∀ q, Coll.Same (c q) (c' q)) : Represents us c' := fun q d => (h q d).trans (hc q d)

/-- An update for each record and time of non-zero total. -/
def tidied [DecidableEq T] (us : Upds D T Int) : Upds D T Int :=
  ((List.map (fun u => (u.1, u.2.1)) us).dedup.map fun x => (x.1, x.2, total us x.1 x.2)).filter fun u => u.2.2 ≠ 0

omit [DecidableLE T] in
theorem mem_tidied [DecidableEq T] {us : Upds D T Int} {u : D × T × Int} (h : u ∈ tidied us) : u.2.2 = total us u.1 u.2.1 ∧ u.2.2 ≠ 0 ∧ ∃ v ∈ us, v.2.1 = u.2.1 := by
  obtain ⟨h1, h2⟩ := List.mem_filter.1 h
  obtain ⟨x, hx, rfl⟩ := List.mem_map.1 h1
  rw [List.mem_dedup] at hx
  obtain ⟨v, hv, rfl⟩ := List.mem_map.1 hx
  exact ⟨rfl, by simpa using h2, v, hv, rfl⟩

omit [PartialOrder T] [DecidableLE T] in
private theorem weight_as_total [DecidableEq T] (us : Upds D T Int) (d : D) (t : T) : weight (us.map fun u => ((u.1, u.2.1), u.2.2)) (d, t) = total us d t := by
  induction us with
  | nil => rfl
  | cons u us ih =>
    rw [List.map_cons, weight_cons, total_cons, ih]
    simp only [Prod.mk.injEq]

omit [PartialOrder T] [DecidableLE T] in
private theorem tidied_pairs [DecidableEq T] (us : Upds D T Int) : (tidied us).map (fun u => ((u.1, u.2.1), u.2.2)) =
    List.filter (fun x => x.2 ≠ 0) ((List.map (fun u => (u.1, u.2.1)) us).dedup.map fun d => (d, weight (us.map fun u => ((u.1, u.2.1), u.2.2)) d)) := by
  unfold tidied
  rw [List.filter_map, List.filter_map, List.map_map]
  have e : ∀ x : D × T, weight (us.map fun u => ((u.1, u.2.1), u.2.2)) x = total us x.1 x.2 := fun x => weight_as_total us x.1 x.2
  simp only [e]
  rfl

omit [PartialOrder T] [DecidableLE T] in
theorem total_tidied [DecidableEq T] (us : Upds D T Int) (d : D) (t : T) : total (tidied us) d t = total us d t := by
  rw [← weight_as_total, tidied_pairs, weight_nodup _ _ (List.nodup_dedup _)]
  split_ifs with h
  · exact weight_as_total us d t
  · rw [List.mem_dedup] at h
    rw [← weight_as_total]
    by_contra hn
    obtain ⟨r, hr⟩ := Coll.exists_of_weight (Ne.symm hn)
    obtain ⟨u, hu, e⟩ := List.mem_map.1 hr
    exact h (List.mem_map.2 ⟨u, hu, congrArg Prod.fst e⟩)

theorem accum_tidied [DecidableEq T] (us : Upds D T Int) (d : D) (q : T) : accum (tidied us) d q = accum us d q := by
  have key : ∀ us : Upds D T Int, accum us d q = Coll.lin (fun x => if x.1 = d ∧ x.2 ≤ q then 1 else 0) (us.map fun u => ((u.1, u.2.1), u.2.2)) := by
    intro us
    induction us with
    | nil => rfl
    | cons u us ih =>
      rw [List.map_cons, accum_cons, ih]
      simp [Coll.lin]
  rw [key, key]
  refine Coll.lin_congr (fun x => ?_) _
  rw [show x = (x.1, x.2) from rfl, weight_as_total, weight_as_total, total_tidied]

theorem tidy_static [DecidableEq T] [OrderBot T] (us : Upds D T Int) : Tidy fun n => (static (tidied us) n).upds := by
  rintro n q -
  refine ⟨n, fun _ _ => List.Perm.refl _, fun u hu _ => ?_⟩
  simp only [upds_static] at hu ⊢
  rw [total_tidied]
  obtain ⟨h1, h2, -⟩ := mem_tidied hu
  rwa [← h1]

/-- Constant collections. -/
theorem represents_constant [OrderBot T] (c : Coll D) : Represents (stamp (⊥ : T) c) fun _ => c := fun q d => by rw [accum_stamp, if_pos bot_le]

/-- The weights at times up to `q`. -/
def upToSum (w : List (T × Int)) (q : T) : Int := (w.map fun x => if x.1 ≤ q then x.2 else 0).sum

omit [DecidableEq D] in
theorem upToSum_append (v w : List (T × Int)) (q : T) : upToSum (v ++ w) q = upToSum v q + upToSum w q := by simp [upToSum]

/-- The times fall into finitely many stages, and changes at times of which `P` holds can tell them from each other. -/
def Stages {ι : Type*} [DecidableEq ι] (P : T → Prop) (κ : T → ι) : Prop :=
  ∃ ks : List ι, ks.Nodup ∧ (∀ q, κ q ∈ ks) ∧ ∀ k, ∃ w : List (T × Int), (∀ x ∈ w, P x.1) ∧ ∀ q, upToSum w q = if κ q = k then 1 else 0

omit [DecidableEq D] in
theorem stages_constant [OrderBot T] : Stages (fun q : T => q = ⊥) fun _ => () :=
  ⟨[()], List.nodup_singleton _, fun _ => List.mem_singleton.2 rfl, fun k => ⟨[(⊥, 1)], by simp, fun q => by simp [upToSum]⟩⟩

/-- Updates at the given times. -/
def spread (w : List (T × Int)) (c : Coll D) : Upds D T Int := w.flatMap fun x => List.map (fun y => (y.1, x.1, x.2 * y.2)) c

theorem accum_spread (w : List (T × Int)) (c : Coll D) (d : D) (q : T) : accum (spread w c) d q = upToSum w q * weight c d := by
  unfold spread
  induction w with
  | nil => simp [upToSum]
  | cons x w ih =>
    rw [List.flatMap_cons, accum_append, ih, show x :: w = [x] ++ w from rfl, upToSum_append, add_mul]
    congr 1
    have : ∀ c : Coll D, accum (List.map (fun y => (y.1, x.1, x.2 * y.2)) c) d q = upToSum [x] q * weight c d := by
      intro c
      induction c with
      | nil => simp
      | cons y c ih =>
        rw [List.map_cons, accum_cons, ih, weight_cons]
        by_cases h1 : y.1 = d <;> by_cases h2 : x.1 ≤ q <;> simp [h1, h2, upToSum, mul_add]
    exact this c

theorem Stages.represents {ι : Type*} [DecidableEq ι] {P : T → Prop} {κ : T → ι} (h : Stages P κ) (c : ι → Coll D) :
    ∃ us : Upds D T Int, Represents us (fun q => c (κ q)) ∧ ∀ u ∈ us, P u.2.1 := by
  obtain ⟨ks, hn, hks, h⟩ := h
  choose w hP hw using h
  have key : ∀ ks : List ι, ks.Nodup → ∀ d q, accum (ks.flatMap fun k => spread (w k) (c k)) d q = if κ q ∈ ks then weight (c (κ q)) d else 0 := by
    intro ks
    induction ks with
    | nil => simp
    | cons k ks ih =>
      intro hn d q
      rw [List.nodup_cons] at hn
      rw [List.flatMap_cons, accum_append, ih hn.2, accum_spread, hw]
      by_cases hk : κ q = k
      · rw [if_pos hk, if_neg (by rw [hk]; exact hn.1), if_pos (by rw [hk]; exact List.mem_cons_self), hk]
        ring
      · rw [if_neg hk, zero_mul, zero_add]
        simp only [List.mem_cons, hk, false_or]
  refine ⟨ks.flatMap fun k => spread (w k) (c k), fun q d => ?_, fun u hu => ?_⟩
  · rw [key ks hn, if_pos (hks q)]
  · obtain ⟨k, -, hu⟩ := List.mem_flatMap.1 hu
    obtain ⟨x, hx, hu⟩ := List.mem_flatMap.1 hu
    obtain ⟨y, -, rfl⟩ := List.mem_map.1 hu
    exact hP k x hx

/-- The same, without updates that cancel. -/
theorem Stages.represents_tidy {ι : Type*} [DecidableEq ι] [DecidableEq T] {P : T → Prop} {κ : T → ι} (h : Stages P κ) (c : ι → Coll D) :
    ∃ us : Upds D T Int, Represents (tidied us) (fun q => c (κ q)) ∧ ∀ u ∈ tidied us, P u.2.1 := by
  obtain ⟨us, h1, h2⟩ := h.represents c
  refine ⟨us, fun q d => (accum_tidied us d q).trans (h1 q d), fun u hu => ?_⟩
  obtain ⟨-, -, v, hv, e⟩ := mem_tidied hu
  rw [← e]
  exact h2 v hv

omit [DecidableEq D] in
/-- Stages of a scope in which there are changes in the first rounds only. -/
theorem Stages.rounds {ι : Type*} [DecidableEq ι] {P : T → Prop} {κ : T → ι} (h : Stages P κ) (M : Nat) :
    Stages (fun q : T × Nat => P q.1 ∧ q.2 ≤ M) fun q => (κ q.1, min q.2 M) := by
  obtain ⟨ks, hn, hks, h⟩ := h
  refine ⟨ks ×ˢ List.range (M + 1), hn.product List.nodup_range, fun q => List.mem_product.2 ⟨hks _, List.mem_range.2 (by omega)⟩, fun ⟨k, j⟩ => ?_⟩
  obtain ⟨w, hP, hw⟩ := h k
  have hat : ∀ (w : List (T × Int)) (j : Nat) (q : T × Nat), upToSum (w.map fun x => ((x.1, j), x.2)) q = if j ≤ q.2 then upToSum w q.1 else 0 := by
    intro w j q
    unfold upToSum
    induction w with
    | nil => simp
    | cons x w ih =>
      simp only [List.map_cons, List.sum_cons]
      rw [ih]
      simp only [Prod.le_def]
      by_cases h : j ≤ q.2 <;> simp [h]
  have hneg : ∀ (w : List (T × Int)) q, upToSum (w.map fun x => (x.1, -x.2)) q = -upToSum w q := by
    intro w q
    unfold upToSum
    induction w with
    | nil => simp
    | cons x w ih =>
      simp only [List.map_cons, List.sum_cons]
      rw [ih]
      split_ifs <;> ring
  rcases Nat.lt_trichotomy j M with hj | hj | hj
  · refine ⟨w.map (fun x => ((x.1, j), x.2)) ++ (w.map fun x => (x.1, -x.2)).map fun x => ((x.1, j + 1), x.2), fun x hx => ?_, fun q => ?_⟩
    · rcases List.mem_append.1 hx with hx | hx
      · obtain ⟨y, hy, rfl⟩ := List.mem_map.1 hx
        exact ⟨hP y hy, hj.le⟩
      · obtain ⟨y, hy, rfl⟩ := List.mem_map.1 hx
        obtain ⟨z, hz, rfl⟩ := List.mem_map.1 hy
        exact ⟨hP z hz, hj⟩
    · rw [upToSum_append, hat, hat, hneg, hw]
      show _ = if (κ q.1, min q.2 M) = (k, j) then 1 else 0
      by_cases hk : κ q.1 = k
      · rw [if_pos hk]
        rcases Nat.lt_trichotomy q.2 j with h | h | h
        · rw [if_neg (by omega), if_neg (by omega), if_neg (by simp only [Prod.mk.injEq]; omega)]
          rfl
        · rw [if_pos (by omega), if_neg (by omega), if_pos (by simp only [Prod.mk.injEq]; exact ⟨hk, by omega⟩)]
          rfl
        · rw [if_pos (by omega), if_pos (by omega), if_neg (by simp only [Prod.mk.injEq]; omega)]
          rfl
      · rw [if_neg hk, if_neg fun e => hk (congrArg Prod.fst e)]
        split_ifs <;> rfl
  · refine ⟨w.map (fun x => ((x.1, j), x.2)), fun x hx => ?_, fun q => ?_⟩
    · obtain ⟨y, hy, rfl⟩ := List.mem_map.1 hx
      exact ⟨hP y hy, hj.le⟩
    · rw [hat, hw]
      by_cases hk : κ q.1 = k
      · rw [if_pos hk]
        refine if_congr ?_ rfl rfl
        simp only [Prod.mk.injEq, hk, true_and]
        omega
      · rw [if_neg hk, if_neg fun e => hk (congrArg Prod.fst e)]
        split_ifs <;> rfl
  · refine ⟨[], by simp, fun q => ?_⟩
    rw [if_neg (by simp only [Prod.mk.injEq]; omega)]
    rfl

end

section ops
variable [DecidableEq D] [DecidableEq D1] [DecidableEq D2] [PartialOrder T] [DecidableLE T]

theorem op1_static {f : Coll D1 → Coll D} {us : Upds D1 T Int} {vs : Upds D T Int} {a : T → Coll D1} {b : T → Coll D} (hs : Represents us a) (hs' : Represents vs b)
    (hf : ∀ c c', Coll.Same c c' → Coll.Same (f c) (f c')) (h : ∀ q, Coll.Same (b q) (f (a q))) : Op1 f (fun _ => us) (fun _ => vs) := by
  rintro q c hc
  exact (hs'.holds q).same ((h q).trans (hf _ _ (hs.of_holds hc)))

theorem op2_static {f : Coll D1 → Coll D2 → Coll D} {us1 : Upds D1 T Int} {us2 : Upds D2 T Int} {vs : Upds D T Int} {a1 : T → Coll D1} {a2 : T → Coll D2} {b : T → Coll D}
    (hs1 : Represents us1 a1) (hs2 : Represents us2 a2) (hs' : Represents vs b) (hf : ∀ c c' e e', Coll.Same c c' → Coll.Same e e' → Coll.Same (f c e) (f c' e'))
    (h : ∀ q, Coll.Same (b q) (f (a1 q) (a2 q))) : Op2 f (fun _ => us1) (fun _ => us2) (fun _ => vs) := by
  rintro q c1 c2 h1 h2
  exact (hs'.holds q).same ((h q).trans (hf _ _ _ _ (hs1.of_holds h1) (hs2.of_holds h2)))

theorem enters_static {us : Upds D T Int} {vs : Upds D (T × Nat) Int} {a : T → Coll D} (hs : Represents us a) (hs' : Represents vs fun q => a q.1) : Enters (fun _ => us) (fun _ => vs) := by
  rintro t i c hc
  exact (hs'.holds (t, i)).same (hs.of_holds hc)

theorem entersAt_static {initial : D → Nat} {us : Upds D T Int} {vs : Upds D (T × Nat) Int} {a : T → Coll D} (hs : Represents us a)
    (hs' : Represents vs fun q => (a q.1).filter fun d => initial d ≤ q.2) : EntersAt initial (fun _ => us) (fun _ => vs) := by
  rintro t i c hc
  exact (hs'.holds (t, i)).same ((hs.of_holds hc).filter _)

end ops

section loops
variable [DecidableEq D] [PartialOrder T] [OrderBot T] [DecidableLE T]

theorem static_timed (us : Upds D T Int) (n : Nat) : ∀ m ∈ static us n, ∀ u ∈ m.2, m.1 ≤ u.2.1 := by
  intro m hm u hu
  rw [static, List.mem_singleton] at hm
  subst hm
  exact bot_le

private theorem nextUpd_all {us : Upds D (T × Nat) Int} (h : ∀ u ∈ us, u.2.1.2 < maxRound) : us.filterMap nextUpd = us.map fun u => (u.1, (u.2.1.1, u.2.1.2 + 1), u.2.2) := by
  rw [← List.filterMap_eq_map]
  refine List.filterMap_congr fun u hu => ?_
  unfold nextUpd nextRound
  rw [if_pos (h u hu)]
  rfl

private theorem accum_all_next (us : Upds D (T × Nat) Int) (d : D) (t : T) (i : Nat) : accum (us.map fun u => (u.1, (u.2.1.1, u.2.1.2 + 1), u.2.2)) d (t, i) =
    match i with | 0 => 0 | i + 1 => accum us d (t, i) := by
  induction us with
  | nil => cases i <;> rfl
  | cons u us ih =>
    rw [List.map_cons, accum_cons, ih]
    cases i with
    | zero => simp [Prod.le_def]
    | succ i => simp [accum_cons, Prod.le_def]

/-- What is received, by rounds. -/
def roundsFrom (c : Coll D) (r : Nat → Coll D) : Nat → Coll D
  | 0 => c
  | i + 1 => r i

/-- A loop without a source. -/
theorem static_scope_loop {us : Upds D (T × Nat) Int} {r : T × Nat → Coll D} (hr : Represents us r) (hM : ∀ u ∈ us, u.2.1.2 < maxRound) :
    ∃ recv : Upds D (T × Nat) Int, LoopRun (fun _ => iterateScopeReceives) (static us) (fun _ => recv) ∧ Represents recv fun q => roundsFrom [] (fun i => r (q.1, i)) q.2 := by
  have e : (iterateScopeReceives (static us 0)).upds = us.map fun u => (u.1, (u.2.1.1, u.2.1.2 + 1), u.2.2) := by
    simp only [iterateScopeReceives, Variable.new, Variable.set]
    rw [upds_feedback _ (static_timed us 0), upds_results_in]
    rw [upds_static]
    exact nextUpd_all hM
  refine ⟨(iterateScopeReceives (static us 0)).upds, ⟨fun _ => List.prefix_rfl, static_timed us, fun n u hu => ?_, fun _ => List.Subperm.refl _, fun _ => List.Subperm.refl _,
    fun n => ⟨n, List.Subperm.refl _⟩⟩, fun ⟨t, i⟩ d => ?_⟩
  · rw [upds_static] at hu
    exact (hM u hu).le
  · rw [e, accum_all_next]
    cases i with
    | zero => rfl
    | succ i => exact hr (t, i) d

/-- A loop with a source. -/
theorem static_loop {src : Upds D T Int} {s : T → Coll D} (hs : Represents src s) {us : Upds D (T × Nat) Int} {r : T × Nat → Coll D} (hr : Represents us r) (hM : ∀ u ∈ us, u.2.1.2 < maxRound) :
    ∃ recv : Upds D (T × Nat) Int, LoopRun (fun n => iterateReceives (static src n)) (static us) (fun _ => recv) ∧
      Represents recv fun q => roundsFrom (s q.1) (fun i => r (q.1, i)) q.2 := by
  have hw : ∀ m ∈ Msgs.concat (static us 0) ((static src 0).enter (T2 := Nat)).negate, ∀ u ∈ m.2, m.1 ≤ u.2.1 := by
    intro m hm
    rcases List.mem_append.1 hm with hm | hm
    · exact static_timed us 0 m hm
    · simp only [Msgs.negate, Msgs.eachMsg, Msgs.enter, List.mem_map] at hm
      obtain ⟨m1, ⟨m2, hm2, rfl⟩, rfl⟩ := hm
      intro u hu
      simp only [List.map_map, List.mem_map, Function.comp_apply] at hu
      obtain ⟨v, hv, rfl⟩ := hu
      exact Prod.mk_le_mk.2 ⟨static_timed src 0 m2 hm2 v hv, le_rfl⟩
  have hlt : ∀ u ∈ us ++ (src.map fun u => (u.1, ((u.2.1, ⊥) : T × Nat), u.2.2)).map fun u => (u.1, u.2.1, -u.2.2), u.2.1.2 < maxRound := by
    intro u hu
    rcases List.mem_append.1 hu with hu | hu
    · exact hM u hu
    · obtain ⟨v, hv, rfl⟩ := List.mem_map.1 hu
      obtain ⟨w, hw, rfl⟩ := List.mem_map.1 hv
      show 0 < maxRound
      decide
  have e : (iterateReceives (static src 0) (static us 0)).upds =
      ((us ++ (src.map fun u => (u.1, ((u.2.1, ⊥) : T × Nat), u.2.2)).map fun u => (u.1, u.2.1, -u.2.2)).map fun u => (u.1, (u.2.1.1, u.2.1.2 + 1), u.2.2)) ++
        src.map fun u => (u.1, (u.2.1, ⊥), u.2.2) := by
    simp only [iterateReceives, Variable.new_from, Variable.set]
    rw [upds_concat, upds_feedback _ hw, upds_results_in, upds_concat, upds_negate, upds_enter, upds_static, upds_static]
    congr 1
    exact nextUpd_all hlt
  refine ⟨(iterateReceives (static src 0) (static us 0)).upds, ⟨fun _ => List.prefix_rfl, static_timed us, fun n u hu => ?_, fun _ => List.Subperm.refl _, fun _ => List.Subperm.refl _,
    fun n => ⟨n, List.Subperm.refl _⟩⟩, fun ⟨t, i⟩ d => ?_⟩
  · rw [upds_static] at hu
    exact (hM u hu).le
  · rw [e, accum_append, accum_all_next, accum_enter, hs t d]
    cases i with
    | zero => exact zero_add _
    | succ i =>
      show accum _ d (t, i) + weight (s t) d = weight (r (t, i)) d
      rw [accum_append, accum_neg, accum_enter, hs t d, neg_add_cancel_right]
      exact hr (t, i) d

end loops
end DD
