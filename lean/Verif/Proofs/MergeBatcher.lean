import Verif.Model.MergeBatcher
import Verif.Proofs.Consolidation
import Verif.Proofs.Lattice
import Mathlib.Tactic.Abel

namespace DD

variable {D T R : Type*} [LinearOrder D] [LinearOrder (Lin T)] [AddCommMonoid R] [DecidableEq R]

/-- Strict order on (data, time). -/
def ltDT (u v : D × T × R) : Prop := u.1 < v.1 ∨ (u.1 = v.1 ∧ toLin u.2.1 < toLin v.2.1)

omit [AddCommMonoid R] [DecidableEq R] in
theorem ltDT_trans {u v w : D × T × R} (h1 : ltDT u v) (h2 : ltDT v w) : ltDT u w := by
  unfold ltDT at *
  rcases h1 with h1 | ⟨e1, h1⟩ <;> rcases h2 with h2 | ⟨e2, h2⟩
  · exact Or.inl (h1.trans h2)
  · exact Or.inl (e2 ▸ h1)
  · exact Or.inl (e1 ▸ h2)
  · exact Or.inr ⟨e1.trans e2, h1.trans h2⟩

/-- The flat merge of two sorted lists. -/
def flatMerge : Upds D T R → Upds D T R → Upds D T R
  | [], b => b
  | a, [] => a
  | (d1, t1, r1) :: a, (d2, t2, r2) :: b =>
    if d1 < d2 ∨ (d1 = d2 ∧ toLin t1 < toLin t2) then (d1, t1, r1) :: flatMerge a ((d2, t2, r2) :: b)
    else if d2 < d1 ∨ (d1 = d2 ∧ toLin t2 < toLin t1) then (d2, t2, r2) :: flatMerge ((d1, t1, r1) :: a) b
    else (if r1 + r2 ≠ 0 then [(d1, t1, r1 + r2)] else []) ++ flatMerge a b
termination_by a b => a.length + b.length

theorem flatMerge_nil_right (a : Upds D T R) : flatMerge a [] = a := by
  cases a <;> simp [flatMerge]

theorem eq_of_not_lt {d1 d2 : D} {t1 t2 : T} (h1 : ¬ (d1 < d2 ∨ (d1 = d2 ∧ toLin t1 < toLin t2)))
    (h2 : ¬ (d2 < d1 ∨ (d1 = d2 ∧ toLin t2 < toLin t1))) : d1 = d2 ∧ t1 = t2 := by
  have hd : d1 = d2 := le_antisymm (not_lt.1 fun h => h2 (Or.inl h)) (not_lt.1 fun h => h1 (Or.inl h))
  refine ⟨hd, ?_⟩
  have : toLin t1 = toLin t2 := le_antisymm (not_lt.1 fun h => h2 (Or.inr ⟨hd, h⟩)) (not_lt.1 fun h => h1 (Or.inr ⟨hd, h⟩))
  exact this

theorem total_flatMerge [DecidableEq T] (a b : Upds D T R) (d : D) (t : T) :
    total (flatMerge a b) d t = total a d t + total b d t := by
  fun_induction flatMerge a b with
  | case1 b => simp
  | case2 a h => simp
  | case3 d1 t1 r1 a d2 t2 r2 b h ih => rw [total_cons, ih, total_cons (d1, t1, r1)]; abel
  | case4 d1 t1 r1 a d2 t2 r2 b h h' ih => rw [total_cons, ih, total_cons (d2, t2, r2) b]; abel
  | case5 d1 t1 r1 a d2 t2 r2 b h h' ih =>
    rw [total_append, ih, total_cons (d1, t1, r1) a, total_cons (d2, t2, r2) b]
    obtain ⟨rfl, rfl⟩ := eq_of_not_lt h h'
    have : total (if r1 + r2 ≠ 0 then [(d1, t1, r1 + r2)] else []) d t
        = if d1 = d ∧ t1 = t then r1 + r2 else 0 := by
      split_ifs with h1 h2 h2
      · simp [total, h2]
      · simp [total, h2]
      · simp only [ne_eq, not_not] at h1; simp [h1]
      · rfl
    rw [this]
    split_ifs <;> abel

theorem mem_flatMerge (a b : Upds D T R) : ∀ u ∈ flatMerge a b, ∃ v ∈ a ++ b, u.1 = v.1 ∧ u.2.1 = v.2.1 := by
  fun_induction flatMerge a b with
  | case1 b => intro u hu; exact ⟨u, by simpa using hu, rfl, rfl⟩
  | case2 a h => intro u hu; exact ⟨u, by simpa using hu, rfl, rfl⟩
  | case3 d1 t1 r1 a d2 t2 r2 b h ih =>
    intro u hu
    rcases List.mem_cons.1 hu with rfl | hu
    · exact ⟨_, by simp, rfl, rfl⟩
    · obtain ⟨v, hv, e⟩ := ih u hu; exact ⟨v, by simp at hv ⊢; tauto, e⟩
  | case4 d1 t1 r1 a d2 t2 r2 b h h' ih =>
    intro u hu
    rcases List.mem_cons.1 hu with rfl | hu
    · exact ⟨(d2, t2, r2), by simp, rfl, rfl⟩
    · obtain ⟨v, hv, e⟩ := ih u hu; exact ⟨v, by simp at hv ⊢; tauto, e⟩
  | case5 d1 t1 r1 a d2 t2 r2 b h h' ih =>
    intro u hu
    rcases List.mem_append.1 hu with hu | hu
    · split_ifs at hu
      · simp only [List.mem_singleton] at hu; subst hu; exact ⟨(d1, t1, r1), by simp, rfl, rfl⟩
      · simp at hu
    · obtain ⟨v, hv, e⟩ := ih u hu; exact ⟨v, by simp at hv ⊢; tauto, e⟩

theorem consolidated_cons {u : D × T × R} {us : Upds D T R} :
    Consolidated (u :: us) ↔ (∀ v ∈ us, ltDT u v) ∧ u.2.2 ≠ 0 ∧ Consolidated us := by
  unfold Consolidated ltDT
  simp only [List.pairwise_cons, List.mem_cons, forall_eq_or_imp]
  tauto

omit [AddCommMonoid R] [DecidableEq R] in
theorem ltDT_congr {u v w : D × T × R} (h : ltDT u v) (h1 : w.1 = v.1) (h2 : w.2.1 = v.2.1) : ltDT u w := by
  unfold ltDT at *; rw [h1, h2]; exact h

theorem consolidated_flatMerge (a b : Upds D T R) (ha : Consolidated a) (hb : Consolidated b) : Consolidated (flatMerge a b) := by
  fun_induction flatMerge a b with
  | case1 b => exact hb
  | case2 a h => exact ha
  | case3 d1 t1 r1 a d2 t2 r2 b h ih =>
    rw [consolidated_cons] at ha ⊢
    refine ⟨fun v hv => ?_, ha.2.1, ih ha.2.2 hb⟩
    obtain ⟨w, hw, e1, e2⟩ := mem_flatMerge _ _ v hv
    refine ltDT_congr ?_ e1 e2
    rcases List.mem_append.1 hw with hw | hw
    · exact ha.1 w hw
    · rcases List.mem_cons.1 hw with rfl | hw
      · exact h
      · exact ltDT_trans (v := (d2, t2, r2)) h ((consolidated_cons.1 hb).1 w hw)
  | case4 d1 t1 r1 a d2 t2 r2 b h h' ih =>
    have h' : ltDT (d2, t2, r2) (d1, t1, r1) := by
      unfold ltDT
      rcases h' with h' | ⟨e, h'⟩
      · exact Or.inl h'
      · exact Or.inr ⟨e.symm, h'⟩
    rw [consolidated_cons] at hb ⊢
    refine ⟨fun v hv => ?_, hb.2.1, ih ha hb.2.2⟩
    obtain ⟨w, hw, e1, e2⟩ := mem_flatMerge _ _ v hv
    refine ltDT_congr ?_ e1 e2
    rcases List.mem_append.1 hw with hw | hw
    · rcases List.mem_cons.1 hw with rfl | hw
      · exact h'
      · exact ltDT_trans (v := (d1, t1, r1)) h' ((consolidated_cons.1 ha).1 w hw)
    · exact hb.1 w hw
  | case5 d1 t1 r1 a d2 t2 r2 b h h' ih =>
    obtain ⟨rfl, rfl⟩ := eq_of_not_lt h h'
    rw [consolidated_cons] at ha hb
    have ih := ih ha.2.2 hb.2.2
    split_ifs with hz
    · rw [List.singleton_append, consolidated_cons]
      refine ⟨fun v hv => ?_, hz, ih⟩
      obtain ⟨w, hw, e1, e2⟩ := mem_flatMerge _ _ v hv
      refine ltDT_congr ?_ e1 e2
      rcases List.mem_append.1 hw with hw | hw
      · exact ha.1 w hw
      · exact hb.1 w hw
    · simpa using ih

/-! ### The chunked merge is the flat merge -/

/-- All chunks are non-empty. -/
def NonEmptyChunks (c : Chain D T R) : Prop := ∀ x ∈ c, x ≠ []

structure MergeVars.Ok (v : MergeVars D T R) : Prop where
  n1 : NonEmptyChunks v.iter1
  n2 : NonEmptyChunks v.iter2
  no : NonEmptyChunks v.output
  e1 : v.q1 = [] → v.iter1 = []
  e2 : v.q2 = [] → v.iter2 = []

/-- What the merge would produce in total from this point. -/
def MergeVars.denote (v : MergeVars D T R) : Upds D T R :=
  v.output.flatten ++ v.result ++ flatMerge (v.q1 ++ v.iter1.flatten) (v.q2 ++ v.iter2.flatten)

theorem refill_spec (q : Upds D T R) (iter : Chain D T R) (h : NonEmptyChunks iter) :
    (refill q iter).1 ++ (refill q iter).2.flatten = q ++ iter.flatten ∧ NonEmptyChunks (refill q iter).2 ∧
      ((refill q iter).1 = [] → (refill q iter).2 = []) := by
  unfold refill
  split_ifs with hq
  · subst hq
    cases iter with
    | nil => simp [NonEmptyChunks]
    | cons c iter =>
      refine ⟨by simp, fun x hx => h x (by simp [hx]), fun e => absurd e (h c (by simp))⟩
  · exact ⟨rfl, h, fun e => absurd e hq⟩

theorem MergeVars.tidy_spec (cap : Nat) (hcap : 0 < cap) (v : MergeVars D T R) (n1 : NonEmptyChunks v.iter1)
    (n2 : NonEmptyChunks v.iter2) (no : NonEmptyChunks v.output) :
    (v.tidy cap).Ok ∧ (v.tidy cap).denote = v.denote ∧
      (v.tidy cap).q1 ++ (v.tidy cap).iter1.flatten = v.q1 ++ v.iter1.flatten ∧
      (v.tidy cap).q2 ++ (v.tidy cap).iter2.flatten = v.q2 ++ v.iter2.flatten := by
  unfold MergeVars.tidy
  obtain ⟨a1, a2, a3⟩ := refill_spec v.q1 v.iter1 n1
  obtain ⟨b1, b2, b3⟩ := refill_spec v.q2 v.iter2 n2
  split_ifs with h
  · refine ⟨⟨a2, b2, ?_, a3, b3⟩, ?_, a1, b1⟩
    · intro x hx
      rcases List.mem_append.1 hx with hx | hx
      · exact no x hx
      · simp only [List.mem_singleton] at hx; subst hx; intro e; rw [e] at h; simp at h; omega
    · simp [MergeVars.denote, a1, b1]
  · exact ⟨⟨a2, b2, no, a3, b3⟩, by simp [MergeVars.denote, a1, b1], a1, b1⟩

theorem mergeLoop_spec (cap : Nat) (hcap : 0 < cap) (fuel : Nat) : ∀ (v : MergeVars D T R), v.Ok →
    (v.q1 ++ v.iter1.flatten).length + (v.q2 ++ v.iter2.flatten).length ≤ fuel →
    (mergeLoop cap fuel v).Ok ∧ (mergeLoop cap fuel v).denote = v.denote ∧
      ((mergeLoop cap fuel v).q1 = [] ∨ (mergeLoop cap fuel v).q2 = []) := by
  induction fuel with
  | zero =>
    intro v hv hl
    refine ⟨hv, rfl, Or.inl ?_⟩
    simp only [mergeLoop]
    have : v.q1.length = 0 := by simp only [List.length_append] at hl; omega
    exact List.length_eq_zero_iff.1 this
  | succ fuel ih =>
    intro v hv hl
    unfold mergeLoop
    obtain ⟨q1, iter1, q2, iter2, result, output⟩ := v
    match q1, q2 with
    | [], _ => exact ⟨hv, rfl, Or.inl rfl⟩
    | _ :: _, [] => exact ⟨hv, rfl, Or.inr rfl⟩
    | (d1, t1, r1) :: q1, (d2, t2, r2) :: q2 =>
      simp only
      split_ifs with h1 h2 h3
      · obtain ⟨k1, k2, k3, k4⟩ := MergeVars.tidy_spec cap hcap
          (⟨q1, iter1, (d2, t2, r2) :: q2, iter2, result ++ [(d1, t1, r1)], output⟩ : MergeVars D T R) hv.n1 hv.n2 hv.no
        obtain ⟨g1, g2, g3⟩ := ih _ k1 (by rw [k3, k4]; simp at hl ⊢; omega)
        refine ⟨g1, ?_, g3⟩
        rw [g2, k2]; simp [MergeVars.denote, flatMerge, h1]
      · obtain ⟨k1, k2, k3, k4⟩ := MergeVars.tidy_spec cap hcap
          (⟨(d1, t1, r1) :: q1, iter1, q2, iter2, result ++ [(d2, t2, r2)], output⟩ : MergeVars D T R) hv.n1 hv.n2 hv.no
        obtain ⟨g1, g2, g3⟩ := ih _ k1 (by rw [k3, k4]; simp at hl ⊢; omega)
        refine ⟨g1, ?_, g3⟩
        rw [g2, k2]; simp [MergeVars.denote, flatMerge, h1, h2]
      · obtain ⟨k1, k2, k3, k4⟩ := MergeVars.tidy_spec cap hcap
          (⟨q1, iter1, q2, iter2, result ++ [(d1, t1, r1 + r2)], output⟩ : MergeVars D T R) hv.n1 hv.n2 hv.no
        obtain ⟨g1, g2, g3⟩ := ih _ k1 (by rw [k3, k4]; simp at hl ⊢; omega)
        refine ⟨g1, ?_, g3⟩
        rw [g2, k2]; simp [MergeVars.denote, flatMerge, h1, h2, h3]
      · obtain ⟨k1, k2, k3, k4⟩ := MergeVars.tidy_spec cap hcap
          (⟨q1, iter1, q2, iter2, result, output⟩ : MergeVars D T R) hv.n1 hv.n2 hv.no
        obtain ⟨g1, g2, g3⟩ := ih _ k1 (by rw [k3, k4]; simp at hl ⊢; omega)
        refine ⟨g1, ?_, g3⟩
        rw [g2, k2]; simp [MergeVars.denote, flatMerge, h1, h2, h3]

theorem flatten_headD_tail (l : Chain D T R) : l.headD [] ++ l.tail.flatten = l.flatten := by cases l <;> simp

theorem vecMerge_spec (cap : Nat) (hcap : 0 < cap) (list1 list2 : Chain D T R) (h1 : NonEmptyChunks list1)
    (h2 : NonEmptyChunks list2) :
    (vecMerge cap list1 list2).flatten = flatMerge list1.flatten list2.flatten ∧ NonEmptyChunks (vecMerge cap list1 list2) := by
  unfold vecMerge
  have hok : (⟨list1.headD [], list1.tail, list2.headD [], list2.tail, [], []⟩ : MergeVars D T R).Ok := by
    refine ⟨fun x hx => h1 x (List.mem_of_mem_tail hx), fun x hx => h2 x (List.mem_of_mem_tail hx), by simp [NonEmptyChunks], ?_, ?_⟩
    · intro e; cases list1 with
      | nil => rfl
      | cons c _ => exact absurd e (h1 c (by simp))
    · intro e; cases list2 with
      | nil => rfl
      | cons c _ => exact absurd e (h2 c (by simp))
  obtain ⟨g1, g2, g3⟩ := mergeLoop_spec cap hcap (list1.flatten.length + list2.flatten.length) _ hok
    (by simp only [flatten_headD_tail]; exact le_rfl)
  set v := mergeLoop cap (list1.flatten.length + list2.flatten.length)
    (⟨list1.headD [], list1.tail, list2.headD [], list2.tail, [], []⟩ : MergeVars D T R) with hv
  simp only [MergeVars.denote, flatten_headD_tail, List.flatten_nil, List.nil_append] at g2
  refine ⟨?_, ?_⟩
  · rw [← g2]
    have e1 := g1.e1
    have e2 := g1.e2
    rcases g3 with g3 | g3
    · have := e1 g3
      simp only [g3, this, ne_eq, not_true_eq_false, if_false, List.append_nil, List.flatten_nil, List.nil_append, flatMerge]
      by_cases hr : v.result = [] <;> by_cases hq : v.q2 = [] <;> simp [hr, hq]
    · have := e2 g3
      simp only [g3, this, ne_eq, not_true_eq_false, if_false, List.append_nil, List.flatten_nil, List.nil_append,
        flatMerge_nil_right]
      by_cases hr : v.result = [] <;> by_cases hq : v.q1 = [] <;> simp [hr, hq]
  · intro x hx
    simp only [List.mem_append] at hx
    have key : ∀ (o : Chain D T R) (y : Upds D T R), NonEmptyChunks o → NonEmptyChunks (if y ≠ [] then o ++ [y] else o) := by
      intro o y ho
      split_ifs with h
      · intro z hz; rcases List.mem_append.1 hz with hz | hz
        · exact ho z hz
        · simp only [List.mem_singleton] at hz; subst hz; exact h
      · exact ho
    rcases hx with (hx | hx) | hx
    · exact key _ _ (key _ _ (key _ _ g1.no)) x hx
    · exact g1.n1 x hx
    · exact g1.n2 x hx

/-- A chain as the batcher keeps them: non-empty chunks, sorted and consolidated as a whole. -/
def GoodChain (c : Chain D T R) : Prop := NonEmptyChunks c ∧ Consolidated c.flatten

theorem vecMerge_good [DecidableEq T] (cap : Nat) (hcap : 0 < cap) (a b : Chain D T R) (ha : GoodChain a) (hb : GoodChain b) :
    GoodChain (vecMerge cap a b) ∧ ∀ d t, total (vecMerge cap a b).flatten d t = total a.flatten d t + total b.flatten d t := by
  obtain ⟨h1, h2⟩ := vecMerge_spec cap hcap a b ha.1 hb.1
  exact ⟨⟨h2, by rw [h1]; exact consolidated_flatMerge _ _ ha.2 hb.2⟩, fun d t => by rw [h1, total_flatMerge]⟩

/-! ### Extraction -/

section
variable [PartialOrder T] [DecidableLE T]

structure ExtractVars.Ok (cap : Nat) (upper : List T) (done : Upds D T R) (v : ExtractVars D T R) : Prop where
  kept : v.kept.flatten ++ v.keep = done.filter (fun u => lessEqual upper u.2.1)
  ship : v.ship.flatten ++ v.ready = done.filter (fun u => !lessEqual upper u.2.1)
  nk : ∀ c ∈ v.kept, c ≠ [] ∧ c.length ≤ cap
  ns : ∀ c ∈ v.ship, c ≠ [] ∧ c.length ≤ cap
  lk : v.keep.length < cap
  lr : v.ready.length < cap
  front : v.frontier = acExtend [] ((done.filter (fun u => lessEqual upper u.2.1)).map (fun u => u.2.1))

omit [LinearOrder D] [LinearOrder (Lin T)] [AddCommMonoid R] [DecidableEq R] in
theorem extractStep_ok (cap : Nat) (hcap : 0 < cap) (upper : List T) (done : Upds D T R) (v : ExtractVars D T R) (u : D × T × R)
    (h : v.Ok cap upper done) : (extractStep cap upper v u).Ok cap upper (done ++ [u]) := by
  obtain ⟨hk, hs, nk, ns, lk, lr, hf⟩ := h
  unfold extractStep
  have app : ∀ (c : Chain D T R) (y : Upds D T R), (∀ x ∈ c, x ≠ [] ∧ x.length ≤ cap) → y.length = cap →
      ∀ x ∈ c ++ [y], x ≠ [] ∧ x.length ≤ cap := by
    intro c y hc hy x hx
    rcases List.mem_append.1 hx with hx | hx
    · exact hc x hx
    · simp only [List.mem_singleton] at hx; subst hx
      exact ⟨fun e => by rw [e] at hy; simp at hy; omega, by omega⟩
  by_cases hu : lessEqual upper u.2.1 = true
  · simp only [hu, if_true]
    have hf' : acInsert v.frontier u.2.1 = acExtend [] (((done ++ [u]).filter (fun u => lessEqual upper u.2.1)).map (fun u => u.2.1)) := by
      rw [hf]; simp [acExtend, hu]
    by_cases hc : (v.keep ++ [u]).length = cap
    · simp only [hc, if_true, lr.ne, if_false]
      exact ⟨by simp [← hk, hu], by simp [← hs, hu], app _ _ nk hc, ns, by simpa using hcap, lr, hf'⟩
    · simp only [hc, if_false, lr.ne]
      refine ⟨by simp [← hk, hu], by simp [← hs, hu], nk, ns, ?_, lr, hf'⟩
      simp only [List.length_append, List.length_singleton] at hc ⊢; omega
  · simp only [hu, if_false, Bool.false_eq_true]
    have hu' : lessEqual upper u.2.1 = false := by simpa using hu
    have hf' : v.frontier = acExtend [] (((done ++ [u]).filter (fun u => lessEqual upper u.2.1)).map (fun u => u.2.1)) := by
      rw [hf]; simp [hu']
    by_cases hc : (v.ready ++ [u]).length = cap
    · simp only [hc, if_true, lk.ne, if_false]
      exact ⟨by simp [← hk, hu'], by simp [← hs, hu'], nk, app _ _ ns hc, lk, by simpa using hcap, hf'⟩
    · simp only [hc, if_false, lk.ne]
      refine ⟨by simp [← hk, hu'], by simp [← hs, hu'], nk, ns, lk, ?_, hf'⟩
      simp only [List.length_append, List.length_singleton] at hc ⊢; omega

omit [LinearOrder D] [LinearOrder (Lin T)] [AddCommMonoid R] [DecidableEq R] in
theorem extractFold_ok (cap : Nat) (hcap : 0 < cap) (upper : List T) (us : Upds D T R) : ∀ (done : Upds D T R) (v : ExtractVars D T R),
    v.Ok cap upper done → (us.foldl (extractStep cap upper) v).Ok cap upper (done ++ us) := by
  induction us with
  | nil => intro done v h; simpa using h
  | cons u us ih =>
    intro done v h
    have := ih (done ++ [u]) _ (extractStep_ok cap hcap upper done v u h)
    simpa using this

omit [LinearOrder D] [LinearOrder (Lin T)] [AddCommMonoid R] [DecidableEq R] in
theorem foldl_chunks (cap : Nat) (upper : List T) (c : Chain D T R) (v : ExtractVars D T R) :
    c.foldl (fun v chunk => chunk.foldl (extractStep cap upper) v) v = c.flatten.foldl (extractStep cap upper) v := by
  induction c generalizing v with
  | nil => rfl
  | cons x c ih => simp [ih]

omit [LinearOrder (Lin T)] [AddCommMonoid R] in
theorem vecExtract_spec [LinearOrder D] (cap : Nat) (hcap : 0 < cap) (merged : Chain D T R) (upper : List T) :
    let r := vecExtract cap merged upper []
    r.2.1.flatten = merged.flatten.filter (fun u => !lessEqual upper u.2.1) ∧
    r.2.2.flatten = merged.flatten.filter (fun u => lessEqual upper u.2.1) ∧
    r.1 = acExtend [] ((merged.flatten.filter (fun u => lessEqual upper u.2.1)).map (fun u => u.2.1)) ∧
    (∀ c ∈ r.2.1, c ≠ [] ∧ c.length ≤ cap) ∧ (∀ c ∈ r.2.2, c ≠ [] ∧ c.length ≤ cap) := by
  intro r
  have h := extractFold_ok cap hcap upper merged.flatten [] (⟨[], [], [], [], []⟩ : ExtractVars D T R)
    ⟨rfl, rfl, by simp, by simp, hcap, hcap, rfl⟩
  rw [List.nil_append, ← foldl_chunks] at h
  obtain ⟨hk, hs, nk, ns, lk, lr, hf⟩ := h
  have app : ∀ (c : Chain D T R) (y : Upds D T R), (∀ x ∈ c, x ≠ [] ∧ x.length ≤ cap) → y.length < cap →
      ∀ x ∈ (if y ≠ [] then c ++ [y] else c), x ≠ [] ∧ x.length ≤ cap := by
    intro c y hc hy x hx
    split_ifs at hx with h
    · rcases List.mem_append.1 hx with hx | hx
      · exact hc x hx
      · simp only [List.mem_singleton] at hx; subst hx; exact ⟨h, hy.le⟩
    · exact hc x hx
  have flat : ∀ (c : Chain D T R) (y : Upds D T R), (if y ≠ [] then c ++ [y] else c).flatten = c.flatten ++ y := by
    intro c y; split_ifs with h
    · simp
    · simp only [ne_eq, not_not] at h; simp [h]
  exact ⟨by simp only [r, vecExtract]; rw [flat]; exact hs, by simp only [r, vecExtract]; rw [flat]; exact hk, hf,
    app _ _ ns lr, app _ _ nk lk⟩

end

/-! ### The batcher -/

theorem total_filter [DecidableEq T] (us : Upds D T R) (p : T → Bool) (d : D) (t : T) :
    total (us.filter (fun u => p u.2.1)) d t = if p t then total us d t else 0 := by
  induction us with
  | nil => simp
  | cons u us ih =>
    rw [List.filter_cons]
    by_cases hu : u.2.1 = t
    · subst hu
      by_cases hp : p u.2.1 <;> simp [hp, total_cons, ih]
    · split_ifs with h1 h2 h2 <;> simp [total_cons, hu, ih, h2]

structure BatcherOk (chains : List (Nat × Chain D T R)) : Prop where
  good : ∀ c ∈ chains, GoodChain c.2
  weight : ∀ c ∈ chains, c.1 = (c.2.map List.length).sum

/-- Everything held in the chains. -/
def held (chains : List (Nat × Chain D T R)) : Upds D T R := (chains.map fun c => c.2.flatten).flatten

theorem batcherOk_push {chains : List (Nat × Chain D T R)} {c : Chain D T R} (h : BatcherOk chains) (hc : GoodChain c) :
    BatcherOk (chainPush chains c) := by
  refine ⟨fun x hx => ?_, fun x hx => ?_⟩ <;> rcases List.mem_cons.1 hx with rfl | hx
  · exact hc
  · exact h.good x hx
  · rfl
  · exact h.weight x hx

theorem merge_top [DecidableEq T] (cap : Nat) (hcap : 0 < cap) {a b : Nat × Chain D T R} {rest : List (Nat × Chain D T R)}
    (h : BatcherOk (a :: b :: rest)) : BatcherOk (chainPush rest (vecMerge cap a.2 b.2)) ∧
      ∀ d t, total (held (chainPush rest (vecMerge cap a.2 b.2))) d t = total (held (a :: b :: rest)) d t := by
  obtain ⟨g1, g2⟩ := vecMerge_good cap hcap a.2 b.2 (h.good a (by simp)) (h.good b (by simp))
  refine ⟨batcherOk_push ⟨fun x hx => h.good x (by simp [hx]), fun x hx => h.weight x (by simp [hx])⟩ g1, fun d t => ?_⟩
  simp only [held, chainPush, List.map_cons, List.flatten_cons, total_append, g2]
  abel

theorem ladder_ok [DecidableEq T] (cap : Nat) (hcap : 0 < cap) (fuel : Nat) : ∀ (chains : List (Nat × Chain D T R)),
    BatcherOk chains → BatcherOk (ladder cap fuel chains) ∧
      ∀ d t, total (held (ladder cap fuel chains)) d t = total (held chains) d t := by
  induction fuel with
  | zero => intro chains h; exact ⟨by simpa [ladder] using h, fun d t => by simp [ladder]⟩
  | succ fuel ih =>
    intro chains h
    match chains, h with
    | [], h => exact ⟨by simpa [ladder] using h, fun d t => by simp [ladder]⟩
    | [_], h => exact ⟨by simpa [ladder] using h, fun d t => by simp [ladder]⟩
    | (w1, l1) :: (w2, l2) :: rest, h =>
      simp only [ladder]
      split_ifs with hw
      · obtain ⟨k1, k2⟩ := merge_top cap hcap h
        obtain ⟨i1, i2⟩ := ih _ k1
        exact ⟨i1, fun d t => by rw [i2, k2]⟩
      · exact ⟨h, fun _ _ => rfl⟩

theorem mergeAll_ok [DecidableEq T] (cap : Nat) (hcap : 0 < cap) (fuel : Nat) : ∀ (chains : List (Nat × Chain D T R)),
    BatcherOk chains → chains.length ≤ fuel + 1 → BatcherOk (mergeAll cap fuel chains) ∧ (mergeAll cap fuel chains).length ≤ 1 ∧
      ∀ d t, total (held (mergeAll cap fuel chains)) d t = total (held chains) d t := by
  induction fuel with
  | zero => intro chains h hl; exact ⟨by simpa [mergeAll] using h, by simpa [mergeAll] using hl, fun d t => by simp [mergeAll]⟩
  | succ fuel ih =>
    intro chains h hl
    match chains, h with
    | [], h => exact ⟨by simpa [mergeAll] using h, by simp [mergeAll], fun d t => by simp [mergeAll]⟩
    | [_], h => exact ⟨by simpa [mergeAll] using h, by simp [mergeAll], fun d t => by simp [mergeAll]⟩
    | (w1, l1) :: (w2, l2) :: rest, h =>
      simp only [mergeAll]
      obtain ⟨k1, k2⟩ := merge_top cap hcap h
      obtain ⟨i1, i2, i3⟩ := ih _ k1 (by simp [chainPush] at hl ⊢; omega)
      exact ⟨i1, i2, fun d t => by rw [i3, k2]⟩

theorem push_ok [DecidableEq T] (cap : Nat) (hcap : 0 < cap) (b : MergeBatcher D T R) (chunk : Upds D T R) (hb : BatcherOk b.chains)
    (hne : chunk ≠ []) (hc : Consolidated chunk) : BatcherOk (b.push cap chunk).chains ∧
      ∀ d t, total (held (b.push cap chunk).chains) d t = total (held b.chains) d t + total chunk d t := by
  unfold MergeBatcher.push
  have h1 : BatcherOk (chainPush b.chains [chunk]) :=
    batcherOk_push hb ⟨by intro x hx; simp only [List.mem_singleton] at hx; subst hx; exact hne, by simpa using hc⟩
  obtain ⟨i1, i2⟩ := ladder_ok cap hcap (chainPush b.chains [chunk]).length _ h1
  refine ⟨i1, fun d t => ?_⟩
  rw [i2]; simp only [held, chainPush, List.map_cons, List.flatten_cons, total_append, List.flatten_nil, List.append_nil]; abel

theorem consolidated_filter {us : Upds D T R} (h : Consolidated us) (p : D × T × R → Bool) : Consolidated (us.filter p) :=
  h.sublist List.filter_sublist

theorem total_ne_zero_iff [DecidableEq T] {us : Upds D T R} (h : Consolidated us) (d : D) (t : T) :
    total us d t ≠ 0 ↔ ∃ r, (d, t, r) ∈ us := by
  induction us with
  | nil => simp
  | cons u us ih =>
    obtain ⟨h1, h2, h3⟩ := consolidated_cons.1 h
    rw [total_cons]
    by_cases hu : u.1 = d ∧ u.2.1 = t
    · obtain ⟨rfl, rfl⟩ := hu
      have hz : total us u.1 u.2.1 = 0 := by
        by_contra hne
        obtain ⟨r, hr⟩ := (ih h3).1 hne
        rcases h1 _ hr with h | ⟨-, h⟩ <;> exact lt_irrefl _ h
      rw [if_pos ⟨rfl, rfl⟩, hz, add_zero]
      exact ⟨fun _ => ⟨u.2.2, by simp⟩, fun _ => h2⟩
    · rw [if_neg hu, zero_add, ih h3]
      refine exists_congr fun r => ⟨fun hm => by simp [hm], fun hm => ?_⟩
      rcases List.mem_cons.1 hm with e | hm
      · exact absurd ⟨by rw [← e], by rw [← e]⟩ hu
      · exact hm

theorem seal_ok [DecidableEq T] [PartialOrder T] [DecidableLE T] [Bot T] (cap : Nat) (hcap : 0 < cap) (b : MergeBatcher D T R)
    (upper : List T) (hb : BatcherOk b.chains) :
    let r := b.seal cap upper
    BatcherOk r.1.chains ∧ Consolidated r.2.1.flatten ∧ (∀ c ∈ r.2.1, c ≠ [] ∧ c.length ≤ cap) ∧
    (∀ d t, total r.2.1.flatten d t = if lessEqual upper t then 0 else total (held b.chains) d t) ∧
    (∀ d t, total (held r.1.chains) d t = if lessEqual upper t then total (held b.chains) d t else 0) ∧
    IsAntichainList r.1.frontier ∧
    (∀ t, Beyond r.1.frontier t ↔ ∃ d s, s ≤ t ∧ total (held r.1.chains) d s ≠ 0) := by
  intro r
  obtain ⟨i1, i2, i3⟩ := mergeAll_ok cap hcap b.chains.length b.chains hb (by omega)
  set m := mergeAll cap b.chains.length b.chains with hm
  have hpop : ∀ m : List (Nat × Chain D T R), m.length ≤ 1 → BatcherOk m → held m = (popOrDefault m).flatten ∧
      Consolidated (popOrDefault m).flatten := by
    intro m h1 h2
    match m, h1, h2 with
    | [], _, _ => exact ⟨rfl, List.Pairwise.nil, by simp [popOrDefault]⟩
    | [(w, c)], _, h2 => exact ⟨by simp [held, popOrDefault], (h2.good (w, c) (by simp)).2⟩
    | _ :: _ :: _, h, _ => simp at h
  obtain ⟨hheld, hcons⟩ := hpop m i2 i1
  set merged := popOrDefault m with hmg
  obtain ⟨x1, x2, x3, x4, x5⟩ := vecExtract_spec cap hcap merged upper
  have hr : r = ({ chains := if (vecExtract cap merged upper []).2.2 ≠ [] then chainPush [] (vecExtract cap merged upper []).2.2 else [],
                   lower := upper, frontier := (vecExtract cap merged upper []).1 }, (vecExtract cap merged upper []).2.1,
                   ⟨b.lower, upper, [⊥]⟩) := rfl
  have hheld' : held r.1.chains = (vecExtract cap merged upper []).2.2.flatten := by
    rw [hr]; simp only
    split_ifs with h
    · simp [held, chainPush]
    · simp only [ne_eq, not_not] at h; simp [held, h]
  have ht : ∀ d t, total (held r.1.chains) d t = if lessEqual upper t then total (held b.chains) d t else 0 := by
    intro d t; rw [hheld', x2, total_filter _ (fun t => lessEqual upper t), ← hheld, i3]
  refine ⟨?_, ?_, ?_, ?_, ht, ?_, ?_⟩
  · rw [hr]; simp only
    split_ifs with h
    · exact batcherOk_push ⟨by simp, by simp⟩ ⟨fun c hc => (x5 c hc).1, by rw [x2]; exact consolidated_filter hcons _⟩
    · exact ⟨by simp, by simp⟩
  · rw [hr]; simp only; rw [x1]; exact consolidated_filter hcons _
  · exact x4
  · intro d t
    rw [hr]; simp only
    rw [x1, total_filter _ (fun t => !lessEqual upper t), ← hheld, i3]
    by_cases h : lessEqual upper t = true <;> simp [h]
  · rw [hr]; simp only; rw [x3]; exact isAntichain_acExtend _ _ isAntichain_nil
  · intro t
    have : r.1.frontier = acExtend [] ((held r.1.chains).map (fun u => u.2.1)) := by
      rw [hheld', x2, hr]; simp only; rw [x3]
    rw [this, beyond_acExtend]
    have hc : Consolidated (held r.1.chains) := by rw [hheld', x2]; exact consolidated_filter hcons _
    constructor
    · rintro (⟨f, hf, -⟩ | ⟨f, hf, hle⟩)
      · simp at hf
      · obtain ⟨u, hu, rfl⟩ := List.mem_map.1 hf
        exact ⟨u.1, u.2.1, hle, (total_ne_zero_iff hc _ _).2 ⟨u.2.2, hu⟩⟩
    · rintro ⟨d, s, hs, hne⟩
      obtain ⟨r', hr'⟩ := (total_ne_zero_iff hc _ _).1 hne
      exact Or.inr ⟨s, List.mem_map.2 ⟨_, hr', rfl⟩, hs⟩

end DD
