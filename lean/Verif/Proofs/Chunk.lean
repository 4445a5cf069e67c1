import Verif.Model.Chunk
import Verif.Spec.Chunk
import Verif.Proofs.MergeBatcher
import Verif.Proofs.BatchContainer
import Mathlib.Data.List.Chain

/-!
# Packing and merging chunks
-/

namespace DD
variable {D T R : Type*}

/-! ### Packing -/

theorem graded_nil (cap : Nat) : Graded cap ([] : Chain D T R) := ⟨by simp, List.isChain_nil⟩

theorem graded_append_single {cap : Nat} {out : Chain D T R} {c : Upds D T R} (h : Graded cap out) (h0 : 0 < c.length) (h1 : c.length ≤ cap)
    (hl : ∀ l ∈ out.getLast?, cap < l.length + c.length) : Graded cap (out ++ [c]) := by
  refine ⟨fun x hx => ?_, ?_⟩
  · rcases List.mem_append.1 hx with hx | hx
    · exact h.size x hx
    · rw [List.mem_singleton.1 hx]; exact ⟨h0, h1⟩
  · rw [List.isChain_append]
    refine ⟨h.maximal, List.isChain_singleton _, ?_⟩
    intro x hx y hy
    simp only [List.head?_cons, Option.mem_def, Option.some.injEq] at hy
    exact hy ▸ hl x hx

/-- What holds between rounds of `pack`. -/
structure PackOk (cap : Nat) (v : PackVars D T R) : Prop where
  graded : Graded cap v.out
  carry : ∀ c, v.carry = some c → 0 < c.length ∧ c.length < cap ∧ ∀ l ∈ v.out.getLast?, cap < l.length + c.length
  none : v.carry = none → ∀ l ∈ v.out.getLast?, l.length = cap

/-- All that is held. -/
def PackVars.all (v : PackVars D T R) : Upds D T R := v.out.flatten ++ v.carry.getD []

theorem peel_ok {cap : Nat} (hcap : 0 < cap) (n : Nat) : ∀ (rest : Upds D T R) (out : Chain D T R), rest.length ≤ n → cap ≤ rest.length → Graded cap out →
    (∀ l ∈ out.getLast?, cap < l.length + cap) → PackOk cap (peel cap n rest out) ∧ (peel cap n rest out).all = out.flatten ++ rest := by
  induction n with
  | zero => intro rest out h1 h2 _; omega
  | succ n ih =>
    intro rest out h1 h2 hg hl
    have hlen : (rest.take cap).length = cap := by simp [h2]
    have hg' : Graded cap (out ++ [rest.take cap]) := graded_append_single hg (by omega) (by omega) (by rw [hlen]; exact hl)
    rw [peel]
    by_cases hc : (rest.drop cap).length ≥ cap
    · rw [if_pos hc]
      obtain ⟨k1, k2⟩ := ih (rest.drop cap) (out ++ [rest.take cap]) (by simp; omega) hc hg' (by simp; omega)
      refine ⟨k1, ?_⟩
      rw [k2]; simp
    · rw [if_neg hc]
      by_cases hz : (rest.drop cap).length > 0
      · simp only [hz, if_true]
        refine ⟨⟨hg', ?_, by simp⟩, ?_⟩
        · intro c hc'
          simp only [Option.some.injEq] at hc'
          subst hc'
          refine ⟨hz, by omega, ?_⟩
          intro l hl'
          simp only [List.getLast?_append, List.getLast?_singleton, Option.some_or, Option.mem_def, Option.some.injEq] at hl'
          subst hl'
          omega
        · simp [PackVars.all]
      · simp only [hz, if_false]
        refine ⟨⟨hg', by simp, ?_⟩, ?_⟩
        · intro _ l hl'
          simp only [List.getLast?_append, List.getLast?_singleton, Option.some_or, Option.mem_def, Option.some.injEq] at hl'
          subst hl'
          exact hlen
        · have : rest.drop cap = [] := List.length_eq_zero_iff.1 (by omega)
          have := List.take_append_drop cap rest
          simp_all [PackVars.all]

theorem packAbsorb_ok {cap : Nat} (hcap : 0 < cap) {chunk : Upds D T R} {out : Chain D T R} (hg : Graded cap out) (h0 : 0 < chunk.length)
    (hl : ∀ l ∈ out.getLast?, cap < l.length + chunk.length) :
    PackOk cap (packAbsorb cap chunk out) ∧ (packAbsorb cap chunk out).all = out.flatten ++ chunk := by
  unfold packAbsorb
  split_ifs with h1 h2
  · refine ⟨⟨graded_append_single hg h0 h1.le hl, by simp, by simp [h1]⟩, by simp [PackVars.all]⟩
  · refine ⟨⟨hg, ?_, by simp⟩, by simp [PackVars.all]⟩
    intro c hc
    simp only [Option.some.injEq] at hc
    subst hc
    exact ⟨h0, h2, hl⟩
  · refine peel_ok hcap _ _ _ le_rfl (by omega) hg fun l hl' => ?_
    have := (hg.size l (List.mem_of_getLast? hl')).1
    omega

theorem packStep_ok {cap : Nat} (hcap : 0 < cap) {v : PackVars D T R} (hv : PackOk cap v) {chunk : Upds D T R} (h0 : 0 < chunk.length) :
    PackOk cap (packStep cap v chunk) ∧ (packStep cap v chunk).all = v.all ++ chunk := by
  obtain ⟨carry, out⟩ := v
  cases carry with
  | none =>
    obtain ⟨k1, k2⟩ := packAbsorb_ok hcap hv.graded h0 fun l hl => by
      have : l.length = cap := hv.none rfl l hl
      show cap < l.length + chunk.length
      omega
    exact ⟨k1, by simpa [PackVars.all, packStep] using k2⟩
  | some c =>
    obtain ⟨c0, c1, c2⟩ := hv.carry c rfl
    simp only at c2
    simp only [packStep]
    by_cases h1 : c.length + chunk.length ≤ cap
    · rw [if_pos h1]
      have hl : ∀ l ∈ out.getLast?, cap < l.length + (c ++ chunk).length := fun l hl => by have := c2 l hl; simp; omega
      by_cases h2 : (c ++ chunk).length = cap
      · rw [if_pos h2]
        refine ⟨⟨graded_append_single hv.graded (by simp; omega) h2.le hl, by simp, ?_⟩, by simp [PackVars.all]⟩
        intro _ l hl'
        simp only [List.getLast?_append, List.getLast?_singleton, Option.some_or, Option.mem_def, Option.some.injEq] at hl'
        exact hl' ▸ h2
      · rw [if_neg h2]
        refine ⟨⟨hv.graded, ?_, by simp⟩, by simp [PackVars.all]⟩
        intro c' hc'
        simp only [Option.some.injEq] at hc'
        subst hc'
        refine ⟨by simp; omega, ?_, hl⟩
        simp at h2 ⊢; omega
    · rw [if_neg h1]
      obtain ⟨k1, k2⟩ := packAbsorb_ok hcap (graded_append_single hv.graded c0 c1.le c2) h0 fun l hl => by
        simp only [List.getLast?_append, List.getLast?_singleton, Option.some_or, Option.mem_def, Option.some.injEq] at hl
        subst hl
        omega
      refine ⟨k1, k2.trans ?_⟩
      simp [PackVars.all]

theorem packFold_ok {cap : Nat} (hcap : 0 < cap) (input : Chain D T R) : ∀ (v : PackVars D T R), PackOk cap v → Full input →
    PackOk cap (input.foldl (packStep cap) v) ∧ (input.foldl (packStep cap) v).all = v.all ++ input.flatten := by
  induction input with
  | nil => intro v hv _; exact ⟨hv, by simp⟩
  | cons chunk input ih =>
    intro v hv hf
    obtain ⟨k1, k2⟩ := packStep_ok hcap hv (chunk := chunk) (List.length_pos_iff.2 (hf chunk (by simp)))
    obtain ⟨g1, g2⟩ := ih _ k1 fun c hc => hf c (by simp [hc])
    exact ⟨g1, by simp [g2, k2]⟩

/-- What holds between calls of `settle` on the same deques, of its input (before more chunks are pushed) and its output. -/
structure SettleOk (cap : Nat) (input out : Chain D T R) : Prop where
  ok : ∃ carry, input = carry.toList ∧ PackOk cap ⟨carry, out⟩

theorem settleOk_init (cap : Nat) : SettleOk cap ([] : Chain D T R) [] :=
  ⟨⟨none, rfl, graded_nil cap, by simp, by simp⟩⟩

theorem SettleOk.full {cap : Nat} {input out : Chain D T R} (h : SettleOk cap input out) : Full input := by
  obtain ⟨⟨carry, rfl, h⟩⟩ := h
  intro c hc
  have := (h.carry c (by simpa using hc)).1
  exact List.length_pos_iff.1 this

theorem SettleOk.graded {cap : Nat} {input out : Chain D T R} (h : SettleOk cap input out) : Graded cap out := by
  obtain ⟨⟨carry, rfl, h⟩⟩ := h
  exact h.graded

/-- Resuming `pack` with its carry at the front of the input. -/
theorem packStep_resume {cap : Nat} {input out : Chain D T R} (h : SettleOk cap input out) (more : Chain D T R) :
    ∃ v : PackVars D T R, PackOk cap v ∧ v.all = out.flatten ++ input.flatten ∧ (input ++ more).foldl (packStep cap) ⟨none, out⟩ = more.foldl (packStep cap) v := by
  obtain ⟨⟨carry, rfl, h⟩⟩ := h
  refine ⟨⟨carry, out⟩, h, ?_, ?_⟩
  · cases carry <;> simp [PackVars.all]
  · cases carry with
    | none => simp
    | some c =>
      obtain ⟨c0, c1, _⟩ := h.carry c rfl
      simp [packStep, packAbsorb, c1, c1.ne]

theorem chunkSettle_ok {cap : Nat} (hcap : 0 < cap) {input out : Chain D T R} (h : SettleOk cap input out) {more : Chain D T R} (hm : Full more) (done : Bool) :
    (if done then (chunkSettle cap (input ++ more) done out).1 = [] ∧ Graded cap (chunkSettle cap (input ++ more) done out).2
      else SettleOk cap (chunkSettle cap (input ++ more) done out).1 (chunkSettle cap (input ++ more) done out).2) ∧
    (chunkSettle cap (input ++ more) done out).2.flatten ++ (chunkSettle cap (input ++ more) done out).1.flatten = out.flatten ++ input.flatten ++ more.flatten := by
  obtain ⟨v, hv, ha, he⟩ := packStep_resume h more
  obtain ⟨k1, k2⟩ := packFold_ok hcap more v hv hm
  rw [ha] at k2
  unfold chunkSettle
  rw [he]
  generalize more.foldl (packStep cap) v = w at k1 k2 ⊢
  obtain ⟨carry, out'⟩ := w
  cases carry with
  | none =>
    simp only [PackVars.all, Option.getD_none, List.append_nil] at k2
    simp only [List.flatten_nil, List.append_nil, k2, and_true]
    cases done
    · simpa using ⟨none, rfl, k1⟩
    · simpa using k1.graded
  | some c =>
    simp only [PackVars.all, Option.getD_some] at k2
    cases done
    · refine ⟨?_, by simpa using k2⟩
      simpa using ⟨some c, rfl, k1⟩
    · obtain ⟨c0, c1, c2⟩ := k1.carry c rfl
      refine ⟨?_, by simpa using k2⟩
      simpa using graded_append_single k1.graded c0 c1.le c2

/-- `settle` with more to come. -/
theorem settle_more {cap : Nat} (hcap : 0 < cap) {input out : Chain D T R} (h : SettleOk cap input out) {more : Chain D T R} (hm : Full more) :
    SettleOk cap (chunkSettle cap (input ++ more) false out).1 (chunkSettle cap (input ++ more) false out).2 ∧
    (chunkSettle cap (input ++ more) false out).2.flatten ++ (chunkSettle cap (input ++ more) false out).1.flatten = out.flatten ++ input.flatten ++ more.flatten := by
  simpa using chunkSettle_ok hcap h hm false

/-- The last `settle`. -/
theorem settle_done {cap : Nat} (hcap : 0 < cap) {input out : Chain D T R} (h : SettleOk cap input out) {more : Chain D T R} (hm : Full more) :
    (chunkSettle cap (input ++ more) true out).1 = [] ∧ Graded cap (chunkSettle cap (input ++ more) true out).2 ∧
    (chunkSettle cap (input ++ more) true out).2.flatten = out.flatten ++ input.flatten ++ more.flatten := by
  obtain ⟨k1, k2⟩ := chunkSettle_ok hcap h hm true
  simp only [if_true] at k1
  rw [k1.1] at k2
  exact ⟨k1.1, k1.2, by simpa using k2⟩

theorem Graded.full {cap : Nat} {chunks : Chain D T R} (h : Graded cap chunks) : Full chunks := fun c hc => List.length_pos_iff.1 (h.size c hc).1

/-! ### Galloping -/

theorem gallop_eq {U : Type*} (s : List U) (start : Nat) (pred : U → Bool) (hp : (s.drop start).Pairwise fun u v => pred v = true → pred u = true) :
    gallop s start pred = some (start + ((s.drop start).takeWhile pred).length) := by
  set n := ((s.drop start).takeWhile pred).length with hn
  have hle : n ≤ (s.drop start).length := (List.takeWhile_sublist pred).length_le
  have hr : ReadOk (fun i => (s[i]?).map pred) start s.length n := by
    refine ⟨?_, ?_, ?_⟩
    · simp at hle; omega
    · intro i hi
      have h1 : i < (s.drop start).length := by omega
      have h2 : (s.drop start)[i] = ((s.drop start).takeWhile pred)[i] := (List.IsPrefix.getElem (List.takeWhile_prefix pred) hi).symm
      have h3 : pred ((s.drop start).takeWhile pred)[i] = true := List.all_eq_true.1 List.all_takeWhile _ (List.getElem_mem _)
      rw [← h2] at h3
      have h4 : s[start + i]? = some (s.drop start)[i] := by rw [← List.getElem?_drop, List.getElem?_eq_getElem]
      simp only [h4, Option.map_some, h3]
    · intro i hi hs
      have h1 : i < (s.drop start).length := by simp; omega
      have h4 : s[start + i]? = some (s.drop start)[i] := by rw [← List.getElem?_drop, List.getElem?_eq_getElem]
      rw [h4, Option.map_some]
      have hlt : n < (s.drop start).length := by omega
      have hx : pred (s.drop start)[n] = false := by
        have hne : ((s.drop start).dropWhile pred) ≠ [] := by
          intro e
          have := List.takeWhile_append_dropWhile (p := pred) (l := s.drop start)
          rw [e, List.append_nil] at this
          rw [this] at hn
          omega
        have h5 := List.head_dropWhile_not pred hne
        have h6 : (s.drop start)[n]? = ((s.drop start).dropWhile pred).head? := by
          conv_lhs => rw [← List.takeWhile_append_dropWhile (p := pred) (l := s.drop start)]
          rw [List.getElem?_append_right (by omega)]
          rw [← hn, Nat.sub_self, List.head?_eq_getElem?]
        rw [List.getElem?_eq_getElem hlt, List.head?_eq_some_head hne] at h6
        rw [Option.some.inj h6]
        simpa using h5
      rcases Nat.eq_or_lt_of_le hi with e | hlt'
      · simp only [← e, hx]
      · have := List.pairwise_iff_getElem.1 hp n i hlt h1 hlt'
        cases hpi : pred (s.drop start)[i]
        · rfl
        · rw [this hpi] at hx; cases hx
  unfold gallop
  simp only [probe_eq hr]
  by_cases h0 : 0 < n
  · have hns : n ≤ s.length := by simp at hle; omega
    simp only [h0, decide_true]
    obtain ⟨i', k', a, b, c, d⟩ := growLoop_spec hr s.length 0 0 h0 (by omega)
    rw [pow_zero] at a
    rw [a]
    simp only
    rw [shrinkLoop_spec hr s.length i' k' b c (by omega)]
    simp only [Option.some.injEq]
    omega
  · simp [h0]; omega

/-! ### Merging -/

section merge
variable [LinearOrder D] [LinearOrder (Lin T)] [AddCommMonoid R] [DecidableEq R]

/-- Sorted by data and time, without repetition. -/
def SortedDT (us : Upds D T R) : Prop := us.Pairwise ltDT

omit [AddCommMonoid R] [DecidableEq R] in
theorem belowUpd_iff (b u : D × T × R) : belowUpd b u = true ↔ ltDT u b := by
  simp [belowUpd, ltDT]

theorem flatMerge_run_left (run a : Upds D T R) (b : D × T × R) (bs : Upds D T R) (h : ∀ u ∈ run, ltDT u b) :
    flatMerge (run ++ a) (b :: bs) = run ++ flatMerge a (b :: bs) := by
  induction run with
  | nil => rfl
  | cons u run ih =>
    obtain ⟨d1, t1, r1⟩ := u
    obtain ⟨d2, t2, r2⟩ := b
    have hu : d1 < d2 ∨ (d1 = d2 ∧ toLin t1 < toLin t2) := h (d1, t1, r1) (by simp)
    rw [List.cons_append, flatMerge, if_pos hu, ih fun u hu => h u (by simp [hu])]
    rfl

theorem flatMerge_run_right (run b : Upds D T R) (a : D × T × R) (as : Upds D T R) (h : ∀ u ∈ run, ltDT u a) :
    flatMerge (a :: as) (run ++ b) = run ++ flatMerge (a :: as) b := by
  induction run with
  | nil => rfl
  | cons u run ih =>
    obtain ⟨d2, t2, r2⟩ := u
    obtain ⟨d1, t1, r1⟩ := a
    have hu : d2 < d1 ∨ (d2 = d1 ∧ toLin t2 < toLin t1) := h (d2, t2, r2) (by simp)
    rw [List.cons_append, flatMerge, if_neg, if_pos, ih fun u hu => h u (by simp [hu])]
    · rfl
    · rcases hu with hu | ⟨e, hu⟩
      · exact Or.inl hu
      · exact Or.inr ⟨e.symm, hu⟩
    · rintro (h' | ⟨e, h'⟩) <;> rcases hu with hu | ⟨e', hu⟩
      · exact lt_asymm h' hu
      · exact lt_irrefl _ (e' ▸ h')
      · exact lt_irrefl _ (e ▸ hu)
      · exact lt_asymm h' hu

theorem length_flatMerge_le (a b : Upds D T R) : (flatMerge a b).length ≤ a.length + b.length := by
  fun_induction flatMerge a b with
  | case1 b => simp
  | case2 a h => simp
  | case3 d1 t1 r1 a d2 t2 r2 b h ih => simp at ih ⊢; omega
  | case4 d1 t1 r1 a d2 t2 r2 b h h' ih => simp at ih ⊢; omega
  | case5 d1 t1 r1 a d2 t2 r2 b h h' ih => split_ifs <;> simp <;> omega

namespace ChunkMerge

def rem1 (v : ChunkMerge D T R) : Upds D T R := v.c1.drop v.p1 ++ v.in1.flatten
def rem2 (v : ChunkMerge D T R) : Upds D T R := v.c2.drop v.p2 ++ v.in2.flatten
def made (v : ChunkMerge D T R) : Upds D T R := v.out.flatten ++ v.result

/-- What holds throughout. -/
structure Ok (v : ChunkMerge D T R) : Prop where
  full1 : Full v.in1
  full2 : Full v.in2
  fullo : Full v.out
  le1 : v.p1 ≤ v.c1.length
  le2 : v.p2 ≤ v.c2.length
  sorted1 : SortedDT v.rem1
  sorted2 : SortedDT v.rem2

omit [LinearOrder D] [LinearOrder (Lin T)] [AddCommMonoid R] [DecidableEq R] in
theorem flush_spec {cap : Nat} (hcap : 0 < cap) (force : Bool) (v : ChunkMerge D T R) :
    (v.flush cap force).made = v.made ∧ (Full v.out → Full (v.flush cap force).out) ∧ (force = true → (v.flush cap force).result = []) ∧
    ∃ result out, v.flush cap force = { v with result := result, out := out } := by
  unfold flush
  split_ifs with h
  · refine ⟨by simp [made], fun hf c hc => ?_, fun _ => rfl, [], v.out ++ [v.result], rfl⟩
    rcases List.mem_append.1 hc with hc | hc
    · exact hf c hc
    · rw [List.mem_singleton.1 hc]
      rintro e
      simp [e] at h
      omega
  · refine ⟨rfl, id, ?_, v.result, v.out, rfl⟩
    rintro rfl
    simp at h
    exact h.2

omit [LinearOrder D] [LinearOrder (Lin T)] [AddCommMonoid R] [DecidableEq R] in
theorem slicesOf_flatten {cap : Nat} (hcap : 0 < cap) (n : Nat) : ∀ (us : Upds D T R), us.length ≤ n → (slicesOf cap n us).flatten = us := by
  induction n with
  | zero => intro us h; simp [slicesOf, List.length_eq_zero_iff.1 (Nat.le_zero.1 h)]
  | succ n ih =>
    intro us h
    rw [slicesOf]
    split_ifs with h'
    · simp [h']
    · have := List.length_pos_iff.2 h'
      rw [List.flatten_cons, ih _ (by simp; omega), List.take_append_drop]

omit [LinearOrder D] [LinearOrder (Lin T)] [AddCommMonoid R] [DecidableEq R] in
theorem copyPieces_spec {cap : Nat} (hcap : 0 < cap) (pieces : Chain D T R) : ∀ (v : ChunkMerge D T R),
    let w := pieces.foldl (fun v piece => ({ v with result := v.result ++ piece } : ChunkMerge D T R).flush cap false) v
    w.made = v.made ++ pieces.flatten ∧ (Full v.out → Full w.out) ∧ ∃ result out, w = { v with result := result, out := out } := by
  induction pieces with
  | nil => intro v; exact ⟨by simp, id, v.result, v.out, rfl⟩
  | cons piece pieces ih =>
    intro v
    obtain ⟨k1, k2, -, r, o, k3⟩ := flush_spec hcap false ({ v with result := v.result ++ piece } : ChunkMerge D T R)
    obtain ⟨g1, g2, r', o', g3⟩ := ih (({ v with result := v.result ++ piece } : ChunkMerge D T R).flush cap false)
    refine ⟨?_, fun h => g2 (k2 h), r', o', ?_⟩
    · rw [List.foldl_cons, g1, k1]; simp [made]
    · rw [List.foldl_cons, g3, k3]

omit [LinearOrder D] [LinearOrder (Lin T)] [AddCommMonoid R] [DecidableEq R] in
theorem copy_spec {cap : Nat} (hcap : 0 < cap) (run : Upds D T R) (v : ChunkMerge D T R) :
    (v.copy cap run).made = v.made ++ run ∧ (Full v.out → Full (v.copy cap run).out) ∧ ∃ result out, v.copy cap run = { v with result := result, out := out } := by
  obtain ⟨k1, k2, k3⟩ := copyPieces_spec hcap (slicesOf cap run.length run) v
  rw [slicesOf_flatten hcap _ _ le_rfl] at k1
  exact ⟨k1, k2, k3⟩

omit [AddCommMonoid R] [DecidableEq R] in
/-- The run found by galloping. -/
theorem run_spec {c : Upds D T R} {p : Nat} (hp : p < c.length) (hs : SortedDT (c.drop p)) {b : D × T × R} (hb : ltDT c[p] b) :
    ∃ run, gallop c (p + 1) (belowUpd b) = some run ∧ p < run ∧ run ≤ c.length ∧ (c.drop p).take (run - p) ++ c.drop run = c.drop p ∧
      ∀ u ∈ (c.drop p).take (run - p), ltDT u b := by
  rw [List.drop_eq_getElem_cons hp] at hs
  have hs' := List.pairwise_cons.1 hs
  have hg := gallop_eq c (p + 1) (belowUpd b) (hs'.2.imp fun {u w} huw h => by
    rw [belowUpd_iff] at h ⊢; exact ltDT_trans huw h)
  refine ⟨_, hg, by omega, ?_, ?_, ?_⟩
  · have : ((c.drop (p + 1)).takeWhile (belowUpd b)).length ≤ (c.drop (p + 1)).length := (List.takeWhile_sublist _).length_le
    rw [List.length_drop] at this
    omega
  · conv_rhs => rw [← List.take_append_drop (p + 1 + ((c.drop (p + 1)).takeWhile (belowUpd b)).length - p) (c.drop p)]
    rw [List.drop_drop]
    congr 2
    omega
  · have e : p + 1 + ((c.drop (p + 1)).takeWhile (belowUpd b)).length - p = ((c.drop (p + 1)).takeWhile (belowUpd b)).length + 1 := by omega
    rw [e, List.drop_eq_getElem_cons hp, List.take_succ_cons]
    intro u hu
    rcases List.mem_cons.1 hu with rfl | hu
    · exact hb
    · have h1 : (c.drop (p + 1)).take ((c.drop (p + 1)).takeWhile (belowUpd b)).length = (c.drop (p + 1)).takeWhile (belowUpd b) :=
        (List.prefix_iff_eq_take.1 (List.takeWhile_prefix _)).symm
      rw [h1] at hu
      exact (belowUpd_iff b u).1 (List.all_eq_true.1 List.all_takeWhile _ hu)

theorem step_spec {cap : Nat} (hcap : 0 < cap) {v : ChunkMerge D T R} (hv : v.Ok) (h1 : v.p1 < v.c1.length) (h2 : v.p2 < v.c2.length) :
    ∃ w, v.step cap v.c1[v.p1] v.c2[v.p2] = some w ∧ w.Ok ∧ w.c1 = v.c1 ∧ w.in1 = v.in1 ∧ w.c2 = v.c2 ∧ w.in2 = v.in2 ∧
      w.rem1.length + w.rem2.length < v.rem1.length + v.rem2.length ∧ w.rem1 <:+ v.rem1 ∧ w.rem2 <:+ v.rem2 ∧
      ∀ rest1 rest2, w.made ++ flatMerge (w.rem1 ++ rest1) (w.rem2 ++ rest2) = v.made ++ flatMerge (v.rem1 ++ rest1) (v.rem2 ++ rest2) := by
  have s1 : SortedDT (v.c1.drop v.p1) := (List.pairwise_append.1 hv.sorted1).1
  have s2 : SortedDT (v.c2.drop v.p2) := (List.pairwise_append.1 hv.sorted2).1
  have e1 : v.rem1 = v.c1[v.p1] :: (v.c1.drop (v.p1 + 1) ++ v.in1.flatten) := by rw [rem1, List.drop_eq_getElem_cons h1]; rfl
  have e2 : v.rem2 = v.c2[v.p2] :: (v.c2.drop (v.p2 + 1) ++ v.in2.flatten) := by rw [rem2, List.drop_eq_getElem_cons h2]; rfl
  unfold step
  by_cases hb : belowUpd v.c2[v.p2] v.c1[v.p1] = true
  · rw [if_pos hb]
    obtain ⟨run, g1, g2, g3, g4, g5⟩ := run_spec h1 s1 ((belowUpd_iff _ _).1 hb)
    rw [g1]
    obtain ⟨k1, k2, r, o, k3⟩ := copy_spec hcap ((v.c1.drop v.p1).take (run - v.p1)) v
    have hrem : v.rem1 = (v.c1.drop v.p1).take (run - v.p1) ++ (v.c1.drop run ++ v.in1.flatten) := by
      rw [← List.append_assoc, g4, rem1]
    refine ⟨_, rfl, ?_⟩
    rw [k3] at k1 k2
    simp only [k3]
    refine ⟨⟨hv.full1, hv.full2, k2 hv.fullo, g3, hv.le2, ?_, hv.sorted2⟩, trivial, trivial, trivial, trivial, ?_, ⟨_, hrem.symm⟩, List.suffix_rfl, ?_⟩
    · have := hv.sorted1
      rw [hrem] at this
      exact (List.pairwise_append.1 this).2.1
    · rw [hrem]
      simp only [rem1, rem2, List.length_append, List.length_take, List.length_drop]
      omega
    · intro rest1 rest2
      have : v.rem2 ++ rest2 = v.c2[v.p2] :: (v.c2.drop (v.p2 + 1) ++ v.in2.flatten ++ rest2) := by rw [e2]; rfl
      have h : v.made ++ (v.c1.drop v.p1).take (run - v.p1) = o.flatten ++ r := k1.symm
      rw [hrem, List.append_assoc, this, flatMerge_run_left _ _ _ _ g5, ← this, ← List.append_assoc, h]
      rfl
  · rw [if_neg hb]
    by_cases ha : belowUpd v.c1[v.p1] v.c2[v.p2] = true
    · rw [if_pos ha]
      obtain ⟨run, g1, g2, g3, g4, g5⟩ := run_spec h2 s2 ((belowUpd_iff _ _).1 ha)
      rw [g1]
      obtain ⟨k1, k2, r, o, k3⟩ := copy_spec hcap ((v.c2.drop v.p2).take (run - v.p2)) v
      have hrem : v.rem2 = (v.c2.drop v.p2).take (run - v.p2) ++ (v.c2.drop run ++ v.in2.flatten) := by
        rw [← List.append_assoc, g4, rem2]
      refine ⟨_, rfl, ?_⟩
      rw [k3] at k1 k2
      simp only [k3]
      refine ⟨⟨hv.full1, hv.full2, k2 hv.fullo, hv.le1, g3, hv.sorted1, ?_⟩, trivial, trivial, trivial, trivial, ?_, List.suffix_rfl, ⟨_, hrem.symm⟩, ?_⟩
      · have := hv.sorted2
        rw [hrem] at this
        exact (List.pairwise_append.1 this).2.1
      · rw [hrem]
        simp only [rem1, rem2, List.length_append, List.length_take, List.length_drop]
        omega
      · intro rest1 rest2
        have : v.rem1 ++ rest1 = v.c1[v.p1] :: (v.c1.drop (v.p1 + 1) ++ v.in1.flatten ++ rest1) := by rw [e1]; rfl
        have h : v.made ++ (v.c2.drop v.p2).take (run - v.p2) = o.flatten ++ r := k1.symm
        rw [hrem, List.append_assoc, this, flatMerge_run_right _ _ _ _ g5, ← this, ← List.append_assoc, h]
        rfl
    · rw [if_neg ha]
      obtain ⟨k1, k2, -, r, o, k3⟩ := flush_spec hcap false ({ v with result := if v.c1[v.p1].2.2 + v.c2[v.p2].2.2 ≠ 0 then v.result ++ [(v.c1[v.p1].1, v.c1[v.p1].2.1, v.c1[v.p1].2.2 + v.c2[v.p2].2.2)] else v.result, p1 := v.p1 + 1, p2 := v.p2 + 1 } : ChunkMerge D T R)
      refine ⟨_, rfl, ?_⟩
      rw [k3] at k1 k2
      simp only [k3]
      have s1' := hv.sorted1
      have s2' := hv.sorted2
      rw [e1] at s1'
      rw [e2] at s2'
      refine ⟨⟨hv.full1, hv.full2, k2 hv.fullo, h1, h2, (List.pairwise_cons.1 s1').2, (List.pairwise_cons.1 s2').2⟩, trivial, trivial, trivial, trivial, ?_, ⟨[_], e1.symm⟩, ⟨[_], e2.symm⟩, ?_⟩
      · rw [e1, e2]
        simp only [rem1, rem2, List.length_append, List.length_cons]
        omega
      · intro rest1 rest2
        rw [belowUpd_iff] at hb ha
        have hf : flatMerge (v.rem1 ++ rest1) (v.rem2 ++ rest2) =
            (if v.c1[v.p1].2.2 + v.c2[v.p2].2.2 ≠ 0 then [(v.c1[v.p1].1, v.c1[v.p1].2.1, v.c1[v.p1].2.2 + v.c2[v.p2].2.2)] else []) ++
              flatMerge (v.c1.drop (v.p1 + 1) ++ v.in1.flatten ++ rest1) (v.c2.drop (v.p2 + 1) ++ v.in2.flatten ++ rest2) := by
          rw [e1, e2]
          generalize v.c1[v.p1] = a at *
          generalize v.c2[v.p2] = b at *
          obtain ⟨d1, t1, r1⟩ := a
          obtain ⟨d2, t2, r2⟩ := b
          have hb' : ¬ (d1 < d2 ∨ (d1 = d2 ∧ toLin t1 < toLin t2)) := hb
          rw [List.cons_append, List.cons_append, flatMerge, if_neg hb', if_neg]
          rintro (h | ⟨h, h'⟩)
          · exact ha (Or.inl h)
          · exact ha (Or.inr ⟨h.symm, h'⟩)
        rw [hf, ← List.append_assoc]
        congr 1
        refine k1.trans ?_
        simp only [made]
        split_ifs <;> simp

theorem refill_spec {v : ChunkMerge D T R} (hv : v.Ok) :
    v.refill.1.Ok ∧ v.refill.1.rem1 = v.rem1 ∧ v.refill.1.rem2 = v.rem2 ∧ v.refill.1.made = v.made ∧
      v.refill.1.in1.length ≤ v.in1.length ∧ v.refill.1.in2.length ≤ v.in2.length ∧
      (v.refill.2 = false → v.refill.1.p1 < v.refill.1.c1.length ∧ v.refill.1.p2 < v.refill.1.c2.length) ∧
      (v.refill.2 = true → v.rem1 = [] ∨ v.rem2 = []) := by
  obtain ⟨c1, p1, in1, c2, p2, in2, result, out⟩ := v
  have l1 := hv.le1
  have l2 := hv.le2
  have f1 := hv.full1
  have f2 := hv.full2
  have s1 := hv.sorted1
  have s2 := hv.sorted2
  simp only [rem1, rem2] at l1 l2 f1 f2 s1 s2
  have tail : ∀ {c : Upds D T R} {cs : Chain D T R}, Full (c :: cs) → Full cs := fun h x hx => h x (by simp [hx])
  have head : ∀ {c : Upds D T R} {cs : Chain D T R}, Full (c :: cs) → 0 < c.length := fun h => List.length_pos_iff.2 (h _ (by simp))
  by_cases h1 : p1 = c1.length
  · subst h1
    cases in1 with
    | nil => simp only [refill, if_true]; exact ⟨hv, trivial, trivial, trivial, le_rfl, le_rfl, by simp, by simp [rem1]⟩
    | cons c in1 =>
      by_cases h2 : p2 = c2.length
      · subst h2
        cases in2 with
        | nil =>
          simp only [refill, if_true]
          refine ⟨⟨tail f1, f2, hv.fullo, by simp, le_rfl, by simpa [rem1] using s1, s2⟩, by simp [rem1], rfl, rfl, by simp, le_rfl, by simp, by simp [rem2]⟩
        | cons c' in2 =>
          simp only [refill, if_true]
          refine ⟨⟨tail f1, tail f2, hv.fullo, by simp, by simp, by simpa [rem1] using s1, by simpa [rem2] using s2⟩, by simp [rem1], by simp [rem2], rfl, by simp, by simp, fun _ => ⟨head f1, head f2⟩, by simp⟩
      · simp only [refill, if_true, h2, if_false]
        refine ⟨⟨tail f1, f2, hv.fullo, by simp, l2, by simpa [rem1] using s1, s2⟩, by simp [rem1], rfl, rfl, by simp, le_rfl, fun _ => ⟨head f1, by omega⟩, by simp⟩
  · by_cases h2 : p2 = c2.length
    · subst h2
      cases in2 with
      | nil => simp only [refill, h1, if_true, if_false]; exact ⟨hv, trivial, trivial, trivial, le_rfl, le_rfl, by simp, by simp [rem2]⟩
      | cons c' in2 =>
        simp only [refill, h1, if_true, if_false]
        refine ⟨⟨f1, tail f2, hv.fullo, l1, by simp, s1, by simpa [rem2] using s2⟩, rfl, by simp [rem2], rfl, le_rfl, by simp, fun _ => ⟨by omega, head f2⟩, by simp⟩
    · simp only [refill, h1, h2, if_false]
      exact ⟨hv, trivial, trivial, trivial, le_rfl, le_rfl, fun _ => ⟨by omega, by omega⟩, by simp⟩

theorem loop_spec {cap : Nat} (hcap : 0 < cap) (n : Nat) : ∀ (v : ChunkMerge D T R), v.Ok → v.p1 < v.c1.length → v.p2 < v.c2.length →
    v.rem1.length + v.rem2.length ≤ n →
    ∃ w, ChunkMerge.loop cap n v = some w ∧ w.Ok ∧ (w.rem1 = [] ∨ w.rem2 = []) ∧ w.in1.length ≤ v.in1.length ∧ w.in2.length ≤ v.in2.length ∧
      w.rem1 <:+ v.rem1 ∧ w.rem2 <:+ v.rem2 ∧
      ∀ rest1 rest2, w.made ++ flatMerge (w.rem1 ++ rest1) (w.rem2 ++ rest2) = v.made ++ flatMerge (v.rem1 ++ rest1) (v.rem2 ++ rest2) := by
  induction n with
  | zero =>
    intro v hv h1 h2 hn
    have : 0 < v.rem1.length := by simp [rem1]; omega
    omega
  | succ n ih =>
    intro v hv h1 h2 hn
    obtain ⟨w, g1, g2, g3, g4, g5, g6, g7, g8, g9, g10⟩ := step_spec hcap hv h1 h2
    obtain ⟨k1, k2, k3, k4, k5, k6, k7, k8⟩ := refill_spec g2
    rw [loop, List.getElem?_eq_getElem h1, List.getElem?_eq_getElem h2]
    simp only [g1]
    rw [g4] at k5
    rw [g6] at k6
    cases hr : w.refill.2 with
    | true =>
      rw [if_pos rfl]
      refine ⟨_, rfl, k1, ?_, k5, k6, by rw [k2]; exact g8, by rw [k3]; exact g9, ?_⟩
      · rw [k2, k3]; exact k8 hr
      · intro rest1 rest2
        rw [k2, k3, k4, g10]
    | false =>
      rw [if_neg (by simp)]
      obtain ⟨x, a1, a2, a3, a4, a5, a6, a7, a8⟩ := ih w.refill.1 k1 (k7 hr).1 (k7 hr).2 (by rw [k2, k3]; omega)
      rw [k2] at a6
      rw [k3] at a7
      refine ⟨x, a1, a2, a3, a4.trans k5, a5.trans k6, a6.trans g8, a7.trans g9, ?_⟩
      intro rest1 rest2
      rw [a8, k2, k3, k4, g10]

end ChunkMerge

/-- `merge` drains one of its inputs, and appends what precedes: whatever follows the inputs. -/
theorem chunkMerge_spec {cap : Nat} (hcap : 0 < cap) {in1 in2 out : Chain D T R} (n1 : in1 ≠ []) (n2 : in2 ≠ []) (f1 : Full in1) (f2 : Full in2) (fo : Full out)
    (s1 : SortedDT in1.flatten) (s2 : SortedDT in2.flatten) :
    ∃ in1' in2' out', chunkMerge cap in1 in2 out = some (in1', in2', out') ∧ Full in1' ∧ Full in2' ∧ Full out' ∧ (in1' = [] ∨ in2' = []) ∧
      in1'.length ≤ in1.length ∧ in2'.length ≤ in2.length ∧ in1'.flatten <:+ in1.flatten ∧ in2'.flatten <:+ in2.flatten ∧
      ∀ rest1 rest2, out'.flatten ++ flatMerge (in1'.flatten ++ rest1) (in2'.flatten ++ rest2) =
        out.flatten ++ flatMerge (in1.flatten ++ rest1) (in2.flatten ++ rest2) := by
  cases in1 with
  | nil => exact absurd rfl n1
  | cons c1 in1 =>
    cases in2 with
    | nil => exact absurd rfl n2
    | cons c2 in2 =>
      have hok : (⟨c1, 0, in1, c2, 0, in2, [], out⟩ : ChunkMerge D T R).Ok :=
        ⟨fun c hc => f1 c (by simp [hc]), fun c hc => f2 c (by simp [hc]), fo, by simp, by simp, by simpa [ChunkMerge.rem1] using s1, by simpa [ChunkMerge.rem2] using s2⟩
      obtain ⟨w, g1, g2, g3, g4, g5, g6, g7, g8⟩ := ChunkMerge.loop_spec hcap (c1.length + in1.flatten.length + c2.length + in2.flatten.length) _ hok
        (List.length_pos_iff.2 (f1 c1 (by simp))) (List.length_pos_iff.2 (f2 c2 (by simp))) (by simp [ChunkMerge.rem1, ChunkMerge.rem2]; omega)
      obtain ⟨k1, k2, k3, r, o, k4⟩ := ChunkMerge.flush_spec hcap true w
      have k3 := k3 rfl
      have k2 := k2 g2.fullo
      rw [k4] at k1 k2 k3
      simp only at k3
      subst k3
      have ho : o.flatten = w.made := by rw [← k1]; simp [ChunkMerge.made]
      have r1 : (if w.p1 < w.c1.length then w.c1.drop w.p1 :: w.in1 else w.in1).flatten = w.rem1 := by
        split_ifs with h
        · rfl
        · simp [ChunkMerge.rem1, List.drop_eq_nil_of_le (not_lt.1 h)]
      have r2 : (if w.p2 < w.c2.length then w.c2.drop w.p2 :: w.in2 else w.in2).flatten = w.rem2 := by
        split_ifs with h
        · rfl
        · simp [ChunkMerge.rem2, List.drop_eq_nil_of_le (not_lt.1 h)]
      have t1 : Full (if w.p1 < w.c1.length then w.c1.drop w.p1 :: w.in1 else w.in1) := by
        split_ifs with h
        · intro c hc
          rcases List.mem_cons.1 hc with rfl | hc
          · simpa using h
          · exact g2.full1 c hc
        · exact g2.full1
      have t2 : Full (if w.p2 < w.c2.length then w.c2.drop w.p2 :: w.in2 else w.in2) := by
        split_ifs with h
        · intro c hc
          rcases List.mem_cons.1 hc with rfl | hc
          · simpa using h
          · exact g2.full2 c hc
        · exact g2.full2
      have nil_of : ∀ {l : Chain D T R}, Full l → l.flatten = [] → l = [] := by
        intro l hl he
        cases l with
        | nil => rfl
        | cons c l => exact absurd (List.append_eq_nil_iff.1 he).1 (hl c (by simp))
      refine ⟨_, _, o, ?_, t1, t2, k2, ?_, ?_, ?_, ?_, ?_, ?_⟩
      · simp only [chunkMerge, g1, k4]
      · rcases g3 with g3 | g3
        · exact Or.inl (nil_of t1 (r1.trans g3))
        · exact Or.inr (nil_of t2 (r2.trans g3))
      · simp only at g4
        split_ifs <;> simp <;> omega
      · simp only at g5
        split_ifs <;> simp <;> omega
      · rw [r1]; simpa [ChunkMerge.rem1] using g6
      · rw [r2]; simpa [ChunkMerge.rem2] using g7
      · intro rest1 rest2
        rw [r1, r2, ho, g8]
        simp [ChunkMerge.made, ChunkMerge.rem1, ChunkMerge.rem2]

end merge

end DD
