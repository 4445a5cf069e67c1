import Verif.Spec.HalfJoin2
import Verif.Proofs.HalfJoin
import Verif.Proofs.ChunkAdvance
import Verif.Proofs.TimeOrd

namespace DD

section
variable {T : Type*} [Lattice T] [DecidableLE T]

theorem mapM_capsDelayed {caps F : List T} (h : ∀ t ∈ F, Beyond caps t) : F.mapM (capsDelayed caps) = some F := by
  induction F with
  | nil => rfl
  | cons t F ih =>
    have : capsDelayed caps t = some t := by
      unfold capsDelayed; rw [if_pos ((lessEqual_iff caps t).2 (h t (by simp)))]
    simp [List.mapM_cons, this, ih fun s hs => h s (by simp [hs])]

theorem capsDowngrade_ok {caps F : List T} (h : ∀ t ∈ F, Beyond caps t) : capsDowngrade caps F = some F := mapM_capsDelayed h

theorem beyond_mutFrontier (l : List T) (t : T) : Beyond (mutFrontier l) t ↔ Beyond l t := by
  unfold mutFrontier
  rw [beyond_acExtend]
  simp [Beyond]

theorem mem_mutFrontier {l : List T} {t : T} (h : t ∈ mutFrontier l) : t ∈ l := by
  rcases mem_acExtend h with h | h
  · simp at h
  · exact h

end

section
variable {K V V2 T R R2 M DOut : Type*} [LinearOrder K] [LinearOrder V] [LinearOrder V2] [Lattice T] [DecidableLE T] [DecidableEq T] [TimeOrd T]
  [AddCommMonoid R] [DecidableEq R] [AddCommMonoid R2] [DecidableEq R2] [AddCommMonoid M] [DecidableEq DOut]
variable (comparison : T → T → Bool) (logic : K → V → V2 → DOut) (mul : R →+ R2 →+ M)

/-- A stored element as a proposal. -/
def elemP (e : Lin T × PropData K V T × R) : PropData K V T × T × R := (e.2.1, ofLin e.1, e.2.2)

/-- No element of the frontier compares before the initial time. -/
def NoneBefore (F2 : List T) (t : T) : Prop := ∀ f ∈ F2, ¬ comparison f t = true

/-- What is known of a blob, whose data are `rdy` and then `stk`. -/
structure BlobOk (F2 : List T) (b : Blob K V T R) (rdy stk : Stored K V T R) : Prop where
  data : b.data = rdy ++ stk
  count : b.stuck_count = stk.length
  lower : b.lower.Perm (b.data.map fun e => ofLin e.1)
  caps : ∀ t, Beyond b.caps t ↔ Beyond (b.data.map fun e => ofLin e.1) t
  tight : ∀ c ∈ b.caps, c ∈ b.data.map fun e => ofLin e.1
  keys : rdy.Pairwise fun e e' => e.2.1.key ≤ e'.2.1.key
  ready : ∀ e ∈ rdy, NoneBefore comparison F2 (ofLin e.1)
  sorted : stk.Pairwise fun e e' => e.1 ≤ e'.1

variable {comparison}

omit [DecidableLE T] [DecidableEq T] in
theorem eligible_iff {frontier_func : T → List T} (hf : HalfJoin2Fns comparison frontier_func) (F : List T) (i : T) : eligible comparison F i = true ↔ NoneBefore comparison F i := by
  unfold eligible NoneBefore
  cases h : (F.map toLin).min? with
  | none =>
    rw [List.min?_eq_none_iff, List.map_eq_nil_iff] at h
    simp [h]
  | some m =>
    rw [List.min?_eq_some_iff] at h
    obtain ⟨h1, h2⟩ := h
    obtain ⟨m', hm', rfl⟩ := List.mem_map.1 h1
    simp only [Option.any_some, Bool.not_eq_true', Bool.not_eq_true]
    constructor
    · intro h f hf'
      by_contra hc
      have := hf.left m' f i (h2 _ (List.mem_map.2 ⟨f, hf', rfl⟩)) (by simpa using hc)
      exact absurd h (by simp only [Bool.not_eq_false]; exact this)
    · exact fun h => h m' hm'

/-- Blobs stay as they are when the frontier advances. -/
theorem BlobOk.advance {frontier_func : T → List T} (hf : HalfJoin2Fns comparison frontier_func) {F2 F2' : List T} (hadv : ∀ f ∈ F2', Beyond F2 f) {b : Blob K V T R}
    {rdy stk : Stored K V T R} (h : BlobOk comparison F2 b rdy stk) : BlobOk comparison F2' b rdy stk :=
  { h with
    ready := fun e he f hf' hc => by
      obtain ⟨g, hg, hle⟩ := hadv f hf'
      exact h.ready e he g hg (hf.down _ _ _ hle hc) }

/-- The order of the ready elements. -/
def readyLe (x y : Lin T × PropData K V T × R) : Prop := (toLex (x.2.1, x.1) : PropData K V T ×ₗ Lin T) ≤ toLex (y.2.1, y.1)

theorem key_mono {d d' : PropData K V T} (h : d ≤ d') : d.key ≤ d'.key := by
  rcases (Prod.Lex.le_iff).1 h with h | h
  · exact h.le
  · exact h.1.le

/-- Sorting a prefix. -/
theorem sortReady_ok (a b : Stored K V T R) : ∃ a', sortReady (a ++ b) a.length = a' ++ b ∧ a'.Perm a ∧ a'.Pairwise fun e e' => e.2.1.key ≤ e'.2.1.key := by
  refine ⟨a.insertionSort (fun x y => (toLex (x.2.1, x.1) : PropData K V T ×ₗ Lin T) ≤ toLex (y.2.1, y.1)), by simp [sortReady], List.perm_insertionSort _ _, ?_⟩
  haveI : IsTrans (Lin T × PropData K V T × R) (fun x y => (toLex (x.2.1, x.1) : PropData K V T ×ₗ Lin T) ≤ toLex (y.2.1, y.1)) := ⟨fun _ _ _ => le_trans⟩
  haveI : Std.Total (fun x y : Lin T × PropData K V T × R => (toLex (x.2.1, x.1) : PropData K V T ×ₗ Lin T) ≤ toLex (y.2.1, y.1)) := ⟨fun _ _ => le_total _ _⟩
  refine (List.pairwise_insertionSort _ a).imp ?_
  intro x y h
  rcases (Prod.Lex.le_iff).1 h with h | h
  · exact key_mono h.le
  · exact key_mono h.1.le

/-- Eligibility passes to smaller times in the total order. -/
theorem noneBefore_down {frontier_func : T → List T} (hf : HalfJoin2Fns comparison frontier_func) {F : List T} {i i' : T} (h : toLin i ≤ toLin i') (hn : NoneBefore comparison F i') :
    NoneBefore comparison F i := fun f hf' hc => hn f hf' (hf.right f i i' h hc)

/-- Splitting a list sorted by time into the eligible and the others. -/
theorem split_sorted {frontier_func : T → List T} (hf : HalfJoin2Fns comparison frontier_func) (F : List T) (l : Stored K V T R) (hl : l.Pairwise fun e e' => e.1 ≤ e'.1) :
    ∃ a b, l = a ++ b ∧ (∀ e ∈ a, NoneBefore comparison F (ofLin e.1)) ∧ (∀ e ∈ b, ¬ NoneBefore comparison F (ofLin e.1)) ∧
      (l.takeWhile fun e => eligible comparison F (ofLin e.1)) = a ∧ (l.reverse.takeWhile fun e => !eligible comparison F (ofLin e.1)) = b.reverse := by
  set P : Lin T × PropData K V T × R → Bool := fun e => eligible comparison F (ofLin e.1) with hP
  have hPi : ∀ e, P e = true ↔ NoneBefore comparison F (ofLin e.1) := fun e => eligible_iff hf F _
  have hsplit : l = l.takeWhile P ++ l.dropWhile P := (List.takeWhile_append_dropWhile ..).symm
  have ha : ∀ e ∈ l.takeWhile P, P e = true := fun e he => by simpa using List.all_eq_true.1 List.all_takeWhile _ he
  have hb : ∀ e ∈ l.dropWhile P, ¬ P e = true := by
    intro e he
    cases hd : l.dropWhile P with
    | nil => rw [hd] at he; simp at he
    | cons x xs =>
      have hx : ¬ P x = true := by
        have h0 : l.dropWhile P ≠ [] := by rw [hd]; simp
        have := List.head_dropWhile_not P h0
        simp only [hd, List.head_cons] at this
        simpa using this
      rw [hd] at he
      rcases List.mem_cons.1 he with rfl | he
      · exact hx
      · have hsub : (l.dropWhile P).Pairwise fun e e' => e.1 ≤ e'.1 := by
          rw [hsplit] at hl; exact (List.pairwise_append.1 hl).2.1
        rw [hd] at hsub
        have hle := (List.pairwise_cons.1 hsub).1 e he
        intro hpe
        exact hx ((hPi x).2 (noneBefore_down hf hle ((hPi e).1 hpe)))
  refine ⟨l.takeWhile P, l.dropWhile P, hsplit, fun e he => (hPi e).1 (ha e he), fun e he h => hb e he ((hPi e).2 h), rfl, ?_⟩
  conv_lhs => rw [hsplit, List.reverse_append]
  rw [List.takeWhile_append_of_pos (by intro e he; simpa using hb e (by simpa using he))]
  have : (l.takeWhile P).reverse.takeWhile (fun e => !P e) = [] := by
    cases hr : (l.takeWhile P).reverse with
    | nil => rfl
    | cons x xs =>
      have := ha x (by rw [← List.mem_reverse, hr]; simp)
      simp [this]
  rw [this, List.append_nil]

theorem formBlob_ok {frontier_func : T → List T} (hf : HalfJoin2Fns comparison frontier_func) {F2 caps : List T} {arriving : Stored K V T R}
    (hs : arriving.Pairwise fun e e' => e.1 ≤ e'.1) (hc : ∀ e ∈ arriving, Beyond caps (ofLin e.1)) :
    ∃ b rdy stk, formBlob comparison F2 caps arriving = some b ∧ BlobOk comparison F2 b rdy stk ∧ b.data.Perm arriving ∧ ∀ e ∈ stk, ¬ NoneBefore comparison F2 (ofLin e.1) := by
  obtain ⟨a, s, rfl, h1, h2, -, h4⟩ := split_sorted hf F2 arriving hs
  obtain ⟨a', k1, k2, k3⟩ := sortReady_ok a s
  have hlow : ∀ t ∈ mutFrontier ((a ++ s).map fun e => ofLin e.1), Beyond caps t := by
    intro t ht
    obtain ⟨e, he, rfl⟩ := List.mem_map.1 (mem_mutFrontier ht)
    exact hc e he
  unfold formBlob
  simp only [mapM_capsDelayed hlow, h4, List.length_reverse]
  have hlen : (a ++ s).length - s.length = a.length := by simp
  rw [hlen, k1]
  have hperm : (a' ++ s).Perm (a ++ s) := k2.append_right s
  have hb : ∀ t, Beyond ((a' ++ s).map fun e => ofLin e.1) t ↔ Beyond ((a ++ s).map fun e => ofLin e.1) t := by
    intro t
    unfold Beyond
    simp only [(hperm.map _).mem_iff]
  refine ⟨_, a', s, rfl, ⟨rfl, rfl, (hperm.map _).symm, ?_, ?_, k3, fun e he => h1 e (k2.subset he), (List.pairwise_append.1 hs).2.1⟩, hperm, h2⟩
  · intro t
    rw [hb]
    show Beyond (acExtend [] _) t ↔ _
    rw [beyond_acExtend, beyond_mutFrontier]
    simp [Beyond]
  · intro c hc'
    have : c ∈ acExtend [] (mutFrontier ((a ++ s).map fun e => ofLin e.1)) := hc'
    rcases mem_acExtend this with h | h
    · simp at h
    · exact (hperm.map _).symm.subset (mem_mutFrontier h)

/-- Promotion of stuck records: nothing that is stuck can be answered, if nothing was ready before. -/
theorem nibble_ok {frontier_func : T → List T} (hf : HalfJoin2Fns comparison frontier_func) {F2 : List T} {b : Blob K V T R} {rdy stk : Stored K V T R}
    (h : BlobOk comparison F2 b rdy stk) : ∃ b' rdy' stk', nibble comparison F2 b = some b' ∧ BlobOk comparison F2 b' rdy' stk' ∧ b'.data.Perm b.data ∧
      ((rdy = [] ∨ ∀ e ∈ stk, ¬ NoneBefore comparison F2 (ofLin e.1)) → ∀ e ∈ stk', ¬ NoneBefore comparison F2 (ofLin e.1)) := by
  unfold nibble
  by_cases hst : b.stuck_count = b.data.length
  · rw [if_pos hst]
    have hr : rdy = [] := by
      rw [h.count, h.data, List.length_append] at hst
      exact List.length_eq_zero_iff.1 (by omega)
    subst hr
    have hd : b.data = stk := by simpa using h.data
    obtain ⟨a, s, hsplit, h1, h2, h3, -⟩ := split_sorted hf F2 stk h.sorted
    rw [hd, h3]
    by_cases hz : a.length > 0
    · simp only [if_pos hz]
      obtain ⟨a', k1, k2, k3⟩ := sortReady_ok a s
      rw [hsplit, k1]
      have hperm : (a' ++ s).Perm (a ++ s) := k2.append_right s
      have hlow : ∀ t ∈ mutFrontier ((a' ++ s).map fun e => ofLin e.1), Beyond b.caps t := by
        intro t ht
        rw [h.caps, hd, hsplit]
        exact ⟨t, (hperm.map _).subset (mem_mutFrontier ht), le_refl _⟩
      simp only [capsDowngrade_ok hlow, Option.map_some]
      refine ⟨_, a', s, rfl, ⟨rfl, ?_, List.Perm.refl _, ?_, ?_, k3, fun e he => h1 e (k2.subset he), ?_⟩, hperm, fun _ => h2⟩
      · show b.stuck_count - a.length = s.length
        rw [h.count, hsplit, List.length_append]; omega
      · exact fun t => beyond_mutFrontier _ t
      · exact fun c hc => mem_mutFrontier hc
      · have := h.sorted; rw [hsplit] at this; exact (List.pairwise_append.1 this).2.1
    · rw [if_neg hz]
      have ha : a = [] := List.length_eq_zero_iff.1 (by omega)
      subst ha
      refine ⟨b, [], stk, rfl, h, by rw [hd], fun _ => ?_⟩
      rw [hsplit]; exact h2
  · rw [if_neg hst]
    refine ⟨b, rdy, stk, rfl, h, List.Perm.refl _, ?_⟩
    rintro (hr | hh)
    · exfalso
      apply hst
      rw [h.count, h.data, hr]; rfl
    · exact hh

/-- What stored elements are owed. -/
def storedOwed (comparison : T → T → Bool) (logic : K → V → V2 → DOut) (mul : R →+ R2 →+ M) (x : DOut × T) (i : T) (trace : Upds (K × V2) T R2) (l : Stored K V T R) : M :=
  (l.map fun e => owed comparison logic mul x i trace (elemP e)).sum

theorem storedOwed_append (x : DOut × T) (i : T) (trace : Upds (K × V2) T R2) (l l' : Stored K V T R) :
    storedOwed comparison logic mul x i trace (l ++ l') = storedOwed comparison logic mul x i trace l + storedOwed comparison logic mul x i trace l' := by
  simp [storedOwed]

theorem storedOwed_perm (x : DOut × T) (i : T) (trace : Upds (K × V2) T R2) {l l' : Stored K V T R} (h : l.Perm l') :
    storedOwed comparison logic mul x i trace l = storedOwed comparison logic mul x i trace l' := (h.map _).sum_eq

theorem drainReady_ok {contents : Contents K V2 T R2} (hs : ContentsSorted contents) (trace : Upds (K × V2) T R2) (caps : List T) (stk : Stored K V T R) :
    ∀ (rdy : Stored K V T R) (cursor : Pos K V2 T R2) (pre : Contents K V2 T R2) (y : Bool × Option Nat), contents = pre ++ cursor.keys →
    rdy.Pairwise (fun e e' => e.2.1.key ≤ e'.2.1.key) → (∀ e ∈ rdy, ∀ kv ∈ pre, kv.1 < e.2.1.key) → (∀ e ∈ rdy, Beyond caps (ofLin e.1)) →
    (∀ e ∈ rdy, Exact comparison logic mul contents trace (elemP e)) →
    ∃ done rdy' y' outs, drainReady comparison logic (fun a b => mul a b) caps stk.length cursor y (rdy ++ stk) = some (rdy' ++ stk, done.map (fun e => ofLin e.1), y', outs) ∧
      rdy = done ++ rdy' ∧ (∀ o ∈ outs, o.1 ∈ caps ∧ o.1 ≤ o.2.2.1) ∧ (y = (false, none) → y' = (false, none) ∧ rdy' = []) ∧
      ∀ x i, total (outs.map Prod.snd) x i + storedOwed comparison logic mul x i trace rdy' = storedOwed comparison logic mul x i trace rdy
  | [], cursor, pre, y, _, _, _, _, _ => by
    refine ⟨[], [], y, [], ?_, rfl, by simp, fun h => ⟨h, rfl⟩, fun x i => by simp [total_nil]⟩
    cases stk with
    | nil => rfl
    | cons e stk => simp [drainReady]
  | e :: rdy, cursor, pre, y, hc, hsort, hpre, hcaps, hex => by
    obtain ⟨hs1, hs2⟩ := List.pairwise_cons.1 hsort
    have hlen : (e :: (rdy ++ stk)).length > stk.length := by simp; omega
    rw [List.cons_append]
    unfold drainReady
    rw [if_pos hlen]
    by_cases hy : (askYield y).1 = true
    · refine ⟨[], e :: rdy, askYield y, [], by simp [hy], rfl, by simp, ?_, fun x i => by simp [total_nil]⟩
      rintro rfl
      simp [askYield] at hy
    · simp only [hy]
      obtain ⟨c, hcm, hcle⟩ := hcaps e (by simp)
      obtain ⟨cap, hcap⟩ : ∃ cap, caps.find? (fun c => c ≤ ofLin e.1) = some cap := by
        rw [← Option.isSome_iff_exists, List.find?_isSome]
        exact ⟨c, hcm, by simpa using hcle⟩
      have hcapm := List.mem_of_find?_eq_some hcap
      have hcaple : cap ≤ ofLin e.1 := by simpa using List.find?_some hcap
      obtain ⟨cursor', outs1, pre', h1, h2, h3, h4, h5⟩ := answerProposal_ok comparison logic mul hs cursor hc e.2.1 (hpre e (by simp)) (ofLin e.1) e.2.2
      obtain ⟨done, rdy', y', outs, k1, k2, k3, k4, k5⟩ := drainReady_ok hs trace caps stk rdy cursor' pre' (askYield y) h2 hs2
        (fun q hq kv hkv => lt_of_lt_of_le (h3 kv hkv) (hs1 q hq)) (fun q hq => hcaps q (by simp [hq])) (fun q hq => hex q (by simp [hq]))
      refine ⟨e :: done, rdy', y', outs1.map (fun u => (cap, u)) ++ outs, ?_, by rw [k2]; rfl, ?_, ?_, ?_⟩
      · simp [hcap, h1, k1]
      · intro o ho
        rcases List.mem_append.1 ho with ho | ho
        · obtain ⟨u, hu, rfl⟩ := List.mem_map.1 ho
          exact ⟨hcapm, by rw [h4 u hu]; exact hcaple⟩
        · exact k3 o ho
      · rintro rfl
        exact k4 rfl
      · intro x i
        have e1 : (outs1.map (fun u => (cap, u))).map Prod.snd = outs1 := by simp [Function.comp_def]
        have e2 := hex e (by simp) x i
        unfold elemP at e2
        rw [List.map_append, total_append, e1, add_assoc, k5, h5, e2]
        simp [storedOwed, elemP]

/-- The blobs hold elements which satisfy `Q`, and stuck ones satisfy `S`. -/
def BlobWith (comparison : T → T → Bool) (F2 : List T) (Q S : Lin T × PropData K V T × R → Prop) (b : Blob K V T R) : Prop :=
  ∃ rdy stk, BlobOk comparison F2 b rdy stk ∧ (∀ e ∈ b.data, Q e) ∧ ∀ e ∈ stk, S e

/-- What all blobs are owed. -/
def blobsOwed (comparison : T → T → Bool) (logic : K → V → V2 → DOut) (mul : R →+ R2 →+ M) (x : DOut × T) (i : T) (trace : Upds (K × V2) T R2) (bs : List (Blob K V T R)) : M :=
  (bs.map fun b => storedOwed comparison logic mul x i trace b.data).sum

theorem visitBlobs_ok {contents : Contents K V2 T R2} (hs : ContentsSorted contents) (trace : Upds (K × V2) T R2) (F2 : List T) (Q S : Lin T × PropData K V T × R → Prop)
    (hex : ∀ e : Lin T × PropData K V T × R, Q e → NoneBefore comparison F2 (ofLin e.1) → Exact comparison logic mul contents trace (elemP e)) :
    ∀ (bs : List (Blob K V T R)) (y : Bool × Option Nat), (∀ b ∈ bs, BlobWith comparison F2 Q S b) →
    ∃ bs' outs, visitBlobs comparison logic (fun a b => mul a b) contents y bs = some (bs', outs) ∧ (∀ b ∈ bs', BlobWith comparison F2 Q S b) ∧
      (∀ o ∈ outs, (∃ b ∈ bs, o.1 ∈ b.caps) ∧ o.1 ≤ o.2.2.1) ∧
      (∀ b' ∈ bs', ∃ b ∈ bs, ∀ e ∈ b'.data, e ∈ b.data) ∧
      (y = (false, none) → ∀ b ∈ bs', b.data.length ≤ b.stuck_count) ∧
      ∀ x i, total (outs.map Prod.snd) x i + blobsOwed comparison logic mul x i trace bs' = blobsOwed comparison logic mul x i trace bs
  | [], y, _ => ⟨[], [], rfl, by simp, by simp, by simp, by simp, fun x i => by simp [total_nil]⟩
  | b :: bs, y, h => by
    obtain ⟨rdy, stk, hb, hq, hst⟩ := h b (by simp)
    have hlen : b.data.length = rdy.length + b.stuck_count := by rw [hb.data, hb.count, List.length_append]
    unfold visitBlobs
    by_cases hgt : b.data.length > b.stuck_count
    · rw [if_pos hgt]
      by_cases hy : y.1 = true
      · rw [if_pos hy]
        refine ⟨b :: bs, [], rfl, h, by simp, fun b' hb' => ⟨b', hb', fun e he => he⟩, ?_, fun x i => by simp [total_nil]⟩
        rintro rfl; simp at hy
      · rw [if_neg hy]
        obtain ⟨done, rdy', y', outs, k1, k2, k3, k4, k5⟩ := drainReady_ok logic mul hs trace b.caps stk rdy (Pos.start contents) [] y rfl hb.keys (by simp)
          (fun e he => (hb.caps _).2 ⟨_, List.mem_map.2 ⟨e, by rw [hb.data]; simp [he], rfl⟩, le_refl _⟩)
          (fun e he => hex e (hq e (by rw [hb.data]; simp [he])) (hb.ready e he))
        rw [hb.data, hb.count, k1]
        have hdata : b.data = done ++ (rdy' ++ stk) := by rw [hb.data, k2, List.append_assoc]
        -- the blob that remains
        obtain ⟨b', hb'1, hb'2, hb'3⟩ : ∃ b' : Blob K V T R, (if (rdy' ++ stk).isEmpty = true then some (⟨[], [], [], stk.length⟩ : Blob K V T R)
              else (capsDowngrade b.caps (mutFrontier (b.lower.diff (done.map fun e => ofLin e.1)))).map fun caps => ⟨caps, b.lower.diff (done.map fun e => ofLin e.1), rdy' ++ stk, stk.length⟩)
              = some b' ∧ b'.data = rdy' ++ stk ∧ BlobOk comparison F2 b' rdy' stk := by
          by_cases hem : (rdy' ++ stk).isEmpty = true
          · rw [if_pos hem]
            obtain ⟨rfl, rfl⟩ : rdy' = [] ∧ stk = [] := by simpa using hem
            exact ⟨_, rfl, rfl, ⟨rfl, rfl, List.Perm.refl _, fun t => Iff.rfl, by simp, .nil, by simp, .nil⟩⟩
          · rw [if_neg hem]
            have hl : (b.lower.diff (done.map fun e => ofLin e.1)).Perm ((rdy' ++ stk).map fun e => ofLin e.1) := by
              have h1 : b.lower.Perm ((done.map fun e => ofLin e.1) ++ (rdy' ++ stk).map fun e => ofLin e.1) := by
                rw [← List.map_append, ← hdata]; exact hb.lower
              refine (h1.diff_right _).trans ?_
              have : ∀ (l m : List T), (l ++ m).diff l = m := by
                intro l
                induction l with
                | nil => intro m; rfl
                | cons a l ih => intro m; rw [List.cons_append, List.diff_cons]; simp [ih]
              rw [this]
            have hmem : ∀ t ∈ mutFrontier (b.lower.diff (done.map fun e => ofLin e.1)), t ∈ (rdy' ++ stk).map fun e => ofLin e.1 :=
              fun t ht => hl.subset (mem_mutFrontier ht)
            have hlow : ∀ t ∈ mutFrontier (b.lower.diff (done.map fun e => ofLin e.1)), Beyond b.caps t := by
              intro t ht
              rw [hb.caps]
              obtain ⟨e, he, rfl⟩ := List.mem_map.1 (hmem t ht)
              exact ⟨_, List.mem_map.2 ⟨e, by rw [hdata]; exact List.mem_append_right _ he, rfl⟩, le_refl _⟩
            rw [capsDowngrade_ok hlow]
            refine ⟨_, rfl, rfl, ⟨rfl, rfl, hl, ?_, hmem, ?_, ?_, hb.sorted⟩⟩
            · intro t
              show Beyond (mutFrontier _) t ↔ Beyond ((rdy' ++ stk).map _) t
              rw [beyond_mutFrontier]
              unfold Beyond
              simp only [hl.mem_iff]
            · have := hb.keys; rw [k2] at this; exact (List.pairwise_append.1 this).2.1
            · exact fun e he => hb.ready e (by rw [k2]; exact List.mem_append_right _ he)
        obtain ⟨bs', outs', m1, m2, m3, m4, m5, m6⟩ := visitBlobs_ok hs trace F2 Q S hex bs y' fun b hb => h b (by simp [hb])
        simp only [hb'1, m1, Option.map_some]
        have hsub : ∀ e ∈ b'.data, e ∈ b.data := fun e he => by rw [hdata]; rw [hb'2] at he; exact List.mem_append_right _ he
        refine ⟨_, _, rfl, ?_, ?_, ?_, ?_, ?_⟩
        · intro c hc
          rcases List.mem_cons.1 hc with rfl | hc
          · exact ⟨rdy', stk, hb'3, fun e he => hq e (hsub e he), hst⟩
          · exact m2 c hc
        · intro o ho
          rcases List.mem_append.1 ho with ho | ho
          · exact ⟨⟨b, by simp, (k3 o ho).1⟩, (k3 o ho).2⟩
          · obtain ⟨⟨c, hc, hh⟩, h'⟩ := m3 o ho
            exact ⟨⟨c, by simp [hc], hh⟩, h'⟩
        · intro c hc
          rcases List.mem_cons.1 hc with rfl | hc
          · exact ⟨b, by simp, hsub⟩
          · obtain ⟨c', hc', hh⟩ := m4 c hc
            exact ⟨c', by simp [hc'], hh⟩
        · intro hy0 c hc
          obtain ⟨hy1, hy2⟩ := k4 hy0
          rcases List.mem_cons.1 hc with rfl | hc
          · rw [hb'2, hy2, hb'3.count]; simp
          · exact m5 hy1 c hc
        · intro x i
          have e1 := k5 x i
          have e2 := m6 x i
          rw [List.map_append, total_append]
          unfold blobsOwed at e2 ⊢
          rw [List.map_cons, List.sum_cons, List.map_cons, List.sum_cons, ← e2, hb'2, hb.data, storedOwed_append, storedOwed_append, ← e1]
          abel
    · rw [if_neg hgt]
      obtain ⟨bs', outs', m1, m2, m3, m4, m5, m6⟩ := visitBlobs_ok hs trace F2 Q S hex bs y fun b hb => h b (by simp [hb])
      simp only [m1, Option.map_some]
      refine ⟨_, _, rfl, ?_, ?_, ?_, ?_, ?_⟩
      · intro c hc
        rcases List.mem_cons.1 hc with rfl | hc
        · exact ⟨rdy, stk, hb, hq, hst⟩
        · exact m2 c hc
      · intro o ho
        obtain ⟨⟨c, hc, hh⟩, h'⟩ := m3 o ho
        exact ⟨⟨c, by simp [hc], hh⟩, h'⟩
      · intro c hc
        rcases List.mem_cons.1 hc with rfl | hc
        · exact ⟨c, by simp, fun e he => he⟩
        · obtain ⟨c', hc', hh⟩ := m4 c hc
          exact ⟨c', by simp [hc'], hh⟩
      · intro hy0 c hc
        rcases List.mem_cons.1 hc with rfl | hc
        · omega
        · exact m5 hy0 c hc
      · intro x i
        have e2 := m6 x i
        unfold blobsOwed at e2 ⊢
        rw [List.map_cons, List.sum_cons, List.map_cons, List.sum_cons, ← e2]
        abel

theorem mapM_nibble {frontier_func : T → List T} (hf : HalfJoin2Fns comparison frontier_func) {F2 : List T} (Q : Lin T × PropData K V T × R → Prop) (trace : Upds (K × V2) T R2)
    (bs : List (Blob K V T R)) (h : ∀ b ∈ bs, BlobWith comparison F2 Q (fun _ => True) b) :
    ∃ bs', bs.mapM (nibble comparison F2) = some bs' ∧ (∀ b ∈ bs', BlobWith comparison F2 Q (fun _ => True) b) ∧
      ((∀ b ∈ bs, b.data.length ≤ b.stuck_count ∨ BlobWith comparison F2 Q (fun e => ¬ NoneBefore comparison F2 (ofLin e.1)) b) →
        ∀ b ∈ bs', BlobWith comparison F2 Q (fun e => ¬ NoneBefore comparison F2 (ofLin e.1)) b) ∧
      (∀ b' ∈ bs', ∃ b ∈ bs, ∀ e ∈ b'.data, e ∈ b.data) ∧
      ∀ x i, blobsOwed comparison logic mul x i trace bs' = blobsOwed comparison logic mul x i trace bs := by
  induction bs with
  | nil => exact ⟨[], rfl, by simp, by simp, by simp, fun x i => rfl⟩
  | cons b bs ih =>
    obtain ⟨rdy, stk, hb, hq, -⟩ := h b (by simp)
    obtain ⟨b', rdy', stk', k1, k2, k3, k4⟩ := nibble_ok hf hb
    obtain ⟨bs', m1, m2, m3, m4, m5⟩ := ih fun b hb => h b (by simp [hb])
    refine ⟨b' :: bs', by simp [List.mapM_cons, k1, m1], ?_, ?_, ?_, ?_⟩
    · intro c hc
      rcases List.mem_cons.1 hc with rfl | hc
      · exact ⟨rdy', stk', k2, fun e he => hq e (k3.subset he), by simp⟩
      · exact m2 c hc
    · intro hh c hc
      rcases List.mem_cons.1 hc with rfl | hc
      · rcases hh b (by simp) with h0 | ⟨rdy2, stk2, hb2, -, h2⟩
        · refine ⟨rdy', stk', k2, fun e he => hq e (k3.subset he), k4 (Or.inl ?_)⟩
          rw [hb.data, hb.count, List.length_append] at h0
          exact List.length_eq_zero_iff.1 (by omega)
        · refine ⟨rdy', stk', k2, fun e he => hq e (k3.subset he), k4 (Or.inr ?_)⟩
          have : stk = stk2 := by
            have h1 : rdy ++ stk = rdy2 ++ stk2 := by rw [← hb.data, ← hb2.data]
            exact (List.append_inj' h1 (by rw [← hb.count, ← hb2.count])).2
          rw [this]; exact h2
      · exact m3 (fun b hb => hh b (by simp [hb])) c hc
    · intro c hc
      rcases List.mem_cons.1 hc with rfl | hc
      · exact ⟨b, by simp, fun e he => k3.subset he⟩
      · obtain ⟨c', hc', hh⟩ := m4 c hc
        exact ⟨c', by simp [hc'], hh⟩
    · intro x i
      have := m5 x i
      unfold blobsOwed at this ⊢
      rw [List.map_cons, List.sum_cons, List.map_cons, List.sum_cons, this, storedOwed_perm logic mul x i trace k3]

theorem blobsOwed_append (x : DOut × T) (i : T) (trace : Upds (K × V2) T R2) (bs bs' : List (Blob K V T R)) :
    blobsOwed comparison logic mul x i trace (bs ++ bs') = blobsOwed comparison logic mul x i trace bs + blobsOwed comparison logic mul x i trace bs' := by
  simp [blobsOwed]

theorem blobsOwed_filter (x : DOut × T) (i : T) (trace : Upds (K × V2) T R2) (bs : List (Blob K V T R)) :
    blobsOwed comparison logic mul x i trace (bs.filter fun b => !b.data.isEmpty) = blobsOwed comparison logic mul x i trace bs := by
  induction bs with
  | nil => rfl
  | cons b bs ih =>
    unfold blobsOwed at ih ⊢
    by_cases hb : b.data.isEmpty = true
    · rw [List.filter_cons_of_neg (by simp [hb]), ih, List.map_cons, List.sum_cons]
      rw [List.isEmpty_iff] at hb
      rw [hb]; simp [storedOwed]
    · rw [List.filter_cons_of_pos (by simpa using hb), List.map_cons, List.sum_cons, ih, List.map_cons, List.sum_cons]

theorem work_ok {frontier_func : T → List T} (hf : HalfJoin2Fns comparison frontier_func) (trace : Upds (K × V2) T R2) (Q : Lin T × PropData K V T × R → Prop)
    (hQ : ∀ t d r r', Q (t, d, r) → Q (t, d, r')) (bs : List (Blob K V T R)) (act : HalfJoinAct K V V2 T R R2) (hs : ContentsSorted act.contents)
    (hbs : ∀ b ∈ bs, BlobWith comparison act.frontier2 Q (fun _ => True) b) (hm : ∀ m ∈ act.msgs, ∀ u ∈ m.2, m.1 ≤ u.2.1 ∧ Q (toLin u.2.1, u.1, u.2.2))
    (hex : ∀ e : Lin T × PropData K V T × R, Q e → NoneBefore comparison act.frontier2 (ofLin e.1) → Exact comparison logic mul act.contents trace (elemP e)) :
    ∃ bs' outs, HalfJoin2.work comparison logic (fun a b => mul a b) bs act = some (bs', outs) ∧ (∀ b ∈ bs', b.data ≠ [] ∧ BlobWith comparison act.frontier2 Q (fun _ => True) b) ∧
      (∀ o ∈ outs, o.1 ≤ o.2.2.1) ∧
      (act.yields = none → (∀ b ∈ bs, b.data.length ≤ b.stuck_count) →
        ∀ b ∈ bs', b.data.length ≤ b.stuck_count ∧ ∀ e ∈ b.data, ¬ NoneBefore comparison act.frontier2 (ofLin e.1)) ∧
      ∀ x i, total (outs.map Prod.snd) x i + blobsOwed comparison logic mul x i trace bs'
        = blobsOwed comparison logic mul x i trace bs + ((act.msgs.flatMap Prod.snd).map (owed comparison logic mul x i trace)).sum := by
  unfold HalfJoin2.work
  simp only [consolidateUpdates_eq]
  set arr : Stored K V T R := act.msgs.flatMap fun m => m.2.map fun u => (toLin u.2.1, u.1, u.2.2) with harr
  have hmemA : ∀ e ∈ consolidatedU arr, Q e ∧ Beyond (act.msgs.foldl (fun caps m => acInsert caps m.1) []) (ofLin e.1) := by
    intro e he
    obtain ⟨v, hv, h1, h2⟩ := mem_consolidatedU arr e he
    rw [harr] at hv
    obtain ⟨m, hm', hv⟩ := List.mem_flatMap.1 hv
    obtain ⟨u, hu, rfl⟩ := List.mem_map.1 hv
    obtain ⟨g1, g2⟩ := hm m hm' u hu
    obtain ⟨t, d, r⟩ := e
    simp only at h1 h2
    subst h1 h2
    refine ⟨hQ _ _ _ _ g2, ?_⟩
    have : act.msgs.foldl (fun caps m => acInsert caps m.1) [] = acExtend [] (act.msgs.map Prod.fst) := by
      unfold acExtend; rw [List.foldl_map]
    rw [this, beyond_acExtend]
    exact Or.inr ⟨m.1, List.mem_map.2 ⟨m, hm', rfl⟩, g1⟩
  have hsorted : (consolidatedU arr).Pairwise fun e e' => e.1 ≤ e'.1 := by
    refine (consolidated_consolidatedU arr).1.imp ?_
    rintro a b (h | h)
    · exact h.le
    · exact h.1.le
  have howed : ∀ x i, storedOwed comparison logic mul x i trace (consolidatedU arr) = ((act.msgs.flatMap Prod.snd).map (owed comparison logic mul x i trace)).sum := by
    intro x i
    have e1 := measure_consolidatedU (fun t d => owedHom comparison logic mul x i trace d (ofLin t)) arr
    refine e1.trans ?_
    rw [harr]
    congr 1
    induction act.msgs with
    | nil => rfl
    | cons m ms ih =>
      rw [List.flatMap_cons, List.map_append, ih, List.flatMap_cons, List.map_append]
      congr 1
      rw [List.map_map]
      rfl
  obtain ⟨bs1, f1, f2, f3, f4⟩ : ∃ bs1, (if (consolidatedU arr).isEmpty = true then some bs
        else (formBlob comparison act.frontier2 (act.msgs.foldl (fun caps m => acInsert caps m.1) []) (consolidatedU arr)).map fun blob => bs ++ [blob]) = some bs1 ∧
      (∀ b ∈ bs1, BlobWith comparison act.frontier2 Q (fun _ => True) b) ∧
      ((∀ b ∈ bs, b.data.length ≤ b.stuck_count) → ∀ b ∈ bs1, b.data.length ≤ b.stuck_count ∨
        BlobWith comparison act.frontier2 Q (fun e => ¬ NoneBefore comparison act.frontier2 (ofLin e.1)) b) ∧
      ∀ x i, blobsOwed comparison logic mul x i trace bs1 = blobsOwed comparison logic mul x i trace bs + storedOwed comparison logic mul x i trace (consolidatedU arr) := by
    by_cases hem : (consolidatedU arr).isEmpty = true
    · rw [if_pos hem]
      refine ⟨bs, rfl, hbs, fun h b hb => Or.inl (h b hb), fun x i => ?_⟩
      rw [List.isEmpty_iff] at hem
      rw [hem]; simp [storedOwed]
    · rw [if_neg hem]
      obtain ⟨b, rdy, stk, k1, k2, k3, k4⟩ := formBlob_ok hf (F2 := act.frontier2) hsorted fun e he => (hmemA e he).2
      rw [k1]
      have hqb : ∀ e ∈ b.data, Q e := fun e he => (hmemA e (k3.subset he)).1
      refine ⟨bs ++ [b], rfl, ?_, ?_, ?_⟩
      · intro c hc
        rcases List.mem_append.1 hc with hc | hc
        · exact hbs c hc
        · rw [List.mem_singleton.1 hc]
          exact ⟨rdy, stk, k2, hqb, by simp⟩
      · intro h c hc
        rcases List.mem_append.1 hc with hc | hc
        · exact Or.inl (h c hc)
        · rw [List.mem_singleton.1 hc]
          exact Or.inr ⟨rdy, stk, k2, hqb, k4⟩
      · intro x i
        rw [blobsOwed_append]
        congr 1
        show (List.map _ [b]).sum = _
        simp only [List.map_cons, List.map_nil, List.sum_cons, List.sum_nil, add_zero]
        exact storedOwed_perm logic mul x i trace k3
  rw [f1]
  obtain ⟨bs2, n1, n2, n3, -, n5⟩ := mapM_nibble logic mul hf Q trace bs1 f2
  simp only [n1]
  obtain ⟨bs3, outs, v1, v2, v3, v4, v5, v6⟩ := visitBlobs_ok logic mul hs trace act.frontier2 Q (fun _ => True) hex bs2 (false, act.yields) n2
  simp only [v1, Option.map_some]
  refine ⟨_, _, rfl, ?_, fun o ho => (v3 o ho).2, ?_, ?_⟩
  · intro b hb
    rw [List.mem_filter] at hb
    exact ⟨by simpa using hb.2, v2 b hb.1⟩
  · intro hy hbs0 b hb
    rw [List.mem_filter] at hb
    obtain ⟨bs3', outs', w1, w2, -, -, -, -⟩ := visitBlobs_ok logic mul hs trace act.frontier2 Q (fun e => ¬ NoneBefore comparison act.frontier2 (ofLin e.1)) hex bs2
      (false, act.yields) (n3 (f3 hbs0))
    rw [v1, Option.some.injEq, Prod.mk.injEq] at w1
    obtain ⟨rfl, rfl⟩ := w1
    have hle := v5 (by rw [hy]) b hb.1
    refine ⟨hle, fun e he => ?_⟩
    obtain ⟨rdy, stk, g1, -, g3⟩ := w2 b hb.1
    rw [g1.data, g1.count, List.length_append] at hle
    have : rdy = [] := List.length_eq_zero_iff.1 (by omega)
    rw [g1.data, this] at he
    exact g3 e (by simpa using he)
  · intro x i
    rw [blobsOwed_filter, v6, n5, f4, howed]

/-- What holds between activations. -/
structure Half2Inv (comparison : T → T → Bool) (frontier_func : T → List T) (F1 F2 : List T) (st : HalfJoin2 K V T R) : Prop where
  ok : ∀ b ∈ st.blobs, b.data ≠ [] ∧ BlobWith comparison F2 (fun e => ofLin e.1 ≤ e.2.1.time) (fun _ => True) b
  cover : st.live = true → ∀ h, (h ∈ F1 ∨ ∃ b ∈ st.blobs, h ∈ b.caps) → ∀ q, Beyond (frontier_func h) q → Beyond st.logical q
  dead : st.live = false → F1 = [] ∧ st.blobs = []
  wake : st.wake = st.blobs.any fun b => b.data.length > b.stuck_count

/-- What the operator is owed. -/
theorem blobsOwed_eq (x : DOut × T) (i : T) (trace : Upds (K × V2) T R2) (st : HalfJoin2 K V T R) :
    blobsOwed comparison logic mul x i trace st.blobs = total (halfMatches comparison logic (fun a b => mul a b) st.held trace) x i := by
  rw [total_halfMatches]
  unfold HalfJoin2.held blobsOwed
  induction st.blobs with
  | nil => rfl
  | cons b bs ih =>
    rw [List.map_cons, List.sum_cons, ih, List.flatMap_cons, List.map_append, List.sum_append]
    congr 1
    unfold storedOwed
    rw [List.map_map]
    rfl

theorem half2_activate_ok {frontier_func : T → List T} (hf : HalfJoin2Fns comparison frontier_func) {trace : Upds (K × V2) T R2} {F1 F2 : List T} {st : HalfJoin2 K V T R}
    (hinv : Half2Inv comparison frontier_func F1 F2 st) {act : HalfJoinAct K V V2 T R R2} (hl : LegalHalf trace F1 st.logical act) (hadv : ∀ f ∈ act.frontier2, Beyond F2 f) :
    ∃ st' outs, st.activate comparison frontier_func logic (fun a b => mul a b) act = some (st', outs) ∧ Half2Inv comparison frontier_func act.frontier1 act.frontier2 st' ∧
      (∀ x i, total (outs.map Prod.snd) x i + blobsOwed comparison logic mul x i trace st'.blobs
        = blobsOwed comparison logic mul x i trace st.blobs + ((act.msgs.flatMap Prod.snd).map (owed comparison logic mul x i trace)).sum) ∧
      (∀ o ∈ outs, o.1 ≤ o.2.2.1) ∧
      (act.yields = none → st.wake = false → st'.wake = false ∧ ∀ p ∈ st'.held, ¬ NoneBefore comparison act.frontier2 p.2.1) ∧
      ((∀ h h', h ≤ h' → FrontierLe (frontier_func h) (frontier_func h')) → FrontierLe st.logical st'.logical) := by
  -- elements are covered by a time that the trace is held for
  let Q : Lin T × PropData K V T × R → Prop := fun e => ofLin e.1 ≤ e.2.1.time ∧ ∃ h, (h ∈ F1 ∨ ∃ b ∈ st.blobs, h ∈ b.caps) ∧ h ≤ ofLin e.1
  obtain ⟨bs', outs, w1, w2, w3, w4, w5⟩ : ∃ bs' outs, (if st.live = true then HalfJoin2.work comparison logic (fun a b => mul a b) st.blobs act else some (st.blobs, [])) = some (bs', outs) ∧
      (∀ b ∈ bs', b.data ≠ [] ∧ BlobWith comparison act.frontier2 Q (fun _ => True) b) ∧ (∀ o ∈ outs, o.1 ≤ o.2.2.1) ∧
      (act.yields = none → (∀ b ∈ st.blobs, b.data.length ≤ b.stuck_count) →
        ∀ b ∈ bs', b.data.length ≤ b.stuck_count ∧ ∀ e ∈ b.data, ¬ NoneBefore comparison act.frontier2 (ofLin e.1)) ∧
      ∀ x i, total (outs.map Prod.snd) x i + blobsOwed comparison logic mul x i trace bs'
        = blobsOwed comparison logic mul x i trace st.blobs + ((act.msgs.flatMap Prod.snd).map (owed comparison logic mul x i trace)).sum := by
    by_cases hlive : st.live = true
    · rw [if_pos hlive]
      obtain ⟨now, later, t1, t2, t3⟩ := hl.shows
      refine work_ok logic mul hf trace Q (fun t d r r' h => h) st.blobs act hl.sorted ?_ ?_ ?_
      · intro b hb
        obtain ⟨-, rdy, stk, h1, h2, -⟩ := hinv.ok b hb
        refine ⟨rdy, stk, h1.advance hf hadv, fun e he => ⟨h2 e he, ?_⟩, by simp⟩
        obtain ⟨c, hc, hle⟩ := (h1.caps (ofLin e.1)).2 ⟨_, List.mem_map.2 ⟨e, he, rfl⟩, le_refl _⟩
        exact ⟨c, Or.inr ⟨b, hb, hc⟩, hle⟩
      · intro m hm u hu
        obtain ⟨h1, h2⟩ := hl.msgs m hm
        refine ⟨(h2 u hu).1, (h2 u hu).2, ?_⟩
        obtain ⟨f, hf', hle⟩ := h1
        exact ⟨f, Or.inl hf', hle.trans (h2 u hu).1⟩
      · rintro e ⟨h1, h, hh, hle⟩ hn x i
        refine owed_shown comparison logic mul hf.toHalfJoinFns t1 t2 t3 (h := h) ?_ (elemP e) hle h1 hn x i
        intro s t hst q hq
        exact hst q (hinv.cover hlive h hh q hq)
    · rw [if_neg hlive]
      obtain ⟨hF, hS⟩ := hinv.dead (by simpa using hlive)
      refine ⟨st.blobs, [], rfl, by simp [hS], by simp, by simp [hS], fun x i => ?_⟩
      have : act.msgs = [] := by
        apply List.eq_nil_iff_forall_not_mem.2
        intro m hm
        obtain ⟨f, hf', -⟩ := (hl.msgs m hm).1
        rw [hF] at hf'; simp at hf'
      simp [this, total_nil]
  have hcov : ∀ b ∈ bs', ∀ c ∈ b.caps, ∃ h, (h ∈ F1 ∨ ∃ b ∈ st.blobs, h ∈ b.caps) ∧ h ≤ c := by
    intro b hb c hc
    obtain ⟨-, rdy, stk, h1, h2, -⟩ := w2 b hb
    obtain ⟨e, he, rfl⟩ := List.mem_map.1 (h1.tight c hc)
    exact (h2 e he).2
  have hlog : ∀ q, Beyond (bs'.foldl (fun frontier b => b.caps.foldl (fun frontier cap => acExtend frontier (frontier_func cap)) frontier)
      (act.frontier1.foldl (fun frontier time => acExtend frontier (frontier_func time)) [])) q
      ↔ ∃ h, (h ∈ act.frontier1 ∨ ∃ b ∈ bs', h ∈ b.caps) ∧ Beyond (frontier_func h) q := by
    intro q
    have key : ∀ (bs : List (Blob K V T R)) (F : List T), Beyond (bs.foldl (fun frontier b => b.caps.foldl (fun frontier cap => acExtend frontier (frontier_func cap)) frontier) F) q
        ↔ Beyond F q ∨ ∃ b ∈ bs, ∃ c ∈ b.caps, Beyond (frontier_func c) q := by
      intro bs
      induction bs with
      | nil => intro F; simp
      | cons b bs ih => intro F; rw [List.foldl_cons, ih, beyond_foldl_acExtend]; simp [or_assoc]
    rw [key, beyond_foldl_acExtend]
    constructor
    · rintro ((h | ⟨x, hx, h⟩) | ⟨b, hb, c, hc, h⟩)
      · obtain ⟨f, hf', -⟩ := h; simp at hf'
      · exact ⟨x, Or.inl hx, h⟩
      · exact ⟨c, Or.inr ⟨b, hb, hc⟩, h⟩
    · rintro ⟨h, h' | ⟨b, hb, hc⟩, hq⟩
      · exact Or.inl (Or.inr ⟨h, h', hq⟩)
      · exact Or.inr ⟨b, hb, h, hc, hq⟩
  unfold HalfJoin2.activate
  rw [w1]
  refine ⟨_, outs, rfl, ⟨?_, ?_, ?_, rfl⟩, w5, w3, ?_, ?_⟩
  · intro b hb
    obtain ⟨h0, rdy, stk, h1, h2, h3⟩ := w2 b hb
    exact ⟨h0, rdy, stk, h1, fun e he => (h2 e he).1, h3⟩
  · intro hlive h hh q hq
    have hlive' : st.live = true := by simp only [Bool.and_eq_true] at hlive; exact hlive.1
    simp only [hlive', if_true]
    exact (hlog q).2 ⟨h, hh, hq⟩
  · intro hdead
    simp only [Bool.and_eq_false_iff] at hdead
    rcases hdead with h | h
    · obtain ⟨hF, hS⟩ := hinv.dead h
      constructor
      · apply List.eq_nil_iff_forall_not_mem.2
        intro f hf'
        obtain ⟨g, hg, -⟩ := hl.advances f hf'
        rw [hF] at hg; simp at hg
      · have : (if st.live = true then HalfJoin2.work comparison logic (fun a b => mul a b) st.blobs act else some (st.blobs, [])) = some (st.blobs, []) := by simp [h]
        rw [w1, Option.some.injEq, Prod.mk.injEq] at this
        exact this.1.trans hS
    · simpa using h
  · intro hy hwake
    have hw : ∀ b ∈ st.blobs, b.data.length ≤ b.stuck_count := by
      rw [hinv.wake] at hwake
      simpa using hwake
    have := w4 hy hw
    constructor
    · show (bs'.any fun b => b.data.length > b.stuck_count) = false
      simpa using fun b hb => (this b hb).1
    · intro p hp
      unfold HalfJoin2.held at hp
      obtain ⟨b, hb, hp⟩ := List.mem_flatMap.1 hp
      obtain ⟨e, he, rfl⟩ := List.mem_map.1 hp
      exact (this b hb).2 e he
  · intro hmono q hq
    by_cases hlive : st.live = true
    · simp only [hlive, if_true] at hq
      obtain ⟨h, hh, hb⟩ := (hlog q).1 hq
      obtain ⟨h', hh', hle⟩ : ∃ h', (h' ∈ F1 ∨ ∃ b ∈ st.blobs, h' ∈ b.caps) ∧ h' ≤ h := by
        rcases hh with hh | ⟨b, hb', hc⟩
        · obtain ⟨f, hf', hle⟩ := hl.advances h hh
          exact ⟨f, Or.inl hf', hle⟩
        · exact hcov b hb' h hc
      exact hinv.cover hlive h' hh' q (hmono h' h hle q hb)
    · have : st.live = false := by simpa using hlive
      simp only [this, Bool.false_eq_true, if_false] at hq
      exact hq

theorem half2Inv_init [OrderBot T] (frontier_func : T → List T) (F2 : List T) : Half2Inv comparison frontier_func [⊥] F2 (HalfJoin2.init : HalfJoin2 K V T R) :=
  ⟨by simp [HalfJoin2.init], fun _ _ _ q _ => ⟨⊥, by simp [HalfJoin2.init], bot_le⟩, by simp [HalfJoin2.init], rfl⟩

theorem half2_run_ok {frontier_func : T → List T} (hf : HalfJoin2Fns comparison frontier_func) {trace : Upds (K × V2) T R2} :
    ∀ (acts : List (HalfJoinAct K V V2 T R R2)) (F1 F2 : List T) (st : HalfJoin2 K V T R), Half2Inv comparison frontier_func F1 F2 st →
    LegalHalf2Run comparison frontier_func logic (fun a b => mul a b) trace F1 F2 st acts →
    ∃ st' outs F1' F2', st.run comparison frontier_func logic (fun a b => mul a b) acts = some (st', outs) ∧ Half2Inv comparison frontier_func F1' F2' st' ∧
      (acts = [] → F1' = F1 ∧ F2' = F2) ∧ (∀ act, acts.getLast? = some act → F1' = act.frontier1 ∧ F2' = act.frontier2) ∧
      (∀ x i, total (outs.map Prod.snd) x i + blobsOwed comparison logic mul x i trace st'.blobs
        = blobsOwed comparison logic mul x i trace st.blobs + ((acts.flatMap fun a => a.msgs.flatMap Prod.snd).map (owed comparison logic mul x i trace)).sum) ∧
      (∀ o ∈ outs, o.1 ≤ o.2.2.1) ∧ ((∀ a ∈ acts, a.yields = none) → st.wake = false → st'.wake = false)
  | [], F1, F2, st, hinv, _ => ⟨st, [], F1, F2, rfl, hinv, fun _ => ⟨rfl, rfl⟩, by simp, fun x i => by simp [total_nil], by simp, fun _ h => h⟩
  | act :: acts, F1, F2, st, hinv, hl => by
    obtain ⟨h1, h2, h3⟩ := hl
    obtain ⟨st1, outs1, k1, k2, k3, k4, k5, -⟩ := half2_activate_ok logic mul hf hinv h1 h2
    obtain ⟨st', outs, F1', F2', m1, m2, m3, m4, m5, m6, m7⟩ := half2_run_ok hf acts _ _ st1 k2 (h3 st1 outs1 k1)
    refine ⟨st', outs1 ++ outs, F1', F2', ?_, m2, by simp, ?_, ?_, ?_, ?_⟩
    · unfold HalfJoin2.run
      simp [k1, m1]
    · intro a ha
      cases acts with
      | nil =>
        simp only [List.getLast?_singleton, Option.some.injEq] at ha
        subst ha
        exact m3 rfl
      | cons b acts =>
        rw [List.getLast?_cons_cons] at ha
        exact m4 a ha
    · intro x i
      rw [List.map_append, total_append, add_assoc, m5, ← add_assoc, k3, List.flatMap_cons, List.map_append, List.sum_append, add_assoc]
    · intro o ho
      rcases List.mem_append.1 ho with ho | ho
      · exact k4 o ho
      · exact m6 o ho
    · intro hy hw
      exact m7 (fun a ha => hy a (by simp [ha])) (k5 (hy act (by simp)) hw).1

theorem half2_run_append {frontier_func : T → List T} (mul' : R → R2 → M) : ∀ (acts acts2 : List (HalfJoinAct K V V2 T R R2)) (st : HalfJoin2 K V T R),
    st.run comparison frontier_func logic mul' (acts ++ acts2)
      = (st.run comparison frontier_func logic mul' acts).bind fun r => (r.1.run comparison frontier_func logic mul' acts2).map fun r2 => (r2.1, r.2 ++ r2.2)
  | [], acts2, st => by simp [HalfJoin2.run]
  | act :: acts, acts2, st => by
    simp only [List.cons_append, HalfJoin2.run]
    cases h : st.activate comparison frontier_func logic mul' act with
    | none => rfl
    | some r =>
      simp only [half2_run_append mul' acts acts2 r.1]
      cases h2 : r.1.run comparison frontier_func logic mul' acts with
      | none => rfl
      | some r2 =>
        simp only [Option.bind_some, Option.map_some, Option.map_map]
        congr 1
        funext r3
        simp

theorem legalHalf2Run_append {frontier_func : T → List T} {trace : Upds (K × V2) T R2} (hf : HalfJoin2Fns comparison frontier_func) :
    ∀ (acts acts2 : List (HalfJoinAct K V V2 T R R2)) (F1 F2 : List T) (st : HalfJoin2 K V T R), Half2Inv comparison frontier_func F1 F2 st →
    LegalHalf2Run comparison frontier_func logic (fun a b => mul a b) trace F1 F2 st (acts ++ acts2) →
    LegalHalf2Run comparison frontier_func logic (fun a b => mul a b) trace F1 F2 st acts ∧
    ∃ st' outs F1' F2', st.run comparison frontier_func logic (fun a b => mul a b) acts = some (st', outs) ∧ Half2Inv comparison frontier_func F1' F2' st' ∧
      LegalHalf2Run comparison frontier_func logic (fun a b => mul a b) trace F1' F2' st' acts2 ∧ ((∀ a ∈ acts, a.yields = none) → st.wake = false → st'.wake = false)
  | [], acts2, F1, F2, st, hinv, hl => ⟨trivial, st, [], F1, F2, rfl, hinv, hl, fun _ h => h⟩
  | act :: acts, acts2, F1, F2, st, hinv, hl => by
    obtain ⟨h1, h2, h3⟩ := hl
    obtain ⟨st1, outs1, k1, k2, -, -, k5, -⟩ := half2_activate_ok logic mul hf hinv h1 h2
    obtain ⟨m1, st', outs, F1', F2', m2, m3, m4, m5⟩ := legalHalf2Run_append hf acts acts2 _ _ st1 k2 (h3 st1 outs1 k1)
    refine ⟨⟨h1, h2, ?_⟩, st', outs1 ++ outs, F1', F2', ?_, m3, m4, ?_⟩
    · intro st2 outs2 hh
      rw [k1, Option.some.injEq, Prod.mk.injEq] at hh
      obtain ⟨rfl, rfl⟩ := hh
      exact m1
    · unfold HalfJoin2.run
      simp [k1, m2]
    · intro hy hw
      exact m5 (fun a ha => hy a (by simp [ha])) (k5 (hy act (by simp)) hw).1

end

end DD
