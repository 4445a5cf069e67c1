import Verif.Spec.Batch
import Mathlib.Data.Nat.Log
import Mathlib.Tactic.Linarith
import Mathlib.Tactic.Ring

namespace DD
open MergeState

/-! ## Layers as functions -/

section
variable {B M T : Type*}

/-- Layer `n`, vacant beyond the end. -/
def lay (ms : List (MergeState B M)) (n : Nat) : MergeState B M := (ms[n]?).getD .vacant

theorem lay_of_length_le {ms : List (MergeState B M)} {n : Nat} (h : ms.length ≤ n) : lay ms n = .vacant := by
  rw [lay, List.getElem?_eq_none h]; rfl

theorem getElem?_lay {ms : List (MergeState B M)} {n : Nat} (h : n < ms.length) : ms[n]? = some (lay ms n) := by
  rw [lay, List.getElem?_eq_getElem h]; rfl

theorem lay_set {ms : List (MergeState B M)} {i : Nat} (h : i < ms.length) (s : MergeState B M) :
    lay (ms.set i s) = Function.update (lay ms) i s := by
  funext n
  rw [lay, List.getElem?_set, Function.update_apply]
  by_cases hn : n = i
  · subst hn; simp [h]
  · rw [if_neg (Ne.symm hn), if_neg hn]; rfl

theorem length_extendTo (ms : List (MergeState B M)) (i : Nat) : (extendTo ms i).length = max ms.length (i + 1) := by
  rw [extendTo, List.length_append, List.length_replicate]; omega

theorem lay_extendTo (ms : List (MergeState B M)) (i : Nat) : lay (extendTo ms i) = lay ms := by
  funext n
  rcases Nat.lt_or_ge n ms.length with h | h
  · rw [lay, extendTo, List.getElem?_append_left h]; rfl
  · rw [lay_of_length_le h, lay, extendTo, List.getElem?_append_right h, List.getElem?_replicate]
    split_ifs <;> rfl

/-- Weight of a layer. -/
def wt : MergeState B M → Nat
  | .vacant => 0
  | .single _ => 1
  | .inProgress _ _ _ => 2
  | .complete _ => 2

/-- Virtual records in layers below `k`. -/
def W (f : Nat → MergeState B M) : Nat → Nat
  | 0 => 0
  | k + 1 => W f k + wt (f k) * 2 ^ k

theorem W_succ (f : Nat → MergeState B M) (k : Nat) : W f (k + 1) = W f k + wt (f k) * 2 ^ k := rfl

theorem W_congr {f g : Nat → MergeState B M} {k : Nat} (h : ∀ i, i < k → f i = g i) : W f k = W g k := by
  induction k with
  | zero => rfl
  | succ k ih => rw [W_succ, W_succ, ih (fun i hi => h i (by omega)), h k (by omega)]

/-- Layers from `a` up that agree contribute the same. -/
theorem W_diff {f g : Nat → MergeState B M} {a k : Nat} (hak : a ≤ k) (h : ∀ i, a ≤ i → i < k → f i = g i) :
    W f k + W g a = W g k + W f a := by
  induction k with
  | zero => have : a = 0 := by omega
            subst this; rfl
  | succ k ih =>
    rcases Nat.lt_or_ge k a with hlt | hge
    · have : a = k + 1 := by omega
      subst this; omega
    · rw [W_succ, W_succ, h k hge (by omega)]
      have := ih hge (fun i h1 h2 => h i h1 (by omega))
      omega

theorem W_mono (f : Nat → MergeState B M) {a k : Nat} (h : a ≤ k) : W f a ≤ W f k := by
  induction h with
  | refl => exact le_refl _
  | step _ ih => rw [W_succ]; omega

theorem W_eq_zero {f : Nat → MergeState B M} {k : Nat} (h : ∀ i, i < k → f i = .vacant) : W f k = 0 := by
  induction k with
  | zero => rfl
  | succ k ih => rw [W_succ, ih (fun i hi => h i (by omega)), h k (by omega)]; simp [wt]

theorem W_vacant_above {f : Nat → MergeState B M} {a k : Nat} (hak : a ≤ k) (h : ∀ i, a ≤ i → f i = .vacant) : W f k = W f a := by
  induction k with
  | zero => have : a = 0 := by omega
            subst this; rfl
  | succ k ih =>
    rcases Nat.lt_or_ge k a with hlt | hge
    · have : a = k + 1 := by omega
      subst this; rfl
    · rw [W_succ, ih hge, h k hge]; simp [wt]

/-- The batches of layers below `n`, older first. -/
def chain (f : Nat → MergeState B M) : Nat → List B
  | 0 => []
  | n + 1 => batches (f n) ++ chain f n

/-- The batches of layers in `[i, n)`, older first. -/
def chainFrom (f : Nat → MergeState B M) (i : Nat) : Nat → List B
  | 0 => []
  | n + 1 => if i ≤ n then batches (f n) ++ chainFrom f i n else []

theorem chain_split (f : Nat → MergeState B M) {i n : Nat} (h : i ≤ n) : chain f n = chainFrom f i n ++ chain f i := by
  induction n with
  | zero => have : i = 0 := by omega
            subst this; rfl
  | succ n ih =>
    rw [chainFrom]
    split_ifs with h1
    · rw [chain, ih h1, List.append_assoc]
    · have : i = n + 1 := by omega
      subst this; simp

theorem chain_congr {f g : Nat → MergeState B M} {k : Nat} (h : ∀ i, i < k → f i = g i) : chain f k = chain g k := by
  induction k with
  | zero => rfl
  | succ k ih => rw [chain, chain, ih (fun i hi => h i (by omega)), h k (by omega)]

theorem chainFrom_congr {f g : Nat → MergeState B M} {i k : Nat} (h : ∀ j, i ≤ j → j < k → f j = g j) : chainFrom f i k = chainFrom g i k := by
  induction k with
  | zero => rfl
  | succ k ih =>
    rw [chainFrom, chainFrom]
    split_ifs with h1
    · rw [ih (fun j h1 h2 => h j h1 (by omega)), h k h1 (by omega)]
    · rfl

theorem chainFrom_succ (f : Nat → MergeState B M) {i n : Nat} (h : i < n) : chainFrom f i n = chainFrom f (i + 1) n ++ batches (f i) := by
  have h1 := chain_split f (Nat.le_of_lt h)
  have h2 := chain_split f h
  rw [h1, chain, ← List.append_assoc] at h2
  exact List.append_cancel_right h2

theorem chain_vacant (f : Nat → MergeState B M) {i n : Nat} (hin : i ≤ n) (h : ∀ j, i ≤ j → batches (f j) = []) : chain f n = chain f i := by
  rw [chain_split f hin]
  suffices chainFrom f i n = [] by rw [this]; rfl
  induction n with
  | zero => rfl
  | succ n ih =>
    rw [chainFrom]
    split_ifs with h1
    · rw [h n h1, ih h1]; rfl
    · rfl

theorem chain_empty (f : Nat → MergeState B M) {n : Nat} (h : ∀ j, j < n → batches (f j) = []) : chain f n = [] := by
  induction n with
  | zero => rfl
  | succ n ih => rw [chain, h n (by omega), ih (fun j hj => h j (by omega))]; rfl

/-- The batches in order, with a batch `h` in hand that comes after layers at `i` and above and before layers below `i`. -/
def handed (f : Nat → MergeState B M) (n i : Nat) (h : Option B) : List B := chainFrom f i n ++ h.toList ++ chain f i

theorem handed_none (f : Nat → MergeState B M) {n i : Nat} (hi : i ≤ n) : handed f n i none = chain f n := by
  rw [handed, chain_split f hi]; simp

theorem handed_up (f : Nat → MergeState B M) {n i : Nat} (hi : i < n) (h : Option B) (hf : batches (f i) = []) :
    handed f n i h = handed f n (i + 1) h := by
  rw [handed, handed, chainFrom_succ f hi, hf, chain, hf]; simp

/-- Changing only layer `i`. -/
theorem handed_update (f : Nat → MergeState B M) {n i : Nat} (hi : i < n) (s : MergeState B M) (h : Option B) :
    handed (Function.update f i s) n i h = chainFrom f (i + 1) n ++ batches s ++ h.toList ++ chain f i := by
  rw [handed, chainFrom_succ _ hi, Function.update_self]
  have h1 : chainFrom (Function.update f i s) (i + 1) n = chainFrom f (i + 1) n :=
    chainFrom_congr fun j h1 _ => Function.update_of_ne (by omega) _ _
  have h2 : chain (Function.update f i s) i = chain f i := chain_congr fun j hj => Function.update_of_ne (by omega) _ _
  rw [h1, h2]

theorem mapBatches_eq (ms : List (MergeState B M)) : ms.reverse.flatMap batches = chain (lay ms) ms.length := by
  suffices h : ∀ n, n ≤ ms.length → (ms.take n).reverse.flatMap batches = chain (lay ms) n by
    have := h ms.length (le_refl _)
    rwa [List.take_length] at this
  intro n
  induction n with
  | zero => intro _; simp [chain]
  | succ n ih =>
    intro hn
    rw [List.take_add_one, getElem?_lay (by omega), Option.toList_some, List.reverse_append, List.flatMap_append, ih (by omega), chain]
    simp

theorem chain_eq_of_length_le (ms : List (MergeState B M)) {n : Nat} (h : ms.length ≤ n) : chain (lay ms) n = chain (lay ms) ms.length :=
  chain_vacant _ h fun j hj => by rw [lay_of_length_le hj]; rfl

end

/-! ## Merging adjacent batches -/

section
variable {B M T D R : Type*} [LE T] [DecidableLE T] [DecidableEq T] [AddCommMonoid R] {ops : BatchOps B M T} (L : BatchLaws ops D R)

structure MergedOk (F : List T) (b1 b2 b : B) : Prop where
  ok : L.Ok b
  lower : (ops.lower b).Perm (ops.lower b1)
  upper : (ops.upper b).Perm (ops.upper b2)
  len : ops.len b ≤ ops.len b1 + ops.len b2
  acc : ∀ q, Beyond (L.since b1) q → Beyond (L.since b2) q → Beyond F q →
    Beyond (L.since b) q ∧ ∀ d, L.acc b d q = L.acc b1 d q + L.acc b2 d q

/-- Replacing adjacent batches by their merges, with compaction frontiers before `G`. -/
inductive Coarse (G : List T) : List B → List B → Prop
  | refl (l : List B) : Coarse G l l
  | merge (pre post : List B) (b1 b2 b : B) (F : List T) : FrontierLe F G → MergedOk L F b1 b2 b →
      Coarse G (pre ++ b1 :: b2 :: post) (pre ++ b :: post)
  | trans (l1 l2 l3 : List B) : Coarse G l1 l2 → Coarse G l2 l3 → Coarse G l1 l3

variable {L}

theorem Coarse.context {G : List T} {l l' : List B} (h : Coarse L G l l') (a c : List B) : Coarse L G (a ++ l ++ c) (a ++ l' ++ c) := by
  induction h with
  | refl l => exact .refl _
  | merge pre post b1 b2 b F h1 h2 =>
    have := Coarse.merge (L := L) (G := G) (a ++ pre) (post ++ c) b1 b2 b F h1 h2
    simpa using this
  | trans l1 l2 l3 _ _ ih1 ih2 => exact .trans _ _ _ ih1 ih2

theorem Coarse.mono {G G' : List T} (hG : FrontierLe G G') {l l' : List B} (h : Coarse L G l l') : Coarse L G' l l' := by
  induction h with
  | refl l => exact .refl _
  | merge pre post b1 b2 b F h1 h2 => exact .merge _ _ _ _ _ F (fun q hq => h1 q (hG q hq)) h2
  | trans l1 l2 l3 _ _ ih1 ih2 => exact .trans _ _ _ ih1 ih2

def Adjacent (ops : BatchOps B M T) (l : List B) : Prop := l.IsChain (fun a b => acEq (ops.upper a) (ops.lower b) = true)

def lens (ops : BatchOps B M T) (l : List B) : Nat := (l.map ops.len).sum

theorem lens_append (a b : List B) : lens ops (a ++ b) = lens ops a + lens ops b := by simp [lens]
theorem lens_cons (a : B) (b : List B) : lens ops (a :: b) = ops.len a + lens ops b := by simp [lens]

theorem Coarse.lens {G : List T} {l l' : List B} (h : Coarse L G l l') : lens ops l' ≤ DD.lens ops l := by
  induction h with
  | refl l => exact le_refl _
  | merge pre post b1 b2 b F h1 h2 =>
    have := h2.len
    rw [lens_append, lens_append, lens_cons, lens_cons, lens_cons]; omega
  | trans l1 l2 l3 _ _ ih1 ih2 => exact ih2.trans ih1

theorem Coarse.ok {G : List T} {l l' : List B} (h : Coarse L G l l') (hl : ∀ b ∈ l, L.Ok b) : ∀ b ∈ l', L.Ok b := by
  induction h with
  | refl l => exact hl
  | merge pre post b1 b2 b F h1 h2 =>
    simp only [List.forall_mem_append, List.forall_mem_cons] at hl ⊢
    exact ⟨hl.1, h2.ok, hl.2.2.2⟩
  | trans l1 l2 l3 _ _ ih1 ih2 => exact ih2 (ih1 hl)

/-- Accumulations are kept. -/
theorem Coarse.acc {G : List T} {l l' : List B} (h : Coarse L G l l') {q : T} (hq : Beyond G q) (hl : ∀ b ∈ l, Beyond (L.since b) q) (d : D) :
    (∀ b ∈ l', Beyond (L.since b) q) ∧ (l'.map fun b => L.acc b d q).sum = (l.map fun b => L.acc b d q).sum := by
  induction h with
  | refl l => exact ⟨hl, rfl⟩
  | merge pre post b1 b2 b F h1 h2 =>
    simp only [List.forall_mem_append, List.forall_mem_cons] at hl ⊢
    obtain ⟨g1, g2⟩ := h2.acc q hl.2.1 hl.2.2.1 (h1 q hq)
    exact ⟨⟨hl.1, g1, hl.2.2.2⟩, by simp [g2, add_assoc]⟩
  | trans l1 l2 l3 _ _ ih1 ih2 =>
    obtain ⟨a1, a2⟩ := ih1 hl
    obtain ⟨c1, c2⟩ := ih2 a1
    exact ⟨c1, c2.trans a2⟩

/-- Contiguous from `lo` to `hi`. -/
def Contig (ops : BatchOps B M T) : List T → List B → List T → Prop
  | lo, [], hi => lo.Perm hi
  | lo, b :: bs, hi => acEq lo (ops.lower b) = true ∧ Contig ops (ops.upper b) bs hi

theorem acEq_perm_left {F F' G : List T} (h : F.Perm F') (he : acEq F' G = true) : acEq F G = true := by
  simp only [acEq, Bool.and_eq_true, beq_iff_eq, List.all_eq_true, List.contains_iff_mem] at he ⊢
  exact ⟨h.length_eq.trans he.1, fun x hx => he.2 x (h.subset hx)⟩

theorem acEq_perm_right {F G G' : List T} (h : G.Perm G') (he : acEq F G' = true) : acEq F G = true := by
  simp only [acEq, Bool.and_eq_true, beq_iff_eq, List.all_eq_true, List.contains_iff_mem] at he ⊢
  exact ⟨he.1.trans h.length_eq.symm, fun x hx => h.symm.subset (he.2 x hx)⟩

theorem Contig.of_perm {lo lo' hi : List T} (h : lo.Perm lo') {l : List B} (hl : Contig ops lo' l hi) : Contig ops lo l hi := by
  cases l with
  | nil => exact h.trans hl
  | cons b l => exact ⟨acEq_perm_left h hl.1, hl.2⟩

theorem Contig.perm_right {hi hi' : List T} (h : hi.Perm hi') : ∀ {l : List B} {lo : List T}, Contig ops lo l hi → Contig ops lo l hi' := by
  intro l
  induction l with
  | nil => intro lo hl; exact List.Perm.trans hl h
  | cons b l ih => intro lo hl; exact ⟨hl.1, ih hl.2⟩

theorem Contig.append_iff {lo hi : List T} {a b : List B} : Contig ops lo (a ++ b) hi ↔ ∃ mid, Contig ops lo a mid ∧ Contig ops mid b hi := by
  induction a generalizing lo with
  | nil => exact ⟨fun h => ⟨lo, List.Perm.refl _, h⟩, fun ⟨mid, h1, h2⟩ => h2.of_perm h1⟩
  | cons x a ih =>
    simp only [List.cons_append, Contig, ih]
    constructor
    · rintro ⟨h1, mid, h2, h3⟩; exact ⟨mid, ⟨h1, h2⟩, h3⟩
    · rintro ⟨mid, ⟨h1, h2⟩, h3⟩; exact ⟨h1, mid, h2, h3⟩

theorem Contig.adjacent {lo hi : List T} {l : List B} (h : Contig ops lo l hi) : Adjacent ops l := by
  induction l generalizing lo with
  | nil => exact List.IsChain.nil
  | cons x l ih =>
    cases l with
    | nil => exact List.IsChain.singleton _
    | cons y l => exact List.IsChain.cons_cons h.2.1 (ih h.2)

theorem Coarse.contig {G : List T} {l l' : List B} (h : Coarse L G l l') {lo hi : List T} (hl : Contig ops lo l hi) : Contig ops lo l' hi := by
  induction h with
  | refl l => exact hl
  | merge pre post b1 b2 b F h1 h2 =>
    obtain ⟨mid, g1, g2, g3, g4⟩ := Contig.append_iff.mp hl
    exact Contig.append_iff.mpr ⟨mid, g1, acEq_perm_right h2.lower g2, g4.of_perm h2.upper⟩
  | trans l1 l2 l3 _ _ ih1 ih2 => exact ih2 (ih1 hl)

end

end DD
