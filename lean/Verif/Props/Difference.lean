import Verif.Model.Difference
import Mathlib.Tactic.Ring

/-!
# Property C05: the algebra of difference types

The laws are stated over an equivalence `eqv`, which is equality except for vectors, which are compared as if padded with
zeros (`vecEqv`): `[1]` and `[1, 0]` are different vectors but stand for the same difference.
-/

namespace DD.Diff

/-- The laws that consolidation assumes of a semigroup with zero test. -/
structure LawfulSemi (R : Type*) [Semi R] (eqv : R → R → Prop) : Prop where
  equiv : Equivalence eqv
  congr : ∀ a a' b b' : R, eqv a a' → eqv b b' → eqv (plus_equals a b) (plus_equals a' b')
  zcongr : ∀ a a' : R, eqv a a' → is_zero a = is_zero a'
  comm : ∀ a b : R, eqv (plus_equals a b) (plus_equals b a)
  assoc : ∀ a b c : R, eqv (plus_equals (plus_equals a b) c) (plus_equals a (plus_equals b c))
  unit : ∀ a b : R, is_zero a = true → eqv (plus_equals a b) b

/-- … of a monoid … -/
structure LawfulMon (R : Type*) [Mon R] (eqv : R → R → Prop) : Prop extends LawfulSemi R eqv where
  zero_is_zero : is_zero (zero : R) = true

/-- … of an Abelian group. -/
structure LawfulAbel (R : Type*) [Abel R] (eqv : R → R → Prop) : Prop extends LawfulMon R eqv where
  inv : ∀ a : R, is_zero (plus_equals a (negate a)) = true

/-- Multiplication distributes over addition on the left argument, and maps zeros to zeros. -/
structure LawfulMulL (R S O : Type*) [Semi R] [Semi O] [Mult R S O] (eqv : O → O → Prop) : Prop where
  distrib : ∀ (a b : R) (s : S), eqv (multiply (plus_equals a b) s) (plus_equals (multiply a s) (multiply b s))
  zero : ∀ (a : R) (s : S), is_zero a = true → is_zero (multiply a s : O) = true

/-- … and on the right argument. -/
structure LawfulMulR (R S O : Type*) [Semi S] [Semi O] [Mult R S O] (eqv : O → O → Prop) : Prop where
  distrib : ∀ (a : R) (s t : S), eqv (multiply a (plus_equals s t)) (plus_equals (multiply a s) (multiply a t))

/-- Equality of vectors up to padding with zeros, where the elements are compared with `eqv`. -/
def vecEqv {R : Type*} [IsZero R] (eqv : R → R → Prop) : List R → List R → Prop
  | [], w => w.all is_zero = true
  | v, [] => v.all is_zero = true
  | a :: v, b :: w => eqv a b ∧ vecEqv eqv v w

theorem C05_int : LawfulAbel Int Eq ∧ LawfulMulL Int Int Int Eq ∧ LawfulMulR Int Int Int Eq := by
  refine ⟨⟨⟨⟨eq_equivalence, ?_, ?_, ?_, ?_, ?_⟩, ?_⟩, ?_⟩, ⟨?_, ?_⟩, ⟨?_⟩⟩ <;>
    simp only [plus_equals, is_zero, zero, negate, multiply] <;> intros <;> first | ring1 | simp_all

theorem C05_nat : LawfulMon Nat Eq ∧ LawfulMulL Nat Nat Nat Eq ∧ LawfulMulR Nat Nat Nat Eq := by
  refine ⟨⟨⟨eq_equivalence, ?_, ?_, ?_, ?_, ?_⟩, ?_⟩, ⟨?_, ?_⟩, ⟨?_⟩⟩ <;>
    simp only [plus_equals, is_zero, zero, multiply] <;> intros <;> first | ring1 | simp_all

/-- Wrapping integers of any width: the laws hold without any overflow proviso. -/
theorem C05_wrapping (n : Nat) : LawfulAbel (BitVec n) Eq ∧ LawfulMulL (BitVec n) (BitVec n) (BitVec n) Eq ∧
    LawfulMulR (BitVec n) (BitVec n) (BitVec n) Eq := by
  refine ⟨⟨⟨⟨eq_equivalence, ?_, ?_, ?_, ?_, ?_⟩, ?_⟩, ?_⟩, ⟨?_, ?_⟩, ⟨?_⟩⟩ <;>
    simp only [plus_equals, is_zero, zero, negate, multiply] <;> intros <;>
    first | exact BitVec.add_comm _ _ | exact BitVec.add_assoc _ _ _ | exact BitVec.mul_add | exact BitVec.add_mul | simp_all [BitVec.add_right_neg]

/-- `Present` is a semigroup that never vanishes, and multiplication by it is the identity, hence linear in the other factor. -/
theorem C05_present : LawfulSemi Present Eq ∧ (∀ p : Present, is_zero p = false) ∧
    (∀ (T : Type) [Semi T] (eqv : T → T → Prop), LawfulSemi T eqv → LawfulMulR Present T T eqv) := by
  refine ⟨⟨eq_equivalence, ?_, ?_, ?_, ?_, ?_⟩, fun _ => rfl, fun T _ eqv h => ⟨fun _ _ _ => h.equiv.refl _⟩⟩ <;>
    simp only [plus_equals, is_zero] <;> intros <;> (try cases ‹Present›) <;> simp_all

section Pairs
variable {A B : Type*} {ea : A → A → Prop} {eb : B → B → Prop}

theorem C05_pair_semi [Semi A] [Semi B] (ha : LawfulSemi A ea) (hb : LawfulSemi B eb) :
    LawfulSemi (A × B) (fun p q => ea p.1 q.1 ∧ eb p.2 q.2) where
  equiv := ⟨fun p => ⟨ha.equiv.refl _, hb.equiv.refl _⟩, fun h => ⟨ha.equiv.symm h.1, hb.equiv.symm h.2⟩,
    fun h k => ⟨ha.equiv.trans h.1 k.1, hb.equiv.trans h.2 k.2⟩⟩
  congr p p' q q' h k := ⟨ha.congr _ _ _ _ h.1 k.1, hb.congr _ _ _ _ h.2 k.2⟩
  zcongr p p' h := by simp only [is_zero]; rw [ha.zcongr _ _ h.1, hb.zcongr _ _ h.2]
  comm p q := ⟨ha.comm _ _, hb.comm _ _⟩
  assoc p q r := ⟨ha.assoc _ _ _, hb.assoc _ _ _⟩
  unit p q h := by
    simp only [is_zero, Bool.true_and, Bool.and_eq_true] at h
    exact ⟨ha.unit _ _ h.1, hb.unit _ _ h.2⟩

theorem C05_pair_mon [Mon A] [Mon B] (ha : LawfulMon A ea) (hb : LawfulMon B eb) :
    LawfulMon (A × B) (fun p q => ea p.1 q.1 ∧ eb p.2 q.2) where
  toLawfulSemi := C05_pair_semi ha.toLawfulSemi hb.toLawfulSemi
  zero_is_zero := by simp only [is_zero, zero, Bool.true_and, Bool.and_eq_true]; exact ⟨ha.zero_is_zero, hb.zero_is_zero⟩

theorem C05_pair [Abel A] [Abel B] (ha : LawfulAbel A ea) (hb : LawfulAbel B eb) :
    LawfulAbel (A × B) (fun p q => ea p.1 q.1 ∧ eb p.2 q.2) where
  toLawfulMon := C05_pair_mon ha.toLawfulMon hb.toLawfulMon
  inv p := by simp only [is_zero, plus_equals, negate, Bool.true_and, Bool.and_eq_true]; exact ⟨ha.inv _, hb.inv _⟩

theorem C05_pair_mul {S O P : Type*} [Semi A] [Semi B] [Semi O] [Semi P] [Mult A S O] [Mult B S P] {eo : O → O → Prop} {ep : P → P → Prop}
    (ha : LawfulMulL A S O eo) (hb : LawfulMulL B S P ep) :
    LawfulMulL (A × B) S (O × P) (fun p q => eo p.1 q.1 ∧ ep p.2 q.2) where
  distrib p q s := ⟨ha.distrib _ _ _, hb.distrib _ _ _⟩
  zero p s h := by
    simp only [is_zero, Bool.true_and, Bool.and_eq_true] at h ⊢
    exact ⟨ha.zero _ _ h.1, hb.zero _ _ h.2⟩

end Pairs

section Vectors
variable {R : Type*} {eqv : R → R → Prop}

theorem vecPlus_nil [Semi R] (w : List R) : vecPlus [] w = w := by simp [vecPlus]
theorem vecPlus_nil' [Semi R] (v : List R) : vecPlus v [] = v := by simp [vecPlus]
theorem vecPlus_cons [Semi R] (a b : R) (v w : List R) :
    vecPlus (a :: v) (b :: w) = plus_equals a b :: vecPlus v w := by simp [vecPlus]

/-- `plus_equals` on vectors is elementwise, the longer one's tail being kept. -/
theorem C05_vec_elementwise [Semi R] (v w : List R) (i : Nat) :
    (plus_equals v w)[i]? = match v[i]?, w[i]? with
      | some a, some b => some (plus_equals a b)
      | some a, none => some a
      | none, o => o := by
  show (vecPlus v w)[i]? = _
  induction v generalizing w i with
  | nil => simp [vecPlus_nil]
  | cons a v ih =>
    cases w with
    | nil => rw [vecPlus_nil']; cases (a :: v)[i]? <;> simp
    | cons b w => rw [vecPlus_cons]; cases i with
      | zero => simp
      | succ i => simpa using ih w i

theorem vecEqv_nil [IsZero R] (w : List R) : vecEqv eqv [] w ↔ w.all is_zero = true := by cases w <;> simp [vecEqv]
theorem vecEqv_nil' [IsZero R] (w : List R) : vecEqv eqv w [] ↔ w.all is_zero = true := by cases w <;> simp [vecEqv]

theorem vecEqv_refl [Semi R] (h : LawfulSemi R eqv) (v : List R) : vecEqv eqv v v := by
  induction v with
  | nil => simp [vecEqv]
  | cons a v ih => exact ⟨h.equiv.refl _, ih⟩

theorem vecEqv_symm [Semi R] (h : LawfulSemi R eqv) {v w : List R} (hvw : vecEqv eqv v w) : vecEqv eqv w v := by
  induction v generalizing w with
  | nil => rw [vecEqv_nil'] ; rwa [vecEqv_nil] at hvw
  | cons a v ih =>
    cases w with
    | nil => rw [vecEqv_nil]; rwa [vecEqv_nil'] at hvw
    | cons b w => exact ⟨h.equiv.symm hvw.1, ih hvw.2⟩

theorem vecEqv_zcongr [Semi R] (h : LawfulSemi R eqv) {v w : List R} (hvw : vecEqv eqv v w) :
    v.all is_zero = w.all is_zero := by
  induction v generalizing w with
  | nil => rw [vecEqv_nil] at hvw; simp [hvw]
  | cons a v ih =>
    cases w with
    | nil => rw [vecEqv_nil'] at hvw; simp [hvw]
    | cons b w => simp only [List.all_cons]; rw [h.zcongr _ _ hvw.1, ih hvw.2]

theorem LawfulSemi.eqv_of_zero [Semi R] (h : LawfulSemi R eqv) {a b : R} (ha : is_zero a = true) (hb : is_zero b = true) : eqv a b :=
  h.equiv.trans (h.equiv.symm (h.unit b a hb)) (h.equiv.trans (h.comm _ _) (h.unit a b ha))

theorem vecEqv_of_zero [Semi R] (h : LawfulSemi R eqv) {v w : List R} (hv : v.all is_zero = true) (hw : w.all is_zero = true) :
    vecEqv eqv v w := by
  induction v generalizing w with
  | nil => rwa [vecEqv_nil]
  | cons a v ih =>
    cases w with
    | nil => rwa [vecEqv_nil']
    | cons b w =>
      simp only [List.all_cons, Bool.and_eq_true] at hv hw
      exact ⟨h.eqv_of_zero hv.1 hw.1, ih hv.2 hw.2⟩

theorem vecEqv_trans [Semi R] (h : LawfulSemi R eqv) {u v w : List R} (huv : vecEqv eqv u v) (hvw : vecEqv eqv v w) : vecEqv eqv u w := by
  induction u generalizing v w with
  | nil => rw [vecEqv_nil] at *; rw [← vecEqv_zcongr h hvw]; exact huv
  | cons a u ih =>
    cases v with
    | nil => rw [vecEqv_nil'] at huv; rw [vecEqv_nil] at hvw; exact vecEqv_of_zero h huv hvw
    | cons b v =>
      cases w with
      | nil => rw [vecEqv_nil'] at *; rw [vecEqv_zcongr h huv]; exact hvw
      | cons c w => exact ⟨h.equiv.trans huv.1 hvw.1, ih huv.2 hvw.2⟩

theorem vecPlus_comm [Semi R] (h : LawfulSemi R eqv) (v w : List R) : vecEqv eqv (vecPlus v w) (vecPlus w v) := by
  induction v generalizing w with
  | nil => rw [vecPlus_nil, vecPlus_nil']; exact vecEqv_refl h _
  | cons a v ih =>
    cases w with
    | nil => rw [vecPlus_nil, vecPlus_nil']; exact vecEqv_refl h _
    | cons b w => rw [vecPlus_cons, vecPlus_cons]; exact ⟨h.comm _ _, ih w⟩

theorem vecPlus_assoc [Semi R] (h : LawfulSemi R eqv) (u v w : List R) :
    vecEqv eqv (vecPlus (vecPlus u v) w) (vecPlus u (vecPlus v w)) := by
  induction u generalizing v w with
  | nil => rw [vecPlus_nil, vecPlus_nil]; exact vecEqv_refl h _
  | cons a u ih =>
    cases v with
    | nil => rw [vecPlus_nil, vecPlus_nil']; exact vecEqv_refl h _
    | cons b v =>
      cases w with
      | nil => rw [vecPlus_nil', vecPlus_nil']; exact vecEqv_refl h _
      | cons c w => simp only [vecPlus_cons]; exact ⟨h.assoc _ _ _, ih v w⟩

theorem vecPlus_unit [Semi R] (h : LawfulSemi R eqv) (v w : List R) (hv : v.all is_zero = true) : vecEqv eqv (vecPlus v w) w := by
  induction v generalizing w with
  | nil => rw [vecPlus_nil]; exact vecEqv_refl h _
  | cons a v ih =>
    cases w with
    | nil => rw [vecPlus_nil', vecEqv_nil']; exact hv
    | cons b w =>
      simp only [List.all_cons, Bool.and_eq_true] at hv
      rw [vecPlus_cons]; exact ⟨h.unit _ _ hv.1, ih w hv.2⟩

theorem vecPlus_congr [Semi R] (h : LawfulSemi R eqv) {v v' w w' : List R} (hv : vecEqv eqv v v') (hw : vecEqv eqv w w') :
    vecEqv eqv (vecPlus v w) (vecPlus v' w') := by
  have left : ∀ v v' w : List R, vecEqv eqv v v' → vecEqv eqv (vecPlus v w) (vecPlus v' w) := by
    intro v
    induction v with
    | nil =>
      intro v' w hv
      rw [vecEqv_nil] at hv
      rw [vecPlus_nil]
      exact vecEqv_symm h (vecPlus_unit h _ _ hv)
    | cons a v ih =>
      intro v' w hv
      cases v' with
      | nil => rw [vecEqv_nil'] at hv; rw [vecPlus_nil]; exact vecPlus_unit h _ _ hv
      | cons a' v' =>
        cases w with
        | nil => rw [vecPlus_nil', vecPlus_nil']; exact hv
        | cons b w =>
          rw [vecPlus_cons, vecPlus_cons]
          exact ⟨h.congr _ _ _ _ hv.1 (h.equiv.refl _), ih _ _ hv.2⟩
  exact vecEqv_trans h (left _ _ _ hv) (vecEqv_trans h (vecPlus_comm h _ _)
    (vecEqv_trans h (left _ _ _ hw) (vecPlus_comm h _ _)))

/-- C05 for vectors: a lawful monoid up to zero padding, for any lengths. -/
theorem C05_vec [Semi R] (h : LawfulSemi R eqv) : LawfulSemi (List R) (vecEqv eqv) where
  equiv := ⟨vecEqv_refl h, vecEqv_symm h, vecEqv_trans h⟩
  congr _ _ _ _ := vecPlus_congr h
  zcongr _ _ := vecEqv_zcongr h
  comm := vecPlus_comm h
  assoc := vecPlus_assoc h
  unit := vecPlus_unit h

theorem C05_vec_abel [Abel R] (h : LawfulAbel R eqv) : LawfulAbel (List R) (vecEqv eqv) where
  toLawfulSemi := C05_vec h.toLawfulSemi
  zero_is_zero := rfl
  inv v := by
    show (vecPlus v (v.map negate)).all is_zero = true
    induction v with
    | nil => rfl
    | cons a v ih => rw [List.map_cons, vecPlus_cons, List.all_cons, ih, h.inv a]; rfl

theorem C05_vec_mul {S O : Type*} [Semi R] [Semi O] [Mult R S O] {eo : O → O → Prop} (ho : LawfulSemi O eo) (h : LawfulMulL R S O eo) :
    LawfulMulL (List R) S (List O) (vecEqv eo) where
  distrib v w s := by
    show vecEqv eo ((vecPlus v w).map _) (vecPlus (v.map _) (w.map _))
    induction v generalizing w with
    | nil => rw [vecPlus_nil, List.map_nil, vecPlus_nil]; exact vecEqv_refl ho _
    | cons a v ih =>
      cases w with
      | nil => rw [vecPlus_nil', List.map_nil, vecPlus_nil']; exact vecEqv_refl ho _
      | cons b w => simp only [vecPlus_cons, List.map_cons]; exact ⟨h.distrib _ _ _, ih w⟩
  zero v s hv := by
    simp only [is_zero, List.all_eq_true] at hv ⊢
    intro x hx
    obtain ⟨a, ha, rfl⟩ := List.mem_map.1 hx
    exact h.zero a s (hv a ha)

end Vectors

/-- C05, limit of the vector laws: literal equality of vectors is *not* a congruence for the zero test: `[0]` reports
zero, yet adding it to `[]` yields a different vector than `[]`. -/
theorem C05_vec_unit_not_literal : ∃ a b : List Int, is_zero a = true ∧ plus_equals a b ≠ b :=
  ⟨[0], [], rfl, by decide⟩

-- the file's own test: [1,2,3] + [1,1,1,1] = [2,3,4,1], and non-trivial lawful instances exist.
example : plus_equals ([1,2,3] : List Int) [1,1,1,1] = [2,3,4,1] := by decide
example : LawfulAbel (List (Int × Int)) (vecEqv (fun p q => p.1 = q.1 ∧ p.2 = q.2)) :=
  C05_vec_abel (C05_pair C05_int.1 C05_int.1)

end DD.Diff
