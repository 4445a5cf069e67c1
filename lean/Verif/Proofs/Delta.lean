import Verif.Spec.Delta
import Verif.Proofs.HalfJoin
import Mathlib.Algebra.BigOperators.Fin
import Mathlib.Tactic.Abel
import Mathlib.Tactic.Ring

namespace DD
section engine
open scoped Classical
variable {ι K D T T' X R M : Type*} [DecidableEq ι] [Fintype ι] [DecidableEq K] [Lattice T'] [OrderBot T'] [CommSemiring R] [AddCommMonoid M]
variable (rels : ι → Upds D T R) (tm : ι → T → T') (ok : ι → T → X → Prop)

/-- What a path makes of one partial result, as a nested sum. -/
noncomputable def nest (f : (Assign ι D × T') × X × R → M) : Path ι K D → (Assign ι D × T') × X × R → M
  | [], s => f s
  | l :: ls, s => ∑ a : Fin (rels l.rel).length,
      if l.keyOf s.1.1 = l.arrKey (rels l.rel)[a].1 ∧ ok l.rel (rels l.rel)[a].2.1 s.2.1 then
        nest f ls ((Function.update s.1.1 l.rel (some (rels l.rel)[a].1), tm l.rel (rels l.rel)[a].2.1 ⊔ s.1.2), s.2.1, s.2.2 * (rels l.rel)[a].2.2) else 0

/-- Partial combinations. -/
abbrev PCombo (rels : ι → Upds D T R) := ∀ i, Option (Fin (rels i).length)

variable {rels}
def PCombo.pre (p : PCombo rels) : Assign ι D := fun i => (p i).map fun a => (rels i)[a].1
def PCombo.sup (p : PCombo rels) : T' := Finset.univ.sup fun i => (p i).elim ⊥ fun a => tm i (rels i)[a].2.1
def PCombo.prod (p : PCombo rels) : R := ∏ i, (p i).elim 1 fun a => (rels i)[a].2.2
def PCombo.Agrees (p : PCombo rels) (c : Combo rels) : Prop := ∀ i, ∀ a ∈ p i, c i = a

omit [Fintype ι] [CommSemiring R] in
theorem PCombo.pre_update (p : PCombo rels) (j : ι) (a : Fin (rels j).length) : PCombo.pre (Function.update p j (some a)) = Function.update (PCombo.pre p) j (some (rels j)[a].1) := by
  funext i
  unfold PCombo.pre
  by_cases h : i = j
  · subst h; simp
  · simp [Function.update_of_ne h]

omit [CommSemiring R] in
theorem PCombo.sup_update (p : PCombo rels) (j : ι) (hj : p j = none) (a : Fin (rels j).length) :
    PCombo.sup tm (Function.update p j (some a)) = tm j (rels j)[a].2.1 ⊔ PCombo.sup tm p := by
  unfold PCombo.sup
  apply le_antisymm
  · apply Finset.sup_le
    intro i _
    by_cases h : i = j
    · subst h; simp
    · rw [Function.update_of_ne h]
      exact le_trans (Finset.le_sup (f := fun i => (p i).elim ⊥ fun a => tm i (rels i)[a].2.1) (Finset.mem_univ i)) le_sup_right
  · apply sup_le
    · have := Finset.le_sup (f := fun i => ((Function.update p j (some a) : PCombo rels) i).elim ⊥ fun a => tm i (rels i)[a].2.1) (Finset.mem_univ j)
      simpa using this
    · apply Finset.sup_le
      intro i _
      by_cases h : i = j
      · subst h; simp [hj]
      · have := Finset.le_sup (f := fun i => ((Function.update p j (some a) : PCombo rels) i).elim ⊥ fun a => tm i (rels i)[a].2.1) (Finset.mem_univ i)
        simp only [Function.update_of_ne h] at this
        exact this

theorem PCombo.prod_update (p : PCombo rels) (j : ι) (hj : p j = none) (a : Fin (rels j).length) :
    PCombo.prod (Function.update p j (some a)) = PCombo.prod p * (rels j)[a].2.2 := by
  unfold PCombo.prod
  rw [← Finset.mul_prod_erase Finset.univ _ (Finset.mem_univ j), ← Finset.mul_prod_erase Finset.univ (fun i => (p i).elim 1 fun a => (rels i)[a].2.2) (Finset.mem_univ j)]
  simp only [Function.update_self, hj, Option.elim_some, Option.elim_none, one_mul]
  rw [mul_comm]
  congr 1
  apply Finset.prod_congr rfl
  intro i hi
  rw [Function.update_of_ne (Finset.ne_of_mem_erase hi)]

/-- The nested sum is a sum over combinations. -/
theorem nest_eq (f : (Assign ι D × T') × X × R → M) (x : X) : ∀ (path : Path ι K D) (p : PCombo rels), (path.map Lookup.rel).Nodup →
    (∀ j, p j = none ↔ j ∈ path.map Lookup.rel) →
    nest rels tm ok f path ((PCombo.pre p, PCombo.sup tm p), x, PCombo.prod p)
      = ∑ c : Combo rels, if PCombo.Agrees p c ∧ KeysAgree (fun i => (c.upd i).1) (PCombo.pre p) path ∧ ∀ l ∈ path, ok l.rel (c.upd l.rel).2.1 x
          then f ((fun i => some (c.upd i).1, Finset.univ.sup fun i => tm i (c.upd i).2.1), x, ∏ i, (c.upd i).2.2) else 0
  | [], p, _, hp => by
    have hsome : ∀ i, ∃ a, p i = some a := by
      intro i
      cases h : p i with
      | none => have := (hp i).1 h; simp at this
      | some a => exact ⟨a, rfl⟩
    choose c0 hc0 using hsome
    have hag : ∀ c : Combo rels, PCombo.Agrees p c ↔ c = c0 := by
      intro c
      constructor
      · intro h; funext i; exact h i (c0 i) (hc0 i)
      · rintro rfl i a ha
        rw [hc0 i] at ha; exact Option.some.inj ha
    simp only [KeysAgree, List.not_mem_nil, false_imp_iff, implies_true, and_true, hag, Finset.sum_ite_eq', Finset.mem_univ, if_true, nest]
    have e1 : PCombo.pre p = fun i => some (Combo.upd c0 i).1 := by funext i; simp [PCombo.pre, hc0, Combo.upd]
    have e2 : PCombo.sup tm p = Finset.univ.sup fun i => tm i (Combo.upd c0 i).2.1 := by unfold PCombo.sup; simp [hc0, Combo.upd]
    have e3 : PCombo.prod p = ∏ i, (Combo.upd c0 i).2.2 := by unfold PCombo.prod; simp [hc0, Combo.upd]
    rw [e1, e2, e3]
  | l :: ls, p, hnd, hp => by
    have hj : p l.rel = none := (hp _).2 (by simp)
    have hnd' := List.nodup_cons.1 hnd
    unfold nest
    have ih : ∀ a : Fin (rels l.rel).length, nest rels tm ok f ls ((PCombo.pre (Function.update p l.rel (some a)), PCombo.sup tm (Function.update p l.rel (some a))), x,
        PCombo.prod (Function.update p l.rel (some a))) = _ := fun a => nest_eq f x ls (Function.update p l.rel (some a)) hnd'.2 (by
      intro j
      by_cases h : j = l.rel
      · subst h
        simp only [Function.update_self, reduceCtorEq, false_iff]
        exact hnd'.1
      · rw [Function.update_of_ne h, hp j]
        simp [h])
    simp only [PCombo.sup_update tm p l.rel hj, PCombo.prod_update p l.rel hj, PCombo.pre_update] at ih
    simp only [ih]
    have step : ∀ a : Fin (rels l.rel).length, (if l.keyOf (PCombo.pre p) = l.arrKey (rels l.rel)[a].1 ∧ ok l.rel (rels l.rel)[a].2.1 x then
        ∑ c : Combo rels, if PCombo.Agrees (Function.update p l.rel (some a)) c ∧ KeysAgree (fun i => (c.upd i).1) (Function.update (PCombo.pre p) l.rel (some (rels l.rel)[a].1)) ls ∧
          ∀ l ∈ ls, ok l.rel (c.upd l.rel).2.1 x then f ((fun i => some (c.upd i).1, Finset.univ.sup fun i => tm i (c.upd i).2.1), x, ∏ i, (c.upd i).2.2) else 0
        else 0) = ∑ c : Combo rels, if (l.keyOf (PCombo.pre p) = l.arrKey (rels l.rel)[a].1 ∧ ok l.rel (rels l.rel)[a].2.1 x) ∧
          PCombo.Agrees (Function.update p l.rel (some a)) c ∧ KeysAgree (fun i => (c.upd i).1) (Function.update (PCombo.pre p) l.rel (some (rels l.rel)[a].1)) ls ∧
          ∀ l ∈ ls, ok l.rel (c.upd l.rel).2.1 x then f ((fun i => some (c.upd i).1, Finset.univ.sup fun i => tm i (c.upd i).2.1), x, ∏ i, (c.upd i).2.2) else 0 := by
      intro a
      by_cases h : l.keyOf (PCombo.pre p) = l.arrKey (rels l.rel)[a].1 ∧ ok l.rel (rels l.rel)[a].2.1 x
      · rw [if_pos h]; simp only [h, true_and]
      · rw [if_neg h]; simp only [h, false_and, if_false, Finset.sum_const_zero]
    simp only [step]
    rw [Finset.sum_comm]
    apply Finset.sum_congr rfl
    intro c _
    rw [Finset.sum_eq_single (c l.rel)]
    · apply if_congr _ rfl rfl
      have hag : PCombo.Agrees (Function.update p l.rel (some (c l.rel))) c ↔ PCombo.Agrees p c := by
        constructor
        · intro h i a ha
          by_cases hi : i = l.rel
          · subst hi; rw [hj] at ha; simp at ha
          · exact h i a (by rw [Function.update_of_ne hi]; exact ha)
        · intro h i a ha
          by_cases hi : i = l.rel
          · subst hi; simp at ha; exact ha
          · rw [Function.update_of_ne hi] at ha; exact h i a ha
      rw [hag]
      simp only [KeysAgree, List.forall_mem_cons]
      constructor
      · rintro ⟨⟨h1, h2⟩, h3, h4, h5⟩; exact ⟨h3, ⟨h1, h4⟩, h2, h5⟩
      · rintro ⟨h3, ⟨h1, h4⟩, h2, h5⟩; exact ⟨⟨h1, h2⟩, h3, h4, h5⟩
    · intro a _ ha
      rw [if_neg]
      rintro ⟨-, h, -⟩
      exact ha (h l.rel a (by simp)).symm
    · intro h; exact absurd (Finset.mem_univ _) h

omit [Fintype ι] [Lattice T'] [OrderBot T'] in
theorem sum_flatMap {A B : Type*} (l : List A) (g : A → List B) (f : B → M) : ((l.flatMap g).map f).sum = (l.map fun x => ((g x).map f).sum).sum := by
  induction l with
  | nil => rfl
  | cons x l ih => rw [List.flatMap_cons, List.map_append, List.sum_append, ih]; simp

theorem sum_eq_fin {A : Type*} (l : List A) (f : A → M) : (l.map f).sum = ∑ a : Fin l.length, f l[a] := (Fin.sum_univ_fun_getElem l f).symm

/-- What a driver's updates contribute, over the whole path. -/
theorem nest_driver (f : (Assign ι D × T') × X × R → M) (i : ι) (path : Path ι K D) (x : T → X) (hnd : (i :: path.map Lookup.rel).Nodup) (hall : ∀ j, j ∈ i :: path.map Lookup.rel) :
    ((rels i).map fun u => nest rels tm ok f path ((Assign.only i u.1, tm i u.2.1), x u.2.1, u.2.2)).sum
      = ∑ c : Combo rels, if KeysAgree (fun j => (c.upd j).1) (Assign.only i (c.upd i).1) path ∧ ∀ l ∈ path, ok l.rel (c.upd l.rel).2.1 (x (c.upd i).2.1)
          then f ((fun j => some (c.upd j).1, Finset.univ.sup fun j => tm j (c.upd j).2.1), x (c.upd i).2.1, ∏ j, (c.upd j).2.2) else 0 := by
  rw [sum_eq_fin]
  have hnd' := List.nodup_cons.1 hnd
  have one : ∀ a : Fin (rels i).length, nest rels tm ok f path ((Assign.only i (rels i)[a].1, tm i (rels i)[a].2.1), x (rels i)[a].2.1, (rels i)[a].2.2)
      = ∑ c : Combo rels, if PCombo.Agrees (Function.update (fun _ => none) i (some a)) c ∧ KeysAgree (fun i => (c.upd i).1) (Assign.only i (rels i)[a].1) path ∧
          ∀ l ∈ path, ok l.rel (c.upd l.rel).2.1 (x (rels i)[a].2.1)
          then f ((fun i => some (c.upd i).1, Finset.univ.sup fun i => tm i (c.upd i).2.1), x (rels i)[a].2.1, ∏ i, (c.upd i).2.2) else 0 := by
    intro a
    have := nest_eq (rels := rels) tm ok f (x (rels i)[a].2.1) path (Function.update (fun _ => none) i (some a)) hnd'.2 (by
      intro j
      by_cases h : j = i
      · subst h; simp only [Function.update_self, reduceCtorEq, false_iff]; exact hnd'.1
      · rw [Function.update_of_ne h]
        simpa [h] using hall j)
    rw [PCombo.sup_update tm (rels := rels) (fun _ => none) i rfl, PCombo.prod_update (rels := rels) (fun _ => none) i rfl, PCombo.pre_update] at this
    have e1 : PCombo.sup tm (rels := rels) (fun _ => none) = ⊥ := by simp [PCombo.sup]
    have e2 : PCombo.prod (rels := rels) (fun _ => none) = 1 := by simp [PCombo.prod]
    have e3 : PCombo.pre (rels := rels) (fun _ => none) = fun _ => none := rfl
    rw [e1, e2, e3, sup_bot_eq, one_mul] at this
    exact this
  simp only [one]
  rw [Finset.sum_comm]
  apply Finset.sum_congr rfl
  intro c _
  have hag : ∀ a, PCombo.Agrees (Function.update (fun _ => none) i (some a)) c ↔ c i = a := by
    intro a
    constructor
    · intro h; exact h i a (by simp)
    · intro h j b hb
      by_cases hj : j = i
      · subst hj; simp at hb; rw [h, hb]
      · rw [Function.update_of_ne hj] at hb; simp at hb
  rw [Finset.sum_eq_single (c i)]
  · apply if_congr _ rfl rfl
    rw [hag]
    simp only [true_and]
    rfl
  · intro a _ ha
    rw [if_neg]
    rintro ⟨h, -⟩
    exact ha ((hag a).1 h).symm
  · intro h; exact absurd (Finset.mem_univ _) h

end engine

/-! ### Half joins -/

section half
open scoped Classical
variable {ι K D T R M O : Type*} [DecidableEq ι] [Fintype ι] [DecidableEq K] [Lattice T] [OrderBot T] [CommSemiring R] [AddCommMonoid M]
variable {rels : ι → Upds D T R}

omit [Fintype ι] [OrderBot T] in
theorem sum_deltaStep (comparison : T → T → Bool) (l : Lookup ι K D) (us : Upds (Assign ι D × T) T R) (f : (Assign ι D × T) × T × R → M) :
    ((deltaStep comparison rels l us).map f).sum = (us.map fun s => ∑ a : Fin (rels l.rel).length,
      if l.keyOf s.1.1 = l.arrKey (rels l.rel)[a].1 ∧ comparison (rels l.rel)[a].2.1 s.2.1 = true then
        f ((Function.update s.1.1 l.rel (some (rels l.rel)[a].1), (rels l.rel)[a].2.1 ⊔ s.1.2), s.2.1, s.2.2 * (rels l.rel)[a].2.2) else 0).sum := by
  unfold deltaStep halfMatches
  rw [sum_flatMap, List.map_map]
  congr 1
  apply List.map_congr_left
  intro s _
  simp only [Function.comp_apply]
  rw [sum_flatMap, List.map_map, ← Fin.sum_univ_fun_getElem]
  apply Finset.sum_congr rfl
  intro a _
  simp only [Function.comp_apply]
  have hk : ∀ (p q : K), (p = q) = (q = p) := fun p q => propext eq_comm
  by_cases h : l.keyOf s.1.1 = l.arrKey (rels l.rel)[a].1 ∧ comparison (rels l.rel)[a].2.1 s.2.1 = true
  · have h' : l.arrKey (rels l.rel)[a].1 = l.keyOf s.1.1 ∧ comparison (rels l.rel)[a].2.1 s.2.1 = true := ⟨h.1.symm, h.2⟩
    rw [if_pos h]
    refine (congrArg (fun z => (List.map f z).sum) (if_pos h')).trans ?_
    simp only [List.map_cons, List.map_nil, List.sum_cons, List.sum_nil, add_zero]
    rfl
  · have h' : ¬ (l.arrKey (rels l.rel)[a].1 = l.keyOf s.1.1 ∧ comparison (rels l.rel)[a].2.1 s.2.1 = true) := fun hh => h ⟨hh.1.symm, hh.2⟩
    rw [if_neg h]
    exact (congrArg (fun z => (List.map f z).sum) (if_neg h')).trans rfl

omit [Fintype ι] [OrderBot T] in
theorem sum_deltaPath (comparison : ι → T → T → Bool) (f : (Assign ι D × T) × T × R → M) : ∀ (path : Path ι K D) (us : Upds (Assign ι D × T) T R),
    ((path.foldl (fun us l => deltaStep (comparison l.rel) rels l us) us).map f).sum
      = (us.map (nest rels (fun _ t => t) (fun j t x => comparison j t x = true) f path)).sum
  | [], us => rfl
  | l :: ls, us => by
    rw [List.foldl_cons, sum_deltaPath comparison f ls, sum_deltaStep]
    congr 1
    apply List.map_congr_left
    intro s _
    rw [nest]
    apply Finset.sum_congr rfl
    intro a _
    congr

variable [DecidableEq T] [DecidableEq O]

/-- What a path delivers. -/
theorem total_path (comparison : ι → ι → T → T → Bool) (paths : ι → Path ι K D) (hv : VisitsOthers paths) (out : Assign ι D → List O) (hk : KeysRight paths out) (i : ι) (o : O) (t : T) :
    total ((deltaPath comparison rels i (paths i)).flatMap fun u => (out u.1.1).map fun o => (o, u.1.2, u.2.2)) o t
      = ∑ c : Combo rels, if ∀ j, j ≠ i → comparison i j (c.upd j).2.1 (c.upd i).2.1 = true then
          (if (Finset.univ.sup fun i => (c.upd i).2.1) = t then (out fun i => some (c.upd i).1).count o • ∏ i, (c.upd i).2.2 else 0) else 0 := by
  unfold total
  rw [sum_flatMap]
  have e : ∀ u : (Assign ι D × T) × T × R, (((out u.1.1).map fun o => (o, u.1.2, u.2.2)).map fun u : O × T × R => if u.1 = o ∧ u.2.1 = t then u.2.2 else 0).sum
      = if u.1.2 = t then (out u.1.1).count o • u.2.2 else 0 := by
    intro u
    rw [List.map_map]
    induction out u.1.1 with
    | nil => simp
    | cons a l ih =>
      rw [List.map_cons, List.sum_cons, ih, List.count_cons]
      simp only [Function.comp_apply]
      by_cases h1 : u.1.2 = t
      · by_cases h2 : a = o
        · simp [h1, h2, add_comm]
          ring
        · simp [h1, h2]
      · simp [h1]
  simp only [e]
  unfold deltaPath
  rw [sum_deltaPath (comparison i) (fun u => if u.1.2 = t then (out u.1.1).count o • u.2.2 else 0)]
  unfold changesOf
  rw [List.map_map]
  have := nest_driver (rels := rels) (fun _ t => t) (fun j t x => comparison i j t x = true) (fun u => if u.1.2 = t then (out u.1.1).count o • u.2.2 else 0) i (paths i) (fun t => t)
    (hv i).1 (hv i).2
  refine Eq.trans ?_ (this.trans ?_)
  · rfl
  · apply Finset.sum_congr rfl
    intro c _
    have hnd := List.nodup_cons.1 (hv i).1
    have hc : (∀ l ∈ paths i, comparison i l.rel (c.upd l.rel).2.1 (c.upd i).2.1 = true) ↔ ∀ j, j ≠ i → comparison i j (c.upd j).2.1 (c.upd i).2.1 = true := by
      constructor
      · intro h j hj
        rcases List.mem_cons.1 ((hv i).2 j) with rfl | hj'
        · exact absurd rfl hj
        · obtain ⟨l, hl, rfl⟩ := List.mem_map.1 hj'; exact h l hl
      · intro h l hl
        refine h _ ?_
        intro heq
        have hm : l.rel ∈ (paths i).map Lookup.rel := List.mem_map.2 ⟨l, hl, rfl⟩
        rw [heq] at hm
        exact hnd.1 hm
    by_cases hka : KeysAgree (fun j => (c.upd j).1) (Assign.only i (c.upd i).1) (paths i)
    · simp only [hka, true_and, hc]
    · have h0 : out (fun j => some (c.upd j).1) = [] := hk i _ hka
      simp [hka, h0]

/-- Exactly one relation drives each combination. -/
theorem total_deltaQuery (comparison : ι → ι → T → T → Bool) (paths : ι → Path ι K D) (hv : VisitsOthers paths) (out : Assign ι D → List O) (hk : KeysRight paths out)
    (order : List ι) (ho : order.Nodup ∧ ∀ i, i ∈ order) (hone : ∀ τ : ι → T, ∃! i, ∀ j, j ≠ i → comparison i j (τ j) (τ i) = true) (o : O) (t : T) :
    total (deltaQuery comparison rels paths out order) o t = queryTotal rels out o t := by
  have e1 : total (deltaQuery comparison rels paths out order) o t
      = (order.map fun i => total ((deltaPath comparison rels i (paths i)).flatMap fun u => (out u.1.1).map fun o => (o, u.1.2, u.2.2)) o t).sum := by
    unfold deltaQuery
    conv_lhs => unfold total
    rw [sum_flatMap]
    rfl
  rw [e1]
  simp only [total_path comparison paths hv out hk]
  rw [← List.sum_toFinset _ ho.1]
  have hu : order.toFinset = Finset.univ := by ext i; simp [ho.2 i]
  rw [hu, Finset.sum_comm]
  unfold queryTotal
  apply Finset.sum_congr rfl
  intro c _
  obtain ⟨i, hi, huniq⟩ := hone fun j => (c.upd j).2.1
  rw [Finset.sum_eq_single i]
  · rw [if_pos hi]
  · intro j _ hj
    rw [if_neg]
    intro h
    exact hj (huniq j h)
  · intro h; exact absurd (Finset.mem_univ _) h

end half

theorem strictEarlier_one {ι T : Type*} [LinearOrder ι] [Fintype ι] [Nonempty ι] [LinearOrder (Lin T)] (τ : ι → T) :
    ∃! i, ∀ j, j ≠ i → strictEarlier i j (τ j) (τ i) = true := by
  obtain ⟨m, -, hm⟩ := Finset.exists_max_image Finset.univ (fun i => toLin (τ i)) Finset.univ_nonempty
  let S := Finset.univ.filter fun i => toLin (τ i) = toLin (τ m)
  have hS : S.Nonempty := ⟨m, by simp [S]⟩
  have h1 : toLin (τ (S.min' hS)) = toLin (τ m) := (Finset.mem_filter.1 (S.min'_mem hS)).2
  refine ⟨S.min' hS, ?_, ?_⟩
  · intro j hj
    unfold strictEarlier
    split_ifs with hlt
    · rw [decide_eq_true_eq, h1]
      refine lt_of_le_of_ne (hm j (Finset.mem_univ _)) fun he => ?_
      have := S.min'_le j (by simp [S, he])
      exact absurd hlt (not_lt.2 this)
    · rw [decide_eq_true_eq, h1]
      exact hm j (Finset.mem_univ _)
  · intro i hi
    have key : ∀ a b : ι, a < b → (∀ j, j ≠ a → strictEarlier a j (τ j) (τ a) = true) → (∀ j, j ≠ b → strictEarlier b j (τ j) (τ b) = true) → False := by
      intro a b hab ha hb
      have h1 := ha b (ne_of_gt hab)
      have h2 := hb a (ne_of_lt hab)
      simp only [strictEarlier, hab, if_true, not_lt.2 hab.le, if_false, decide_eq_true_eq] at h1 h2
      exact absurd h2 (not_lt.2 h1)
    have hmin : ∀ j, j ≠ S.min' hS → strictEarlier (S.min' hS) j (τ j) (τ (S.min' hS)) = true := by
      intro j hj
      unfold strictEarlier
      split_ifs with hlt
      · rw [decide_eq_true_eq, h1]
        refine lt_of_le_of_ne (hm j (Finset.mem_univ _)) fun he => ?_
        have := S.min'_le j (by simp [S, he])
        exact absurd hlt (not_lt.2 this)
      · rw [decide_eq_true_eq, h1]
        exact hm j (Finset.mem_univ _)
    rcases lt_trichotomy i (S.min' hS) with h | h | h
    · exact (key _ _ h hi hmin).elim
    · exact h
    · exact (key _ _ h hmin hi).elim

/-! ### Joins in Alt/Neu times -/

instance AltNeu.orderBot {T : Type*} [PartialOrder T] [OrderBot T] : OrderBot (AltNeu T) where
  bot := ⟨⊥, false⟩
  bot_le a := by
    rw [AltNeu.le_iff_lt]
    rcases eq_or_lt_of_le (bot_le : ⊥ ≤ a.time) with h | h
    · exact Or.inr ⟨h, by simp⟩
    · exact Or.inl h

section altneu
open scoped Classical
variable {ι K D T R M O : Type*} [DecidableEq ι] [Fintype ι] [DecidableEq K] [Lattice T] [OrderBot T] [DecidableEq T] [CommRing R] [AddCommGroup M]
variable {rels : ι → Upds D T R}

omit [Fintype ι] [OrderBot T] in
theorem sum_altNeuStep (neu : Bool) (l : Lookup ι K D) (us : Upds (Assign ι D) (AltNeu T) R) (f : Assign ι D × AltNeu T × R → M) :
    ((altNeuStep neu rels l us).map f).sum = (us.map fun s => ∑ a : Fin (rels l.rel).length,
      if l.keyOf s.1 = l.arrKey (rels l.rel)[a].1 then
        f (Function.update s.1 l.rel (some (rels l.rel)[a].1), ⟨(rels l.rel)[a].2.1, neu⟩ ⊔ s.2.1, s.2.2 * (rels l.rel)[a].2.2) else 0).sum := by
  unfold altNeuStep nestedJoin
  rw [sum_flatMap, List.map_map]
  congr 1
  apply List.map_congr_left
  intro s _
  simp only [Function.comp_apply]
  rw [sum_flatMap, List.map_map, ← Fin.sum_univ_fun_getElem]
  apply Finset.sum_congr rfl
  intro a _
  simp only [Function.comp_apply, Fin.getElem_fin]
  by_cases h : l.keyOf s.1 = l.arrKey (rels l.rel)[a.1].1
  · rw [if_pos h, if_pos h]
    simp only [List.map_cons, List.map_nil, List.sum_cons, List.sum_nil, add_zero]
    rw [sup_comm]
  · rw [if_neg h, if_neg h]; rfl

omit [Fintype ι] [OrderBot T] in
theorem sum_altNeuPath (neu : ι → Bool) (f : Assign ι D × AltNeu T × R → M) : ∀ (path : Path ι K D) (us : Upds (Assign ι D) (AltNeu T) R),
    ((path.foldl (fun us l => altNeuStep (neu l.rel) rels l us) us).map f).sum
      = (us.map fun s => nest rels (fun j t => (⟨t, neu j⟩ : AltNeu T)) (fun _ _ (_ : Unit) => True) (fun s => f (s.1.1, s.1.2, s.2.2)) path ((s.1, s.2.1), (), s.2.2)).sum
  | [], us => rfl
  | l :: ls, us => by
    rw [List.foldl_cons, sum_altNeuPath neu f ls, sum_altNeuStep]
    congr 1
    apply List.map_congr_left
    intro s _
    rw [nest]
    apply Finset.sum_congr rfl
    intro a _
    simp only [and_true]

theorem nest_congr_tm {T' X : Type*} [Lattice T'] (tm tm' : ι → T → T') (ok : ι → T → X → Prop) (f : (Assign ι D × T') × X × R → M) :
    ∀ (path : Path ι K D) (s : (Assign ι D × T') × X × R), (∀ l ∈ path, tm l.rel = tm' l.rel) → nest rels tm ok f path s = nest rels tm' ok f path s
  | [], _, _ => rfl
  | l :: ls, s, h => by
    unfold nest
    apply Finset.sum_congr rfl
    intro a _
    rw [nest_congr_tm tm tm' ok f ls _ fun l' hl' => h l' (by simp [hl']), h l (by simp)]

theorem nest_neg {T' X : Type*} [Lattice T'] (tm : ι → T → T') (ok : ι → T → X → Prop) (f : (Assign ι D × T') × X × R → M)
    (hf : ∀ a x r, f (a, x, -r) = -f (a, x, r)) :
    ∀ (path : Path ι K D) (a : Assign ι D × T') (x : X) (r : R), nest rels tm ok f path (a, x, -r) = -nest rels tm ok f path (a, x, r)
  | [], a, x, r => hf a x r
  | l :: ls, a, x, r => by
    unfold nest
    rw [← Finset.sum_neg_distrib]
    apply Finset.sum_congr rfl
    intro b _
    split_ifs
    · rw [← nest_neg tm ok f hf ls]; simp only [neg_mul]
    · simp

omit [DecidableEq ι] in
theorem altNeu_sup_time (x : ι → AltNeu T) : (Finset.univ.sup x).time = Finset.univ.sup fun i => (x i).time := by
  have : ∀ s : Finset ι, (s.sup x).time = s.sup fun i => (x i).time := by
    intro s
    induction s using Finset.induction_on with
    | empty => rfl
    | insert a s ha ih => rw [Finset.sup_insert, Finset.sup_insert, ← ih]; rfl
  exact this _

omit [DecidableEq ι] in
theorem altNeu_sup_neu (x : ι → AltNeu T) : (Finset.univ.sup x).neu = true ↔ ∃ i, (x i).neu = true ∧ (x i).time = Finset.univ.sup fun i => (x i).time := by
  constructor
  · intro h
    by_contra hno
    push Not at hno
    have hub : Finset.univ.sup x ≤ (⟨Finset.univ.sup fun i => (x i).time, false⟩ : AltNeu T) := by
      apply Finset.sup_le
      intro i _
      rw [AltNeu.le_iff_lt]
      rcases eq_or_lt_of_le (Finset.le_sup (f := fun i => (x i).time) (Finset.mem_univ i)) with h | h
      · refine Or.inr ⟨h, ?_⟩
        cases hn : (x i).neu with
        | false => exact le_refl _
        | true => exact absurd h (hno i hn)
      · exact Or.inl h
    rw [AltNeu.le_iff_lt, altNeu_sup_time] at hub
    rcases hub with hub | ⟨-, hub⟩
    · exact lt_irrefl _ hub
    · rw [h] at hub; exact absurd (show true ≤ false from hub) (by decide)
  · rintro ⟨i, hi, ht⟩
    have := Finset.le_sup (f := x) (Finset.mem_univ i)
    rw [AltNeu.le_iff_lt, altNeu_sup_time] at this
    rcases this with h | ⟨-, h⟩
    · rw [ht] at h; exact absurd h (lt_irrefl _)
    · rw [hi] at h
      cases hn : (Finset.univ.sup x).neu with
      | true => rfl
      | false => rw [hn] at h; exact absurd h (by decide)

variable [DecidableEq O]

/-- The functional that integration and the output determine. -/
def altNeuF (out : Assign ι D → List O) (o : O) (t : T) (u : Assign ι D × AltNeu T × R) : R :=
  if u.2.1.neu = false ∧ u.2.1.time = t then (out u.1).count o • u.2.2 else 0

/-- What a path delivers: combinations that its driver updates last. -/
theorem total_altNeuPath (neu : ι → ι → Bool) (paths : ι → Path ι K D) (hv : VisitsOthers paths) (out : Assign ι D → List O) (hk : KeysRight paths out) (i : ι) (o : O) (t : T) :
    total (integrate ((altNeuPath neu rels i (paths i)).flatMap fun u => (out u.1).map fun o => (o, u.2))) o t
      = ∑ c : Combo rels, if (c.upd i).2.1 = (Finset.univ.sup fun j => (c.upd j).2.1) ∧ ∀ j, j ≠ i → neu i j = true → (c.upd j).2.1 ≠ Finset.univ.sup fun j => (c.upd j).2.1 then
          (if (Finset.univ.sup fun i => (c.upd i).2.1) = t then (out fun i => some (c.upd i).1).count o • ∏ i, (c.upd i).2.2 else 0) else 0 := by
  have e1 : total (integrate ((altNeuPath neu rels i (paths i)).flatMap fun u => (out u.1).map fun o => (o, u.2))) o t
      = ((altNeuPath neu rels i (paths i)).map (altNeuF out o t)).sum := by
    unfold total integrate
    rw [List.map_map]
    have : ∀ us : Upds O (AltNeu T) R, ((us.filter fun u => !u.2.1.neu).map ((fun u : O × T × R => if u.1 = o ∧ u.2.1 = t then u.2.2 else 0) ∘ fun u => (u.1, u.2.1.time, u.2.2))).sum
        = (us.map fun u => if u.1 = o ∧ u.2.1.neu = false ∧ u.2.1.time = t then u.2.2 else 0).sum := by
      intro us
      induction us with
      | nil => rfl
      | cons u us ih =>
        rw [List.map_cons, List.sum_cons, ← ih]
        cases hn : u.2.1.neu with
        | true => rw [List.filter_cons_of_neg (by simp [hn])]; simp
        | false => rw [List.filter_cons_of_pos (by simp [hn]), List.map_cons, List.sum_cons]; simp
    rw [this, sum_flatMap]
    congr 1
    apply List.map_congr_left
    intro u _
    rw [List.map_map]
    unfold altNeuF
    induction out u.1 with
    | nil => simp
    | cons a l ih =>
      rw [List.map_cons, List.sum_cons, ih, List.count_cons]
      simp only [Function.comp_apply]
      by_cases h1 : u.2.1.neu = false ∧ u.2.1.time = t
      · by_cases h2 : a = o
        · simp [h1, h2, add_comm]
          ring
        · simp [h1, h2]
      · simp [h1]
  rw [e1]
  unfold altNeuPath
  rw [sum_altNeuPath (neu i)]
  unfold differentiate
  simp only [List.map_map]
  rw [sum_flatMap, List.map_map]
  have hnd := List.nodup_cons.1 (hv i).1
  have hne : ∀ l ∈ paths i, l.rel ≠ i := by
    intro l hl heq
    have hm : l.rel ∈ (paths i).map Lookup.rel := List.mem_map.2 ⟨l, hl, rfl⟩
    rw [heq] at hm
    exact hnd.1 hm
  let tmB : Bool → ι → T → AltNeu T := fun b j t => ⟨t, if j = i then b else neu i j⟩
  have htm : ∀ b (s : (Assign ι D × AltNeu T) × Unit × R), nest rels (fun j t => (⟨t, neu i j⟩ : AltNeu T)) (fun _ _ (_ : Unit) => True) (fun s => altNeuF out o t (s.1.1, s.1.2, s.2.2)) (paths i) s
      = nest rels (tmB b) (fun _ _ (_ : Unit) => True) (fun s => altNeuF out o t (s.1.1, s.1.2, s.2.2)) (paths i) s := by
    intro b s
    apply nest_congr_tm
    intro l hl
    funext t
    simp [tmB, hne l hl]
  have hneg : ∀ (a : Assign ι D × AltNeu T) (x : Unit) (r : R), altNeuF out o t (a.1, a.2, -r) = -altNeuF out o t (a.1, a.2, r) := by
    intro a x r
    unfold altNeuF
    split_ifs <;> simp
  have e2 : ∀ u : D × T × R, (List.map (fun s : Assign ι D × AltNeu T × R => nest rels (fun j t => (⟨t, neu i j⟩ : AltNeu T)) (fun _ _ (_ : Unit) => True)
        (fun s => altNeuF out o t (s.1.1, s.1.2, s.2.2)) (paths i) ((s.1, s.2.1), (), s.2.2))
        [(Assign.only i u.1, (⟨u.2.1, false⟩ : AltNeu T), u.2.2), (Assign.only i u.1, (⟨u.2.1, true⟩ : AltNeu T), -u.2.2)]).sum
      = nest rels (tmB false) (fun _ _ (_ : Unit) => True) (fun s => altNeuF out o t (s.1.1, s.1.2, s.2.2)) (paths i) ((Assign.only i u.1, tmB false i u.2.1), (), u.2.2)
        + -nest rels (tmB true) (fun _ _ (_ : Unit) => True) (fun s => altNeuF out o t (s.1.1, s.1.2, s.2.2)) (paths i) ((Assign.only i u.1, tmB true i u.2.1), (), u.2.2) := by
    intro u
    simp only [List.map_cons, List.map_nil, List.sum_cons, List.sum_nil, add_zero]
    rw [nest_neg _ _ _ (fun a x r => hneg a x r), htm false, htm true]
    simp [tmB]
  have e3 : ∀ b, ((rels i).map fun u => nest rels (tmB b) (fun _ _ (_ : Unit) => True) (fun s => altNeuF out o t (s.1.1, s.1.2, s.2.2)) (paths i)
        ((Assign.only i u.1, tmB b i u.2.1), (), u.2.2)).sum = _ :=
    fun b => nest_driver (rels := rels) (tmB b) (fun _ _ (_ : Unit) => True) (fun s => altNeuF out o t (s.1.1, s.1.2, s.2.2)) i (paths i) (fun _ => ()) (hv i).1 (hv i).2
  have e4 : ((rels i).map fun u => nest rels (tmB false) (fun _ _ (_ : Unit) => True) (fun s => altNeuF out o t (s.1.1, s.1.2, s.2.2)) (paths i) ((Assign.only i u.1, tmB false i u.2.1), (), u.2.2)
        + -nest rels (tmB true) (fun _ _ (_ : Unit) => True) (fun s => altNeuF out o t (s.1.1, s.1.2, s.2.2)) (paths i) ((Assign.only i u.1, tmB true i u.2.1), (), u.2.2)).sum
      = ((rels i).map fun u => nest rels (tmB false) (fun _ _ (_ : Unit) => True) (fun s => altNeuF out o t (s.1.1, s.1.2, s.2.2)) (paths i) ((Assign.only i u.1, tmB false i u.2.1), (), u.2.2)).sum
        - ((rels i).map fun u => nest rels (tmB true) (fun _ _ (_ : Unit) => True) (fun s => altNeuF out o t (s.1.1, s.1.2, s.2.2)) (paths i) ((Assign.only i u.1, tmB true i u.2.1), (), u.2.2)).sum := by
    induction rels i with
    | nil => simp
    | cons u us ih => simp only [List.map_cons, List.sum_cons, ih]; abel
  have e5 : (List.map ((fun x => (List.map (fun s : Assign ι D × AltNeu T × R => nest rels (fun j t => (⟨t, neu i j⟩ : AltNeu T)) (fun _ _ (_ : Unit) => True)
        (fun s => altNeuF out o t (s.1.1, s.1.2, s.2.2)) (paths i) ((s.1, s.2.1), (), s.2.2)) [x, (x.1, (⟨x.2.1.time, true⟩ : AltNeu T), -x.2.2)]).sum) ∘
        ((fun u : Assign ι D × T × R => (u.1, (⟨u.2.1, false⟩ : AltNeu T), u.2.2)) ∘ fun u : D × T × R => (Assign.only i u.1, u.2))) (rels i)).sum
      = ((rels i).map fun u => nest rels (tmB false) (fun _ _ (_ : Unit) => True) (fun s => altNeuF out o t (s.1.1, s.1.2, s.2.2)) (paths i) ((Assign.only i u.1, tmB false i u.2.1), (), u.2.2)
        + -nest rels (tmB true) (fun _ _ (_ : Unit) => True) (fun s => altNeuF out o t (s.1.1, s.1.2, s.2.2)) (paths i) ((Assign.only i u.1, tmB true i u.2.1), (), u.2.2)).sum := by
    congr 1
    apply List.map_congr_left
    intro u _
    exact e2 u
  refine e5.trans (e4.trans ?_)
  rw [e3 false, e3 true, ← Finset.sum_sub_distrib]
  apply Finset.sum_congr rfl
  intro c _
  by_cases hka : KeysAgree (fun j => (c.upd j).1) (Assign.only i (c.upd i).1) (paths i)
  · simp only [hka, implies_true, and_true, if_true, altNeuF]
    have hn : ∀ b, (Finset.univ.sup fun j => tmB b j (c.upd j).2.1).neu = false ↔
        (b = true → (c.upd i).2.1 ≠ Finset.univ.sup fun j => (c.upd j).2.1) ∧ ∀ j, j ≠ i → neu i j = true → (c.upd j).2.1 ≠ Finset.univ.sup fun j => (c.upd j).2.1 := by
      intro b
      rw [← Bool.not_eq_true, altNeu_sup_neu]
      push Not
      constructor
      · intro h
        refine ⟨fun hb => ?_, fun j hj hn => ?_⟩
        · exact h i (by simp [tmB, hb])
        · exact h j (by simp [tmB, hj, hn])
      · rintro ⟨h1, h2⟩ j hj
        by_cases hji : j = i
        · subst hji; exact h1 (by simpa [tmB] using hj)
        · exact h2 j hji (by simpa [tmB, hji] using hj)
    have ht : ∀ b, (Finset.univ.sup fun j => tmB b j (c.upd j).2.1).time = Finset.univ.sup fun j => (c.upd j).2.1 := fun b => altNeu_sup_time _
    have key : ∀ (P Q E : Prop) [Decidable P] [Decidable Q] [Decidable E] (x : R), (if P ∧ E then x else 0) - (if (¬ Q ∧ P) ∧ E then x else 0) = if Q ∧ P then (if E then x else 0) else 0 := by
      intro P Q E _ _ _ x
      by_cases hP : P <;> by_cases hQ : Q <;> by_cases hE : E <;> simp [hP, hQ, hE]
    simp only [hn, ht, Bool.false_eq_true, false_imp_iff, true_and, true_imp_iff]
    have := key (∀ j, j ≠ i → neu i j = true → (c.upd j).2.1 ≠ Finset.univ.sup fun j => (c.upd j).2.1) ((c.upd i).2.1 = Finset.univ.sup fun j => (c.upd j).2.1)
      ((Finset.univ.sup fun j => (c.upd j).2.1) = t) ((out fun j => some (c.upd j).1).count o • ∏ j, (c.upd j).2.2)
    convert this using 3
  · have h0 : out (fun j => some (c.upd j).1) = [] := hk i _ hka
    simp [hka, h0]

end altneu

end DD
