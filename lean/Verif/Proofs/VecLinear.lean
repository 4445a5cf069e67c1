import Verif.Model.VecLinear
import Verif.Proofs.ScopeIr

/-! # Fusing linear operators on vectors -/

namespace DD.Ir

theorem tmin_le (t : VTime) : tmin ≤ t := by
  refine ⟨Nat.zero_le _, ?_⟩
  show PointStamp.less_equal PointStamp.minimum t.2.1 = true
  rfl

theorem sup_tmin (t : VTime) : t ⊔ tmin = t := sup_eq_left.2 (tmin_le t)

theorem tmin_sup (t : VTime) : tmin ⊔ t = t := sup_eq_right.2 (tmin_le t)

section
variable {A B C : Type*}

theorem flatMapM_nil (f : A → Option (List B)) : flatMapM f [] = some [] := rfl

theorem flatMapM_cons (f : A → Option (List B)) (a : A) (l : List A) : flatMapM f (a :: l) = (f a).bind fun x => (flatMapM f l).map fun y => x ++ y := by
  simp only [flatMapM, List.mapM_cons]
  cases f a with
  | none => rfl
  | some x =>
    simp only [Option.bind_some]
    cases l.mapM f <;> rfl

theorem flatMapM_append (f : A → Option (List B)) (l l' : List A) : flatMapM f (l ++ l') = (flatMapM f l).bind fun x => (flatMapM f l').map fun y => x ++ y := by
  induction l with
  | nil => rw [List.nil_append, flatMapM_nil, Option.bind_some]; cases flatMapM f l' <;> rfl
  | cons a l ih =>
    rw [List.cons_append, flatMapM_cons, flatMapM_cons, ih]
    cases f a with
    | none => rfl
    | some x =>
      cases flatMapM f l with
      | none => rfl
      | some y =>
        cases flatMapM f l' with
        | none => rfl
        | some z => simp

theorem flatMapM_bind (f : A → Option (List B)) (g : B → Option (List C)) (l : List A) : (flatMapM f l).bind (flatMapM g) = flatMapM (fun a => (f a).bind (flatMapM g)) l := by
  induction l with
  | nil => rfl
  | cons a l ih =>
    rw [flatMapM_cons, flatMapM_cons, ← ih]
    cases f a with
    | none => rfl
    | some x =>
      cases flatMapM f l with
      | none =>
        simp only [Option.bind_some, Option.map_none, Option.bind_none]
        cases flatMapM g x <;> rfl
      | some y => simp only [Option.bind_some, Option.map_some, flatMapM_append]

theorem flatMapM_congr {f g : A → Option (List B)} {l : List A} (h : ∀ a ∈ l, f a = g a) : flatMapM f l = flatMapM g l := by
  rw [flatMapM, flatMapM, mapM_congr _ _ _ h]

theorem flatMapM_map (f : B → Option (List C)) (g : A → B) (l : List A) : flatMapM f (l.map g) = flatMapM (f ∘ g) l := by
  rw [flatMapM, flatMapM, mapM_map']

theorem flatMapM_mapped (f : A → Option (List B)) (g : B → C) (l : List A) : flatMapM (fun a => (f a).map (List.map g)) l = (flatMapM f l).map (List.map g) := by
  induction l with
  | nil => rfl
  | cons a l ih =>
    rw [flatMapM_cons, flatMapM_cons, ih]
    cases f a with
    | none => rfl
    | some x => cases flatMapM f l <;> simp

theorem flatMapM_single (f : A → Option (List B)) (a : A) : flatMapM f [a] = f a := by
  rw [flatMapM_cons, flatMapM_nil]
  cases f a <;> simp

end

variable {E : Type*} {ev : E → Value → Value → Option Value} {level : Nat}

theorem linearOps_append {iter : Nat} {a b : List (LinearOp E)} : ∀ {l : List VRec}, linearOps ev level iter (a ++ b) l = (linearOps ev level iter a l).bind (linearOps ev level iter b) := by
  induction a with
  | nil => intro l; rfl
  | cons op a ih =>
    intro l
    rw [List.cons_append, linearOps, linearOps, Option.bind_assoc]
    congr 1
    funext x
    exact ih

theorem linearOps_each {iter : Nat} {ops : List (LinearOp E)} : ∀ {l : List VRec}, linearOps ev level iter ops l = flatMapM (fun r => linearOps ev level iter ops [r]) l := by
  induction ops with
  | nil =>
    intro l
    simp only [linearOps]
    induction l with
    | nil => rfl
    | cons a l ih => rw [flatMapM_cons, ← ih]; rfl
  | cons op ops ih =>
    intro l
    simp only [linearOps, flatMapM_single]
    have : linearOps ev level iter ops = flatMapM (fun r => linearOps ev level iter ops [r]) := funext fun l => ih
    rw [this, flatMapM_bind]

/-- Applying a time and a difference to a result. -/
def shift (t : VTime) (d : Int) (r : VRec) : VRec := (r.1, t ⊔ r.2.1, d * r.2.2)

/-- An operator that delays. -/
def LinearOp.isEnterAt : LinearOp E → Bool
  | .enterAt _ => true
  | _ => false

theorem linearOp_shift {iter iter' : Nat} {op : LinearOp E} {t : VTime} {d : Int} (h1 : t = tmin ∨ op.isEnterAt = false) (h2 : iter = iter' ∨ op ≠ .liftIter) (r : VRec) :
    linearOp ev level iter op (shift t d r) = (linearOp ev level iter' op r).map (List.map (shift t d)) := by
  obtain ⟨⟨k, v⟩, t', d'⟩ := r
  cases op with
  | project key val =>
    simp only [linearOp, shift]
    cases ev key k v with
    | none => rfl
    | some nk => cases ev val k v <;> rfl
  | filter cond =>
    simp only [linearOp, shift]
    cases ev cond k v with
    | none => rfl
    | some x => cases hx : x.truthy <;> simp [hx, shift]
  | negate => simp [linearOp, shift, Int.mul_neg]
  | enterAt field =>
    have ht : t = tmin := by
      rcases h1 with h | h
      · exact h
      · cases h
    subst ht
    simp only [linearOp, shift]
    cases ev field k v with
    | none => rfl
    | some raw =>
      simp only [Option.bind_some]
      cases raw.asInt with
      | none => rfl
      | some n => simp [shift, tmin_sup]
  | liftIter =>
    have : iter = iter' := by
      rcases h2 with h | h
      · exact h
      · exact absurd rfl h
    subst this
    rfl
  | flatMap list =>
    simp only [linearOp, shift]
    cases ev list k v with
    | none => rfl
    | some x => cases x <;> simp [shift]

theorem linearOps_shift {iter iter' : Nat} {t : VTime} {d : Int} {ops : List (LinearOp E)} (h1 : t = tmin ∨ ∀ op ∈ ops, op.isEnterAt = false) (h2 : iter = iter' ∨ ∀ op ∈ ops, op ≠ .liftIter) :
    ∀ l : List VRec, linearOps ev level iter ops (l.map (shift t d)) = (linearOps ev level iter' ops l).map (List.map (shift t d)) := by
  induction ops with
  | nil => intro l; rfl
  | cons op ops ih =>
    intro l
    have ih := ih (h1.imp id fun h op ho => h op (List.mem_cons_of_mem _ ho)) (h2.imp id fun h op ho => h op (List.mem_cons_of_mem _ ho))
    rw [linearOps, linearOps, flatMapM_map]
    rw [flatMapM_congr (f := linearOp ev level iter op ∘ shift t d) (g := fun r => (linearOp ev level iter' op r).map (List.map (shift t d)))
      (fun r _ => linearOp_shift (h1.imp id fun h => h op List.mem_cons_self) (h2.imp id fun h => h op List.mem_cons_self) r)]
    rw [flatMapM_mapped]
    cases flatMapM (linearOp ev level iter' op) l with
    | none => rfl
    | some x => exact ih x

/-- Without a delay, the times of intermediate results are minimal. -/
theorem linearOps_time {iter : Nat} {ops : List (LinearOp E)} (h : ∀ op ∈ ops, op.isEnterAt = false) : ∀ {l out : List VRec}, (∀ r ∈ l, r.2.1 = tmin) →
    linearOps ev level iter ops l = some out → ∀ r ∈ out, r.2.1 = tmin := by
  have hone : ∀ op ∈ ops, ∀ {r : VRec} {out}, r.2.1 = tmin → linearOp ev level iter op r = some out → ∀ x ∈ out, x.2.1 = tmin := by
    intro op hop r out hr ho x hx
    obtain ⟨⟨k, v⟩, t', d'⟩ := r
    simp only at hr
    subst hr
    have he := h op hop
    cases op with
    | project key val =>
      simp only [linearOp, Option.bind_eq_some_iff, Option.map_eq_some_iff] at ho
      obtain ⟨a, -, b, -, rfl⟩ := ho
      rw [List.mem_singleton.1 hx]
    | filter cond =>
      simp only [linearOp, Option.map_eq_some_iff] at ho
      obtain ⟨a, -, rfl⟩ := ho
      split_ifs at hx
      · rw [List.mem_singleton.1 hx]
      · cases hx
    | negate =>
      simp only [linearOp, Option.some.injEq] at ho
      subst ho
      rw [List.mem_singleton.1 hx]
    | enterAt field => cases he
    | liftIter =>
      simp only [linearOp, Option.some.injEq] at ho
      subst ho
      rw [List.mem_singleton.1 hx]
    | flatMap list =>
      simp only [linearOp, Option.bind_eq_some_iff] at ho
      obtain ⟨a, -, ho⟩ := ho
      cases a with
      | list xs =>
        simp only [Option.some.injEq] at ho
        subst ho
        obtain ⟨e, -, rfl⟩ := List.mem_map.1 hx
        rfl
      | _ => cases ho
  have hflat : ∀ op ∈ ops, ∀ {l out : List VRec}, (∀ r ∈ l, r.2.1 = tmin) → flatMapM (linearOp ev level iter op) l = some out → ∀ x ∈ out, x.2.1 = tmin := by
    intro op hop l
    induction l with
    | nil => intro out _ ho; cases ho; intro x hx; cases hx
    | cons a l ih =>
      intro out hl ho
      rw [flatMapM_cons] at ho
      simp only [Option.bind_eq_some_iff, Option.map_eq_some_iff] at ho
      obtain ⟨x, h1, y, h2, rfl⟩ := ho
      intro z hz
      rcases List.mem_append.1 hz with hz | hz
      · exact hone op hop (hl a List.mem_cons_self) h1 z hz
      · exact ih (fun r hr => hl r (List.mem_cons_of_mem _ hr)) h2 z hz
  clear hone
  induction ops with
  | nil => intro l out hl ho; cases ho; exact hl
  | cons op ops ih =>
    intro l out hl ho
    rw [linearOps] at ho
    obtain ⟨x, h1, h2⟩ := Option.bind_eq_some_iff.1 ho
    exact ih (fun o hm => h o (List.mem_cons_of_mem _ hm)) (fun o hm => hflat o (List.mem_cons_of_mem _ hm)) (hflat op List.mem_cons_self hl h1) h2

/-- The operators of the first list and of the second do not depend on each other through times: not a delay first and then a delay or an operator reading the time. -/
def TimeApart (x y : LinearOp E) : Prop := ¬ (x.isEnterAt = true ∧ (y.isEnterAt = true ∨ y = .liftIter))

theorem linearOne_append {a b : List (LinearOp E)} (h : ∀ x ∈ a, ∀ y ∈ b, TimeApart x y) (r : VRec) :
    linearOne ev level (a ++ b) r = (linearOne ev level a r).bind (flatMapM (linearOne ev level b)) := by
  obtain ⟨kv, t, d⟩ := r
  simp only [linearOne, linearOps_append]
  cases hm : linearOps ev level (iterAtLevel level t) a [(kv, tmin, 1)] with
  | none => rfl
  | some mid =>
    simp only [Option.bind_some, Option.map_some]
    rw [linearOps_each, flatMapM_map]
    rw [← flatMapM_mapped]
    apply flatMapM_congr
    rintro ⟨kv', t', d'⟩ hx
    simp only [Function.comp, linearOne]
    have e1 : ([(kv', t', d')] : List VRec) = [((kv', tmin, 1) : VRec)].map (shift t' d') := by simp [shift, sup_tmin]
    have key : linearOps ev level (iterAtLevel level t) b [(kv', t', d')] = (linearOps ev level (iterAtLevel level (t ⊔ t')) b [(kv', tmin, 1)]).map (List.map (shift t' d')) := by
      rw [e1]
      by_cases ha : ∀ op ∈ a, op.isEnterAt = false
      · have ht : t' = tmin := linearOps_time ha (by simp) hm _ hx
        subst ht
        rw [sup_tmin]
        exact linearOps_shift (Or.inl rfl) (Or.inl rfl) _
      · simp only [not_forall, Bool.not_eq_false] at ha
        obtain ⟨op, hop, he⟩ := ha
        refine linearOps_shift (Or.inr fun y hy => ?_) (Or.inr fun y hy hl => ?_) _
        · have := h op hop y hy
          by_contra hc
          exact this ⟨he, Or.inl (by simpa using hc)⟩
        · exact h op hop y hy ⟨he, Or.inr hl⟩
    rw [key, Option.map_map]
    congr 1
    funext l
    simp only [Function.comp, List.map_map]
    congr 1
    funext x
    simp only [Function.comp, shift, sup_assoc, mul_assoc]

theorem renderLinear_append {a b : List (LinearOp E)} (h : ∀ x ∈ a, ∀ y ∈ b, TimeApart x y) (c : Option (List VRec)) :
    renderLinear ev level (a ++ b) c = renderLinear ev level b (renderLinear ev level a c) := by
  cases c with
  | none => rfl
  | some l =>
    simp only [renderLinear, Option.bind_some]
    rw [flatMapM_bind]
    exact flatMapM_congr fun r _ => linearOne_append h r

theorem vec_fuses {P Q N Arr : Type*} {sem : Sem (LinearOp E) P Q N (Option (List VRec)) Arr} (h : sem.linear = renderLinear ev) : sem.Fuses TimeApart := by
  intro depth a b c hab
  rw [h]
  exact renderLinear_append hab c

end DD.Ir
