import Verif.Spec.Reverse
import Verif.Proofs.LowerClosed

/-!
# References, and the order in which explanations walk a program
-/

namespace DD.Ir.Ex
variable {N : Type*} {root : XScope N}

/-! ### References -/

theorem resolveRef_names : ∀ {n : Nat} {path : List Nat} {r : Ref} {t : Target}, resolveRef root n path r = some t → Names root path r t := by
  intro n
  induction n with
  | zero => intro path r t h; cases h
  | succ n ih =>
    intro path r t h
    cases r with
    | loc i => cases h; exact .loc _ _
    | var v => cases h; exact .var _ _
    | imp k =>
      rcases List.eq_nil_or_concat path with rfl | ⟨q, c, rfl⟩
      · cases h; exact .source _
      · rw [List.concat_eq_append] at h ⊢
        simp only [resolveRef, List.dropLast_concat] at h
        rw [if_neg (by simp)] at h
        obtain ⟨s, h1, h⟩ := Option.bind_eq_some_iff.1 h
        obtain ⟨⟨name, src⟩, h2, h⟩ := Option.bind_eq_some_iff.1 h
        cases src with
        | parent r => exact .imp _ _ _ _ _ _ _ h1 h2 (ih h)
        | input _ => cases h
        | trace _ => cases h
    | childExport c j =>
      simp only [resolveRef] at h
      obtain ⟨s, h1, h⟩ := Option.bind_eq_some_iff.1 h
      obtain ⟨⟨name, r⟩, h2, h⟩ := Option.bind_eq_some_iff.1 h
      exact .childExport _ _ _ _ _ _ _ h1 h2 (ih h)

theorem Names.det {path : List Nat} {r : Ref} {t : Target} (h : Names root path r t) : ∀ {t'}, Names root path r t' → t = t' := by
  induction h with
  | loc => intro t' h'; cases h'; rfl
  | var => intro t' h'; cases h'; rfl
  | source k =>
    intro t' h'
    generalize hp : ([] : List Nat) = p at h'
    generalize hr : Ref.imp k = r at h'
    cases h' with
    | source k' => cases hr; rfl
    | imp path c => simp at hp
    | _ => cases hr
  | imp path c k s name r t h1 h2 h3 ih =>
    intro t' h'
    generalize hp : path ++ [c] = p at h'
    generalize hr : Ref.imp k = r' at h'
    cases h' with
    | source k' => simp at hp
    | imp path' c' k' s' name' r'' t'' g1 g2 g3 =>
      cases hr
      obtain ⟨rfl, e⟩ := List.append_inj' hp rfl
      cases e
      rw [h1] at g1; cases g1
      rw [h2] at g2; cases g2
      exact ih g3
    | _ => cases hr
  | childExport path c j s name r t h1 h2 h3 ih =>
    intro t' h'
    cases h' with
    | childExport _ _ _ s' name' r' t'' g1 g2 g3 =>
      rw [h1] at g1; cases g1
      rw [h2] at g2; cases g2
      exact ih g3

theorem resolveRef_of_names {n : Nat} {path : List Nat} {r : Ref} {t t' : Target} (h : resolveRef root n path r = some t') (hn : Names root path r t) : t' = t :=
  (resolveRef_names h).det hn

/-! ### Scopes -/

theorem scopeAt_snoc {c : Nat} : ∀ {path : List Nat} {s s' : XScope N}, scopeAt s (path ++ [c]) = some s' ↔ ∃ p, scopeAt s path = some p ∧ p.items[c]? = some (.sub s') := by
  intro path
  induction path with
  | nil =>
    intro s s'
    simp only [List.nil_append, scopeAt, Option.some.injEq, exists_eq_left']
    cases h : s.items[c]? with
    | none => simp
    | some it => cases it <;> simp
  | cons i path ih =>
    intro s s'
    simp only [List.cons_append, scopeAt]
    cases h : s.items[i]? with
    | none => simp
    | some it =>
      cases it with
      | op n => simp
      | sub k => simpa using ih

theorem scopeAt_wf : ∀ {path : List Nat} {s s' : XScope N}, ScopeWF s → scopeAt s path = some s' → ScopeWF s' := by
  intro path
  induction path with
  | nil => intro s s' h h'; cases h'; exact h
  | cons i path ih =>
    intro s s' h h'
    simp only [scopeAt] at h'
    cases hi : s.items[i]? with
    | none => rw [hi] at h'; cases h'
    | some it =>
      rw [hi] at h'
      cases it with
      | op n => cases h'
      | sub k => exact ih (by have := (scopeWF_iff.1 h).2 _ (List.mem_of_getElem? hi); simpa only [ItemWF] using this) h'

theorem scopeAt_closed : ∀ {path : List Nat} {s s' : XScope N}, ScopeClosed s → scopeAt s path = some s' → ScopeClosed s' := by
  intro path
  induction path with
  | nil => intro s s' h h'; cases h'; exact h
  | cons i path ih =>
    intro s s' h h'
    simp only [scopeAt] at h'
    cases hi : s.items[i]? with
    | none => rw [hi] at h'; cases h'
    | some it =>
      rw [hi] at h'
      cases it with
      | op n => cases h'
      | sub k => exact ih (by have := (scopeClosed_iff.1 h).2.2 _ (List.mem_of_getElem? hi); simp only [ItemClosed] at this; exact this.2) h'

/-! ### The walk as a list of steps -/

/-- What is done at one place of the walk. -/
inductive Step (N : Type*) where
  | bind (path : List Nat) (b : Bind)
  | op (path : List Nat) (i : Nat) (node : XNode N)
  | close (path : List Nat) (v : Nat)

mutual
/-- The steps for an item. -/
def stepsItem : Item (LinearOp Term) Projection Reducer N → List Nat → Nat → List (Step N)
  | .op node, path, i => [.op path i node]
  | .sub child, path, i => stepsScope child (path ++ [i])
/-- The steps for items. -/
def stepsItems : List (Item (LinearOp Term) Projection Reducer N) → List Nat → Nat → List (Step N)
  | [], _, _ => []
  | it :: its, path, i => stepsItems its path (i + 1) ++ stepsItem it path i
/-- The steps for a scope. -/
def stepsScope : ScopeOf N (Item (LinearOp Term) Projection Reducer N) → List Nat → List (Step N)
  | ⟨_, _, vars, items, binds, _⟩, path => binds.map (.bind path) ++ stepsItems items path 0 ++ (List.range vars.length).map (.close path)
end

/-- A step. -/
def RevEnv.step (env : RevEnv N) (st : RevState) : Step N → Option RevState
  | .bind path b => env.bindStep path st b
  | .op path i node => env.site path i node st
  | .close path v => env.closeStep path st v

theorem foldlM_map_step {A : Type*} (env : RevEnv N) (f : A → Step N) (l : List A) (st : RevState) : (l.map f).foldlM env.step st = l.foldlM (fun st x => env.step st (f x)) st := by
  rw [List.foldlM_map]

mutual
theorem walkItem_steps (env : RevEnv N) : ∀ (it : Item (LinearOp Term) Projection Reducer N) (path : List Nat) (i : Nat) (st : RevState),
    walkItem env it path i st = (stepsItem it path i).foldlM env.step st
  | .op node, path, i, st => by
    simp only [walkItem, stepsItem, List.foldlM_cons, List.foldlM_nil, RevEnv.step]
    exact (bind_pure _).symm
  | .sub child, path, i, st => by
    simp only [walkItem, stepsItem]
    exact walkScope_steps env child (path ++ [i]) st
theorem walkItems_steps (env : RevEnv N) : ∀ (its : List (Item (LinearOp Term) Projection Reducer N)) (path : List Nat) (i : Nat) (st : RevState),
    walkItems env its path i st = (stepsItems its path i).foldlM env.step st
  | [], path, i, st => by simp only [walkItems, stepsItems, List.foldlM_nil]; rfl
  | it :: its, path, i, st => by
    simp only [walkItems, stepsItems, List.foldlM_append, walkItems_steps env its]
    exact congrArg _ (funext fun st => walkItem_steps env it path i st)
theorem walkScope_steps (env : RevEnv N) : ∀ (s : ScopeOf N (Item (LinearOp Term) Projection Reducer N)) (path : List Nat) (st : RevState),
    walkScope env s path st = (stepsScope s path).foldlM env.step st
  | ⟨_, _, vars, items, binds, _⟩, path, st => by
    simp only [walkScope, stepsScope, List.foldlM_append, foldlM_map_step, walkItems_steps env items, RevEnv.step]
    simp only [bind_assoc]
    rfl
end

end DD.Ir.Ex
