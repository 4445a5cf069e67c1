import Verif.Proofs.ReverseFuel
import Verif.Proofs.ReverseOrder
import Verif.Spec.Shapes
import Mathlib.Data.List.Perm.Subperm

/-!
# Lemmas about the inference of shapes
-/

namespace DD.Ir.Ex
variable {N : Type*} {root : XScope N} {fuel : Nat} {src : List (Nat × Nat)}

/-! ### The walk as a list of steps -/

mutual
/-- The steps for an item. -/
def shapeStepsItem : Item (LinearOp Term) Projection Reducer N → List Nat → Nat → List (Step N)
  | .op node, path, i => [.op path i node]
  | .sub child, path, i => shapeStepsScope child (path ++ [i])
/-- The steps for items. -/
def shapeStepsItems : List (Item (LinearOp Term) Projection Reducer N) → List Nat → Nat → List (Step N)
  | [], _, _ => []
  | it :: its, path, i => shapeStepsItem it path i ++ shapeStepsItems its path (i + 1)
/-- The steps for a scope. -/
def shapeStepsScope : ScopeOf N (Item (LinearOp Term) Projection Reducer N) → List Nat → List (Step N)
  | ⟨_, _, _, items, binds, _⟩, path => binds.map (.bind path) ++ shapeStepsItems items path 0
end

/-- The address of a step. -/
def Step.addr : Step N → Addr
  | .bind path b => ⟨path, .var b.var⟩
  | .op path i _ => ⟨path, .op i⟩
  | .close path v => ⟨path, .var v⟩

/-- The shape that a step finds. -/
def Step.infer (root : XScope N) (fuel : Nat) (src : List (Nat × Nat)) (shapes : Shapes) : Step N → Option (Option (Nat × Nat))
  | .bind path b => shapeOfRef root fuel src path b.value shapes
  | .op path _ node => nodeShape root fuel src path shapes node
  | .close _ _ => some none

/-- A step. -/
def shapeStep (root : XScope N) (fuel : Nat) (src : List (Nat × Nat)) (shapes : Shapes) (x : Step N) : Option Shapes := addShape shapes x.addr (x.infer root fuel src shapes)

mutual
theorem shapesItem_steps : ∀ (it : Item (LinearOp Term) Projection Reducer N) (path : List Nat) (i : Nat) (m : Shapes),
    shapesItem root fuel src it path i m = (shapeStepsItem it path i).foldlM (shapeStep root fuel src) m
  | .op node, path, i, m => by
    simp only [shapesItem, shapeStepsItem, List.foldlM_cons, List.foldlM_nil, shapeStep, Step.addr, Step.infer]
    exact (bind_pure _).symm
  | .sub child, path, i, m => by
    simp only [shapesItem, shapeStepsItem]
    exact shapesScope_steps child (path ++ [i]) m
theorem shapesItems_steps : ∀ (its : List (Item (LinearOp Term) Projection Reducer N)) (path : List Nat) (i : Nat) (m : Shapes),
    shapesItems root fuel src its path i m = (shapeStepsItems its path i).foldlM (shapeStep root fuel src) m
  | [], path, i, m => by simp only [shapesItems, shapeStepsItems, List.foldlM_nil]; rfl
  | it :: its, path, i, m => by
    simp only [shapesItems, shapeStepsItems, List.foldlM_append, shapesItem_steps it]
    refine congrArg _ (funext fun m' => ?_)
    exact shapesItems_steps its path (i + 1) m'
theorem shapesScope_steps : ∀ (s : ScopeOf N (Item (LinearOp Term) Projection Reducer N)) (path : List Nat) (m : Shapes),
    shapesScope root fuel src s path m = (shapeStepsScope s path).foldlM (shapeStep root fuel src) m
  | ⟨name, imports, vars, items, binds, exports⟩, path, m => by
    simp only [shapesScope, shapeStepsScope, List.foldlM_append, List.foldlM_map]
    refine congrArg _ (funext fun m' => ?_)
    exact shapesItems_steps items path 0 m'
end

/-- The step is not the end of a scope. -/
def Step.infers : Step N → Prop
  | .close _ _ => False
  | _ => True

mutual
theorem mem_shapeStepsItem : ∀ (it : Item (LinearOp Term) Projection Reducer N) (path : List Nat) (i : Nat) (x : Step N), x ∈ shapeStepsItem it path i ↔ x ∈ stepsItem it path i ∧ x.infers
  | .op node, path, i, x => by
    simp only [shapeStepsItem, stepsItem, List.mem_singleton]
    constructor
    · rintro rfl; exact ⟨rfl, trivial⟩
    · exact fun h => h.1
  | .sub child, path, i, x => by
    simp only [shapeStepsItem, stepsItem]
    exact mem_shapeStepsScope child (path ++ [i]) x
theorem mem_shapeStepsItems : ∀ (its : List (Item (LinearOp Term) Projection Reducer N)) (path : List Nat) (i : Nat) (x : Step N), x ∈ shapeStepsItems its path i ↔ x ∈ stepsItems its path i ∧ x.infers
  | [], path, i, x => by simp [shapeStepsItems, stepsItems]
  | it :: its, path, i, x => by
    simp only [shapeStepsItems, stepsItems, List.mem_append, mem_shapeStepsItem it, mem_shapeStepsItems its]
    tauto
theorem mem_shapeStepsScope : ∀ (s : ScopeOf N (Item (LinearOp Term) Projection Reducer N)) (path : List Nat) (x : Step N), x ∈ shapeStepsScope s path ↔ x ∈ stepsScope s path ∧ x.infers
  | ⟨name, imports, vars, items, binds, exports⟩, path, x => by
    simp only [shapeStepsScope, stepsScope, List.mem_append, List.mem_map, mem_shapeStepsItems items, List.mem_range]
    constructor
    · rintro (⟨b, hb, rfl⟩ | h)
      · exact ⟨.inl (.inl ⟨b, hb, rfl⟩), trivial⟩
      · exact ⟨.inl (.inr h.1), h.2⟩
    · rintro ⟨(h | h) | ⟨v, hv, rfl⟩, hi⟩
      · exact .inl h
      · exact .inr ⟨h, hi⟩
      · exact hi.elim
end

theorem mem_shapeSteps {x : Step N} : x ∈ shapeStepsScope root [] ↔ (∃ path s, scopeAt root path = some s ∧ StepOf s path x) ∧ x.infers := by
  rw [mem_shapeStepsScope, mem_steps]

/-! ### What a shape comes from -/

/-- The shape follows from the known ones. -/
def Follows (root : XScope N) (shape : Target → Option (Nat × Nat)) (sh : Nat × Nat) : Step N → Prop
  | .bind path b => ∃ t, Names root path b.value t ∧ shape t = some sh
  | .op path _ (.linear input ops) => ∃ t s, Names root path input t ∧ shape t = some s ∧ sh = applyOpsArity s ops
  | .op path _ (.concat refs) => ∃ r ∈ refs, ∃ t, Names root path r t ∧ shape t = some sh
  | .op path _ (.arrange r) => ∃ t, Names root path r t ∧ shape t = some sh
  | .op path _ (.inspect r _) => ∃ t, Names root path r t ∧ shape t = some sh
  | .op path _ (.join l r p) => ∃ lt rt ls rs, Names root path l lt ∧ Names root path r rt ∧ shape lt = some ls ∧ shape rt = some rs ∧ sh = (projArity [ls.1, ls.2, rs.2] p.key, projArity [ls.1, ls.2, rs.2] p.val)
  | .op path _ (.reduce r red) => ∃ t s, Names root path r t ∧ shape t = some s ∧ sh = (match red with
    | .distinct => (s.1, 0)
    | .min => s
    | .count => (s.1, 1)
    | .collect => (s.1, 1))
  | .close _ _ => False

/-- No shape follows. -/
def Lacks (root : XScope N) (shape : Target → Option (Nat × Nat)) : Step N → Prop
  | .op path _ (.join l r _) => (∀ t, Names root path l t → shape t = none) ∨ ∀ t, Names root path r t → shape t = none
  | x => ∀ p ∈ x.refs, ∀ t, Names root p.1 p.2 t → shape t = none

theorem shapeOfRef_spec {path : List Nat} {r : Ref} {m : Shapes} {sh : Option (Nat × Nat)} (h : shapeOfRef root fuel src path r m = some sh) : ∃ t, Names root path r t ∧ shapeIn src m t = sh := by
  rw [shapeOfRef, Option.bind_eq_some_iff] at h
  obtain ⟨t, h1, h2⟩ := h
  refine ⟨t, resolveRef_names h1, ?_⟩
  cases t with
  | site a => exact (Option.some.inj h2)
  | source k =>
    simp only [Option.map_eq_some_iff] at h2
    obtain ⟨x, h3, h4⟩ := h2
    rw [← h4, ← h3]; rfl

theorem findShape_some {path : List Nat} {m : Shapes} {sh : Nat × Nat} : ∀ {refs : List Ref}, findShape root fuel src path m refs = some (some sh) → ∃ r ∈ refs, ∃ t, Names root path r t ∧ shapeIn src m t = some sh
  | [], h => by cases h
  | r :: rs, h => by
    rw [findShape, Option.bind_eq_some_iff] at h
    obtain ⟨o, h1, h2⟩ := h
    cases o with
    | some s =>
      cases h2
      exact ⟨r, List.mem_cons_self, shapeOfRef_spec h1⟩
    | none =>
      obtain ⟨r', h3, h4⟩ := findShape_some h2
      exact ⟨r', List.mem_cons_of_mem _ h3, h4⟩

theorem findShape_none {path : List Nat} {m : Shapes} : ∀ {refs : List Ref}, findShape root fuel src path m refs = some none → ∀ r ∈ refs, ∀ t, Names root path r t → shapeIn src m t = none
  | [], _, _, hr, _, _ => by cases hr
  | r :: rs, h, r', hr, t, ht => by
    rw [findShape, Option.bind_eq_some_iff] at h
    obtain ⟨o, h1, h2⟩ := h
    cases o with
    | some s => cases h2
    | none =>
      rcases List.mem_cons.1 hr with rfl | hr
      · obtain ⟨t', h3, h4⟩ := shapeOfRef_spec h1
        rw [← h3.det ht]; exact h4
      · exact findShape_none h2 r' hr t ht

theorem infer_some {x : Step N} {m : Shapes} {sh : Nat × Nat} (h : x.infer root fuel src m = some (some sh)) : Follows root (shapeIn src m) sh x := by
  cases x with
  | bind path b => exact shapeOfRef_spec h
  | close path v => cases h
  | op path i node =>
    cases node with
    | linear input ops =>
      simp only [Step.infer, nodeShape, Option.map_eq_some_iff] at h
      obtain ⟨o, h1, s, rfl, rfl⟩ := h
      obtain ⟨t, h2, h3⟩ := shapeOfRef_spec h1
      exact ⟨t, s, h2, h3, rfl⟩
    | concat refs => exact findShape_some h
    | arrange r => exact shapeOfRef_spec h
    | inspect r l => exact shapeOfRef_spec h
    | join l r p =>
      simp only [Step.infer, nodeShape, Option.bind_eq_some_iff, Option.map_eq_some_iff] at h
      obtain ⟨lo, h1, ro, h2, h3⟩ := h
      obtain ⟨lt, h4, h5⟩ := shapeOfRef_spec h1
      obtain ⟨rt, h6, h7⟩ := shapeOfRef_spec h2
      cases lo with
      | none => cases h3
      | some ls => cases ro with
        | none => cases h3
        | some rs => cases h3; exact ⟨lt, rt, ls, rs, h4, h6, h5, h7, rfl⟩
    | reduce r red =>
      simp only [Step.infer, nodeShape, Option.map_eq_some_iff] at h
      obtain ⟨o, h1, s, rfl, rfl⟩ := h
      obtain ⟨t, h2, h3⟩ := shapeOfRef_spec h1
      exact ⟨t, s, h2, h3, by cases red <;> rfl⟩

theorem ref_lacks {path : List Nat} {r : Ref} {m : Shapes} (h : shapeOfRef root fuel src path r m = some none) (t : Target) (ht : Names root path r t) : shapeIn src m t = none := by
  obtain ⟨t', h1, h2⟩ := shapeOfRef_spec h
  rw [← h1.det ht]; exact h2

theorem infer_none {x : Step N} {m : Shapes} (h : x.infer root fuel src m = some none) : Lacks root (shapeIn src m) x := by
  cases x with
  | bind path b =>
    intro p hp
    cases List.mem_singleton.1 hp
    exact ref_lacks h
  | close path v => intro p hp; cases hp
  | op path i node =>
    cases node with
    | linear input ops =>
      simp only [Step.infer, nodeShape, Option.map_eq_some_iff] at h
      obtain ⟨o, h1, h2⟩ := h
      cases o with
      | some s => cases h2
      | none =>
        intro p hp
        simp only [Step.refs, Node.refs, List.map_cons, List.map_nil, List.mem_singleton] at hp
        subst hp
        exact ref_lacks h1
    | concat refs =>
      intro p hp
      simp only [Step.refs, Node.refs, List.mem_map] at hp
      obtain ⟨r, hr, rfl⟩ := hp
      exact findShape_none h r hr
    | arrange r =>
      intro p hp
      simp only [Step.refs, Node.refs, List.map_cons, List.map_nil, List.mem_singleton] at hp
      subst hp
      exact ref_lacks h
    | inspect r l =>
      intro p hp
      simp only [Step.refs, Node.refs, List.map_cons, List.map_nil, List.mem_singleton] at hp
      subst hp
      exact ref_lacks h
    | join l r p =>
      simp only [Step.infer, nodeShape, Option.bind_eq_some_iff, Option.map_eq_some_iff] at h
      obtain ⟨lo, h1, ro, h2, h3⟩ := h
      cases lo with
      | none => exact .inl (ref_lacks h1)
      | some ls => cases ro with
        | none => exact .inr (ref_lacks h2)
        | some rs => cases h3
    | reduce r red =>
      simp only [Step.infer, nodeShape, Option.map_eq_some_iff] at h
      obtain ⟨o, h1, h2⟩ := h
      cases o with
      | some s => cases h2
      | none =>
        intro p hp
        simp only [Step.refs, Node.refs, List.map_cons, List.map_nil, List.mem_singleton] at hp
        subst hp
        exact ref_lacks h1

theorem Follows.mono {f g : Target → Option (Nat × Nat)} (hfg : ∀ t s, f t = some s → g t = some s) {sh : Nat × Nat} {x : Step N} (h : Follows root f sh x) : Follows root g sh x := by
  cases x with
  | bind path b => obtain ⟨t, h1, h2⟩ := h; exact ⟨t, h1, hfg _ _ h2⟩
  | close path v => exact h
  | op path i node =>
    cases node with
    | linear input ops => obtain ⟨t, s, h1, h2, h3⟩ := h; exact ⟨t, s, h1, hfg _ _ h2, h3⟩
    | concat refs => obtain ⟨r, hr, t, h1, h2⟩ := h; exact ⟨r, hr, t, h1, hfg _ _ h2⟩
    | arrange r => obtain ⟨t, h1, h2⟩ := h; exact ⟨t, h1, hfg _ _ h2⟩
    | inspect r l => obtain ⟨t, h1, h2⟩ := h; exact ⟨t, h1, hfg _ _ h2⟩
    | join l r p => obtain ⟨lt, rt, ls, rs, h1, h2, h3, h4, h5⟩ := h; exact ⟨lt, rt, ls, rs, h1, h2, hfg _ _ h3, hfg _ _ h4, h5⟩
    | reduce r red => obtain ⟨t, s, h1, h2, h3⟩ := h; exact ⟨t, s, h1, hfg _ _ h2, h3⟩

/-! ### The steps -/

theorem addShape_cases {m m' : Shapes} {a : Addr} {sh : Option (Option (Nat × Nat))} (h : addShape m a sh = some m') :
    (m' = m ∧ ((m.lookup a).isSome ∨ sh = some none)) ∨ (m.lookup a = none ∧ ∃ s, sh = some (some s) ∧ m' = (a, s) :: m) := by
  unfold addShape at h
  split at h
  · rename_i hs
    exact .inl ⟨(Option.some.inj h).symm, .inl hs⟩
  · rename_i hs
    rw [Option.map_eq_some_iff] at h
    obtain ⟨o, rfl, h2⟩ := h
    cases o with
    | none => exact .inl ⟨h2.symm, .inr rfl⟩
    | some s => exact .inr ⟨Option.not_isSome_iff_eq_none.1 hs, s, rfl, h2.symm⟩

/-- What holds of the known shapes: each follows from them, and no address occurs twice. -/
structure ShapesOk (root : XScope N) (src : List (Nat × Nat)) (m : Shapes) : Prop where
  follows : ∀ a sh, m.lookup a = some sh → ∃ x ∈ shapeStepsScope root [], x.addr = a ∧ Follows root (shapeIn src m) sh x
  keys : (m.map Prod.fst).Nodup
  sub : ∀ a ∈ m.map Prod.fst, ∃ x ∈ shapeStepsScope root [], x.addr = a

theorem shapes_lookup_none {m : Shapes} {a : Addr} : m.lookup a = none ↔ a ∉ m.map Prod.fst := by
  induction m with
  | nil => simp
  | cons p m ih =>
    obtain ⟨b, s⟩ := p
    simp only [List.lookup_cons, List.map_cons, List.mem_cons, not_or]
    by_cases h : a = b
    · subst h; simp
    · rw [beq_eq_false_iff_ne.2 h]
      exact ih.trans ⟨fun h' => ⟨h, h'⟩, fun h' => h'.2⟩

theorem shapes_lookup_cons {m : Shapes} {a b : Addr} {s : Nat × Nat} (h : m.lookup a = none) {s' : Nat × Nat} (hb : m.lookup b = some s') : ((a, s) :: m).lookup b = some s' := by
  have : b ≠ a := by rintro rfl; rw [h] at hb; cases hb
  rw [List.lookup_cons, beq_eq_false_iff_ne.2 this]
  exact hb

theorem shapeStep_ok {m m' : Shapes} {x : Step N} (hx : x ∈ shapeStepsScope root []) (hm : ShapesOk root src m) (h : shapeStep root fuel src m x = some m') : ShapesOk root src m' := by
  rcases addShape_cases h with ⟨rfl, -⟩ | ⟨h1, s, h2, rfl⟩
  · exact hm
  · have hmono : ∀ t s', shapeIn src m t = some s' → shapeIn src ((x.addr, s) :: m) t = some s' := by
      intro t s' h3
      cases t with
      | source k => exact h3
      | site b => exact shapes_lookup_cons h1 h3
    refine ⟨fun a sh ha => ?_, ?_, ?_⟩
    · by_cases hax : a = x.addr
      · subst hax
        simp only [List.lookup_cons, beq_self_eq_true, Option.some.injEq] at ha
        subst ha
        exact ⟨x, hx, rfl, (infer_some h2).mono hmono⟩
      · have ha' : m.lookup a = some sh := by
          rw [List.lookup_cons, beq_eq_false_iff_ne.2 hax] at ha
          exact ha
        obtain ⟨y, h3, h4, h5⟩ := hm.follows a sh ha'
        exact ⟨y, h3, h4, h5.mono hmono⟩
    · simp only [List.map_cons, List.nodup_cons]
      exact ⟨shapes_lookup_none.1 h1, hm.keys⟩
    · intro a ha
      rcases List.mem_cons.1 (by simpa using ha : a ∈ x.addr :: m.map Prod.fst) with rfl | ha
      · exact ⟨x, hx, rfl⟩
      · exact hm.sub a ha

theorem shapeStep_length {m m' : Shapes} {x : Step N} (h : shapeStep root fuel src m x = some m') : m.length ≤ m'.length ∧ (m'.length = m.length → m' = m) := by
  rcases addShape_cases h with ⟨rfl, -⟩ | ⟨h1, s, h2, rfl⟩
  · exact ⟨le_refl _, fun _ => rfl⟩
  · exact ⟨by simp, fun h => by simp at h⟩

theorem shapeSteps_length : ∀ {xs : List (Step N)} {m m' : Shapes}, xs.foldlM (shapeStep root fuel src) m = some m' →
    m.length ≤ m'.length ∧ (m'.length = m.length → m' = m ∧ ∀ x ∈ xs, shapeStep root fuel src m x = some m)
  | [], m, m', h => by
    cases h
    exact ⟨le_refl _, fun _ => ⟨rfl, fun x hx => by cases hx⟩⟩
  | x :: xs, m, m', h => by
    rw [List.foldlM_cons] at h
    obtain ⟨m1, h1, h2⟩ := Option.bind_eq_some_iff.1 h
    obtain ⟨h3, h4⟩ := shapeStep_length h1
    obtain ⟨h5, h6⟩ := shapeSteps_length h2
    refine ⟨h3.trans h5, fun he => ?_⟩
    have e1 : m1 = m := h4 (by omega)
    subst e1
    obtain ⟨e2, h7⟩ := h6 he
    refine ⟨e2, fun y hy => ?_⟩
    rcases List.mem_cons.1 hy with rfl | hy
    · exact h1
    · exact h7 y hy

theorem shapeSteps_ok : ∀ {xs : List (Step N)} {m m' : Shapes}, (∀ x ∈ xs, x ∈ shapeStepsScope root []) → ShapesOk root src m → xs.foldlM (shapeStep root fuel src) m = some m' → ShapesOk root src m'
  | [], m, m', hx, hm, h => by cases h; exact hm
  | x :: xs, m, m', hx, hm, h => by
    rw [List.foldlM_cons] at h
    obtain ⟨m1, h1, h2⟩ := Option.bind_eq_some_iff.1 h
    exact shapeSteps_ok (fun y hy => hx y (List.mem_cons_of_mem _ hy)) (shapeStep_ok (hx x List.mem_cons_self) hm h1) h2

/-- What holds of the shapes that the loop ends with. -/
structure ShapesDone (root : XScope N) (src : List (Nat × Nat)) (m : Shapes) : Prop extends ShapesOk root src m where
  closed : ∀ x ∈ shapeStepsScope root [], (m.lookup x.addr).isSome ∨ Lacks root (shapeIn src m) x

theorem shapesLoop_done : ∀ {n : Nat} {m m' : Shapes}, ShapesOk root src m → shapesLoop root fuel src n m = some m' → ShapesDone root src m'
  | 0, m, m', hm, h => by cases h
  | n + 1, m, m', hm, h => by
    rw [shapesLoop, Option.bind_eq_some_iff] at h
    obtain ⟨m1, h1, h2⟩ := h
    rw [shapesScope_steps] at h1
    have hok := shapeSteps_ok (fun x hx => hx) hm h1
    split at h2
    · rename_i he
      cases h2
      obtain ⟨rfl, h3⟩ := (shapeSteps_length h1).2 he
      refine ⟨hok, fun x hx => ?_⟩
      rcases addShape_cases (h3 x hx) with ⟨-, h4 | h4⟩ | ⟨-, s, -, h5⟩
      · exact .inl h4
      · exact .inr (infer_none h4)
      · exact absurd (congrArg List.length h5) (by simp)
    · exact shapesLoop_done hok h2

theorem shapesOk_nil : ShapesOk root src [] := ⟨fun a sh h => (by cases h), List.nodup_nil, fun a ha => (by cases ha)⟩

theorem siteShapes_done {n : Nat} {m : Shapes} (h : siteShapes root fuel src n = some m) : ShapesDone root src m := shapesLoop_done shapesOk_nil h

/-! ### The loop ends -/

theorem names_source {path : List Nat} {r : Ref} {t : Target} (hc : ScopeClosed root) (h : Names root path r t) :
    ∀ {s : XScope N} {k : Nat}, t = .source k → scopeAt root path = some s → RefIn s r → k < root.imports.length := by
  induction h with
  | loc path i => intro s k h; cases h
  | var path v => intro s k h; cases h
  | source k =>
    intro s k' h hs hr
    cases h; cases hs
    exact hr
  | imp path c k s' name r t h1 h2 h3 ih =>
    intro s k' e hs hr
    rw [h1] at hs
    cases hs
    obtain ⟨p, hp, hpc⟩ := scopeAt_snoc.1 h1
    refine ih e hp ((scopeClosed_iff.1 (scopeAt_closed hc hp)).1 _ (mem_refsOf_item hpc ?_))
    simp only [Item.refs, List.mem_flatMap]
    exact ⟨_, List.mem_of_getElem? h2, List.mem_singleton.2 rfl⟩
  | childExport path c j s' name r t h1 h2 h3 ih =>
    intro s k' e hs hr
    exact ih e h1 ((scopeClosed_iff.1 (scopeAt_closed hc h1)).1 _ (mem_refsOf_export (List.mem_of_getElem? h2)))

/-- All references have shapes or none, without a panic. -/
def RefsResolve (root : XScope N) (fuel : Nat) (src : List (Nat × Nat)) : Prop :=
  ∀ path s r, scopeAt root path = some s → r ∈ refsOf s → ∀ m, ∃ sh, shapeOfRef root fuel src path r m = some sh

theorem refsResolve (hw : ScopeWF root) (hc : ScopeClosed root) (hf : scopeSize root < fuel) (hsrc : src.length = root.imports.length) : RefsResolve root fuel src := by
  intro path s r hs hr m
  obtain ⟨t, ht⟩ := resolve_total hw hc hf hs hr
  cases t with
  | site a => exact ⟨m.lookup a, by rw [shapeOfRef, ht]; rfl⟩
  | source k =>
    have hk : k < src.length := by
      rw [hsrc]
      exact names_source hc (resolveRef_names ht) rfl hs ((scopeClosed_iff.1 (scopeAt_closed hc hs)).1 _ hr)
    exact ⟨some src[k], by rw [shapeOfRef, ht, Option.bind_some]; simp [hk]⟩

theorem findShape_total {path : List Nat} {m : Shapes} : ∀ {refs : List Ref}, (∀ r ∈ refs, ∃ sh, shapeOfRef root fuel src path r m = some sh) → ∃ sh, findShape root fuel src path m refs = some sh
  | [], _ => ⟨none, rfl⟩
  | r :: rs, h => by
    obtain ⟨sh, h1⟩ := h r List.mem_cons_self
    rw [findShape, h1, Option.bind_some]
    cases sh with
    | some s => exact ⟨_, rfl⟩
    | none => exact findShape_total fun r' hr => h r' (List.mem_cons_of_mem _ hr)

theorem infer_total (hr : RefsResolve root fuel src) {x : Step N} (hx : x ∈ shapeStepsScope root []) (m : Shapes) : ∃ sh, x.infer root fuel src m = some sh := by
  obtain ⟨⟨path, s, hs, hst⟩, hi⟩ := mem_shapeSteps.1 hx
  rcases hst with ⟨b, hb, rfl⟩ | ⟨i, node, hn, rfl⟩ | ⟨v, hv, rfl⟩
  · exact hr path s b.value hs (mem_refsOf_bind hb) m
  · have hin : ∀ r ∈ node.refs, ∃ sh, shapeOfRef root fuel src path r m = some sh := fun r h => hr path s r hs (mem_refsOf_item hn h) m
    cases node with
    | linear input ops =>
      obtain ⟨sh, h⟩ := hin input (by simp [Node.refs])
      exact ⟨_, by simp only [Step.infer, nodeShape, h, Option.map_some]; rfl⟩
    | concat refs => exact findShape_total hin
    | arrange r => exact hin r (by simp [Node.refs])
    | inspect r l => exact hin r (by simp [Node.refs])
    | join l r p =>
      obtain ⟨a, h⟩ := hin l (by simp [Node.refs])
      obtain ⟨b, h'⟩ := hin r (by simp [Node.refs])
      exact ⟨_, by simp only [Step.infer, nodeShape, h, h', Option.map_some, Option.bind_some]; rfl⟩
    | reduce r red =>
      obtain ⟨sh, h⟩ := hin r (by simp [Node.refs])
      exact ⟨_, by simp only [Step.infer, nodeShape, h, Option.map_some]; rfl⟩
  · exact hi.elim

theorem shapeStep_total (hr : RefsResolve root fuel src) {x : Step N} (hx : x ∈ shapeStepsScope root []) (m : Shapes) : ∃ m', shapeStep root fuel src m x = some m' := by
  obtain ⟨sh, h⟩ := infer_total hr hx m
  rw [shapeStep, addShape, h]
  split
  · exact ⟨_, rfl⟩
  · exact ⟨_, rfl⟩

theorem shapeSteps_total (hr : RefsResolve root fuel src) : ∀ {xs : List (Step N)}, (∀ x ∈ xs, x ∈ shapeStepsScope root []) → ∀ m, ∃ m', xs.foldlM (shapeStep root fuel src) m = some m'
  | [], _, m => ⟨m, rfl⟩
  | x :: xs, h, m => by
    obtain ⟨m1, h1⟩ := shapeStep_total hr (h x List.mem_cons_self) m
    obtain ⟨m2, h2⟩ := shapeSteps_total hr (fun y hy => h y (List.mem_cons_of_mem _ hy)) m1
    refine ⟨m2, ?_⟩
    rw [List.foldlM_cons, h1]
    exact h2

theorem shapes_bound {m : Shapes} (hm : ShapesOk root src m) : m.length ≤ (shapeStepsScope root []).length := by
  have h : (m.map Prod.fst).Subperm ((shapeStepsScope root []).map Step.addr) := List.subperm_of_subset hm.keys fun a ha => by
    obtain ⟨x, h1, h2⟩ := hm.sub a ha
    exact List.mem_map.2 ⟨x, h1, h2⟩
  simpa using h.length_le

theorem shapesLoop_total (hr : RefsResolve root fuel src) : ∀ (d : Nat) {m : Shapes}, ShapesOk root src m → (shapeStepsScope root []).length - m.length ≤ d →
    ∃ m', ∀ n, d < n → shapesLoop root fuel src n m = some m' := by
  intro d
  induction d with
  | zero =>
    intro m hm hd
    obtain ⟨m1, h1⟩ := shapeSteps_total hr (fun x hx => hx) m
    have hb := shapes_bound (shapeSteps_ok (fun x hx => hx) hm h1)
    refine ⟨m1, fun n hn => ?_⟩
    obtain ⟨n, rfl⟩ : ∃ k, n = k + 1 := ⟨n - 1, by omega⟩
    rw [shapesLoop, shapesScope_steps, h1, Option.bind_some, if_pos]
    have := (shapeSteps_length h1).1
    omega
  | succ d ih =>
    intro m hm hd
    obtain ⟨m1, h1⟩ := shapeSteps_total hr (fun x hx => hx) m
    have hok := shapeSteps_ok (fun x hx => hx) hm h1
    have hl := (shapeSteps_length h1).1
    by_cases he : m1.length = m.length
    · refine ⟨m1, fun n hn => ?_⟩
      obtain ⟨n, rfl⟩ : ∃ k, n = k + 1 := ⟨n - 1, by omega⟩
      rw [shapesLoop, shapesScope_steps, h1, Option.bind_some, if_pos he]
    · obtain ⟨m', h2⟩ := ih hok (by have := shapes_bound hok; omega)
      refine ⟨m', fun n hn => ?_⟩
      obtain ⟨n, rfl⟩ : ∃ k, n = k + 1 := ⟨n - 1, by omega⟩
      rw [shapesLoop, shapesScope_steps, h1, Option.bind_some, if_neg he]
      exact h2 n (by omega)

/-! ### The records have the shapes -/

theorem flatFields_length {norm : Overflow} {rows : List Value} {arities : List Nat} (hl : rows.length = arities.length)
    (hrows : ∀ (j : Nat) v a, rows[j]? = some v → arities[j]? = some a → ∃ xs, v = .tuple xs ∧ xs.length = a) :
    ∀ {fields : List Term} {out : List Value}, (∀ x ∈ fields, (∃ r, r < arities.length ∧ x = .spread (.var r)) ∨ ∀ u, x ≠ .spread u) → denoteFields norm rows fields [] = some out →
      out.length = (fields.map (fieldWidth arities)).sum
  | [], out, _, h => by
    simp only [denoteFields, Option.some.injEq] at h
    subst h; rfl
  | x :: fs, out, hf, h => by
    have ih : ∀ {out}, denoteFields norm rows fs [] = some out → out.length = (fs.map (fieldWidth arities)).sum := fun h => flatFields_length hl hrows (fun y hy => hf y (List.mem_cons_of_mem _ hy)) h
    rcases hf x List.mem_cons_self with ⟨r, hr, rfl⟩ | hx
    · simp only [denoteFields, denote, Option.bind_eq_some_iff, Option.map_eq_some_iff] at h
      obtain ⟨v, h1, xs, h2, ys, h3, rfl⟩ := h
      obtain ⟨zs, rfl, hz⟩ := hrows r v arities[r] h1 (List.getElem?_eq_getElem hr)
      cases h2
      simp [fieldWidth, ih h3, hz, hr]
    · have e : denoteFields norm rows (x :: fs) [] = (denote norm rows x []).bind fun v => (denoteFields norm rows fs []).map fun ys => v :: ys := by
        cases x <;> first | exact absurd rfl (hx _) | simp only [denoteFields]
      rw [e] at h
      simp only [Option.bind_eq_some_iff, Option.map_eq_some_iff] at h
      obtain ⟨v, h1, ys, h3, rfl⟩ := h
      have hw : fieldWidth arities x = 1 := by
        cases x <;> first | rfl | exact absurd rfl (hx _)
      simp [hw, ih h3, Nat.add_comm]

theorem flat_arity {norm : Overflow} {rows : List Value} {arities : List Nat} (hl : rows.length = arities.length)
    (hrows : ∀ (j : Nat) v a, rows[j]? = some v → arities[j]? = some a → ∃ xs, v = .tuple xs ∧ xs.length = a) {t : Term} (ht : Flat arities.length t) {v : Value} (h : denote norm rows t [] = some v) :
    ∃ xs, v = .tuple xs ∧ xs.length = projArity arities t := by
  obtain ⟨fields, rfl, hf⟩ := ht
  simp only [denote, Option.map_eq_some_iff] at h
  obtain ⟨xs, h1, rfl⟩ := h
  exact ⟨xs, rfl, flatFields_length hl hrows hf h1⟩

theorem opGives_shape {norm : Overflow} {op : LinearOp Term} {r r' : Value × Value} {s : Nat × Nat} (hf : ∀ key val, op = .project key val → Flat 2 key ∧ Flat 2 val) (hs : HasShape s.1 s.2 r)
    (h : OpGives norm op r r') : HasShape (opArity s op).1 (opArity s op).2 r' := by
  obtain ⟨ks, vs, rfl, h1, h2⟩ := hs
  have hrows : ∀ (j : Nat) v a, [Value.tuple ks, Value.tuple vs][j]? = some v → [s.1, s.2][j]? = some a → ∃ xs, v = .tuple xs ∧ xs.length = a := by
    rintro (_ | _ | j) v a ha hb
    · cases ha; cases hb; exact ⟨_, rfl, h1⟩
    · cases ha; cases hb; exact ⟨_, rfl, h2⟩
    · simp at ha
  cases op with
  | project key val =>
    obtain ⟨hk, hv⟩ := hf key val rfl
    obtain ⟨xs, h3, h4⟩ := flat_arity (arities := [s.1, s.2]) rfl hrows hk h.1
    obtain ⟨ys, h5, h6⟩ := flat_arity (arities := [s.1, s.2]) rfl hrows hv h.2
    exact ⟨xs, ys, Prod.ext h3 h5, h4, h6⟩
  | filter cond => obtain ⟨rfl, -⟩ := h; exact ⟨ks, vs, rfl, h1, h2⟩
  | negate => cases h; exact ⟨ks, vs, rfl, h1, h2⟩
  | enterAt f => cases h; exact ⟨ks, vs, rfl, h1, h2⟩
  | liftIter =>
    obtain ⟨h3, i, ⟨xs, h4, h5⟩ | ⟨h4, -⟩⟩ := h
    · cases h4
      exact ⟨ks, vs ++ [.int i], Prod.ext h3 h5, h1, by simp [opArity, h2]⟩
    · exact absurd rfl (h4 vs)
  | flatMap list =>
    obtain ⟨xs, i, e, -, -, rfl⟩ := h
    exact ⟨ks, _, rfl, h1, rfl⟩

theorem opsGive_shape {norm : Overflow} : ∀ {ops : List (LinearOp Term)} {r r' : Value × Value} {s : Nat × Nat}, (∀ key val, LinearOp.project key val ∈ ops → Flat 2 key ∧ Flat 2 val) → HasShape s.1 s.2 r →
    OpsGive norm ops r r' → HasShape (applyOpsArity s ops).1 (applyOpsArity s ops).2 r'
  | [], r, r', s, _, hs, h => by cases h; exact hs
  | op :: ops, r, r', s, hf, hs, h => by
    obtain ⟨m, h1, h2⟩ := h
    exact opsGive_shape (s := opArity s op) (fun key val hm => hf key val (List.mem_cons_of_mem _ hm)) (opGives_shape (fun key val e => hf key val (e ▸ List.mem_cons_self)) hs h1) h2

theorem shapeLeast_mem : ∀ {vs : List Value} {m : Value}, Value.least vs = some m → m ∈ vs
  | [], m, h => by cases h
  | v :: vs, m, h => by
    simp only [Value.least, Option.some.injEq] at h
    subst h
    have : ∀ (vs : List Value) (v : Value), vs.foldl (fun m x => if x.cmp m == .lt then x else m) v ∈ v :: vs := by
      intro vs
      induction vs with
      | nil => intro v; simp
      | cons w vs ih =>
        intro v
        rw [List.foldl_cons]
        split
        · exact List.mem_cons_of_mem _ (ih w)
        · rcases List.mem_cons.1 (ih v) with h | h
          · rw [h]; exact List.mem_cons_self
          · exact List.mem_cons_of_mem _ (List.mem_cons_of_mem _ h)
    exact this vs v

theorem step_of_addr {path : List Nat} {s : XScope N} {i : Nat} {node : XNode N} (hs : scopeAt root path = some s) (hn : s.items[i]? = some (.op node)) {x : Step N} (hx : x ∈ shapeStepsScope root [])
    (ha : x.addr = ⟨path, .op i⟩) : x = .op path i node := by
  obtain ⟨⟨path', s', hs', hst⟩, hi⟩ := mem_shapeSteps.1 hx
  rcases hst with ⟨b, hb, rfl⟩ | ⟨j, node', hn', rfl⟩ | ⟨v, hv, rfl⟩
  · cases ha
  · cases ha
    rw [hs] at hs'; cases hs'
    rw [hn] at hn'; cases hn'
    rfl
  · exact hi.elim

theorem bind_of_addr {path : List Nat} {s : XScope N} {b : Bind} (hs : scopeAt root path = some s) (hb : b ∈ s.binds) (hone : (s.binds.map Bind.var).Nodup) {x : Step N} (hx : x ∈ shapeStepsScope root [])
    (ha : x.addr = ⟨path, .var b.var⟩) : x = .bind path b := by
  obtain ⟨⟨path', s', hs', hst⟩, hi⟩ := mem_shapeSteps.1 hx
  rcases hst with ⟨b', hb', rfl⟩ | ⟨j, node', hn', rfl⟩ | ⟨v, hv, rfl⟩
  · simp only [Step.addr, Addr.mk.injEq, Site.var.injEq] at ha
    obtain ⟨rfl, hv⟩ := ha
    rw [hs] at hs'; cases hs'
    rw [List.inj_on_of_nodup_map hone hb' hb hv]
  · cases ha
  · exact hi.elim

/-- The shape of an operator's output follows from those of its inputs, unless one of these is not known. -/
theorem op_follows {m : Shapes} (hd : ShapesDone root src m) {path : List Nat} {s : XScope N} {i : Nat} {node : XNode N} (hs : scopeAt root path = some s) (hn : s.items[i]? = some (.op node))
    (hl : ¬ Lacks root (shapeIn src m) (.op path i node)) : ∃ sh, shapeIn src m (.site ⟨path, .op i⟩) = some sh ∧ Follows root (shapeIn src m) sh (.op path i node) := by
  have hx : Step.op path i node ∈ shapeStepsScope root [] := mem_shapeSteps.2 ⟨⟨path, s, hs, .inr (.inl ⟨i, node, hn, rfl⟩)⟩, trivial⟩
  obtain ⟨sh, hsh⟩ := Option.isSome_iff_exists.1 ((hd.closed _ hx).resolve_right hl)
  obtain ⟨y, h1, h2, h3⟩ := hd.follows _ sh hsh
  rw [step_of_addr hs hn h1 h2] at h3
  exact ⟨sh, hsh, h3⟩

theorem var_follows {m : Shapes} (hd : ShapesDone root src m) {path : List Nat} {s : XScope N} {b : Bind} (hs : scopeAt root path = some s) (hb : b ∈ s.binds) (hone : (s.binds.map Bind.var).Nodup)
    (hl : ¬ Lacks root (shapeIn src m) (.bind path b)) : ∃ sh, shapeIn src m (.site ⟨path, .var b.var⟩) = some sh ∧ Follows root (shapeIn src m) sh (.bind path b) := by
  have hx : Step.bind path b ∈ shapeStepsScope root [] := mem_shapeSteps.2 ⟨⟨path, s, hs, .inl ⟨b, hb, rfl⟩⟩, trivial⟩
  obtain ⟨sh, hsh⟩ := Option.isSome_iff_exists.1 ((hd.closed _ hx).resolve_right hl)
  obtain ⟨y, h1, h2, h3⟩ := hd.follows _ sh hsh
  rw [bind_of_addr hs hb hone h1 h2] at h3
  exact ⟨sh, hsh, h3⟩

theorem hold_shape {norm : Overflow} {m : Shapes} (hd : ShapesDone root src m) (hone : ∀ path s, scopeAt root path = some s → (s.binds.map Bind.var).Nodup)
    (hflat : ∀ path s (i : Nat) node, scopeAt root path = some s → s.items[i]? = some (.op node) → FlatNode node) (hcat : ConcatsAgree root (shapeIn src m))
    {sources : Nat → Value × Value → Prop} (hsrc : ∀ k r, sources k r → ∃ sh : Nat × Nat, src[k]? = some sh ∧ HasShape sh.1 sh.2 r) {t : Target} {r : Value × Value} (h : CanHold norm root sources t r) :
    ∃ sh : Nat × Nat, shapeIn src m t = some sh ∧ HasShape sh.1 sh.2 r := by
  have hone1 : ∀ {path : List Nat} {i : Nat} {node : XNode N} {input : Ref} {t : Target} {sh : Nat × Nat}, input ∈ node.refs → (∀ l r p, node ≠ .join l r p) → Names root path input t → shapeIn src m t = some sh →
      ¬ Lacks root (shapeIn src m) (.op path i node) := by
    intro path i node input t sh hin hj hn hsh hl
    have : ∀ p ∈ (Step.op path i node).refs, ∀ t, Names root p.1 p.2 t → shapeIn src m t = none := by
      cases node with
      | join l r p => exact absurd rfl (hj l r p)
      | _ => exact hl
    have h2 := this (path, input) (List.mem_map.2 ⟨input, hin, rfl⟩) t hn
    rw [hsh] at h2
    cases h2
  induction h with
  | source k r hr => exact hsrc k r hr
  | var path s b t r hs hb hn _ ih =>
    obtain ⟨sh, h1, h2⟩ := ih
    obtain ⟨sh', h3, t', h4, h5⟩ := var_follows hd hs hb (hone path s hs) (fun hl => by
      have := hl (path, b.value) (List.mem_singleton.2 rfl) t hn
      rw [h1] at this; cases this)
    rw [h4.det hn, h1] at h5
    cases h5
    exact ⟨sh, h3, h2⟩
  | linear path s i input ops t r r' hs hn hin _ hg ih =>
    obtain ⟨sh, h1, h2⟩ := ih
    obtain ⟨sh', h3, t', sh0, h4, h5, rfl⟩ := op_follows hd hs hn (hone1 (by simp [Node.refs]) (fun _ _ _ h => by cases h) hin h1)
    rw [h4.det hin, h1] at h5
    cases h5
    exact ⟨_, h3, opsGive_shape (hflat path s i _ hs hn) h2 hg⟩
  | concat path s i refs input t r hs hn hr hin _ ih =>
    obtain ⟨sh, h1, h2⟩ := ih
    obtain ⟨sh', h3, r', hr', t', h4, h5⟩ := op_follows hd hs hn (hone1 hr (fun _ _ _ h => by cases h) hin h1)
    cases hcat path s i refs input r' t t' sh sh' hs hn hr hr' hin h4 h1 h5
    exact ⟨sh, h3, h2⟩
  | arrange path s i input t r hs hn hin _ ih =>
    obtain ⟨sh, h1, h2⟩ := ih
    obtain ⟨sh', h3, t', h4, h5⟩ := op_follows hd hs hn (hone1 (by simp [Node.refs]) (fun _ _ _ h => by cases h) hin h1)
    rw [h4.det hin, h1] at h5
    cases h5
    exact ⟨sh, h3, h2⟩
  | inspect path s i input label t r hs hn hin _ ih =>
    obtain ⟨sh, h1, h2⟩ := ih
    obtain ⟨sh', h3, t', h4, h5⟩ := op_follows hd hs hn (hone1 (by simp [Node.refs]) (fun _ _ _ h => by cases h) hin h1)
    rw [h4.det hin, h1] at h5
    cases h5
    exact ⟨sh, h3, h2⟩
  | join path s i left right projection lt rt key a b r hs hn hl hr _ _ hk hv ih1 ih2 =>
    obtain ⟨ls, h1, ks, vs, e1, h2, h2'⟩ := ih1
    obtain ⟨rs, h3, ks', ws, e2, h4, h4'⟩ := ih2
    cases e1
    cases e2
    obtain ⟨sh', h5, lt', rt', ls', rs', h6, h7, h8, h9, rfl⟩ := op_follows hd hs hn (by
      rintro (h | h)
      · have := h lt hl; rw [h1] at this; cases this
      · have := h rt hr; rw [h3] at this; cases this)
    rw [h6.det hl, h1] at h8
    cases h8
    rw [h7.det hr, h3] at h9
    cases h9
    have hrows : ∀ (j : Nat) v a, [Value.tuple ks, Value.tuple vs, Value.tuple ws][j]? = some v → [ls.1, ls.2, rs.2][j]? = some a → ∃ xs, v = .tuple xs ∧ xs.length = a := by
      rintro (_ | _ | _ | j) v a ha hb
      · cases ha; cases hb; exact ⟨_, rfl, h2⟩
      · cases ha; cases hb; exact ⟨_, rfl, h2'⟩
      · cases ha; cases hb; exact ⟨_, rfl, h4'⟩
      · simp at ha
    obtain ⟨hfk, hfv⟩ := hflat path s i _ hs hn
    obtain ⟨xs, h10, h11⟩ := flat_arity (arities := [ls.1, ls.2, rs.2]) rfl hrows hfk hk
    obtain ⟨ys, h12, h13⟩ := flat_arity (arities := [ls.1, ls.2, rs.2]) rfl hrows hfv hv
    exact ⟨_, h5, xs, ys, Prod.ext h10 h12, h11, h13⟩
  | reduce path s i input red t key vals out hs hn hin hne _ hout ih =>
    obtain ⟨p, hp⟩ := List.exists_mem_of_ne_nil vals hne
    obtain ⟨sh, h1, h2⟩ := ih p hp
    obtain ⟨sh', h3, t', sh0, h4, h5, rfl⟩ := op_follows hd hs hn (hone1 (by simp [Node.refs]) (fun _ _ _ h => by cases h) hin h1)
    rw [h4.det hin, h1] at h5
    cases h5
    refine ⟨_, h3, ?_⟩
    obtain ⟨ks, vs, e, h6, h7⟩ := h2
    obtain ⟨rfl, -⟩ := Prod.mk.inj e
    cases red with
    | distinct =>
      simp only [reducer, List.mem_singleton] at hout
      subst hout
      exact ⟨ks, [], rfl, h6, rfl⟩
    | count =>
      simp only [reducer] at hout
      split at hout
      · simp only [List.mem_singleton] at hout
        subst hout
        exact ⟨ks, _, rfl, h6, rfl⟩
      · cases hout
    | min =>
      simp only [reducer, Option.mem_toList, Option.map_eq_some_iff] at hout
      obtain ⟨v, hv, rfl⟩ := hout
      obtain ⟨q, hq, rfl⟩ := List.mem_map.1 (shapeLeast_mem hv)
      obtain ⟨sh2, h8, h9⟩ := ih q hq
      rw [h1] at h8
      cases h8
      exact h9
    | collect => exact absurd rfl (hflat path s i _ hs hn)

end DD.Ir.Ex
