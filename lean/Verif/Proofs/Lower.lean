import Verif.Model.Lower
import Verif.Proofs.ScopeIrOpt

/-!
# Lowering of expressions
-/

namespace DD.Ir
variable {L P Q N Col Arr : Type*} {sem : Sem L P Q N Col Arr}

theorem map_eq_bind_some {A B : Type*} (f : A → B) (o : Option A) : o.map f = o.bind fun x => some (f x) := by cases o <;> rfl

/-! ### Rendering items one after the other -/

theorem itemsSem_append {depth : Nat} {imports vars : List Col} {b : List (Item L P Q N)} : ∀ {a : List (Item L P Q N)} {before vals : List (RItem Col Arr)},
    ItemsSem sem (a ++ b) depth imports vars before vals ↔ ∃ mid, ItemsSem sem a depth imports vars before mid ∧ ItemsSem sem b depth imports vars mid vals := by
  intro a
  induction a with
  | nil => intro before vals; simp only [List.nil_append, ItemsSem]; exact ⟨fun h => ⟨_, rfl, h⟩, fun ⟨_, h1, h2⟩ => h1 ▸ h2⟩
  | cons it a ih =>
    intro before vals
    simp only [List.cons_append, ItemsSem, ih]
    exact ⟨fun ⟨v, h1, mid, h2, h3⟩ => ⟨mid, ⟨v, h1, h2⟩, h3⟩, fun ⟨mid, ⟨v, h1, h2⟩, h3⟩ => ⟨v, h1, mid, h2, h3⟩⟩

theorem itemsSem_prefix {depth : Nat} {imports vars : List Col} {a : List (Item L P Q N)} {before vals : List (RItem Col Arr)} (h : ItemsSem sem a depth imports vars before vals) :
    before <+: vals ∧ vals.length = before.length + a.length := by
  obtain ⟨t, rfl, h2, -⟩ := itemsSem_iff.1 h
  exact ⟨List.prefix_append _ _, by rw [List.length_append, h2]⟩

theorem get_of_prefix {A : Type*} {l l' : List A} (h : l <+: l') {i : Nat} {x : A} (hi : l[i]? = some x) : l'[i]? = some x := by
  obtain ⟨t, rfl⟩ := h
  rw [List.getElem?_append_left (List.getElem?_eq_some_iff.1 hi).1]
  exact hi

theorem resolve_prefix {vals vals' : List (RItem Col Arr)} {imports vars : List Col} (h : vals <+: vals') {r : Ref} {x : Rendered Col Arr}
    (hr : resolve (vals[·]?) imports vars r = some x) : resolve (vals'[·]?) imports vars r = some x := by
  cases r with
  | imp i => exact hr
  | var i => exact hr
  | loc i =>
    simp only [resolve] at hr ⊢
    cases hi : vals[i]? with
    | none => rw [hi] at hr; cases hr
    | some v => rw [hi] at hr; rw [get_of_prefix h hi]; exact hr
  | childExport i j =>
    simp only [resolve] at hr ⊢
    cases hi : vals[i]? with
    | none => rw [hi] at hr; cases hr
    | some v => rw [hi] at hr; rw [get_of_prefix h hi]; exact hr

/-! ### States -/

/-- Lowering an expression only adds operators and imports. -/
structure Ext (st st' : LowerState L P Q N) : Prop where
  isRoot : st'.isRoot = st.isRoot
  env : st'.env = st.env
  children : st'.children = st.children
  items : st.items <+: st'.items
  imports : st.imports <+: st'.imports
  inner : st.isRoot = false → st'.imports = st.imports

theorem Ext.refl (st : LowerState L P Q N) : Ext st st := ⟨rfl, rfl, rfl, List.prefix_rfl, List.prefix_rfl, fun _ => rfl⟩

theorem Ext.trans {a b c : LowerState L P Q N} (h : Ext a b) (h' : Ext b c) : Ext a c :=
  ⟨h'.isRoot.trans h.isRoot, h'.env.trans h.env, h'.children.trans h.children, h.items.trans h'.items, h.imports.trans h'.imports, fun hr => (h'.inner (h.isRoot.trans hr)).trans (h.inner hr)⟩

theorem Ext.push (st : LowerState L P Q N) (n : Node L P Q N) : Ext st (st.push n).1 := ⟨rfl, rfl, rfl, List.prefix_append _ _, List.prefix_rfl, fun _ => rfl⟩

/-- The items added between two states are rendered. -/
def Steps (sem : Sem L P Q N Col Arr) (depth : Nat) (I V : List Col) (st st' : LowerState L P Q N) (vals vals' : List (RItem Col Arr)) : Prop :=
  ∃ new, st'.items = st.items ++ new ∧ ItemsSem sem new depth I V vals vals'

variable {depth : Nat} {ext : Source N → Option Col} {env : N → Option (Rendered Col Arr)} {fields : N → N → Option (Rendered Col Arr)} {I V : List Col}

theorem Steps.prefix {st st' : LowerState L P Q N} {vals vals' : List (RItem Col Arr)} (h : Steps sem depth I V st st' vals vals') : vals <+: vals' := by
  obtain ⟨new, -, h⟩ := h
  exact (itemsSem_prefix h).1

theorem Steps.length {st st' : LowerState L P Q N} {vals vals' : List (RItem Col Arr)} (h : Steps sem depth I V st st' vals vals') (hl : vals.length = st.items.length) :
    vals'.length = st'.items.length := by
  obtain ⟨new, h1, h⟩ := h
  rw [(itemsSem_prefix h).2, h1, List.length_append, hl]

theorem steps_refl {st : LowerState L P Q N} {vals vals' : List (RItem Col Arr)} : Steps sem depth I V st st vals vals' ↔ vals' = vals := by
  constructor
  · rintro ⟨new, h1, h2⟩
    have : new = [] := by simpa using h1
    subst this
    simpa only [ItemsSem] using h2
  · rintro rfl
    exact ⟨[], by simp, by simp only [ItemsSem]⟩

theorem steps_congr {a b b' : LowerState L P Q N} {vals vals' : List (RItem Col Arr)} (h : b.items = b'.items) : Steps sem depth I V a b vals vals' ↔ Steps sem depth I V a b' vals vals' := by
  unfold Steps; rw [h]

theorem steps_congr_left {a a' b : LowerState L P Q N} {vals vals' : List (RItem Col Arr)} (h : a.items = a'.items) : Steps sem depth I V a b vals vals' ↔ Steps sem depth I V a' b vals vals' := by
  unfold Steps; rw [h]

theorem steps_trans {a b c : LowerState L P Q N} {vals vals' : List (RItem Col Arr)} (hab : a.items <+: b.items) (hbc : b.items <+: c.items) :
    Steps sem depth I V a c vals vals' ↔ ∃ mid, Steps sem depth I V a b vals mid ∧ Steps sem depth I V b c mid vals' := by
  obtain ⟨n1, h1⟩ := hab
  obtain ⟨n2, h2⟩ := hbc
  constructor
  · rintro ⟨new, h3, h4⟩
    have : new = n1 ++ n2 := by
      rw [← h2, ← h1, List.append_assoc] at h3
      exact (List.append_cancel_left h3).symm
    subst this
    obtain ⟨mid, h5, h6⟩ := itemsSem_append.1 h4
    exact ⟨mid, ⟨n1, h1.symm, h5⟩, ⟨n2, h2.symm, h6⟩⟩
  · rintro ⟨mid, ⟨m1, h3, h4⟩, ⟨m2, h5, h6⟩⟩
    exact ⟨m1 ++ m2, by rw [h5, h3, List.append_assoc], itemsSem_append.2 ⟨mid, h4, h6⟩⟩

/-- Every name and field known to the state has the value that its reference is rendered to. -/
structure Agree [DecidableEq N] (env : N → Option (Rendered Col Arr)) (fields : N → N → Option (Rendered Col Arr)) (I V : List Col) (st : LowerState L P Q N) (vals : List (RItem Col Arr)) :
    Prop where
  length : vals.length = st.items.length
  env : ∀ n r, st.env.lookup n = some r → ∃ x, env n = some x ∧ resolve (vals[·]?) I V r = some x
  fields : ∀ s c, st.children.lookup s = some c → ∀ f j, c.2.idxOf? f = some j → ∃ x, fields s f = some x ∧ resolve (vals[·]?) I V (.childExport c.1 j) = some x

/-- The imports from outside are fed with the inputs and named traces. -/
def Fed (ext : Source N → Option Col) (I : List Col) (imports : List (Import N)) : Prop :=
  ∀ (i : Nat) (imp : Import N), imports[i]? = some imp → (∀ r, imp.src ≠ .parent r) → ∃ c, ext imp.src = some c ∧ I[i]? = some c

theorem Fed.prefix {ext : Source N → Option Col} {I : List Col} {a b : List (Import N)} (h : Fed ext I b) (hp : a <+: b) : Fed ext I a :=
  fun i imp hi => h i imp (get_of_prefix hp hi)

/-- What is added between two states computes `den`, and the references to it are `R`. -/
def LowSim (sem : Sem L P Q N Col Arr) (depth : Nat) (I V : List Col) {B : Type*} (st st' : LowerState L P Q N) (vals : List (RItem Col Arr)) (den : Option B) (R : List (RItem Col Arr) → B → Prop) :
    Prop :=
  (∀ vals', Steps sem depth I V st st' vals vals' → ∃ x, den = some x ∧ R vals' x) ∧ ∀ x, den = some x → ∃ vals', Steps sem depth I V st st' vals vals'

theorem LowSim.push {B : Type*} {st st' : LowerState L P Q N} {vals : List (RItem Col Arr)} {den : Option B} {R : List (RItem Col Arr) → B → Prop} (h : LowSim sem depth I V st st' vals den R)
    (he : st.items <+: st'.items) (hl : vals.length = st.items.length) (n : Node L P Q N) (g : B → Option (Rendered Col Arr))
    (hg : ∀ v x, R v x → renderNode sem depth (resolve (v[·]?) I V) n = g x) :
    LowSim sem depth I V st (st'.push n).1 vals (den.bind g) fun v x => resolve (v[·]?) I V (st'.push n).2 = some x := by
  have hp : st'.items <+: (st'.push n).1.items := List.prefix_append _ _
  have step : ∀ {mid vals' : List (RItem Col Arr)}, Steps sem depth I V st' (st'.push n).1 mid vals' ↔
      ∃ r, renderNode sem depth (resolve (mid[·]?) I V) n = some r ∧ vals' = mid ++ [.op r] := by
    intro mid vals'
    constructor
    · rintro ⟨new, h1, h2⟩
      have : new = [.op n] := (List.append_cancel_left h1).symm
      subst this
      simp only [ItemsSem, itemSem_op] at h2
      obtain ⟨v, ⟨r, h3, rfl⟩, rfl⟩ := h2
      exact ⟨r, h3, rfl⟩
    · rintro ⟨r, h1, rfl⟩
      refine ⟨[.op n], rfl, ?_⟩
      simp only [ItemsSem, itemSem_op]
      exact ⟨_, ⟨r, h1, rfl⟩, rfl⟩
  constructor
  · intro vals' hs
    obtain ⟨mid, h1, h2⟩ := (steps_trans he hp).1 hs
    obtain ⟨x, h3, h4⟩ := h.1 mid h1
    obtain ⟨r, h5, rfl⟩ := step.1 h2
    rw [hg mid x h4] at h5
    refine ⟨r, by rw [h3]; exact h5, ?_⟩
    have hlen : mid.length = st'.items.length := h1.length hl
    simp only [LowerState.push, resolve, ← hlen, List.getElem?_concat_length, Option.bind_some]
  · intro x hx
    obtain ⟨b, h1, h2⟩ := Option.bind_eq_some_iff.1 hx
    obtain ⟨mid, h3⟩ := h.2 b h1
    obtain ⟨b', h4, h5⟩ := h.1 mid h3
    obtain rfl : b = b' := by rw [h1] at h4; cases h4; rfl
    exact ⟨_, (steps_trans he hp).2 ⟨mid, h3, step.2 ⟨x, by rw [hg mid b h5]; exact h2, rfl⟩⟩⟩

theorem LowSim.bind {B C : Type*} {st st' st'' : LowerState L P Q N} {vals : List (RItem Col Arr)} {d1 : Option B} {d2 : Option C} {R1 : List (RItem Col Arr) → B → Prop}
    {R2 : List (RItem Col Arr) → C → Prop} (h : LowSim sem depth I V st st' vals d1 R1) (he : st.items <+: st'.items) (he' : st'.items <+: st''.items)
    (hR : ∀ v v' x, v <+: v' → R1 v x → R1 v' x) (h2 : ∀ mid, Steps sem depth I V st st' vals mid → LowSim sem depth I V st' st'' mid d2 R2) :
    LowSim sem depth I V st st'' vals (d1.bind fun x => d2.map fun y => (x, y)) fun v p => R1 v p.1 ∧ R2 v p.2 := by
  constructor
  · intro vals' hs
    obtain ⟨mid, h3, h4⟩ := (steps_trans he he').1 hs
    obtain ⟨x, h5, h6⟩ := h.1 mid h3
    obtain ⟨y, h7, h8⟩ := (h2 mid h3).1 vals' h4
    exact ⟨(x, y), by rw [h5, h7]; rfl, hR _ _ _ h4.prefix h6, h8⟩
  · rintro p hp
    obtain ⟨x, h3, h4⟩ := Option.bind_eq_some_iff.1 hp
    obtain ⟨y, h5, -⟩ := Option.map_eq_some_iff.1 h4
    obtain ⟨mid, h6⟩ := h.2 x h3
    obtain ⟨vals', h7⟩ := (h2 mid h6).2 y h5
    exact ⟨vals', (steps_trans he he').2 ⟨mid, h6, h7⟩⟩

theorem LowSim.map {B C : Type*} {st st' : LowerState L P Q N} {vals : List (RItem Col Arr)} {d : Option B} {R : List (RItem Col Arr) → B → Prop} (h : LowSim sem depth I V st st' vals d R) (g : B → C)
    {R' : List (RItem Col Arr) → C → Prop} (hR : ∀ v x, R v x → R' v (g x)) : LowSim sem depth I V st st' vals (d.map g) R' := by
  constructor
  · intro vals' hs
    obtain ⟨x, h1, h2⟩ := h.1 vals' hs
    exact ⟨g x, by rw [h1]; rfl, hR _ _ h2⟩
  · intro y hy
    obtain ⟨x, h1, -⟩ := Option.map_eq_some_iff.1 hy
    exact h.2 x h1

theorem LowSim.pure {B : Type*} {st : LowerState L P Q N} {vals : List (RItem Col Arr)} {d : Option B} {R : List (RItem Col Arr) → B → Prop} (h : ∃ x, d = some x ∧ R vals x) :
    LowSim sem depth I V st st vals d R :=
  ⟨fun vals' hs => by rw [steps_refl.1 hs]; exact h, fun _ _ => ⟨vals, steps_refl.2 rfl⟩⟩

theorem LowSim.congr {B : Type*} {st st' st'' : LowerState L P Q N} {vals : List (RItem Col Arr)} {d : Option B} {R : List (RItem Col Arr) → B → Prop} (h : LowSim sem depth I V st st' vals d R)
    (he : st'.items = st''.items) : LowSim sem depth I V st st'' vals d R :=
  ⟨fun vals' hs => h.1 vals' ((steps_congr he).2 hs), fun x hx => (h.2 x hx).imp fun _ hs => (steps_congr he).1 hs⟩

theorem resolves_prefix {vals vals' : List (RItem Col Arr)} (h : vals <+: vals') {rs : List Ref} {xs : List (Rendered Col Arr)}
    (hr : List.Forall₂ (fun r x => resolve (vals[·]?) I V r = some x) rs xs) : List.Forall₂ (fun r x => resolve (vals'[·]?) I V r = some x) rs xs :=
  hr.imp fun _ _ => resolve_prefix h

theorem renderNode_concat {res : Ref → Option (Rendered Col Arr)} {rs : List Ref} {xs : List (Rendered Col Arr)}   :
    List.Forall₂ (fun r x => res r = some x) rs xs → renderNode sem depth res (.concat rs : Node L P Q N) = match xs with
      | [] => none
      | x :: xs => some (.coll (xs.foldl (fun c y => sem.concat c (y.collection sem)) (x.collection sem))) := by
  intro h
  cases h with
  | nil => rfl
  | @cons r x rs xs h1 h2 =>
    simp only [renderNode, h1, Option.bind_some]
    have : ∀ c, rs.foldlM (fun c r => (res r).map fun c' => sem.concat c (c'.collection sem)) c = some (xs.foldl (fun c y => sem.concat c (y.collection sem)) c) := by
      induction h2 with
      | nil => intro c; rfl
      | cons h3 _ ih => intro c; rw [List.foldlM_cons, h3, List.foldl_cons, ← ih]; rfl
    rw [this]
    rfl

section
variable [DecidableEq N] {inputName : Nat → N}

theorem Agree.steps {st st' : LowerState L P Q N} {vals vals' : List (RItem Col Arr)} (h : Agree env fields I V st vals) (he : Ext st st') (hs : Steps sem depth I V st st' vals vals') :
    Agree env fields I V st' vals' := by
  refine ⟨hs.length h.length, ?_, ?_⟩
  · intro n r hr
    obtain ⟨x, h1, h2⟩ := h.env n r (he.env ▸ hr)
    exact ⟨x, h1, resolve_prefix hs.prefix h2⟩
  · intro s c hc f j hj
    obtain ⟨x, h1, h2⟩ := h.fields s c (he.children ▸ hc) f j hj
    exact ⟨x, h1, resolve_prefix hs.prefix h2⟩

theorem external_ext {st st' : LowerState L P Q N} {name : N} {src : Source N} {r : Ref} (h : st.external name src = some (st', r)) :
    Ext st st' ∧ st'.items = st.items ∧ ∃ i imp, r = .imp i ∧ st'.imports[i]? = some imp ∧ imp.src = src := by
  unfold LowerState.external at h
  by_cases hr : st.isRoot = true
  · rw [if_pos hr] at h
    cases hf : st.imports.findIdx? (fun i => decide (i.src = src)) with
    | some i =>
      rw [hf] at h
      cases h
      obtain ⟨imp, h1, h2⟩ : ∃ imp, st.imports[i]? = some imp ∧ imp.src = src := by
        obtain ⟨hi, h1, -⟩ := List.findIdx?_eq_some_iff_getElem.1 hf
        exact ⟨_, List.getElem?_eq_getElem hi, by simpa using h1⟩
      exact ⟨Ext.refl _, rfl, i, imp, rfl, h1, h2⟩
    | none =>
      rw [hf] at h
      cases h
      exact ⟨⟨rfl, rfl, rfl, List.prefix_rfl, List.prefix_append _ _, fun h => by rw [hr] at h; cases h⟩, rfl, st.imports.length, ⟨name, src⟩, rfl, by simp, rfl⟩
  · rw [if_neg hr] at h
    cases h

theorem external_sim {st st' : LowerState L P Q N} {name : N} {src : Source N} {r : Ref} (h : st.external name src = some (st', r)) (hs : ∀ r, src ≠ .parent r) {vals : List (RItem Col Arr)}
    (hf : Fed ext I st'.imports) : LowSim sem depth I V st st' vals ((ext src).map Rendered.coll) fun v x => resolve (v[·]?) I V r = some x := by
  obtain ⟨-, h2, i, imp, rfl, h3, rfl⟩ := external_ext h
  obtain ⟨c, h4, h5⟩ := hf i imp h3 hs
  refine (LowSim.pure ?_).congr h2.symm
  exact ⟨.coll c, by rw [h4]; rfl, by simp only [resolve, h5, Option.map_some]⟩

mutual
theorem lowerExpr_ext : ∀ (e : Expr L P Q N) {st st' : LowerState L P Q N} {r : Ref}, lowerExpr inputName e st = some (st', r) → Ext st st'
  | .input n, st, st', r, h => (external_ext (by simpa only [lowerExpr] using h)).1
  | .imported name, st, st', r, h => (external_ext (by simpa only [lowerExpr] using h)).1
  | .name n, st, st', r, h => by
    simp only [lowerExpr] at h
    obtain ⟨_, -, h2⟩ := Option.map_eq_some_iff.1 h
    cases h2
    exact Ext.refl _
  | .qualified s f, st, st', r, h => by
    simp only [lowerExpr] at h
    obtain ⟨_, -, h2⟩ := Option.map_eq_some_iff.1 h
    cases h2
    exact Ext.refl _
  | .linear e op, st, st', r, h => by
    simp only [lowerExpr] at h
    obtain ⟨p, h1, h2⟩ := Option.map_eq_some_iff.1 h
    have := (lowerExpr_ext e h1).trans (Ext.push p.1 (.linear p.2 [op]))
    rwa [h2] at this
  | .arrange e, st, st', r, h => by
    simp only [lowerExpr] at h
    obtain ⟨p, h1, h2⟩ := Option.map_eq_some_iff.1 h
    have := (lowerExpr_ext e h1).trans (Ext.push p.1 (.arrange p.2))
    rwa [h2] at this
  | .inspect e label, st, st', r, h => by
    simp only [lowerExpr] at h
    obtain ⟨p, h1, h2⟩ := Option.map_eq_some_iff.1 h
    have := (lowerExpr_ext e h1).trans (Ext.push p.1 (.inspect p.2 label))
    rwa [h2] at this
  | .reduce e red, st, st', r, h => by
    simp only [lowerExpr] at h
    obtain ⟨p, h1, h2⟩ := Option.map_eq_some_iff.1 h
    have := ((lowerExpr_ext e h1).trans (Ext.push p.1 (.arrange p.2))).trans (Ext.push _ (.reduce (p.1.push (.arrange p.2)).2 red))
    rwa [h2] at this
  | .join l r' pr, st, st', r, h => by
    simp only [lowerExpr] at h
    obtain ⟨p, h1, h2⟩ := Option.bind_eq_some_iff.1 h
    obtain ⟨q, h3, h4⟩ := Option.map_eq_some_iff.1 h2
    have := (((lowerExpr_ext l h1).trans (Ext.push p.1 (.arrange p.2))).trans (lowerExpr_ext r' h3)).trans (Ext.push q.1 (.arrange q.2))
    have := this.trans (Ext.push _ (.join (p.1.push (.arrange p.2)).2 (q.1.push (.arrange q.2)).2 pr))
    rwa [h4] at this
  | .concat es, st, st', r, h => by
    simp only [lowerExpr] at h
    obtain ⟨p, h1, h2⟩ := Option.map_eq_some_iff.1 h
    have := (lowerExprs_ext es h1).trans (Ext.push p.1 (.concat p.2))
    rwa [h2] at this
theorem lowerExprs_ext : ∀ (es : List (Expr L P Q N)) {st st' : LowerState L P Q N} {rs : List Ref}, lowerExprs inputName es st = some (st', rs) → Ext st st'
  | [], st, st', rs, h => by
    simp only [lowerExprs] at h
    cases h
    exact Ext.refl _
  | e :: es, st, st', rs, h => by
    simp only [lowerExprs] at h
    obtain ⟨p, h1, h2⟩ := Option.bind_eq_some_iff.1 h
    obtain ⟨q, h3, h4⟩ := Option.map_eq_some_iff.1 h2
    cases h4
    exact (lowerExpr_ext e h1).trans (lowerExprs_ext es h3)
end

mutual
theorem lowerExpr_sim : ∀ (e : Expr L P Q N) {st st' : LowerState L P Q N} {r : Ref} {vals : List (RItem Col Arr)}, lowerExpr inputName e st = some (st', r) → Agree env fields I V st vals →
    Fed ext I st'.imports → LowSim sem depth I V st st' vals (exprSem sem depth ext env fields e) fun v x => resolve (v[·]?) I V r = some x
  | .input n, st, st', r, vals, h, ha, hf => by
    simp only [exprSem]
    exact external_sim (by simpa only [lowerExpr] using h) (fun r h => by cases h) hf
  | .imported name, st, st', r, vals, h, ha, hf => by
    simp only [exprSem]
    exact external_sim (by simpa only [lowerExpr] using h) (fun r h => by cases h) hf
  | .name n, st, st', r, vals, h, ha, hf => by
    simp only [lowerExpr] at h
    obtain ⟨r', h1, h2⟩ := Option.map_eq_some_iff.1 h
    cases h2
    exact LowSim.pure (by simpa only [exprSem] using ha.env n r h1)
  | .qualified s f, st, st', r, vals, h, ha, hf => by
    simp only [lowerExpr, LowerState.qualified] at h
    obtain ⟨r', h1, h2⟩ := Option.map_eq_some_iff.1 h
    cases h2
    obtain ⟨c, h3, h4⟩ := Option.bind_eq_some_iff.1 h1
    obtain ⟨j, h5, rfl⟩ := Option.map_eq_some_iff.1 h4
    exact LowSim.pure (by simpa only [exprSem] using ha.fields s c h3 f j h5)
  | .linear e op, st, st', r, vals, h, ha, hf => by
    simp only [lowerExpr] at h
    obtain ⟨p, h1, h2⟩ := Option.map_eq_some_iff.1 h
    cases h2
    have := (lowerExpr_sim e h1 ha hf).push (lowerExpr_ext e h1).items ha.length (.linear p.2 [op]) (fun x => some (.coll (sem.linear depth [op] (x.collection sem))))
      (fun v x hx => by simp only [renderNode, hx, Option.map_some])
    simp only [exprSem, map_eq_bind_some]
    exact this
  | .arrange e, st, st', r, vals, h, ha, hf => by
    simp only [lowerExpr] at h
    obtain ⟨p, h1, h2⟩ := Option.map_eq_some_iff.1 h
    cases h2
    have := (lowerExpr_sim e h1 ha hf).push (lowerExpr_ext e h1).items ha.length (.arrange p.2) (fun x => some (.arr (x.arrange sem)))
      (fun v x hx => by simp only [renderNode, hx, Option.map_some])
    simp only [exprSem, map_eq_bind_some]
    exact this
  | .inspect e label, st, st', r, vals, h, ha, hf => by
    simp only [lowerExpr] at h
    obtain ⟨p, h1, h2⟩ := Option.map_eq_some_iff.1 h
    cases h2
    have := (lowerExpr_sim e h1 ha hf).push (lowerExpr_ext e h1).items ha.length (.inspect p.2 label) (fun x => some (.coll (sem.inspect label (x.collection sem))))
      (fun v x hx => by simp only [renderNode, hx, Option.map_some])
    simp only [exprSem, map_eq_bind_some]
    exact this
  | .reduce e red, st, st', r, vals, h, ha, hf => by
    simp only [lowerExpr] at h
    obtain ⟨p, h1, h2⟩ := Option.map_eq_some_iff.1 h
    cases h2
    have he := lowerExpr_ext e h1
    have h3 := (lowerExpr_sim e h1 ha hf).push he.items ha.length (.arrange p.2) (fun x => some (.arr (x.arrange sem)))
      (fun v x hx => by simp only [renderNode, hx, Option.map_some])
    have h4 := h3.push (he.trans (Ext.push _ _)).items ha.length (.reduce (p.1.push (.arrange p.2)).2 red) (fun x => some (.arr (sem.reduce (x.arrange sem) red)))
      (fun v x hx => by simp only [renderNode, hx, Option.map_some])
    have h5 : exprSem sem depth ext env fields (.reduce e red) = ((exprSem sem depth ext env fields e).bind fun x => some (Rendered.arr (x.arrange sem))).bind
        fun x => some (Rendered.arr (sem.reduce (x.arrange sem) red)) := by
      simp only [exprSem]
      cases exprSem sem depth ext env fields e <;> rfl
    rw [h5]
    exact h4
  | .join l r' pr, st, st', r, vals, h, ha, hf => by
    simp only [lowerExpr] at h
    obtain ⟨p, h1, h2⟩ := Option.bind_eq_some_iff.1 h
    obtain ⟨q, h3, h4⟩ := Option.map_eq_some_iff.1 h2
    cases h4
    have e1 := (lowerExpr_ext l h1).trans (Ext.push p.1 (.arrange p.2))
    have e2 := lowerExpr_ext r' h3
    have g1 := (lowerExpr_sim l h1 ha (hf.prefix e2.imports)).push (lowerExpr_ext l h1).items ha.length (.arrange p.2) (fun x => some (.arr (x.arrange sem)))
      (fun v x hx => by simp only [renderNode, hx, Option.map_some])
    have g2 := g1.bind (st'' := (q.1.push (.arrange q.2)).1) e1.items (e2.trans (Ext.push _ _)).items (fun v v' x hv hx => resolve_prefix hv hx) fun mid hm => by
      have ha' := ha.steps e1 hm
      exact (lowerExpr_sim r' h3 ha' hf).push e2.items ha'.length (.arrange q.2) (fun x => some (.arr (x.arrange sem)))
        (fun v x hx => by simp only [renderNode, hx, Option.map_some])
    have g3 := g2.push (e1.trans (e2.trans (Ext.push _ _))).items ha.length (.join (p.1.push (.arrange p.2)).2 (q.1.push (.arrange q.2)).2 pr)
      (fun x => some (.coll (sem.join (x.1.arrange sem) (x.2.arrange sem) pr))) (fun v x hx => by simp only [renderNode, hx.1, hx.2, Option.map_some, Option.bind_some])
    have h5 : exprSem sem depth ext env fields (.join l r' pr) = ((((exprSem sem depth ext env fields l).bind fun x => some (Rendered.arr (x.arrange sem))).bind fun x =>
        ((exprSem sem depth ext env fields r').bind fun x => some (Rendered.arr (x.arrange sem))).map fun y => (x, y)).bind
          fun x => some (Rendered.coll (sem.join (x.1.arrange sem) (x.2.arrange sem) pr))) := by
      simp only [exprSem]
      cases exprSem sem depth ext env fields l <;> cases exprSem sem depth ext env fields r' <;> rfl
    rw [h5]
    exact g3
  | .concat es, st, st', r, vals, h, ha, hf => by
    simp only [lowerExpr] at h
    obtain ⟨p, h1, h2⟩ := Option.map_eq_some_iff.1 h
    cases h2
    have := (lowerExprs_sim es h1 ha hf).push (lowerExprs_ext es h1).items ha.length (.concat p.2) (fun xs => match xs with
      | [] => none
      | x :: xs => some (.coll (xs.foldl (fun c y => sem.concat c (y.collection sem)) (x.collection sem))))
      (fun v x hx => renderNode_concat hx)
    simp only [exprSem]
    exact this
theorem lowerExprs_sim : ∀ (es : List (Expr L P Q N)) {st st' : LowerState L P Q N} {rs : List Ref} {vals : List (RItem Col Arr)}, lowerExprs inputName es st = some (st', rs) →
    Agree env fields I V st vals → Fed ext I st'.imports →
    LowSim sem depth I V st st' vals (exprsSem sem depth ext env fields es) fun v xs => List.Forall₂ (fun r x => resolve (v[·]?) I V r = some x) rs xs
  | [], st, st', rs, vals, h, ha, hf => by
    simp only [lowerExprs] at h
    cases h
    exact LowSim.pure ⟨[], by simp only [exprsSem], List.Forall₂.nil⟩
  | e :: es, st, st', rs, vals, h, ha, hf => by
    simp only [lowerExprs] at h
    obtain ⟨p, h1, h2⟩ := Option.bind_eq_some_iff.1 h
    obtain ⟨q, h3, h4⟩ := Option.map_eq_some_iff.1 h2
    cases h4
    have e1 := lowerExpr_ext e h1
    have e2 := lowerExprs_ext es h3
    have g1 := (lowerExpr_sim e h1 ha (hf.prefix e2.imports)).bind e1.items e2.items (fun v v' x hv hx => resolve_prefix hv hx)
      fun mid hm => lowerExprs_sim es h3 (ha.steps e1 hm) hf
    have g2 := g1.map (fun x => x.1 :: x.2) (R' := fun v xs => List.Forall₂ (fun r x => resolve (v[·]?) I V r = some x) (p.2 :: q.2) xs) fun v x hx => List.Forall₂.cons hx.1 hx.2
    have h5 : exprsSem sem depth ext env fields (e :: es) = (((exprSem sem depth ext env fields e).bind fun x => (exprsSem sem depth ext env fields es).map fun y => (x, y)).map
        fun x => x.1 :: x.2) := by
      simp only [exprsSem]
      cases exprSem sem depth ext env fields e <;> cases exprsSem sem depth ext env fields es <;> rfl
    rw [h5]
    exact g2
end

end

end DD.Ir
