import Verif.Proofs.Lower
import Verif.Proofs.ScopeIrPass

/-!
# Lowering of `let`s and nested scopes
-/

namespace DD.Ir
variable {L P Q N Col Arr : Type*} {sem : Sem L P Q N Col Arr}

theorem lookup_of_mem {A B : Type*} [DecidableEq A] {l : List (A × B)} (hn : (l.map Prod.fst).Nodup) {a : A} {b : B} (h : (a, b) ∈ l) : l.lookup a = some b := by
  induction l with
  | nil => cases h
  | cons p l ih =>
    obtain ⟨a', b'⟩ := p
    rw [List.map_cons, List.nodup_cons] at hn
    rw [List.lookup_cons]
    rcases List.mem_cons.1 h with h | h
    · cases h
      simp
    · have : a ≠ a' := by
        intro e
        rw [← e] at hn
        exact hn.1 (List.mem_map.2 ⟨_, h, rfl⟩)
      rw [show (a == a') = false from by simpa using this]
      exact ih hn.2 h

theorem mapM_some_iff {A B : Type*} {f : A → Option B} : ∀ {l : List A} {r : List B}, l.mapM f = some r ↔ List.Forall₂ (fun a b => f a = some b) l r := by
  intro l
  induction l with
  | nil => intro r; simp only [List.mapM_nil, List.forall₂_nil_left_iff]; exact ⟨fun h => by cases h; rfl, fun h => by rw [h]; rfl⟩
  | cons a l ih =>
    intro r
    rw [List.mapM_cons, List.forall₂_cons_left_iff]
    constructor
    · intro h
      obtain ⟨b, h1, h2⟩ := Option.bind_eq_some_iff.1 h
      obtain ⟨r', h3, h4⟩ := Option.bind_eq_some_iff.1 h2
      cases h4
      exact ⟨b, r', h1, ih.1 h3, rfl⟩
    · rintro ⟨b, r', h1, h2, rfl⟩
      rw [h1, ih.2 h2]
      rfl

section
variable [DecidableEq N] {inputName : Nat → N} {body : List (Stmt L P Q N)} {kids : List (N × LowerChild L P Q N)}

/-- The items are lowered in some order. -/
theorem lowerItems_order : ∀ {k : Nat} {pending : List (ItemKind × N)} {deps : List (N × List N)} {st stF : LowerState L P Q N}, lowerItems inputName body kids k pending deps st = some stF →
    ∃ order : List (ItemKind × N), order.Perm pending ∧ order.foldlM (fun st p => lowerItem inputName body kids p st) st = some stF := by
  intro k
  induction k with
  | zero =>
    intro pending deps st stF h
    simp only [lowerItems] at h
    by_cases hp : pending.isEmpty = true
    · rw [if_pos hp] at h
      cases h
      rw [List.isEmpty_iff] at hp
      exact ⟨[], by rw [hp], rfl⟩
    · rw [if_neg hp] at h
      cases h
  | succ k ih =>
    intro pending deps st stF h
    simp only [lowerItems] at h
    by_cases hp : pending.isEmpty = true
    · rw [if_pos hp] at h
      cases h
      rw [List.isEmpty_iff] at hp
      exact ⟨[], by rw [hp], rfl⟩
    · rw [if_neg hp] at h
      obtain ⟨pos, -, h⟩ := Option.bind_eq_some_iff.1 h
      obtain ⟨p, h1, h⟩ := Option.bind_eq_some_iff.1 h
      obtain ⟨st', h2, h⟩ := Option.bind_eq_some_iff.1 h
      obtain ⟨order, h3, h4⟩ := ih h
      refine ⟨p :: order, ?_, ?_⟩
      · obtain ⟨hlt, hget⟩ := List.getElem?_eq_some_iff.1 h1
        have := List.getElem_cons_eraseIdx_perm hlt
        rw [hget] at this
        exact (h3.cons p).trans this
      · rw [List.foldlM_cons, h2]
        exact h4

/-- The names, fields and items a step adds. -/
theorem lowerItem_mono {p : ItemKind × N} {st st' : LowerState L P Q N} (h : lowerItem inputName body kids p st = some st') :
    st.items <+: st'.items ∧ st.imports <+: st'.imports ∧ (∀ n, n ≠ p.2 → st'.env.lookup n = st.env.lookup n ∧ st'.children.lookup n = st.children.lookup n) ∧
      (∀ s c, st'.children.lookup s = some c → st.children.lookup s = some c ∨ c.2 = qualifiedFields body s) := by
  unfold lowerItem at h
  obtain ⟨kind, name⟩ := p
  cases kind with
  | letK =>
    obtain ⟨e, -, h⟩ := Option.bind_eq_some_iff.1 h
    obtain ⟨q, h1, rfl⟩ := Option.map_eq_some_iff.1 h
    have he := lowerExpr_ext e h1
    refine ⟨he.items, he.imports, ?_, ?_⟩
    · intro n hn
      refine ⟨?_, by rw [show ({ q.1 with env := (name, q.2) :: q.1.env } : LowerState L P Q N).children = q.1.children from rfl, he.children]⟩
      show List.lookup n ((name, q.2) :: q.1.env) = _
      rw [List.lookup_cons, show (n == name) = false from by simpa using hn, he.env]
    · intro s c hc
      exact .inl (by rw [← he.children]; exact hc)
  | scopeK =>
    obtain ⟨lower, -, h⟩ := Option.bind_eq_some_iff.1 h
    obtain ⟨child, -, rfl⟩ := Option.map_eq_some_iff.1 h
    refine ⟨List.prefix_append _ _, List.prefix_rfl, ?_, ?_⟩
    · intro n hn
      refine ⟨rfl, ?_⟩
      show List.lookup n ((name, _, _) :: st.children) = _
      rw [List.lookup_cons, show (n == name) = false from by simpa using hn]
    · intro s c hc
      have hc : List.lookup s ((name, st.items.length, qualifiedFields body name) :: st.children) = some c := hc
      rw [List.lookup_cons] at hc
      by_cases hs : s = name
      · subst hs
        rw [show (s == s) = true from by simp] at hc
        cases hc
        exact .inr rfl
      · rw [show (s == name) = false from by simpa using hs] at hc
        exact .inl hc

theorem lowerOrder_mono : ∀ {order : List (ItemKind × N)} {st stF : LowerState L P Q N}, order.foldlM (fun st p => lowerItem inputName body kids p st) st = some stF →
    st.items <+: stF.items ∧ st.imports <+: stF.imports ∧ (∀ n, n ∉ order.map Prod.snd → stF.env.lookup n = st.env.lookup n ∧ stF.children.lookup n = st.children.lookup n) ∧
      (∀ s c, stF.children.lookup s = some c → st.children.lookup s = some c ∨ c.2 = qualifiedFields body s) := by
  intro order
  induction order with
  | nil => intro st stF h; cases h; exact ⟨List.prefix_rfl, List.prefix_rfl, fun _ _ => ⟨rfl, rfl⟩, fun _ _ h => .inl h⟩
  | cons p order ih =>
    intro st stF h
    rw [List.foldlM_cons] at h
    obtain ⟨st', h1, h2⟩ := Option.bind_eq_some_iff.1 h
    obtain ⟨a1, a2, a3, a4⟩ := lowerItem_mono h1
    obtain ⟨b1, b2, b3, b4⟩ := ih h2
    refine ⟨a1.trans b1, a2.trans b2, ?_, ?_⟩
    · intro n hn
      rw [List.map_cons, List.mem_cons, not_or] at hn
      exact ⟨(b3 n hn.2).1.trans (a3 n hn.1).1, (b3 n hn.2).2.trans (a3 n hn.1).2⟩
    · intro s c hc
      rcases b4 s c hc with h | h
      · exact a4 s c h
      · exact .inr h

/-! ### Nested scopes -/

/-- The imports of a scope are fed with the values of names outside. -/
def Outside (outer : N → Option (Rendered Col Arr)) (I : List Col) (imports : List (Import N)) : Prop :=
  ∀ (i : Nat) (imp : Import N), imports[i]? = some imp → ∃ c, outer imp.name = some (.coll c) ∧ I[i]? = some c

/-- Lowering a nested scope gives a scope that imports names from its parent, and computes what the scope means. -/
def KidOk (sem : Sem L P Q N Col Arr) (b : List (Stmt L P Q N)) (lower : LowerChild L P Q N) : Prop :=
  ∀ parentEnv wanted s, lower parentEnv wanted = some s →
    (∀ imp ∈ s.imports, ∃ r, imp.src = .parent r ∧ parentEnv.lookup imp.name = some r) ∧
    ∀ depth outer (I : List Col), Outside outer I s.imports →
      (∀ inner innerFields, BodySem sem depth (fun _ => none) outer inner innerFields b → ∃ outs, wanted.mapM (fun f => (inner f).map fun x => x.collection sem) = some outs) ∧
      ∀ outs, ScopeSem sem s depth I outs ↔ ∃ inner innerFields, BodySem sem depth (fun _ => none) outer inner innerFields b ∧
        wanted.mapM (fun f => (inner f).map fun x => x.collection sem) = some outs

variable {depth : Nat} {ext : Source N → Option Col} {env : N → Option (Rendered Col Arr)} {fields : N → N → Option (Rendered Col Arr)} {I V : List Col}

/-- What a nested scope is rendered to. -/
theorem kid_steps {b : List (Stmt L P Q N)} {lower : LowerChild L P Q N} (hk : KidOk sem b lower) {st : LowerState L P Q N} {vals : List (RItem Col Arr)} (ha : Agree env fields I V st vals)
    {wanted : List N} {child : Scope L P Q N} (hl : lower st.env wanted = some child) {st' : LowerState L P Q N} (hi : st'.items = st.items ++ [.sub child]) :
    (∀ inner innerFields, BodySem sem (depth + 1) (fun _ => none) (entered sem env) inner innerFields b → ∃ outs, wanted.mapM (fun f => (inner f).map fun x => x.collection sem) = some outs) ∧
    ∀ vals', Steps sem depth I V st st' vals vals' ↔ ∃ inner innerFields outs, BodySem sem (depth + 1) (fun _ => none) (entered sem env) inner innerFields b ∧
      wanted.mapM (fun f => (inner f).map fun x => x.collection sem) = some outs ∧ vals' = vals ++ [.sub (outs.map fun c => sem.leaveDynamic (depth + 1) (sem.leave c))] := by
  obtain ⟨h1, h2⟩ := hk _ _ _ hl
  have hent : ∃ entering, List.Forall₂ (fun imp c => childImport sem (resolve (vals[·]?) I V) imp = some c ∧ ∃ x, env imp.name = some x ∧ c = x.collection sem) child.imports entering := by
    revert h1
    generalize child.imports = imports
    intro h1
    induction imports with
    | nil => exact ⟨[], List.Forall₂.nil⟩
    | cons imp imports ih =>
      obtain ⟨l, hl⟩ := ih fun i hi => h1 i (List.mem_cons_of_mem _ hi)
      obtain ⟨r, h3, h4⟩ := h1 imp List.mem_cons_self
      obtain ⟨x, h5, h6⟩ := ha.env _ _ h4
      refine ⟨x.collection sem :: l, List.Forall₂.cons ⟨?_, x, h5, rfl⟩ hl⟩
      simp only [childImport, h3, h6, Option.map_some]
  obtain ⟨entering, hent⟩ := hent
  have hm : child.imports.mapM (childImport sem (resolve (vals[·]?) I V)) = some entering := mapM_some_iff.2 (hent.imp fun _ _ h => h.1)
  have hout : Outside (entered sem env) (entering.map sem.enter) child.imports := by
    intro i imp hi
    obtain ⟨c, h3, -, x, h4, rfl⟩ := forall₂_get' hent i imp hi
    exact ⟨sem.enter (x.collection sem), by simp only [entered, h4, Option.map_some], by rw [List.getElem?_map, h3]; rfl⟩
  obtain ⟨h3, h4⟩ := h2 (depth + 1) (entered sem env) (entering.map sem.enter) hout
  refine ⟨h3, fun vals' => ?_⟩
  constructor
  · rintro ⟨new, h5, h6⟩
    have : new = [.sub child] := by rw [hi] at h5; exact (List.append_cancel_left h5).symm
    subst this
    simp only [ItemsSem, ItemSem] at h6
    obtain ⟨v, ⟨entering', outs, h7, h8, rfl⟩, rfl⟩ := h6
    rw [hm] at h7
    cases h7
    obtain ⟨inner, innerFields, h9, h10⟩ := (h4 outs).1 h8
    exact ⟨inner, innerFields, outs, h9, h10, rfl⟩
  · rintro ⟨inner, innerFields, outs, h5, h6, rfl⟩
    refine ⟨[.sub child], hi, ?_⟩
    simp only [ItemsSem, ItemSem]
    exact ⟨_, ⟨entering, outs, hm, (h4 outs).2 ⟨inner, innerFields, h5, h6⟩, rfl⟩, rfl⟩

/-- The fields of a scope that is rendered. -/
theorem kid_fields {vals : List (RItem Col Arr)} {wanted : List N} {inner : N → Option (Rendered Col Arr)} {outs : List Col}
    (h : wanted.mapM (fun f => (inner f).map fun x => x.collection sem) = some outs) {k : Nat} (hk : k = vals.length) {f : N} {j : Nat} (hj : wanted.idxOf? f = some j) :
    ∃ x, leaving sem depth inner f = some x ∧
      resolve ((vals ++ [RItem.sub (outs.map fun c => sem.leaveDynamic depth (sem.leave c))])[·]?) I V (.childExport k j) = some x := by
  subst hk
  have hf : wanted[j]? = some f := by
    obtain ⟨hlt, h1, -⟩ := List.findIdx?_eq_some_iff_getElem.1 (show wanted.findIdx? (· == f) = some j from hj)
    rw [List.getElem?_eq_getElem hlt]
    simpa using h1
  obtain ⟨c, h1, h2⟩ := forall₂_get' (mapM_some_iff.1 h) j f hf
  obtain ⟨x, h3, rfl⟩ := Option.map_eq_some_iff.1 h2
  refine ⟨.coll (sem.leaveDynamic depth (sem.leave (x.collection sem))), by simp only [leaving, h3, Option.map_some], ?_⟩
  simp only [resolve, List.getElem?_concat_length, Option.bind_some, List.getElem?_map, h1, Option.map_some]

/-! ### All of them -/

theorem items_backward (hkids : ∀ n lower, kids.lookup n = some lower → ∃ b, .scopeS n b ∈ body ∧ KidOk sem b lower)
    (hlets : ∀ n e, (letsOf body).lookup n = some e → ∃ x, exprSem sem depth ext env fields e = some x ∧ env n = some x)
    (hscopes : ∀ n b, Stmt.scopeS n b ∈ body → ∃ inner innerFields, BodySem sem (depth + 1) (fun _ => none) (entered sem env) inner innerFields b ∧
      ∀ f, fields n f = leaving sem (depth + 1) inner f) :
    ∀ {order : List (ItemKind × N)} {st stF : LowerState L P Q N} {vals : List (RItem Col Arr)}, order.foldlM (fun st p => lowerItem inputName body kids p st) st = some stF →
      Agree env fields I V st vals → Fed ext I stF.imports → ∃ F, Steps sem depth I V st stF vals F ∧ Agree env fields I V stF F := by
  intro order
  induction order with
  | nil => intro st stF vals h ha _; cases h; exact ⟨vals, steps_refl.2 rfl, ha⟩
  | cons p order ih =>
    intro st stF vals h ha hfed
    rw [List.foldlM_cons] at h
    obtain ⟨st', h1, h2⟩ := Option.bind_eq_some_iff.1 h
    obtain ⟨a1, a2, -, -⟩ := lowerItem_mono h1
    obtain ⟨b1, b2, -, -⟩ := lowerOrder_mono h2
    suffices hmid : ∃ mid, Steps sem depth I V st st' vals mid ∧ Agree env fields I V st' mid by
      obtain ⟨mid, h3, h4⟩ := hmid
      obtain ⟨F, h5, h6⟩ := ih h2 h4 hfed
      exact ⟨F, (steps_trans a1 b1).2 ⟨mid, h3, h5⟩, h6⟩
    obtain ⟨kind, name⟩ := p
    unfold lowerItem at h1
    cases kind with
    | letK =>
      obtain ⟨e, g1, g2⟩ := Option.bind_eq_some_iff.1 h1
      obtain ⟨q, g3, rfl⟩ := Option.map_eq_some_iff.1 g2
      obtain ⟨x, g4, g5⟩ := hlets name e g1
      have hsim := lowerExpr_sim (sem := sem) (depth := depth) (ext := ext) e g3 ha (hfed.prefix b2)
      obtain ⟨mid, g6⟩ := hsim.2 x g4
      obtain ⟨y, g7, g8⟩ := hsim.1 mid g6
      obtain rfl : x = y := by rw [g4] at g7; cases g7; rfl
      have ha' := ha.steps (lowerExpr_ext e g3) g6
      refine ⟨mid, (steps_congr rfl).1 g6, ha'.length, ?_, ha'.fields⟩
      intro n r hr
      have hr : List.lookup n ((name, q.2) :: q.1.env) = some r := hr
      rw [List.lookup_cons] at hr
      by_cases hn : n = name
      · subst hn
        rw [show (n == n) = true from by simp] at hr
        cases hr
        exact ⟨x, g5, g8⟩
      · rw [show (n == name) = false from by simpa using hn] at hr
        exact ha'.env n r hr
    | scopeK =>
      obtain ⟨lower, g1, g2⟩ := Option.bind_eq_some_iff.1 h1
      obtain ⟨child, g3, rfl⟩ := Option.map_eq_some_iff.1 g2
      obtain ⟨b, g4, g5⟩ := hkids name lower g1
      obtain ⟨inner, innerFields, g6, g7⟩ := hscopes name b g4
      obtain ⟨g8, g9⟩ := kid_steps (depth := depth) g5 ha g3 (st' := { st with items := st.items ++ [.sub child], children := (name, st.items.length, qualifiedFields body name) :: st.children }) rfl
      obtain ⟨outs, g10⟩ := g8 inner innerFields g6
      have g11 := (g9 _).2 ⟨inner, innerFields, outs, g6, g10, rfl⟩
      refine ⟨_, g11, g11.length ha.length, fun n r hr => ?_, fun s c hc f j hj => ?_⟩
      · obtain ⟨x, k1, k2⟩ := ha.env n r hr
        exact ⟨x, k1, resolve_prefix g11.prefix k2⟩
      · have hc : List.lookup s ((name, st.items.length, qualifiedFields body name) :: st.children) = some c := hc
        rw [List.lookup_cons] at hc
        by_cases hs : s = name
        · subst hs
          rw [show (s == s) = true from by simp] at hc
          cases hc
          rw [g7]
          exact kid_fields g10 ha.length.symm hj
        · rw [show (s == name) = false from by simpa using hs] at hc
          obtain ⟨x, k1, k2⟩ := ha.fields s c hc f j hj
          exact ⟨x, k1, resolve_prefix g11.prefix k2⟩

theorem items_forward (hkids : ∀ n lower, kids.lookup n = some lower → ∃ b, .scopeS n b ∈ body ∧ KidOk sem b lower) :
    ∀ {order : List (ItemKind × N)} {st stF : LowerState L P Q N} {vals F G : List (RItem Col Arr)}, order.foldlM (fun st p => lowerItem inputName body kids p st) st = some stF →
      Agree env fields I V st vals → Fed ext I stF.imports → Steps sem depth I V st stF vals F → F <+: G → (order.map Prod.snd).Nodup →
      (∀ n, (ItemKind.letK, n) ∈ order → ∀ r, stF.env.lookup n = some r → env n = resolve (G[·]?) I V r) →
      (∀ n, (ItemKind.scopeK, n) ∈ order → ∀ c, stF.children.lookup n = some c → ∀ f j, c.2.idxOf? f = some j → fields n f = resolve (G[·]?) I V (.childExport c.1 j)) →
      Agree env fields I V stF F ∧ (∀ n, (ItemKind.letK, n) ∈ order → ∃ e x, (letsOf body).lookup n = some e ∧ exprSem sem depth ext env fields e = some x ∧ env n = some x) ∧
        (∀ n, (ItemKind.scopeK, n) ∈ order → ∃ b inner innerFields, .scopeS n b ∈ body ∧ BodySem sem (depth + 1) (fun _ => none) (entered sem env) inner innerFields b ∧
          ∀ f ∈ qualifiedFields body n, fields n f = leaving sem (depth + 1) inner f) := by
  intro order
  induction order with
  | nil =>
    intro st stF vals F G h ha _ hs _ _ _ _
    cases h
    rw [steps_refl] at hs
    subst hs
    exact ⟨ha, fun n hn => (by cases hn), fun n hn => (by cases hn)⟩
  | cons p order ih =>
    intro st stF vals F G h ha hfed hs hG hnd hlink hlinkF
    rw [List.foldlM_cons] at h
    obtain ⟨st', h1, h2⟩ := Option.bind_eq_some_iff.1 h
    obtain ⟨a1, a2, -, -⟩ := lowerItem_mono h1
    obtain ⟨b1, b2, b3, -⟩ := lowerOrder_mono h2
    obtain ⟨mid, hs1, hs2⟩ := (steps_trans a1 b1).1 hs
    rw [List.map_cons, List.nodup_cons] at hnd
    have hmG : mid <+: G := hs2.prefix.trans hG
    have next := fun hmid => ih (G := G) h2 hmid hfed hs2 hG hnd.2 (fun n hn => hlink n (List.mem_cons_of_mem _ hn)) (fun n hn => hlinkF n (List.mem_cons_of_mem _ hn))
    obtain ⟨kind, name⟩ := p
    unfold lowerItem at h1
    cases kind with
    | letK =>
      obtain ⟨e, g1, g2⟩ := Option.bind_eq_some_iff.1 h1
      obtain ⟨q, g3, rfl⟩ := Option.map_eq_some_iff.1 g2
      have hsim := lowerExpr_sim (sem := sem) (depth := depth) (ext := ext) e g3 ha (hfed.prefix b2)
      have hs1' : Steps sem depth I V st q.1 vals mid := (steps_congr rfl).1 hs1
      obtain ⟨x, g4, g5⟩ := hsim.1 mid hs1'
      have ha' := ha.steps (lowerExpr_ext e g3) hs1'
      have g6 : stF.env.lookup name = some q.2 := by
        rw [(b3 name hnd.1).1]
        show List.lookup name ((name, q.2) :: q.1.env) = _
        rw [List.lookup_cons, show (name == name) = true from by simp]
      have g7 : env name = some x := by
        rw [hlink name List.mem_cons_self _ g6]
        exact resolve_prefix hmG g5
      have hag : Agree env fields I V ({ q.1 with env := (name, q.2) :: q.1.env } : LowerState L P Q N) mid := by
        refine ⟨ha'.length, ?_, ha'.fields⟩
        intro n r hr
        have hr : List.lookup n ((name, q.2) :: q.1.env) = some r := hr
        rw [List.lookup_cons] at hr
        by_cases hn : n = name
        · subst hn
          rw [show (n == n) = true from by simp] at hr
          cases hr
          exact ⟨x, g7, g5⟩
        · rw [show (n == name) = false from by simpa using hn] at hr
          exact ha'.env n r hr
      obtain ⟨k1, k2, k3⟩ := next hag
      refine ⟨k1, fun n hn => ?_, fun n hn => ?_⟩
      · rcases List.mem_cons.1 hn with h | h
        · cases h
          exact ⟨e, x, g1, g4, g7⟩
        · exact k2 n h
      · rcases List.mem_cons.1 hn with h | h
        · cases h
        · exact k3 n h
    | scopeK =>
      obtain ⟨lower, g1, g2⟩ := Option.bind_eq_some_iff.1 h1
      obtain ⟨child, g3, rfl⟩ := Option.map_eq_some_iff.1 g2
      obtain ⟨b, g4, g5⟩ := hkids name lower g1
      obtain ⟨-, g9⟩ := kid_steps (depth := depth) g5 ha g3 (st' := { st with items := st.items ++ [.sub child], children := (name, st.items.length, qualifiedFields body name) :: st.children }) rfl
      obtain ⟨inner, innerFields, outs, g6, g10, rfl⟩ := (g9 mid).1 hs1
      have g7 : stF.children.lookup name = some (st.items.length, qualifiedFields body name) := by
        rw [(b3 name hnd.1).2]
        show List.lookup name ((name, _, _) :: st.children) = _
        rw [List.lookup_cons, show (name == name) = true from by simp]
      have g8 : ∀ f j, (qualifiedFields body name).idxOf? f = some j → ∃ x, leaving sem (depth + 1) inner f = some x ∧ fields name f = some x ∧
          resolve ((vals ++ [RItem.sub (outs.map fun c => sem.leaveDynamic (depth + 1) (sem.leave c))])[·]?) I V (.childExport st.items.length j) = some x := by
        intro f j hj
        obtain ⟨x, k1, k2⟩ := kid_fields (I := I) (V := V) (depth := depth + 1) g10 ha.length.symm hj
        exact ⟨x, k1, by rw [hlinkF name List.mem_cons_self _ g7 f j hj]; exact resolve_prefix hmG k2, k2⟩
      have hag : Agree env fields I V ({ st with items := st.items ++ [.sub child], children := (name, st.items.length, qualifiedFields body name) :: st.children } : LowerState L P Q N)
          (vals ++ [RItem.sub (outs.map fun c => sem.leaveDynamic (depth + 1) (sem.leave c))]) := by
        refine ⟨hs1.length ha.length, fun n r hr => ?_, fun s c hc f j hj => ?_⟩
        · obtain ⟨x, k1, k2⟩ := ha.env n r hr
          exact ⟨x, k1, resolve_prefix hs1.prefix k2⟩
        · have hc : List.lookup s ((name, st.items.length, qualifiedFields body name) :: st.children) = some c := hc
          rw [List.lookup_cons] at hc
          by_cases hs : s = name
          · subst hs
            rw [show (s == s) = true from by simp] at hc
            cases hc
            obtain ⟨x, -, k2, k3⟩ := g8 f j hj
            exact ⟨x, k2, k3⟩
          · rw [show (s == name) = false from by simpa using hs] at hc
            obtain ⟨x, k1, k2⟩ := ha.fields s c hc f j hj
            exact ⟨x, k1, resolve_prefix hs1.prefix k2⟩
      obtain ⟨k1, k2, k3⟩ := next hag
      refine ⟨k1, fun n hn => ?_, fun n hn => ?_⟩
      · rcases List.mem_cons.1 hn with h | h
        · cases h
        · exact k2 n h
      · rcases List.mem_cons.1 hn with h | h
        · cases h
          refine ⟨b, inner, innerFields, g4, g6, fun f hf => ?_⟩
          obtain ⟨j, hj⟩ : ∃ j, (qualifiedFields body name).idxOf? f = some j := by
            cases hi : (qualifiedFields body name).idxOf? f with
            | some j => exact ⟨j, rfl⟩
            | none => exact absurd hf (List.idxOf?_eq_none_iff.1 hi)
          obtain ⟨x, k4, k5, -⟩ := g8 f j hj
          rw [k4, k5]
        · exact k3 n h

end

end DD.Ir
