import Verif.Proofs.LowerTotal

/-!
# Which programs are lowered: the worklist
-/

namespace DD.Ir
variable {L P Q N : Type*}

theorem lookup_isSome_iff {A B : Type*} [DecidableEq A] {l : List (A × B)} {a : A} : (l.lookup a).isSome = true ↔ a ∈ l.map Prod.fst := by
  induction l with
  | nil => simp
  | cons p l ih =>
    rw [List.lookup_cons, List.map_cons, List.mem_cons]
    by_cases h : a = p.1
    · simp [h]
    · rw [show (a == p.1) = false from by simpa using h]
      simp [h, ih]

theorem exists_least {A : Type*} (f : A → Nat) : ∀ {l : List A}, l ≠ [] → ∃ a ∈ l, ∀ b ∈ l, f a ≤ f b := by
  intro l
  induction l with
  | nil => intro h; exact absurd rfl h
  | cons a l ih =>
    intro _
    by_cases h : l = []
    · subst h
      exact ⟨a, List.mem_cons_self, fun b hb => by cases List.mem_singleton.1 hb; exact le_rfl⟩
    · obtain ⟨c, h1, h2⟩ := ih h
      by_cases hc : f a ≤ f c
      · refine ⟨a, List.mem_cons_self, fun b hb => ?_⟩
        rcases List.mem_cons.1 hb with rfl | hb
        · exact le_rfl
        · exact hc.trans (h2 b hb)
      · refine ⟨c, List.mem_cons_of_mem _ h1, fun b hb => ?_⟩
        rcases List.mem_cons.1 hb with rfl | hb
        · omega
        · exact h2 b hb

theorem mem_scopesOf {body : List (Stmt L P Q N)} {n : N} {b : List (Stmt L P Q N)} : (n, b) ∈ scopesOf body ↔ Stmt.scopeS n b ∈ body := by
  simp only [scopesOf, List.mem_reverse, List.mem_filterMap]
  constructor
  · rintro ⟨s, h1, h2⟩
    cases s <;> simp at h2
    obtain ⟨rfl, rfl⟩ := h2
    exact h1
  · intro h
    exact ⟨_, h, rfl⟩

theorem scopesOf_nodup {body : List (Stmt L P Q N)} (h : (localNames body).Nodup) : ((scopesOf body).map Prod.fst).Nodup := by
  have : ((scopesOf body).reverse.map Prod.fst).Sublist (localNames body) := by
    rw [scopesOf, List.reverse_reverse]
    clear h
    induction body with
    | nil => exact List.Sublist.slnil
    | cons s body ih =>
      cases s with
      | letS n e => exact ih.cons n
      | varS n e => exact ih.cons n
      | scopeS n b => exact ih.cons_cons n
      | exportS n e => exact ih
  have := h.sublist this
  rw [List.map_reverse] at this
  exact List.nodup_reverse.1 this

/-- A statement is the one of an item of the worklist. -/
def IsStmt (p : ItemKind × N) : Stmt L P Q N → Prop
  | .letS n _ => p = (.letK, n)
  | .scopeS n _ => p = (.scopeK, n)
  | _ => False

theorem isStmt_item {p : ItemKind × N} {s : Stmt L P Q N} (h : IsStmt p s) : s.item? = some p.2 := by
  cases s <;> simp only [IsStmt] at h <;> subst h <;> rfl

theorem item_name {s : Stmt L P Q N} {n : N} (h : s.item? = some n) : s.name? = some n := by cases s <;> first | exact h | cases h

theorem mem_orderOf {body : List (Stmt L P Q N)} {p : ItemKind × N} : p ∈ orderOf body ↔ ∃ s ∈ body, IsStmt p s := by
  obtain ⟨k, n⟩ := p
  cases k with
  | letK =>
    rw [mem_orderOf_let]
    constructor
    · rintro ⟨e, h⟩; exact ⟨_, h, rfl⟩
    · rintro ⟨s, h1, h2⟩
      cases s <;> simp [IsStmt] at h2
      subst h2
      exact ⟨_, h1⟩
  | scopeK =>
    rw [mem_orderOf_scope]
    constructor
    · rintro ⟨e, h⟩; exact ⟨_, h, rfl⟩
    · rintro ⟨s, h1, h2⟩
      cases s <;> simp [IsStmt] at h2
      subst h2
      exact ⟨_, h1⟩

theorem orderOf_of_item {body : List (Stmt L P Q N)} {s : Stmt L P Q N} {n : N} (hs : s ∈ body) (h : s.item? = some n) : ∃ p ∈ orderOf body, p.2 = n ∧ IsStmt p s := by
  cases s with
  | letS m e => cases h; exact ⟨(.letK, n), mem_orderOf.2 ⟨_, hs, rfl⟩, rfl, rfl⟩
  | scopeS m e => cases h; exact ⟨(.scopeK, n), mem_orderOf.2 ⟨_, hs, rfl⟩, rfl, rfl⟩
  | varS m e => cases h
  | exportS m e => cases h

section
variable [DecidableEq N] {inputName : Nat → N} {body : List (Stmt L P Q N)} {kids : List (N × LowerChild L P Q N)} {isRoot : Bool} {V : List N}

/-- The names and fields that are known once `done` is lowered; `V` are those known at first. -/
structure Keys (body : List (Stmt L P Q N)) (isRoot : Bool) (V : List N) (done : List (ItemKind × N)) (st : LowerState L P Q N) : Prop where
  isRoot : st.isRoot = isRoot
  env : ∀ m, st.Val m ↔ (ItemKind.letK, m) ∈ done ∨ m ∈ V
  fields : ∀ s f, st.Fld s f ↔ (ItemKind.scopeK, s) ∈ done ∧ f ∈ qualifiedFields body s

theorem Keys.ext {done : List (ItemKind × N)} {st st' : LowerState L P Q N} (h : Keys body isRoot V done st) (he : Ext st st') : Keys body isRoot V done st' :=
  ⟨he.isRoot.trans h.isRoot, fun m => by unfold LowerState.Val; rw [he.env]; exact h.env m, fun s f => by unfold LowerState.Fld; rw [he.children]; exact h.fields s f⟩

theorem Keys.step {done : List (ItemKind × N)} {st st' : LowerState L P Q N} {p : ItemKind × N} (h : Keys body isRoot V done st) (hs : lowerItem inputName body kids p st = some st') :
    Keys body isRoot V (p :: done) st' := by
  unfold lowerItem at hs
  obtain ⟨kind, name⟩ := p
  cases kind with
  | letK =>
    obtain ⟨e, -, hs⟩ := Option.bind_eq_some_iff.1 hs
    obtain ⟨q, h1, rfl⟩ := Option.map_eq_some_iff.1 hs
    have h2 := h.ext (lowerExpr_ext e (r := q.2) (st' := q.1) h1)
    refine ⟨h2.isRoot, fun m => ?_, fun s f => ?_⟩
    · have := h2.env m
      unfold LowerState.Val at this ⊢
      show (List.lookup m ((name, q.2) :: q.1.env)).isSome = true ↔ _
      rw [List.lookup_cons, List.mem_cons]
      by_cases hm : m = name
      · subst hm; simp
      · rw [show (m == name) = false from by simpa using hm]
        simp only [this, Prod.mk.injEq, hm, and_false, false_or]
    · have := h2.fields s f
      unfold LowerState.Fld at this ⊢
      rw [List.mem_cons]
      simpa using this
  | scopeK =>
    obtain ⟨lower, -, hs⟩ := Option.bind_eq_some_iff.1 hs
    obtain ⟨child, -, rfl⟩ := Option.map_eq_some_iff.1 hs
    refine ⟨h.isRoot, fun m => ?_, fun s f => ?_⟩
    · have := h.env m
      unfold LowerState.Val at this ⊢
      rw [List.mem_cons]
      simpa using this
    · have := h.fields s f
      unfold LowerState.Fld at this ⊢
      show (∃ c, List.lookup s ((name, st.items.length, qualifiedFields body name) :: st.children) = some c ∧ _) ↔ _
      rw [List.lookup_cons, List.mem_cons]
      by_cases hm : s = name
      · subst hm; simp
      · rw [show (s == name) = false from by simpa using hm]
        simp only [this, Prod.mk.injEq, hm, and_false, false_or]

theorem Keys.order : ∀ {order done : List (ItemKind × N)} {st stF : LowerState L P Q N}, Keys body isRoot V done st → order.foldlM (fun st p => lowerItem inputName body kids p st) st = some stF →
    Keys body isRoot V (order.reverse ++ done) stF := by
  intro order
  induction order with
  | nil => intro done st stF h hs; cases hs; exact h
  | cons p order ih =>
    intro done st stF h hs
    rw [List.foldlM_cons] at hs
    obtain ⟨st', h1, h2⟩ := Option.bind_eq_some_iff.1 hs
    have := ih (h.step h1) h2
    rwa [List.reverse_cons, List.append_assoc]

/-- When a nested scope is lowered. -/
def KidTotal (b : List (Stmt L P Q N)) (lower : LowerChild L P Q N) : Prop :=
  ∀ parentEnv wanted,
    (BodyOk false (fun m => (parentEnv.lookup m).isSome = true) b ∧ (∀ g ∈ wanted, Inside b (fun m => StmtsMention m b) g) → (lower parentEnv wanted).isSome = true) ∧
    (exportsIn b = [] → ExportsAtRoot b → (lower parentEnv wanted).isSome = true →
      BodyOk false (fun m => (parentEnv.lookup m).isSome = true) b ∧ ∀ g ∈ wanted, Inside b (fun m => StmtsMention m b) g)

/-- When an item is lowered. -/
theorem lowerItem_let (hnd : (localNames body).Nodup) {n : N} {e : Expr L P Q N} (he : .letS n e ∈ body) {done : List (ItemKind × N)} {st : LowerState L P Q N} (hk : Keys body isRoot V done st) :
    (lowerItem inputName body kids (.letK, n) st).isSome = true ↔
      ExprOk isRoot (fun m => (ItemKind.letK, m) ∈ done ∨ m ∈ V) (fun s f => (ItemKind.scopeK, s) ∈ done ∧ f ∈ qualifiedFields body s) e := by
  have hl : (letsOf body).lookup n = some e := lookup_of_mem (letsOf_nodup hnd) (mem_letsOf.2 he)
  have h1 : st.Val = fun m => (ItemKind.letK, m) ∈ done ∨ m ∈ V := funext fun m => propext (hk.env m)
  have h2 : st.Fld = fun s f => (ItemKind.scopeK, s) ∈ done ∧ f ∈ qualifiedFields body s := funext fun s => funext fun f => propext (hk.fields s f)
  simp only [lowerItem, hl, Option.bind_some, isSome_map']
  rw [lowerExpr_isSome, h1, h2, hk.isRoot]

theorem lowerItem_scope {n : N} {lower : LowerChild L P Q N} (hl : kids.lookup n = some lower) {st : LowerState L P Q N} :
    (lowerItem inputName body kids (.scopeK, n) st).isSome = true ↔ (lower st.env (qualifiedFields body n)).isSome = true := by
  simp only [lowerItem, hl, Option.bind_some, isSome_map']

/-! ### The worklist -/

theorem dropDep_lookup {deps : List (N × List N)} {x n : N} : (dropDep deps x).lookup n = if n = x then none else (deps.lookup n).map (·.filter (· ≠ x)) := by
  unfold dropDep
  induction deps with
  | nil => simp
  | cons p deps ih =>
    by_cases hp : p.1 = x
    · rw [List.filter_cons_of_neg (by simp [hp]), ih]
      by_cases hn : n = x
      · rw [if_pos hn, if_pos hn]
      · rw [if_neg hn, if_neg hn, List.lookup_cons, show (n == p.1) = false from by rw [hp]; simpa using hn]
    · rw [List.filter_cons_of_pos (by simp [hp]), List.map_cons, List.lookup_cons, ih, List.lookup_cons]
      by_cases hn : n = p.1
      · have hx : n ≠ x := by rw [hn]; exact hp
        rw [show (n == p.1) = true from by simp [hn], if_neg hx, if_neg hx]
        rfl
      · rw [show (n == p.1) = false from by simpa using hn]

theorem firstReady_some {deps : List (N × List N)} : ∀ {pending : List (ItemKind × N)}, (∀ p ∈ pending, (deps.lookup p.2).isSome = true) → (∃ p ∈ pending, deps.lookup p.2 = some []) →
    ∃ pos p, firstReady deps pending = some pos ∧ pending[pos]? = some p ∧ deps.lookup p.2 = some [] := by
  intro pending
  induction pending with
  | nil => rintro - ⟨p, hp, -⟩; cases hp
  | cons p pending ih =>
    intro h1 h2
    obtain ⟨d, hd⟩ := Option.isSome_iff_exists.1 (h1 p List.mem_cons_self)
    rw [firstReady, hd, Option.bind_some]
    by_cases he : d.isEmpty = true
    · rw [if_pos he]
      rw [List.isEmpty_iff] at he
      exact ⟨0, p, rfl, rfl, by rw [hd, he]⟩
    · rw [if_neg he]
      obtain ⟨pos, q, g1, g2, g3⟩ := ih (fun q hq => h1 q (List.mem_cons_of_mem _ hq)) (by
        obtain ⟨q, hq, hq2⟩ := h2
        rcases List.mem_cons.1 hq with rfl | hq
        · rw [hd] at hq2
          cases hq2
          simp at he
        · exact ⟨q, hq, hq2⟩)
      exact ⟨pos + 1, q, by rw [g1]; rfl, g2, g3⟩

/-- The other items an item depends on. -/
def Dep (body : List (Stmt L P Q N)) (p : ItemKind × N) (m : N) : Prop := ∃ s ∈ body, IsStmt p s ∧ StmtMentions m s ∧ m ≠ p.2 ∧ m ∈ (orderOf body).map Prod.snd

theorem lowerItems_isSome (hnd : (localNames body).Nodup) {rank : N → Nat} (hrank : ∀ s ∈ body, ∀ n, s.item? = some n → ∀ s' ∈ body, ∀ m, s'.item? = some m → StmtMentions m s → rank m < rank n)
    (hitem : ∀ p s done st, s ∈ body → IsStmt p s → Keys body isRoot V done st → (∀ q ∈ orderOf body, StmtMentions q.2 s → q ∈ done) → (lowerItem inputName body kids p st).isSome = true) :
    ∀ (k : Nat) (pending done : List (ItemKind × N)) (deps : List (N × List N)) (st : LowerState L P Q N), pending.length ≤ k → (pending.map Prod.snd).Nodup →
      (∀ p, p ∈ orderOf body ↔ p ∈ pending ∨ p ∈ done) → Keys body isRoot V done st →
      (∀ p ∈ pending, ∃ d, deps.lookup p.2 = some d ∧ ∀ m, m ∈ d ↔ Dep body p m ∧ m ∉ done.map Prod.snd) →
      (lowerItems inputName body kids k pending deps st).isSome = true := by
  have hdep : ∀ p m, Dep body p m → rank m < rank p.2 := by
    rintro p m ⟨s, h1, h2, h3, -, h5⟩
    obtain ⟨q, h6, rfl⟩ := List.mem_map.1 h5
    obtain ⟨s', h7, h8⟩ := mem_orderOf.1 h6
    exact hrank s h1 p.2 (isStmt_item h2) s' h7 q.2 (isStmt_item h8) h3
  intro k
  induction k with
  | zero =>
    intro pending done deps st hl _ _ _ _
    have : pending = [] := List.length_eq_zero_iff.1 (by omega)
    simp [lowerItems, this]
  | succ k ih =>
    intro pending done deps st hl hn hp hk hd
    simp only [lowerItems]
    by_cases he : pending.isEmpty = true
    · rw [if_pos he]; rfl
    rw [if_neg he]
    have hne : pending ≠ [] := by simpa using he
    -- an item of least rank has nothing left to wait for
    have hready : ∃ p ∈ pending, deps.lookup p.2 = some [] := by
      obtain ⟨p, hp1, hp2⟩ := exists_least (fun p : ItemKind × N => rank p.2) hne
      refine ⟨p, hp1, ?_⟩
      obtain ⟨d, g1, g2⟩ := hd p hp1
      rw [g1]
      cases d with
      | nil => rfl
      | cons m d =>
        obtain ⟨g3, g4⟩ := (g2 m).1 List.mem_cons_self
        obtain ⟨q, g5, rfl⟩ := List.mem_map.1 (show m ∈ (orderOf body).map Prod.snd from by obtain ⟨_, _, _, _, _, h⟩ := g3; exact h)
        have : q ∈ pending := ((hp q).1 g5).resolve_right fun h => g4 (List.mem_map_of_mem h)
        exact absurd (hdep p q.2 g3) (by have := hp2 q this; omega)
    obtain ⟨pos, p, g1, g2, g3⟩ := firstReady_some (fun p hp => by obtain ⟨d, h, -⟩ := hd p hp; rw [h]; rfl) hready
    rw [g1, Option.bind_some, g2, Option.bind_some]
    have hpm : p ∈ pending := List.mem_of_getElem? g2
    obtain ⟨hlt, hget⟩ := List.getElem?_eq_some_iff.1 g2
    have hperm := List.getElem_cons_eraseIdx_perm hlt
    rw [hget] at hperm
    obtain ⟨s, hs1, hs2⟩ := mem_orderOf.1 ((hp p).2 (.inl hpm))
    have hdone : ∀ q ∈ orderOf body, StmtMentions q.2 s → q ∈ done := by
      intro q hq hm
      obtain ⟨d, g4, g5⟩ := hd p hpm
      rw [g3] at g4
      cases g4
      obtain ⟨s', hs3, hs4⟩ := mem_orderOf.1 hq
      have hne : q.2 ≠ p.2 := fun h => by
        have := hrank s hs1 p.2 (isStmt_item hs2) s' hs3 q.2 (isStmt_item hs4) hm
        rw [h] at this
        omega
      have h1 : q.2 ∈ done.map Prod.snd := by
        by_contra h
        exact absurd ((g5 q.2).2 ⟨⟨s, hs1, hs2, hm, hne, List.mem_map_of_mem hq⟩, h⟩) (by simp)
      obtain ⟨q', h2, h3⟩ := List.mem_map.1 h1
      obtain ⟨s'', hs5, hs6⟩ := mem_orderOf.1 ((hp q').2 (.inr h2))
      have h4 : s'' = s' := stmt_unique hnd hs5 hs3 (item_name (isStmt_item hs6)) (by rw [h3]; exact item_name (isStmt_item hs4))
      subst h4
      have : q' = q := by
        cases s'' <;> simp only [IsStmt] at hs4 hs6 <;> rw [hs4, hs6]
      rw [← this]
      exact h2
    obtain ⟨st', hst⟩ := Option.isSome_iff_exists.1 (hitem p s done st hs1 hs2 hk hdone)
    rw [hst, Option.bind_some]
    have hn' := (hperm.map Prod.snd).nodup_iff.2 hn
    rw [List.map_cons, List.nodup_cons] at hn'
    refine ih _ (p :: done) _ st' ?_ hn'.2 ?_ (hk.step hst) ?_
    · have := hperm.length_eq
      rw [List.length_cons] at this
      omega
    · intro q
      rw [hp q, ← hperm.mem_iff, List.mem_cons, List.mem_cons]
      tauto
    · intro q hq
      have hqp : q ∈ pending := hperm.mem_iff.1 (List.mem_cons_of_mem _ hq)
      obtain ⟨d, k1, k2⟩ := hd q hqp
      have hne : q.2 ≠ p.2 := fun h => hn'.1 (List.mem_map.2 ⟨q, hq, h⟩)
      refine ⟨d.filter (· ≠ p.2), by rw [dropDep_lookup, if_neg hne, k1]; rfl, fun m => ?_⟩
      rw [List.mem_filter, k2, List.map_cons, List.mem_cons]
      simp only [ne_eq, decide_not, Bool.not_eq_eq_eq_not, Bool.not_true, decide_eq_false_iff_not]
      tauto

/-- The dependencies at first. -/
theorem allDeps_lookup (hnd : (localNames body).Nodup) {p : ItemKind × N} (hp : p ∈ orderOf body) : ∃ d, (allDeps body).lookup p.2 = some d ∧ ∀ m, m ∈ d ↔ Dep body p m ∧ m ∉ ([] : List (ItemKind × N)).map Prod.snd := by
  have hdef : ∀ m, m ∈ (letsOf body).map Prod.fst ++ (scopesOf body).map Prod.fst ↔ m ∈ (orderOf body).map Prod.snd := by
    intro m
    rw [List.mem_append, List.mem_map, List.mem_map, List.mem_map]
    constructor
    · rintro (⟨⟨n, e⟩, h, rfl⟩ | ⟨⟨n, e⟩, h, rfl⟩)
      · exact ⟨(.letK, n), mem_orderOf_let.2 ⟨e, mem_letsOf.1 h⟩, rfl⟩
      · exact ⟨(.scopeK, n), mem_orderOf_scope.2 ⟨e, mem_scopesOf.1 h⟩, rfl⟩
    · rintro ⟨⟨k, n⟩, h, rfl⟩
      cases k with
      | letK => obtain ⟨e, h⟩ := mem_orderOf_let.1 h; exact .inl ⟨(n, e), mem_letsOf.2 h, rfl⟩
      | scopeK => obtain ⟨e, h⟩ := mem_orderOf_scope.1 h; exact .inr ⟨(n, e), mem_scopesOf.2 h, rfl⟩
  have hkeys : ((allDeps body).map Prod.fst).Nodup := by
    have : (allDeps body).map Prod.fst = (scopesOf body).map Prod.fst ++ (letsOf body).map Prod.fst := by simp [allDeps, Function.comp_def]
    rw [this, List.nodup_append]
    refine ⟨scopesOf_nodup hnd, letsOf_nodup hnd, fun a ha b hb hab => ?_⟩
    obtain ⟨⟨n, x⟩, h1, rfl⟩ := List.mem_map.1 ha
    obtain ⟨⟨n', y⟩, h2, rfl⟩ := List.mem_map.1 hb
    cases hab
    have := stmt_unique hnd (mem_scopesOf.1 h1) (mem_letsOf.1 h2) rfl rfl
    cases this
  have huniq : ∀ {s : Stmt L P Q N}, s ∈ body → IsStmt p s → ∀ m, Dep body p m ↔ StmtMentions m s ∧ m ≠ p.2 ∧ m ∈ (orderOf body).map Prod.snd := by
    intro s hs hp m
    constructor
    · rintro ⟨s', h1, h2, h3⟩
      have := stmt_unique hnd h1 hs (item_name (isStmt_item h2)) (item_name (isStmt_item hp))
      subst this
      exact h3
    · exact fun h => ⟨s, hs, hp, h⟩
  obtain ⟨k, n⟩ := p
  cases k with
  | letK =>
    obtain ⟨e, he⟩ := mem_orderOf_let.1 hp
    refine ⟨_, lookup_of_mem hkeys (a := n) (b := depsOf (exprFree e) ((letsOf body).map Prod.fst ++ (scopesOf body).map Prod.fst) n) ?_, fun m => ?_⟩
    · exact List.mem_append_right _ (List.mem_map.2 ⟨(n, e), mem_letsOf.2 he, rfl⟩)
    · rw [huniq he rfl, depsOf, List.mem_filter, mem_exprFree, ← hdef]
      simp [StmtMentions]
  | scopeK =>
    obtain ⟨b, he⟩ := mem_orderOf_scope.1 hp
    refine ⟨_, lookup_of_mem hkeys (a := n) (b := depsOf (bodyFree b) ((letsOf body).map Prod.fst ++ (scopesOf body).map Prod.fst) n) ?_, fun m => ?_⟩
    · exact List.mem_append_left _ (List.mem_map.2 ⟨(n, b), mem_scopesOf.2 he, rfl⟩)
    · rw [huniq he rfl, depsOf, List.mem_filter, mem_bodyFree, ← hdef]
      simp [StmtMentions]

end

end DD.Ir
