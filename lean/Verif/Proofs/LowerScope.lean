import Verif.Proofs.LowerItems

/-!
# Lowering of scopes
-/

namespace DD.Ir
variable {L P Q N Col Arr : Type*} {sem : Sem L P Q N Col Arr}

/-! ### The statements of a scope -/

theorem stmtsSem_iff {depth : Nat} {ext : Source N → Option Col} {env : N → Option (Rendered Col Arr)} {fields : N → N → Option (Rendered Col Arr)} {body : List (Stmt L P Q N)} :
    StmtsSem sem depth ext env fields body ↔ ∀ s ∈ body, StmtSem sem depth ext env fields s := by
  induction body with
  | nil => simp [StmtsSem]
  | cons s body ih => simp only [StmtsSem, ih, List.forall_mem_cons]

theorem stmtsDistinct_iff {body : List (Stmt L P Q N)} : StmtsDistinct body ↔ ∀ s ∈ body, StmtDistinct s := by
  induction body with
  | nil => simp [StmtsDistinct]
  | cons s body ih => simp only [StmtsDistinct, ih, List.forall_mem_cons]

theorem mem_localNames {body : List (Stmt L P Q N)} {s : Stmt L P Q N} {n : N} (hs : s ∈ body) (hn : s.name? = some n) : n ∈ localNames body := List.mem_filterMap.2 ⟨s, hs, hn⟩

theorem stmt_unique {body : List (Stmt L P Q N)} (h : (localNames body).Nodup) {s s' : Stmt L P Q N} {n : N} (hs : s ∈ body) (hs' : s' ∈ body) (hn : s.name? = some n) (hn' : s'.name? = some n) :
    s = s' := by
  induction body with
  | nil => cases hs
  | cons a body ih =>
    cases ha : a.name? with
    | none =>
      have h' : (localNames body).Nodup := by
        rw [localNames, List.filterMap_cons_none ha] at h
        exact h
      rcases List.mem_cons.1 hs with rfl | hs
      · rw [ha] at hn; cases hn
      · rcases List.mem_cons.1 hs' with rfl | hs'
        · rw [ha] at hn'; cases hn'
        · exact ih h' hs hs'
    | some m =>
      rw [localNames, List.filterMap_cons_some ha, List.nodup_cons] at h
      rcases List.mem_cons.1 hs with h1 | h1
      · rcases List.mem_cons.1 hs' with h2 | h2
        · rw [h1, h2]
        · rw [h1, ha] at hn; cases hn; exact absurd (mem_localNames h2 hn') h.1
      · rcases List.mem_cons.1 hs' with h2 | h2
        · rw [h2, ha] at hn'; cases hn'; exact absurd (mem_localNames h1 hn) h.1
        · exact ih h.2 h1 h2

theorem mem_letsOf {body : List (Stmt L P Q N)} {n : N} {e : Expr L P Q N} : (n, e) ∈ letsOf body ↔ Stmt.letS n e ∈ body := by
  simp only [letsOf, List.mem_reverse, List.mem_filterMap]
  constructor
  · rintro ⟨s, h1, h2⟩
    cases s <;> simp at h2
    obtain ⟨rfl, rfl⟩ := h2
    exact h1
  · intro h
    exact ⟨_, h, rfl⟩

theorem mem_varsOf {body : List (Stmt L P Q N)} {n : N} {e : Expr L P Q N} : (n, e) ∈ varsOf body ↔ Stmt.varS n e ∈ body := by
  simp only [varsOf, List.mem_filterMap]
  constructor
  · rintro ⟨s, h1, h2⟩
    cases s <;> simp at h2
    obtain ⟨rfl, rfl⟩ := h2
    exact h1
  · intro h
    exact ⟨_, h, rfl⟩

theorem mem_orderOf_let {body : List (Stmt L P Q N)} {n : N} : (ItemKind.letK, n) ∈ orderOf body ↔ ∃ e, Stmt.letS n e ∈ body := by
  simp only [orderOf, List.mem_filterMap]
  constructor
  · rintro ⟨s, h1, h2⟩
    cases s <;> simp at h2
    subst h2
    exact ⟨_, h1⟩
  · rintro ⟨e, h⟩
    exact ⟨_, h, rfl⟩

theorem mem_orderOf_scope {body : List (Stmt L P Q N)} {n : N} : (ItemKind.scopeK, n) ∈ orderOf body ↔ ∃ b, Stmt.scopeS n b ∈ body := by
  simp only [orderOf, List.mem_filterMap]
  constructor
  · rintro ⟨s, h1, h2⟩
    cases s <;> simp at h2
    subst h2
    exact ⟨_, h1⟩
  · rintro ⟨e, h⟩
    exact ⟨_, h, rfl⟩

theorem orderOf_sublist (body : List (Stmt L P Q N)) : ((orderOf body).map Prod.snd).Sublist (localNames body) := by
  induction body with
  | nil => exact List.Sublist.slnil
  | cons s body ih =>
    cases s with
    | letS n e => exact ih.cons_cons n
    | varS n e => exact ih.cons n
    | scopeS n b => exact ih.cons_cons n
    | exportS n e => exact ih

theorem varsOf_sublist (body : List (Stmt L P Q N)) : ((varsOf body).map Prod.fst).Sublist (localNames body) := by
  induction body with
  | nil => exact List.Sublist.slnil
  | cons s body ih =>
    cases s with
    | letS n e => exact ih.cons n
    | varS n e => exact ih.cons_cons n
    | scopeS n b => exact ih.cons n
    | exportS n e => exact ih

theorem letsOf_nodup {body : List (Stmt L P Q N)} (h : (localNames body).Nodup) : ((letsOf body).map Prod.fst).Nodup := by
  have : ((letsOf body).reverse.map Prod.fst).Sublist (localNames body) := by
    rw [letsOf, List.reverse_reverse]
    clear h
    induction body with
    | nil => exact List.Sublist.slnil
    | cons s body ih =>
      cases s with
      | letS n e => exact ih.cons_cons n
      | varS n e => exact ih.cons n
      | scopeS n b => exact ih.cons n
      | exportS n e => exact ih
  have := h.sublist this
  rw [List.map_reverse] at this
  exact List.nodup_reverse.1 this

theorem get_inj {A : Type*} {l : List A} (h : l.Nodup) {i j : Nat} {a : A} (hi : l[i]? = some a) (hj : l[j]? = some a) : i = j := by
  obtain ⟨h1, rfl⟩ := List.getElem?_eq_some_iff.1 hi
  obtain ⟨h2, h3⟩ := List.getElem?_eq_some_iff.1 hj
  exact ((List.Nodup.getElem_inj_iff h).1 h3).symm

theorem lowerExprs_length [DecidableEq N] {inputName : Nat → N} : ∀ (es : List (Expr L P Q N)) {st st' : LowerState L P Q N} {rs : List Ref}, lowerExprs inputName es st = some (st', rs) →
    rs.length = es.length := by
  intro es
  induction es with
  | nil => intro st st' rs h; simp only [lowerExprs] at h; cases h; rfl
  | cons e es ih =>
    intro st st' rs h
    simp only [lowerExprs] at h
    obtain ⟨p, h1, h2⟩ := Option.bind_eq_some_iff.1 h
    obtain ⟨q, h3, h4⟩ := Option.map_eq_some_iff.1 h2
    cases h4
    rw [List.length_cons, List.length_cons, ih h3]

theorem exprsSem_iff {depth : Nat} {ext : Source N → Option Col} {env : N → Option (Rendered Col Arr)} {fields : N → N → Option (Rendered Col Arr)} :
    ∀ {es : List (Expr L P Q N)} {xs : List (Rendered Col Arr)}, exprsSem sem depth ext env fields es = some xs ↔ List.Forall₂ (fun e x => exprSem sem depth ext env fields e = some x) es xs := by
  intro es
  induction es with
  | nil => intro xs; simp only [exprsSem, List.forall₂_nil_left_iff, Option.some.injEq, eq_comm]
  | cons e es ih =>
    intro xs
    simp only [exprsSem, List.forall₂_cons_left_iff, Option.bind_eq_some_iff, Option.map_eq_some_iff, ih]
    constructor
    · rintro ⟨x, h1, xs', h2, rfl⟩; exact ⟨x, xs', h1, h2, rfl⟩
    · rintro ⟨x, xs', h1, h2, rfl⟩; exact ⟨x, h1, xs', h2, rfl⟩

theorem bindsOf_get [DecidableEq N] {vars : List N} {values : List Ref} {binds : List Bind} (hn : vars.Nodup) (hl : values.length = vars.length) (h : bindsOf vars values = some binds) :
    binds.length = vars.length ∧ ∀ (i : Nat) (b : Bind), binds[i]? = some b → b.var = i ∧ values[i]? = some b.value := by
  have h := mapM_some_iff.1 h
  refine ⟨by rw [← h.length_eq, List.length_zip, hl, Nat.min_self], fun i b hb => ?_⟩
  obtain ⟨⟨n, r⟩, h1, h2⟩ := forall₂_get h i b hb
  obtain ⟨k, h3, rfl⟩ := Option.map_eq_some_iff.1 h2
  obtain ⟨h4, h5⟩ := List.getElem?_zip_eq_some.1 h1
  have h6 := mem_of_lookup h3
  rw [List.mem_reverse, List.mem_zipIdx_iff_getElem?] at h6
  exact ⟨get_inj hn h6 h4, h5⟩

section
variable [DecidableEq N] {inputName : Nat → N} {body : List (Stmt L P Q N)} {kids : List (N × LowerChild L P Q N)}

/-- The names that are known at first (lower.rs:190-200, 217-225). -/
def firstEnv (vars : List N) (imports : List (Import N)) : List (N × Ref) :=
  (vars.zipIdx.map fun p => (p.1, Ref.var p.2)).reverse ++ (imports.zipIdx.map fun p => (p.1.name, Ref.imp p.2)).reverse

theorem firstEnv_lookup {vars : List N} {imports : List (Import N)} {n : N} {r : Ref} (h : (firstEnv vars imports).lookup n = some r) :
    (∃ i : Nat, vars[i]? = some n ∧ r = .var i) ∨ ∃ (i : Nat) (imp : Import N), imports[i]? = some imp ∧ imp.name = n ∧ r = .imp i := by
  have h := mem_of_lookup h
  rw [firstEnv, List.mem_append, List.mem_reverse, List.mem_reverse, List.mem_map, List.mem_map] at h
  rcases h with ⟨⟨m, i⟩, h1, h2⟩ | ⟨⟨imp, i⟩, h1, h2⟩
  · cases h2
    exact .inl ⟨i, List.mem_zipIdx_iff_getElem?.1 h1, rfl⟩
  · cases h2
    exact .inr ⟨i, imp, List.mem_zipIdx_iff_getElem?.1 h1, rfl, rfl⟩

theorem firstEnv_var {vars : List N} {imports : List (Import N)} (hv : vars.Nodup) {n : N} {i : Nat} (h : vars[i]? = some n) : (firstEnv vars imports).lookup n = some (.var i) := by
  have h1 : (n, Ref.var i) ∈ (vars.zipIdx.map fun p => (p.1, Ref.var p.2)).reverse := by
    rw [List.mem_reverse, List.mem_map]
    exact ⟨(n, i), List.mem_zipIdx_iff_getElem?.2 h, rfl⟩
  have h2 : (((vars.zipIdx.map fun p => (p.1, Ref.var p.2)).reverse).map Prod.fst).Nodup := by
    rw [List.map_reverse, List.nodup_reverse, List.map_map]
    have : (Prod.fst ∘ fun p : N × Nat => (p.1, Ref.var p.2)) = Prod.fst := rfl
    rw [this, List.zipIdx_map_fst]
    exact hv
  rw [firstEnv, List.lookup_append, lookup_of_mem h2 h1]
  rfl

variable {depth : Nat} {ext : Source N → Option Col} {I : List Col} {outer : N → Option (Rendered Col Arr)} {isRoot : Bool} {imports : List (Import N)} {order : List (ItemKind × N)}
  {st1 st2 st3 : LowerState L P Q N} {rs2 rs3 : List Ref} {binds : List Bind} {exps : List (Expr L P Q N)}

/-- How a scope was lowered. -/
structure Lowered (inputName : Nat → N) (body : List (Stmt L P Q N)) (kids : List (N × LowerChild L P Q N)) (isRoot : Bool) (imports : List (Import N)) (order : List (ItemKind × N))
    (st1 st2 st3 : LowerState L P Q N) (rs2 rs3 : List Ref) (binds : List Bind) (exps : List (Expr L P Q N)) : Prop where
  nodup : (localNames body).Nodup
  perm : order.Perm (orderOf body)
  items : order.foldlM (fun st p => lowerItem inputName body kids p st) ⟨isRoot, [], imports, firstEnv ((varsOf body).map Prod.fst) imports, []⟩ = some st1
  vars : lowerExprs inputName ((varsOf body).map Prod.snd) st1 = some (st2, rs2)
  binds : bindsOf ((varsOf body).map Prod.fst) rs2 = some binds
  exports : lowerExprs inputName exps st2 = some (st3, rs3)

variable (hlow : Lowered inputName body kids isRoot imports order st1 st2 st3 rs2 rs3 binds exps)
include hlow

omit hlow in
theorem agree_first {env : N → Option (Rendered Col Arr)} {fields : N → N → Option (Rendered Col Arr)} {V : List Col} (hout : Outside outer I imports)
    (himp : ∀ imp ∈ imports, imp.name ∉ localNames body) (henv : ∀ m, m ∉ localNames body → env m = outer m)
    (hV : ∀ (i : Nat) n, ((varsOf body).map Prod.fst)[i]? = some n → ∃ c, V[i]? = some c ∧ env n = some (.coll c)) :
    Agree env fields I V (⟨isRoot, [], imports, firstEnv ((varsOf body).map Prod.fst) imports, []⟩ : LowerState L P Q N) [] := by
  refine ⟨rfl, fun n r hr => ?_, fun s c hc => by cases hc⟩
  rcases firstEnv_lookup hr with ⟨i, h1, rfl⟩ | ⟨i, imp, h1, rfl, rfl⟩
  · obtain ⟨c, h2, h3⟩ := hV i n h1
    exact ⟨.coll c, h3, by simp only [resolve, h2, Option.map_some]⟩
  · obtain ⟨c, h2, h3⟩ := hout i imp h1
    exact ⟨.coll c, by rw [henv _ (himp imp (List.mem_of_getElem? h1)), h2], by simp only [resolve, h3, Option.map_some]⟩

theorem Lowered.binds_get : binds.length = (varsOf body).length ∧ ∀ (i : Nat) (b : Bind), binds[i]? = some b → b.var = i ∧ rs2[i]? = some b.value := by
  have hl : rs2.length = ((varsOf body).map Prod.fst).length := by rw [lowerExprs_length _ hlow.vars, List.length_map, List.length_map]
  have := bindsOf_get (hlow.nodup.sublist (varsOf_sublist body)) hl hlow.binds
  rwa [List.length_map] at this

theorem Lowered.mono : st1.items <+: st2.items ∧ st2.items <+: st3.items ∧ Ext st1 st2 ∧ Ext st2 st3 :=
  ⟨(lowerExprs_ext _ hlow.vars).items, (lowerExprs_ext _ hlow.exports).items, lowerExprs_ext _ hlow.vars, lowerExprs_ext _ hlow.exports⟩

theorem Lowered.backward (hkids : ∀ n lower, kids.lookup n = some lower → ∃ b, .scopeS n b ∈ body ∧ KidOk sem b lower) (hout : Outside outer I imports)
    (himp : ∀ imp ∈ imports, imp.name ∉ localNames body) (hfed : Fed ext I st3.imports) {env : N → Option (Rendered Col Arr)} {fields : N → N → Option (Rendered Col Arr)}
    (hb : BodySem sem depth ext outer env fields body) {xs : List (Rendered Col Arr)} (hx : exprsSem sem depth ext env fields exps = some xs) :
    ∃ V F, V.length = (varsOf body).length ∧ ItemsSem sem st3.items depth I V [] F ∧ VarsOk sem depth (resolve (F[·]?) I V) binds V ∧ Agree env fields I V st3 F ∧
      List.Forall₂ (fun r x => resolve (F[·]?) I V r = some x) rs3 xs := by
  obtain ⟨henv, hst⟩ := hb
  rw [stmtsSem_iff] at hst
  have hV : ∃ V, List.Forall₂ (fun (p : N × Expr L P Q N) c => ∃ x, exprSem sem depth ext env fields p.2 = some x ∧ env p.1 = some (.coll c) ∧ c = sem.feedback depth (x.collection sem))
      (varsOf body) V := by
    have : ∀ p ∈ varsOf body, ∃ c, ∃ x, exprSem sem depth ext env fields p.2 = some x ∧ env p.1 = some (.coll c) ∧ c = sem.feedback depth (x.collection sem) := by
      rintro ⟨n, e⟩ hp
      have := hst _ (mem_varsOf.1 hp)
      simp only [StmtSem] at this
      obtain ⟨x, h1, h2⟩ := this
      exact ⟨_, x, h1, h2, rfl⟩
    revert this
    generalize varsOf body = l
    intro this
    induction l with
    | nil => exact ⟨[], List.Forall₂.nil⟩
    | cons p l ih =>
      obtain ⟨V, hV⟩ := ih fun q hq => this q (List.mem_cons_of_mem _ hq)
      obtain ⟨c, hc⟩ := this p List.mem_cons_self
      exact ⟨c :: V, List.Forall₂.cons hc hV⟩
  obtain ⟨V, hV⟩ := hV
  have hVlen : V.length = (varsOf body).length := hV.length_eq.symm
  have hag := agree_first (isRoot := isRoot) (fields := fields) (V := V) hout himp henv fun i n hi => by
    rw [List.getElem?_map] at hi
    obtain ⟨p, h1, rfl⟩ := Option.map_eq_some_iff.1 hi
    obtain ⟨c, h2, x, -, h3, -⟩ := forall₂_get' hV i p h1
    exact ⟨c, h2, h3⟩
  obtain ⟨m1, m2, e1, e2⟩ := hlow.mono
  obtain ⟨F1, hs1, ha1⟩ := items_backward (depth := depth) (ext := ext) hkids (fun n e he => by
      have := hst _ (mem_letsOf.1 (mem_of_lookup he))
      simpa only [StmtSem] using this)
    (fun n b hb => by
      have := hst _ hb
      simp only [StmtSem] at this
      obtain ⟨-, inner, innerFields, h1, h2, h3⟩ := this
      exact ⟨inner, innerFields, ⟨h1, h2⟩, h3⟩) hlow.items hag (hfed.prefix (e1.imports.trans e2.imports))
  have hvs := lowerExprs_sim (sem := sem) (depth := depth) (ext := ext) _ hlow.vars ha1 (hfed.prefix e2.imports)
  have hvx : ∃ ys, exprsSem sem depth ext env fields ((varsOf body).map Prod.snd) = some ys ∧
      List.Forall₂ (fun (p : N × Expr L P Q N) y => exprSem sem depth ext env fields p.2 = some y) (varsOf body) ys := by
    obtain ⟨ys, hys⟩ : ∃ ys, List.Forall₂ (fun (p : N × Expr L P Q N) y => exprSem sem depth ext env fields p.2 = some y) (varsOf body) ys := by
      clear hVlen hag hs1 ha1 hvs
      revert hV
      generalize varsOf body = l
      intro hV
      induction hV with
      | nil => exact ⟨[], List.Forall₂.nil⟩
      | cons h _ ih =>
        obtain ⟨x, h1, -⟩ := h
        obtain ⟨ys, hys⟩ := ih
        exact ⟨x :: ys, List.Forall₂.cons h1 hys⟩
    exact ⟨ys, exprsSem_iff.2 (List.forall₂_map_left_iff.2 hys), hys⟩
  obtain ⟨ys, hy1, hy2⟩ := hvx
  obtain ⟨F2, hs2⟩ := hvs.2 ys hy1
  obtain ⟨ys', hy3, hy4⟩ := hvs.1 F2 hs2
  obtain rfl : ys = ys' := by rw [hy1] at hy3; cases hy3; rfl
  have ha2 := ha1.steps e1 hs2
  have hxs := lowerExprs_sim (sem := sem) (depth := depth) (ext := ext) _ hlow.exports ha2 hfed
  obtain ⟨F3, hs3⟩ := hxs.2 xs hx
  obtain ⟨xs', hx3, hx4⟩ := hxs.1 F3 hs3
  obtain rfl : xs = xs' := by rw [hx] at hx3; cases hx3; rfl
  have ha3 := ha2.steps e2 hs3
  obtain ⟨a1, -, -, -⟩ := lowerOrder_mono hlow.items
  have hall : Steps sem depth I V (⟨isRoot, [], imports, firstEnv ((varsOf body).map Prod.fst) imports, []⟩ : LowerState L P Q N) st3 [] F3 :=
    (steps_trans (a1.trans m1) m2).2 ⟨F2, (steps_trans a1 m1).2 ⟨F1, hs1, hs2⟩, hs3⟩
  obtain ⟨new, hn1, hn2⟩ := hall
  rw [List.nil_append] at hn1
  refine ⟨V, F3, hVlen, by rw [hn1]; exact hn2, ?_, ha3, hx4⟩
  obtain ⟨hbl, hbg⟩ := hlow.binds_get
  refine ⟨?_, ?_, ?_⟩
  · rw [List.nodup_iff_getElem?_ne_getElem?]
    intro i j hij hj
    rw [List.length_map] at hj
    rw [List.getElem?_map, List.getElem?_map, List.getElem?_eq_getElem hj, List.getElem?_eq_getElem (lt_trans hij hj)]
    have h1 := (hbg i _ (List.getElem?_eq_getElem (lt_trans hij hj))).1
    have h2 := (hbg j _ (List.getElem?_eq_getElem hj)).1
    simp only [Option.map_some, h1, h2, ne_eq, Option.some.injEq]
    omega
  · intro b hb
    obtain ⟨i, hi⟩ := List.getElem?_of_mem hb
    obtain ⟨h1, h2⟩ := hbg i b hi
    obtain ⟨y, h3, h4⟩ := forall₂_get' hy4 i _ h2
    obtain ⟨p, h5, h6⟩ := forall₂_get hy2 i y h3
    obtain ⟨c, h7, x, h8, h9, h10⟩ := forall₂_get' hV i p h5
    obtain rfl : y = x := by rw [h6] at h8; cases h8; rfl
    exact ⟨y, resolve_prefix hs3.prefix h4, by rw [h1, h7, h10]⟩
  · intro v hv hv'
    rw [hVlen, ← hbl] at hv
    exact absurd (List.mem_map.2 ⟨binds[v], List.getElem_mem hv, (hbg v _ (List.getElem?_eq_getElem hv)).1⟩) hv'

open Classical in
theorem Lowered.forward (hkids : ∀ n lower, kids.lookup n = some lower → ∃ b, .scopeS n b ∈ body ∧ KidOk sem b lower) (hout : Outside outer I imports)
    (himp : ∀ imp ∈ imports, imp.name ∉ localNames body) (hfed : Fed ext I st3.imports) {V : List Col} {F : List (RItem Col Arr)} (hVl : V.length = (varsOf body).length)
    (hF : ItemsSem sem st3.items depth I V [] F) (hvo : VarsOk sem depth (resolve (F[·]?) I V) binds V) :
    ∃ env fields, BodySem sem depth ext outer env fields body ∧ Agree env fields I V st3 F ∧
      ∃ xs, exprsSem sem depth ext env fields exps = some xs ∧ List.Forall₂ (fun r x => resolve (F[·]?) I V r = some x) rs3 xs := by
  obtain ⟨m1, m2, e1, e2⟩ := hlow.mono
  obtain ⟨a1, -, a3, a4⟩ := lowerOrder_mono hlow.items
  have hall : Steps sem depth I V (⟨isRoot, [], imports, firstEnv ((varsOf body).map Prod.fst) imports, []⟩ : LowerState L P Q N) st3 [] F := ⟨st3.items, rfl, hF⟩
  obtain ⟨F2, hs12, hs3⟩ := (steps_trans (a1.trans m1) m2).1 hall
  obtain ⟨F1, hs1, hs2⟩ := (steps_trans a1 m1).1 hs12
  have hF1 : F1 <+: F := hs2.prefix.trans hs3.prefix
  have hvn : ((varsOf body).map Prod.fst).Nodup := hlow.nodup.sublist (varsOf_sublist body)
  have hon : (order.map Prod.snd).Nodup := (hlow.perm.map Prod.snd).nodup_iff.2 (hlow.nodup.sublist (orderOf_sublist body))
  -- the values of names
  let env : N → Option (Rendered Col Arr) := fun n =>
    if n ∈ (varsOf body).map Prod.fst ∨ (ItemKind.letK, n) ∈ order then (st1.env.lookup n).bind (resolve (F[·]?) I V) else if n ∈ localNames body then none else outer n
  have henv : ∀ m, m ∉ localNames body → env m = outer m := by
    intro m hm
    have h1 : ¬(m ∈ (varsOf body).map Prod.fst ∨ (ItemKind.letK, m) ∈ order) := by
      rintro (h | h)
      · exact hm ((varsOf_sublist body).subset h)
      · obtain ⟨e, he⟩ := mem_orderOf_let.1 (hlow.perm.mem_iff.1 h)
        exact hm (mem_localNames he rfl)
    simp only [env, if_neg h1, if_neg hm]
  have hvarenv : ∀ (i : Nat) n, ((varsOf body).map Prod.fst)[i]? = some n → st1.env.lookup n = some (.var i) := by
    intro i n hi
    have hn : n ∉ order.map Prod.snd := by
      intro h
      obtain ⟨⟨kind, m⟩, h1, rfl⟩ := List.mem_map.1 h
      obtain ⟨⟨n', e⟩, h2, h3⟩ := List.mem_map.1 (List.mem_of_getElem? hi)
      have h3 : n' = m := h3
      subst h3
      have h4 := mem_varsOf.1 h2
      cases kind with
      | letK =>
        obtain ⟨e', h5⟩ := mem_orderOf_let.1 (hlow.perm.mem_iff.1 h1)
        cases stmt_unique hlow.nodup h4 h5 rfl rfl
      | scopeK =>
        obtain ⟨e', h5⟩ := mem_orderOf_scope.1 (hlow.perm.mem_iff.1 h1)
        cases stmt_unique hlow.nodup h4 h5 rfl rfl
    rw [(a3 n hn).1]
    exact firstEnv_var hvn hi
  have hV : ∀ (i : Nat) n, ((varsOf body).map Prod.fst)[i]? = some n → ∃ c, V[i]? = some c ∧ env n = some (.coll c) := by
    intro i n hi
    have hlt : i < V.length := by rw [hVl, ← List.length_map (f := Prod.fst)]; exact (List.getElem?_eq_some_iff.1 hi).1
    refine ⟨V[i], List.getElem?_eq_getElem hlt, ?_⟩
    simp only [env, if_pos (Or.inl (List.mem_of_getElem? hi)), hvarenv i n hi, Option.bind_some, resolve, List.getElem?_eq_getElem hlt, Option.map_some]
  have hlink : ∀ n, (ItemKind.letK, n) ∈ order → ∀ r, st1.env.lookup n = some r → env n = resolve (F[·]?) I V r := by
    intro n hn r hr
    simp only [env, if_pos (Or.inr hn), hr, Option.bind_some]
  -- the values of fields, first as rendered
  let fieldsF : N → N → Option (Rendered Col Arr) := fun n f => (st1.children.lookup n).bind fun c => (c.2.idxOf? f).bind fun j => resolve (F[·]?) I V (.childExport c.1 j)
  have hfed1 : Fed ext I st1.imports := hfed.prefix (e1.imports.trans e2.imports)
  obtain ⟨-, -, hsc⟩ := items_forward (depth := depth) (ext := ext) hkids (env := env) (fields := fieldsF) hlow.items (agree_first hout himp henv hV) hfed1 hs1 hF1 hon hlink
    fun n _ c hc f j hj => by simp only [fieldsF, hc, hj, Option.bind_some]
  choose! b inner innerFields hb1 hb2 hb3 using hsc
  let fields : N → N → Option (Rendered Col Arr) := fun n f => if (ItemKind.scopeK, n) ∈ order then leaving sem (depth + 1) (inner n) f else none
  obtain ⟨ha1, hlets, -⟩ := items_forward (depth := depth) (ext := ext) hkids (env := env) (fields := fields) hlow.items (agree_first hout himp henv hV) hfed1 hs1 hF1 hon hlink
    fun n hn c hc f j hj => by
      have hw : c.2 = qualifiedFields body n := by
        rcases a4 n c hc with h | h
        · cases h
        · exact h
      have hf : f ∈ qualifiedFields body n := by
        rw [← hw]
        by_contra hf
        rw [List.idxOf?_eq_none_iff.2 hf] at hj
        cases hj
      simp only [fields, if_pos hn]
      rw [← hb3 n hn f hf]
      simp only [fieldsF, hc, hj, Option.bind_some]
  have hvs := lowerExprs_sim (sem := sem) (depth := depth) (ext := ext) _ hlow.vars ha1 (hfed.prefix e2.imports)
  obtain ⟨ys, hy1, hy2⟩ := hvs.1 F2 hs2
  have ha2 := ha1.steps e1 hs2
  have hxs := lowerExprs_sim (sem := sem) (depth := depth) (ext := ext) _ hlow.exports ha2 hfed
  refine ⟨env, fields, ⟨henv, stmtsSem_iff.2 fun s hs => ?_⟩, ha2.steps e2 hs3, hxs.1 F hs3⟩
  cases s with
  | letS n e =>
    obtain ⟨e', x, h1, h2, h3⟩ := hlets n (hlow.perm.mem_iff.2 (mem_orderOf_let.2 ⟨e, hs⟩))
    cases stmt_unique hlow.nodup hs (mem_letsOf.1 (mem_of_lookup h1)) rfl rfl
    simp only [StmtSem]
    exact ⟨x, h2, h3⟩
  | varS n e =>
    simp only [StmtSem]
    obtain ⟨i, hi⟩ := List.getElem?_of_mem (mem_varsOf.2 hs)
    obtain ⟨y, h1, h2⟩ := forall₂_get' (exprsSem_iff.1 hy1) i e (by rw [List.getElem?_map, hi]; rfl)
    obtain ⟨c, h3, h4⟩ := hV i n (by rw [List.getElem?_map, hi]; rfl)
    obtain ⟨hbl, hbg⟩ := hlow.binds_get
    have hlt : i < binds.length := by rw [hbl]; exact (List.getElem?_eq_some_iff.1 hi).1
    obtain ⟨h5, h6⟩ := hbg i _ (List.getElem?_eq_getElem hlt)
    obtain ⟨z, h7, h8⟩ := forall₂_get' hy2 i _ h6
    obtain rfl : y = z := by rw [h1] at h7; cases h7; rfl
    obtain ⟨w, h9, h10⟩ := hvo.2.1 _ (List.getElem_mem hlt)
    obtain rfl : y = w := by rw [resolve_prefix hs3.prefix h8] at h9; cases h9; rfl
    rw [h5, h3] at h10
    cases h10
    exact ⟨y, h2, h4⟩
  | scopeS n b' =>
    have hn : (ItemKind.scopeK, n) ∈ order := hlow.perm.mem_iff.2 (mem_orderOf_scope.2 ⟨b', hs⟩)
    have hbb : b' = b n := by cases stmt_unique hlow.nodup hs (hb1 n hn) rfl rfl; rfl
    subst hbb
    simp only [StmtSem]
    refine ⟨?_, inner n, innerFields n, (hb2 n hn).1, (hb2 n hn).2, fun f => by simp only [fields, if_pos hn]⟩
    have h1 : ¬(n ∈ (varsOf body).map Prod.fst ∨ (ItemKind.letK, n) ∈ order) := by
      rintro (h | h)
      · obtain ⟨⟨n', e⟩, h2, h3⟩ := List.mem_map.1 h
        have h3 : n' = n := h3
        subst h3
        cases stmt_unique hlow.nodup hs (mem_varsOf.1 h2) rfl rfl
      · obtain ⟨e, he⟩ := mem_orderOf_let.1 (hlow.perm.mem_iff.1 h)
        cases stmt_unique hlow.nodup hs he rfl rfl
    simp only [env, if_neg h1, if_pos (mem_localNames hs rfl)]
  | exportS n e => simp only [StmtSem]

end

end DD.Ir
