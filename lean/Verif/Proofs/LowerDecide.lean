import Verif.Proofs.LowerAccept

/-!
# Which programs are lowered
-/

namespace DD.Ir
variable {L P Q N : Type*}

theorem mem_exportsIn {body : List (Stmt L P Q N)} {n : N} {e : Expr L P Q N} : (n, e) ∈ exportsIn body ↔ Stmt.exportS n e ∈ body := by
  simp only [exportsIn, List.mem_filterMap]
  constructor
  · rintro ⟨s, h1, h2⟩
    cases s <;> simp [Stmt.export?] at h2
    obtain ⟨rfl, rfl⟩ := h2
    exact h1
  · intro h
    exact ⟨_, h, rfl⟩

theorem mapM_isSome_iff {A B : Type*} {f : A → Option B} {l : List A} : (l.mapM f).isSome = true ↔ ∀ a ∈ l, (f a).isSome = true := by
  induction l with
  | nil => exact ⟨fun _ a ha => (by cases ha), fun _ => rfl⟩
  | cons a l ih =>
    rw [List.mapM_cons, List.forall_mem_cons, ← ih]
    cases f a with
    | none => exact ⟨fun h => (by cases h), fun h => (by cases h.1)⟩
    | some b =>
      cases l.mapM f with
      | none => exact ⟨fun h => (by cases h), fun h => (by cases h.2)⟩
      | some bs => exact ⟨fun _ => ⟨rfl, rfl⟩, fun _ => rfl⟩

theorem exportsAtRoot_iff {body : List (Stmt L P Q N)} : ExportsAtRoot body ↔ ∀ s ∈ body, StmtExportsAtRoot s := by
  induction body with
  | nil => simp [ExportsAtRoot]
  | cons s body ih => simp [ExportsAtRoot, ih]

section
variable [DecidableEq N] {inputName : Nat → N} {body : List (Stmt L P Q N)} {kids : List (N × LowerChild L P Q N)} {isRoot : Bool} {V : List N} {outer : N → Prop}

theorem bindsOf_isSome {vars : List N} {values : List Ref} : (bindsOf vars values).isSome = true := by
  unfold bindsOf
  rw [mapM_isSome_iff]
  rintro ⟨n, r⟩ hp
  rw [isSome_map', lookup_isSome_iff, List.map_reverse, List.mem_reverse, List.zipIdx_map_fst]
  exact (List.of_mem_zip hp).1

/-- The names known at first, with those that `V` stands for. -/
theorem firstEnv_keys {vars : List N} {imports : List (Import N)} {m : N} : ((firstEnv vars imports).lookup m).isSome = true ↔ m ∈ vars ∨ m ∈ imports.map Import.name := by
  rw [lookup_isSome_iff, firstEnv, List.map_append, List.mem_append, List.map_reverse, List.map_reverse, List.mem_reverse, List.mem_reverse, List.map_map, List.map_map]
  have h1 : (Prod.fst ∘ fun p : N × Nat => (p.1, Ref.var p.2)) = Prod.fst := rfl
  have h2 : (Prod.fst ∘ fun p : Import N × Nat => (p.1.name, Ref.imp p.2)) = Import.name ∘ Prod.fst := rfl
  rw [h1, h2, List.zipIdx_map_fst, ← List.map_map, List.zipIdx_map_fst]

/-- What is known at first. -/
structure First (body : List (Stmt L P Q N)) (isRoot : Bool) (V : List N) (outer : N → Prop) : Prop where
  nodup : (localNames body).Nodup
  mem : ∀ m, m ∈ V ↔ (∃ e, .varS m e ∈ body) ∨ isRoot = false ∧ m ∉ localNames body ∧ StmtsMention m body
  root : isRoot = true → ∀ m, ¬ outer m

theorem val_of_inside (hf : First body isRoot V outer) {done : List (ItemKind × N)} {m : N} (hlet : ∀ e, .letS m e ∈ body → (ItemKind.letK, m) ∈ done) (hm : StmtsMention m body)
    (h : Inside body outer m) : (ItemKind.letK, m) ∈ done ∨ m ∈ V := by
  rcases h with (⟨e, h⟩ | h) | ⟨h1, h2⟩
  · exact .inl (hlet e h)
  · exact .inr ((hf.mem m).2 (.inl h))
  · refine .inr ((hf.mem m).2 (.inr ⟨?_, h1, hm⟩))
    cases isRoot with
    | false => rfl
    | true => exact absurd h2 (hf.root rfl m)

theorem exprOk_state (hf : First body isRoot V outer) {done : List (ItemKind × N)} {t : Stmt L P Q N} (ht : t ∈ body) {e : Expr L P Q N} (he : t.expr? = some e)
    (hm : ∀ m, e.Mentions m → StmtMentions m t) (hdone : ∀ q ∈ orderOf body, StmtMentions q.2 t → q ∈ done) (h : ExprOk isRoot (Inside body outer) (FieldOf body) e) :
    ExprOk isRoot (fun m => (ItemKind.letK, m) ∈ done ∨ m ∈ V) (fun s f => (ItemKind.scopeK, s) ∈ done ∧ f ∈ qualifiedFields body s) e := by
  refine exprOk_mono e h (fun m h1 h2 => ?_) fun s g h1 h2 => ?_
  · exact val_of_inside hf (fun e' he' => hdone _ (mem_orderOf_let.2 ⟨e', he'⟩) (hm m h1)) (stmtsMention_iff.2 ⟨t, ht, hm m h1⟩) h2
  · obtain ⟨b, h3, -⟩ := h2
    exact ⟨hdone _ (mem_orderOf_scope.2 ⟨b, h3⟩) (hm s (uses_mentions e h1)), mem_qualifiedFields.2 ⟨t, ht, e, he, h1⟩⟩

/-- A scope that makes sense: its items are lowered. -/
theorem items_accept (hf : First body isRoot V outer) (hk : ∀ n b, .scopeS n b ∈ body → ∃ lower, kids.lookup n = some lower ∧ KidTotal b lower) (hok : BodyOk isRoot outer body)
    {st : LowerState L P Q N} (hst : Keys body isRoot V [] st) : (lowerItems inputName body kids (orderOf body).length (orderOf body) (allDeps body) st).isSome = true := by
  obtain ⟨⟨rank, hrank⟩, hall⟩ := hok
  rw [stmtsOk_iff] at hall
  refine lowerItems_isSome (V := V) (isRoot := isRoot) hf.nodup hrank ?_ _ _ [] _ _ le_rfl (hf.nodup.sublist (orderOf_sublist body)) (fun p => by simp) hst (fun p hp => allDeps_lookup hf.nodup hp)
  intro p s done st hs hp hkeys hdone
  cases s with
  | varS n e => cases hp
  | exportS n e => cases hp
  | letS n e =>
    cases (show p = (.letK, n) from hp)
    rw [lowerItem_let hf.nodup hs hkeys]
    exact exprOk_state hf hs rfl (fun m h => h) hdone (hall _ hs)
  | scopeS n b =>
    cases (show p = (.scopeK, n) from hp)
    obtain ⟨lower, h1, h2⟩ := hk n b hs
    rw [lowerItem_scope h1]
    refine (h2 _ _).1 ⟨?_, ?_⟩
    · have hb : BodyOk false (Inside body outer) b := hall _ hs
      refine bodyOk_mono hb fun m k1 k2 k3 => (hkeys.env m).2 ?_
      exact val_of_inside hf (fun e' he' => hdone _ (mem_orderOf_let.2 ⟨e', he'⟩) ⟨k1, k2⟩) (stmtsMention_iff.2 ⟨_, hs, k1, k2⟩) k3
    · intro g hg
      obtain ⟨t, k1, e, k2, k3⟩ := mem_qualifiedFields.1 hg
      obtain ⟨b', k4, k5⟩ := stmtOk_uses (hall t k1) k2 k3
      have := stmt_unique hf.nodup k4 hs rfl rfl
      cases this
      exact k5

/-- The names known in the end. -/
theorem keys_end (hf : First body isRoot V outer) {order : List (ItemKind × N)} (hp : order.Perm (orderOf body)) {st : LowerState L P Q N} (hst : Keys body isRoot V order.reverse st) {m : N} :
    st.Val m ↔ IsValue body m ∨ isRoot = false ∧ m ∉ localNames body ∧ StmtsMention m body := by
  rw [hst.env, List.mem_reverse, hp.mem_iff, mem_orderOf_let, hf.mem, IsValue, or_assoc]

theorem order_mid {order : List (ItemKind × N)} {p : ItemKind × N} (hp : p ∈ order) {st stF : LowerState L P Q N}
    (h : order.foldlM (fun st p => lowerItem inputName body kids p st) st = some stF) :
    ∃ pre post st', order = pre ++ p :: post ∧ pre.foldlM (fun st p => lowerItem inputName body kids p st) st = some st' ∧ (lowerItem inputName body kids p st').isSome = true := by
  induction order generalizing st with
  | nil => cases hp
  | cons q order ih =>
    rw [List.foldlM_cons] at h
    obtain ⟨st1, h1, h2⟩ := Option.bind_eq_some_iff.1 h
    rcases List.mem_cons.1 hp with rfl | hp
    · exact ⟨[], order, st, rfl, rfl, by rw [h1]; rfl⟩
    · obtain ⟨pre, post, st', h3, h4, h5⟩ := ih hp h2
      exact ⟨q :: pre, post, st', by rw [h3]; rfl, by rw [List.foldlM_cons, h1]; exact h4, h5⟩

/-- A scope whose items are lowered: its nested scopes make sense, its fields exist, and it is acyclic. -/
theorem items_reject (hf : First body isRoot V outer) (hk : ∀ n b, .scopeS n b ∈ body → ∃ lower, kids.lookup n = some lower ∧ KidTotal b lower) (hex : ExportsAtRoot body)
    (hout : isRoot = false → ∀ m, m ∉ localNames body → StmtsMention m body → outer m)
    {st stF : LowerState L P Q N} (hst : Keys body isRoot V [] st) {order : List (ItemKind × N)} (hp : order.Perm (orderOf body))
    (h : order.foldlM (fun st p => lowerItem inputName body kids p st) st = some stF) :
    Acyclic body ∧ (∀ s f, stF.Fld s f → FieldOf body s f) ∧ (∀ m, stF.Val m → Inside body outer m) ∧ (∀ n e, .letS n e ∈ body → ExprOk isRoot (Inside body outer) (FieldOf body) e) ∧
      ∀ n b, .scopeS n b ∈ body → BodyOk false (Inside body outer) b := by
  have hkF : Keys body isRoot V order.reverse stF := by simpa using hst.order h
  have hin : ∀ {pre post : List (ItemKind × N)}, order = pre ++ post → ∀ m, (ItemKind.letK, m) ∈ pre.reverse ∨ m ∈ V → Inside body outer m := by
    intro pre post ho m hm
    rcases hm with hm | hm
    · refine .inl (.inl (mem_orderOf_let.1 (hp.mem_iff.1 ?_)))
      rw [ho]
      exact List.mem_append_left _ (List.mem_reverse.1 hm)
    · rcases (hf.mem m).1 hm with h | ⟨h1, h2, h3⟩
      · exact .inl (.inr h)
      · exact .inr ⟨h2, hout h1 m h2 h3⟩
  have hscope : ∀ n b, .scopeS n b ∈ body → ∃ pre post st', order = pre ++ (.scopeK, n) :: post ∧ Keys body isRoot V pre.reverse st' ∧ BodyOk false st'.Val b ∧
      ∀ g ∈ qualifiedFields body n, Inside b (fun m => StmtsMention m b) g := by
    intro n b hb
    obtain ⟨pre, post, st', h1, h2, h3⟩ := order_mid (hp.mem_iff.2 (mem_orderOf_scope.2 ⟨b, hb⟩)) h
    obtain ⟨lower, h4, h5⟩ := hk n b hb
    rw [lowerItem_scope h4] at h3
    have hx := exportsAtRoot_iff.1 hex _ hb
    obtain ⟨h6, h7⟩ := (h5 _ _).2 hx.1 hx.2 h3
    exact ⟨pre, post, st', h1, by simpa using hst.order h2, h6, h7⟩
  have hfield : ∀ s f, (∃ b, .scopeS s b ∈ body) → f ∈ qualifiedFields body s → FieldOf body s f := by
    rintro s f ⟨b, hb⟩ hq
    obtain ⟨-, -, -, -, -, -, h1⟩ := hscope s b hb
    exact ⟨b, hb, h1 f hq⟩
  have hlet : ∀ n e, .letS n e ∈ body → ∃ pre post, order = pre ++ (.letK, n) :: post ∧
      ExprOk isRoot (fun m => (ItemKind.letK, m) ∈ pre.reverse ∨ m ∈ V) (fun s f => (ItemKind.scopeK, s) ∈ pre.reverse ∧ f ∈ qualifiedFields body s) e := by
    intro n e he
    obtain ⟨pre, post, st', h1, h2, h3⟩ := order_mid (hp.mem_iff.2 (mem_orderOf_let.2 ⟨e, he⟩)) h
    have hk' : Keys body isRoot V pre.reverse st' := by simpa using hst.order h2
    exact ⟨pre, post, h1, (lowerItem_let hf.nodup he hk').1 h3⟩
  have hnd : (order.map Prod.snd).Nodup := (hp.map Prod.snd).nodup_iff.2 (hf.nodup.sublist (orderOf_sublist body))
  have hidx : ∀ {pre post : List (ItemKind × N)} {p : ItemKind × N}, order = pre ++ p :: post → (order.map Prod.snd).idxOf p.2 = pre.length := by
    intro pre post p ho
    rw [ho, List.map_append, List.map_cons] at hnd ⊢
    rw [List.idxOf_append_of_notMem, List.idxOf_cons_self, List.length_map, Nat.add_zero]
    intro hmem
    exact (List.nodup_append.1 hnd).2.2 _ hmem p.2 List.mem_cons_self rfl
  have hlt : ∀ {pre post : List (ItemKind × N)} {q : ItemKind × N}, order = pre ++ post → q ∈ pre → (order.map Prod.snd).idxOf q.2 < pre.length := by
    intro pre post q ho hq
    rw [ho, List.map_append, List.idxOf_append_of_mem (List.mem_map_of_mem hq)]
    have := List.idxOf_lt_length_of_mem (List.mem_map_of_mem (f := Prod.snd) hq)
    rwa [List.length_map] at this
  have hV : ∀ s' ∈ body, ∀ m, s'.item? = some m → m ∉ V := by
    intro s' hs' m hm hmV
    rcases (hf.mem m).1 hmV with ⟨e, h⟩ | ⟨-, h, -⟩
    · have := stmt_unique hf.nodup h hs' rfl (item_name hm)
      subst this
      cases hm
    · exact h (mem_localNames hs' (item_name hm))
  refine ⟨⟨fun n => (order.map Prod.snd).idxOf n, ?_⟩, ?_, ?_, ?_, ?_⟩
  · intro s hs n hn s' hs' m hm hmen
    have key : ∀ {pre post : List (ItemKind × N)} {p : ItemKind × N}, order = pre ++ p :: post → p.2 = n → ((ItemKind.letK, m) ∈ pre.reverse ∨ m ∈ V) ∨ (ItemKind.scopeK, m) ∈ pre.reverse →
        (order.map Prod.snd).idxOf m < (order.map Prod.snd).idxOf n := by
      intro pre post p ho hpn hor
      rw [← hpn, hidx ho]
      rcases hor with (h' | h') | h'
      · exact hlt ho (List.mem_reverse.1 h')
      · exact absurd h' (hV s' hs' m hm)
      · exact hlt ho (List.mem_reverse.1 h')
    cases s with
    | varS _ _ => cases hn
    | exportS _ _ => cases hn
    | letS n' e =>
      cases hn
      obtain ⟨pre, post, h1, h2⟩ := hlet n e hs
      refine key h1 rfl ?_
      rcases exprOk_mentions e h2 hmen with h3 | ⟨g, h3⟩
      · exact .inl h3
      · exact .inr h3.1
    | scopeS n' b =>
      cases hn
      obtain ⟨pre, post, st', h1, h2, h3, -⟩ := hscope n b hs
      refine key h1 rfl (.inl ((h2.env m).1 ?_))
      exact bodyOk_free h3 hmen.1 hmen.2
  · intro s f hsf
    obtain ⟨h1, h2⟩ := (hkF.fields s f).1 hsf
    exact hfield s f (mem_orderOf_scope.1 (hp.mem_iff.1 (List.mem_reverse.1 h1))) h2
  · intro m hm
    exact hin (List.append_nil order).symm m ((hkF.env m).1 hm)
  · intro n e he
    obtain ⟨pre, post, h1, h2⟩ := hlet n e he
    refine exprOk_mono e h2 (fun m _ hm => hin h1 m hm) fun s g _ hg => hfield s g ?_ hg.2
    refine mem_orderOf_scope.1 (hp.mem_iff.1 ?_)
    rw [h1]
    exact List.mem_append_left _ (List.mem_reverse.1 hg.1)
  · intro n b hb
    obtain ⟨pre, post, st', h1, h2, h3, -⟩ := hscope n b hb
    exact bodyOk_mono h3 fun m _ _ hm => hin h1 m ((h2.env m).1 hm)

end

section
variable [LinearOrder N] {inputName : Nat → N} {body : List (Stmt L P Q N)} {kids : List (N × LowerChild L P Q N)} {isRoot : Bool} {outer : N → Prop}

theorem parentImports_isSome {parentEnv : List (N × Ref)} : (parentImports body parentEnv).isSome = true ↔ ∀ m, m ∉ localNames body → StmtsMention m body → (parentEnv.lookup m).isSome = true := by
  unfold parentImports
  rw [mapM_isSome_iff]
  simp only [List.mem_insertionSort, List.mem_dedup, mem_bodyFree, isSome_map', and_imp]

theorem parentImports_names {parentEnv : List (N × Ref)} {imports : List (Import N)} (h : parentImports body parentEnv = some imports) {m : N} :
    m ∈ imports.map Import.name ↔ m ∉ localNames body ∧ StmtsMention m body := by
  have h := mapM_some_iff.1 h
  have : imports.map Import.name = ((bodyFree body).dedup).insertionSort (· ≤ ·) := by
    revert h
    generalize ((bodyFree body).dedup).insertionSort (· ≤ ·) = l
    intro h
    clear * - h
    induction h with
    | nil => rfl
    | cons h1 _ ih =>
      obtain ⟨r, -, rfl⟩ := Option.map_eq_some_iff.1 h1
      rw [List.map_cons, ih]
  rw [this, List.mem_insertionSort, List.mem_dedup, mem_bodyFree]

/-- The state at first. -/
abbrev firstState (body : List (Stmt L P Q N)) (isRoot : Bool) (imports : List (Import N)) : LowerState L P Q N := ⟨isRoot, [], imports, firstEnv ((varsOf body).map Prod.fst) imports, []⟩

theorem lowerWith_isSome {name : N} {parentEnv : List (N × Ref)} {wanted : List N} :
    (lowerWith inputName name body kids isRoot parentEnv wanted).isSome = true ↔ ∃ imports st, (if isRoot then some [] else parentImports body parentEnv) = some imports ∧
      lowerItems inputName body kids (orderOf body).length (orderOf body) (allDeps body) (firstState body isRoot imports) = some st ∧
      ExprsOk st.isRoot st.Val st.Fld ((varsOf body).map Prod.snd) ∧
      (if isRoot then ExprsOk st.isRoot st.Val st.Fld ((exportsIn body).map Prod.snd) else ∀ g ∈ wanted, st.Val g) := by
  have step : ∀ st : LowerState L P Q N, (((lowerExprs inputName ((varsOf body).map Prod.snd) st).bind fun p =>
      (bindsOf ((varsOf body).map Prod.fst) p.2).bind fun binds =>
      if isRoot then
        (lowerExprs inputName ((exportsIn body).map Prod.snd) p.1).map fun q =>
          (⟨name, q.1.imports, (varsOf body).map Prod.fst, q.1.items, binds, ((exportsIn body).map Prod.fst).zipWith Export.mk q.2⟩ : Scope L P Q N)
      else
        (wanted.mapM fun f => (p.1.env.lookup f).map fun r => (⟨f, r⟩ : Export N)).map fun exports =>
          ⟨name, p.1.imports, (varsOf body).map Prod.fst, p.1.items, binds, exports⟩)).isSome = true ↔
      ExprsOk st.isRoot st.Val st.Fld ((varsOf body).map Prod.snd) ∧
      (if isRoot then ExprsOk st.isRoot st.Val st.Fld ((exportsIn body).map Prod.snd) else ∀ g ∈ wanted, st.Val g) := by
    intro st
    rw [← lowerExprs_isSome (inputName := inputName)]
    cases h : lowerExprs inputName ((varsOf body).map Prod.snd) st with
    | none => simp
    | some p =>
      have he := lowerExprs_ext _ (rs := p.2) (st' := p.1) h
      obtain ⟨binds, hb⟩ := Option.isSome_iff_exists.1 (bindsOf_isSome (vars := (varsOf body).map Prod.fst) (values := p.2))
      simp only [Option.bind_some, hb, Option.isSome_some, true_and]
      cases isRoot with
      | true =>
        simp only [↓reduceIte, isSome_map']
        rw [lowerExprs_isSome, exprsOk_congr he]
      | false =>
        simp only [Bool.false_eq_true, ↓reduceIte, isSome_map', mapM_isSome_iff, LowerState.Val, he.env]
  constructor
  · intro h
    unfold lowerWith at h
    obtain ⟨s, h⟩ := Option.isSome_iff_exists.1 h
    obtain ⟨imports, h1, h⟩ := Option.bind_eq_some_iff.1 h
    obtain ⟨st, h2, h⟩ := Option.bind_eq_some_iff.1 h
    exact ⟨imports, st, h1, h2, (step st).1 (by rw [h]; rfl)⟩
  · rintro ⟨imports, st, h1, h2, h3⟩
    unfold lowerWith
    rw [h1, Option.bind_some]
    show (Option.bind (lowerItems inputName body kids (orderOf body).length (orderOf body) (allDeps body) (firstState body isRoot imports)) _).isSome = true
    rw [h2, Option.bind_some]
    exact (step st).2 h3

theorem first_of {parentEnv : List (N × Ref)} {imports : List (Import N)} (hnd : (localNames body).Nodup) (hroot : isRoot = true → ∀ m, ¬ outer m)
    (h : (if isRoot then some [] else parentImports body parentEnv) = some imports) :
    First body isRoot ((varsOf body).map Prod.fst ++ imports.map Import.name) outer ∧ Keys body isRoot ((varsOf body).map Prod.fst ++ imports.map Import.name) [] (firstState body isRoot imports) := by
  have hv : ∀ m, m ∈ (varsOf body).map Prod.fst ↔ ∃ e, .varS m e ∈ body := by
    intro m
    rw [List.mem_map]
    exact ⟨fun ⟨⟨n, e⟩, h1, h2⟩ => by cases h2; exact ⟨e, mem_varsOf.1 h1⟩, fun ⟨e, h1⟩ => ⟨(m, e), mem_varsOf.2 h1, rfl⟩⟩
  refine ⟨⟨hnd, fun m => ?_, hroot⟩, ⟨rfl, fun m => ?_, fun s f => ?_⟩⟩
  · rw [List.mem_append, hv]
    cases isRoot with
    | true => cases h; simp
    | false =>
      simp only [Bool.false_eq_true, ↓reduceIte] at h
      rw [parentImports_names h]
      simp
  · unfold LowerState.Val
    rw [List.mem_append]
    simpa using firstEnv_keys (vars := (varsOf body).map Prod.fst) (imports := imports) (m := m)
  · unfold LowerState.Fld
    simp

theorem lowerWith_accept (hnd : (localNames body).Nodup) (hk : ∀ n b, .scopeS n b ∈ body → ∃ lower, kids.lookup n = some lower ∧ KidTotal b lower) {name : N} {parentEnv : List (N × Ref)}
    {wanted : List N} (hroot : isRoot = true → ∀ m, ¬ outer m) (hout : isRoot = false → ∀ m, outer m → (parentEnv.lookup m).isSome = true) (hok : BodyOk isRoot outer body)
    (hw : isRoot = false → ∀ g ∈ wanted, Inside body (fun m => StmtsMention m body) g) : (lowerWith inputName name body kids isRoot parentEnv wanted).isSome = true := by
  have himp : ((if isRoot then some [] else parentImports body parentEnv) : Option (List (Import N))).isSome = true := by
    cases isRoot with
    | true => rfl
    | false =>
      simp only [Bool.false_eq_true, ↓reduceIte]
      rw [parentImports_isSome]
      exact fun m h1 h2 => hout rfl m (bodyOk_free hok h1 h2)
  obtain ⟨imports, himp⟩ := Option.isSome_iff_exists.1 himp
  obtain ⟨hf, hkeys⟩ := first_of hnd hroot himp
  obtain ⟨st, hst⟩ := Option.isSome_iff_exists.1 (items_accept (inputName := inputName) hf hk hok hkeys)
  obtain ⟨order, hp, ho⟩ := lowerItems_order hst
  have hF : Keys body isRoot ((varsOf body).map Prod.fst ++ imports.map Import.name) order.reverse st := by simpa using hkeys.order ho
  have hall := stmtsOk_iff.1 hok.2
  have h1 : st.Val = fun m => (ItemKind.letK, m) ∈ order.reverse ∨ m ∈ (varsOf body).map Prod.fst ++ imports.map Import.name := funext fun m => propext (hF.env m)
  have h2 : st.Fld = fun s f => (ItemKind.scopeK, s) ∈ order.reverse ∧ f ∈ qualifiedFields body s := funext fun s => funext fun f => propext (hF.fields s f)
  have hdone : ∀ q ∈ orderOf body, q ∈ order.reverse := fun q hq => List.mem_reverse.2 (hp.mem_iff.2 hq)
  refine lowerWith_isSome.2 ⟨imports, st, himp, hst, ?_, ?_⟩
  · rw [exprsOk_iff, h1, h2, hF.isRoot]
    intro e he
    obtain ⟨⟨n, e'⟩, h3, rfl⟩ := List.mem_map.1 he
    have hs := mem_varsOf.1 h3
    exact exprOk_state hf hs rfl (fun m h => h) (fun q hq _ => hdone q hq) (hall _ hs)
  · cases isRoot with
    | true =>
      simp only [↓reduceIte]
      rw [exprsOk_iff, h1, h2, hF.isRoot]
      intro e he
      obtain ⟨⟨n, e'⟩, h3, rfl⟩ := List.mem_map.1 he
      have hs := mem_exportsIn.1 h3
      exact exprOk_state hf hs rfl (fun m h => h) (fun q hq _ => hdone q hq) (hall _ hs).2
    | false =>
      simp only [Bool.false_eq_true, ↓reduceIte]
      intro g hg
      rw [keys_end hf hp hF]
      rcases hw rfl g hg with h | h
      · exact .inl h
      · exact .inr ⟨rfl, h.1, h.2⟩

theorem lowerWith_reject (hnd : (localNames body).Nodup) (hk : ∀ n b, .scopeS n b ∈ body → ∃ lower, kids.lookup n = some lower ∧ KidTotal b lower) {name : N} {parentEnv : List (N × Ref)}
    {wanted : List N} (hex : ExportsAtRoot body) (hno : isRoot = false → exportsIn body = []) (hroot : isRoot = true → ∀ m, ¬ outer m)
    (hout : isRoot = false → ∀ m, (parentEnv.lookup m).isSome = true → outer m)
    (h : (lowerWith inputName name body kids isRoot parentEnv wanted).isSome = true) : BodyOk isRoot outer body ∧ (isRoot = false → ∀ g ∈ wanted, Inside body (fun m => StmtsMention m body) g) := by
  obtain ⟨imports, st, himp, hst, hvars, hend⟩ := lowerWith_isSome.1 h
  obtain ⟨hf, hkeys⟩ := first_of hnd hroot himp
  obtain ⟨order, hp, ho⟩ := lowerItems_order hst
  have hF : Keys body isRoot ((varsOf body).map Prod.fst ++ imports.map Import.name) order.reverse st := by simpa using hkeys.order ho
  have hfree : isRoot = false → ∀ m, m ∉ localNames body → StmtsMention m body → outer m := by
    intro hr m h1 h2
    subst hr
    simp only [Bool.false_eq_true, ↓reduceIte] at himp
    exact hout rfl m (parentImports_isSome.1 (by rw [himp]; rfl) m h1 h2)
  obtain ⟨k1, k2, k3, k4, k5⟩ := items_reject hf hk hex hfree hkeys hp ho
  have hexpr : ∀ e : Expr L P Q N, ExprOk st.isRoot st.Val st.Fld e → ExprOk isRoot (Inside body outer) (FieldOf body) e := by
    intro e he
    rw [hF.isRoot] at he
    exact exprOk_mono e he (fun m _ hm => k3 m hm) fun s g _ hg => k2 s g hg
  refine ⟨⟨k1, stmtsOk_iff.2 fun s hs => ?_⟩, fun hr g hg => ?_⟩
  · cases s with
    | letS n e => exact k4 n e hs
    | varS n e => exact hexpr e (exprsOk_iff.1 hvars e (List.mem_map.2 ⟨(n, e), mem_varsOf.2 hs, rfl⟩))
    | scopeS n b => exact k5 n b hs
    | exportS n e =>
      cases isRoot with
      | true =>
        simp only [↓reduceIte] at hend
        exact ⟨rfl, hexpr e (exprsOk_iff.1 hend e (List.mem_map.2 ⟨(n, e), mem_exportsIn.2 hs, rfl⟩))⟩
      | false =>
        have := mem_exportsIn.2 hs
        rw [hno rfl] at this
        cases this
  · subst hr
    simp only [Bool.false_eq_true, ↓reduceIte] at hend
    rcases (keys_end hf hp hF).1 (hend g hg) with h | ⟨-, h⟩
    · exact .inl h
    · exact .inr h

theorem lowerWith_kidTotal (hnd : (localNames body).Nodup) (hk : ∀ n b, .scopeS n b ∈ body → ∃ lower, kids.lookup n = some lower ∧ KidTotal b lower) (name : N) :
    KidTotal body (lowerWith inputName name body kids false) := by
  intro parentEnv wanted
  refine ⟨fun h => ?_, fun h1 h2 h3 => ?_⟩
  · exact lowerWith_accept hnd hk (outer := fun m => (parentEnv.lookup m).isSome = true) (fun h => by cases h) (fun _ m h => h) h.1 fun _ => h.2
  · obtain ⟨k1, k2⟩ := lowerWith_reject hnd hk (outer := fun m => (parentEnv.lookup m).isSome = true) h2 (fun _ => h1) (fun h => by cases h) (fun _ m h => h) h3
    exact ⟨k1, k2 rfl⟩

theorem lowerKids_names : ∀ body : List (Stmt L P Q N), (((lowerKids inputName body).map Prod.fst)).Sublist (localNames body)
  | [] => by simp [lowerKids]
  | s :: body => by
    cases s with
    | letS n e =>
      rw [show localNames (.letS n e :: body) = n :: localNames body from rfl]
      simpa [lowerKids, lowerKid] using (lowerKids_names body).cons n
    | varS n e =>
      rw [show localNames (.varS n e :: body) = n :: localNames body from rfl]
      simpa [lowerKids, lowerKid] using (lowerKids_names body).cons n
    | scopeS n b =>
      rw [show localNames (.scopeS n b :: body) = n :: localNames body from rfl]
      simpa [lowerKids, lowerKid] using lowerKids_names body
    | exportS n e =>
      rw [show localNames (.exportS n e :: body) = localNames body from rfl]
      simpa [lowerKids, lowerKid] using lowerKids_names body

theorem kids_total_of (hnd : (localNames body).Nodup) (h : ∀ n b, .scopeS n b ∈ body → ∃ lower, (n, lower) ∈ lowerKids inputName body ∧ KidTotal b lower) :
    ∀ n b, .scopeS n b ∈ body → ∃ lower, ((lowerKids inputName body).reverse).lookup n = some lower ∧ KidTotal b lower := by
  intro n b hb
  obtain ⟨lower, h1, h2⟩ := h n b hb
  refine ⟨lower, lookup_of_mem ?_ (List.mem_reverse.2 h1), h2⟩
  rw [List.map_reverse, List.nodup_reverse]
  exact hnd.sublist (lowerKids_names body)

mutual
theorem lowerKid_total : ∀ s : Stmt L P Q N, StmtDistinct s → ∀ n b, s = .scopeS n b → ∃ lower, (n, lower) ∈ lowerKid inputName s ∧ KidTotal b lower
  | .letS _ _, _, n, b, h => by cases h
  | .varS _ _, _, n, b, h => by cases h
  | .exportS _ _, _, n, b, h => by cases h
  | .scopeS n' b', hd, n, b, h => by
    obtain ⟨rfl, rfl⟩ := Stmt.scopeS.inj h
    simp only [StmtDistinct] at hd
    refine ⟨lowerWith inputName n' b' (lowerKids inputName b').reverse false, ?_, lowerWith_kidTotal hd.1 (kids_total_of hd.1 (lowerKids_total _ hd.2)) _⟩
    simp only [lowerKid, List.mem_singleton]
theorem lowerKids_total : ∀ body : List (Stmt L P Q N), StmtsDistinct body → ∀ n b, .scopeS n b ∈ body → ∃ lower, (n, lower) ∈ lowerKids inputName body ∧ KidTotal b lower
  | [], _, n, b, h => by cases h
  | s :: body, hd, n, b, h => by
    simp only [StmtsDistinct] at hd
    simp only [lowerKids, List.mem_append]
    rcases List.mem_cons.1 h with h | h
    · obtain ⟨lower, h1, h2⟩ := lowerKid_total s hd.1 n b h.symm
      exact ⟨lower, .inl h1, h2⟩
    · obtain ⟨lower, h1, h2⟩ := lowerKids_total body hd.2 n b h
      exact ⟨lower, .inr h1, h2⟩
end

theorem lowerTree_accept {root : N} (hd : Distinct body) (h : ProgramOk body) : (lowerTree inputName root body).isSome = true :=
  lowerWith_accept hd.1 (kids_total_of hd.1 (lowerKids_total body hd.2)) (outer := fun _ => False) (fun _ _ h => h) (fun h => by cases h) h fun h => by cases h

theorem lowerTree_reject {root : N} (hd : Distinct body) (hex : ExportsAtRoot body) (h : (lowerTree inputName root body).isSome = true) : ProgramOk body :=
  (lowerWith_reject hd.1 (kids_total_of hd.1 (lowerKids_total body hd.2)) (outer := fun _ => False) hex (fun h => by cases h) (fun _ _ h => h) (fun h => by cases h) h).1

end

end DD.Ir
