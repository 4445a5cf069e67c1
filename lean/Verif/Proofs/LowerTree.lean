import Verif.Proofs.LowerScope

/-!
# Lowering of programs
-/

namespace DD.Ir
variable {L P Q N Col Arr : Type*} {sem : Sem L P Q N Col Arr}

section
variable [DecidableEq N] {inputName : Nat → N} {body : List (Stmt L P Q N)} {kids : List (N × LowerChild L P Q N)}

/-- Only the root has imports from outside. -/
theorem lowerOrder_inner : ∀ {order : List (ItemKind × N)} {st stF : LowerState L P Q N}, order.foldlM (fun st p => lowerItem inputName body kids p st) st = some stF →
    st.isRoot = false → stF.isRoot = false ∧ stF.imports = st.imports := by
  intro order
  induction order with
  | nil => intro st stF h hr; cases h; exact ⟨hr, rfl⟩
  | cons p order ih =>
    intro st stF h hr
    rw [List.foldlM_cons] at h
    obtain ⟨st', h1, h2⟩ := Option.bind_eq_some_iff.1 h
    have h3 : st'.isRoot = false ∧ st'.imports = st.imports := by
      obtain ⟨kind, name⟩ := p
      unfold lowerItem at h1
      cases kind with
      | letK =>
        obtain ⟨e, -, g2⟩ := Option.bind_eq_some_iff.1 h1
        obtain ⟨q, g3, rfl⟩ := Option.map_eq_some_iff.1 g2
        have he := lowerExpr_ext e g3
        exact ⟨he.isRoot.trans hr, he.inner hr⟩
      | scopeK =>
        obtain ⟨lower, g1, g2⟩ := Option.bind_eq_some_iff.1 h1
        obtain ⟨child, g3, rfl⟩ := Option.map_eq_some_iff.1 g2
        exact ⟨hr, rfl⟩
    obtain ⟨k1, k2⟩ := ih h2 h3.1
    exact ⟨k1, k2.trans h3.2⟩

omit [DecidableEq N] in
theorem scopeSem_def {s : Scope L P Q N} {depth : Nat} {imports outs : List Col} : ScopeSem sem s depth imports outs ↔
    ∃ vars vals, vars.length = s.vars.length ∧ ItemsSem sem s.items depth imports vars [] vals ∧ VarsOk sem depth (resolve (vals[·]?) imports vars) s.binds vars ∧
      exportsOf sem (resolve (vals[·]?) imports vars) s.exports = some outs := by
  obtain ⟨a, b, c, d, e, f⟩ := s
  simp only [ScopeSem]

end

section
variable [LinearOrder N] {inputName : Nat → N} {body : List (Stmt L P Q N)} {kids : List (N × LowerChild L P Q N)}

/-- How `lowerWith` works. -/
theorem lowerWith_lowered {name : N} {isRoot : Bool} {parentEnv : List (N × Ref)} {wanted : List N} {s : Scope L P Q N} (hnd : (localNames body).Nodup)
    (h : lowerWith inputName name body kids isRoot parentEnv wanted = some s) :
    ∃ imports order st1 st2 st3 rs2 rs3, (if isRoot then some [] else parentImports body parentEnv) = some imports ∧
      Lowered inputName body kids isRoot imports order st1 st2 st3 rs2 rs3 s.binds (if isRoot then (exportsIn body).map Prod.snd else []) ∧
      s.name = name ∧ s.imports = st3.imports ∧ s.vars = (varsOf body).map Prod.fst ∧ s.items = st3.items ∧
      (if isRoot then s.exports = ((exportsIn body).map Prod.fst).zipWith Export.mk rs3
        else List.Forall₂ (fun f e => ∃ r, st3.env.lookup f = some r ∧ e = ⟨f, r⟩) wanted s.exports) := by
  unfold lowerWith at h
  obtain ⟨imports, h1, h⟩ := Option.bind_eq_some_iff.1 h
  obtain ⟨st1, h2, h⟩ := Option.bind_eq_some_iff.1 h
  obtain ⟨⟨st2, rs2⟩, h3, h⟩ := Option.bind_eq_some_iff.1 h
  obtain ⟨binds, h4, h⟩ := Option.bind_eq_some_iff.1 h
  obtain ⟨order, h5, h6⟩ := lowerItems_order h2
  cases isRoot with
  | true =>
    rw [if_pos rfl] at h
    obtain ⟨⟨st3, rs3⟩, h7, rfl⟩ := Option.map_eq_some_iff.1 h
    exact ⟨imports, order, st1, st2, st3, rs2, rs3, h1, ⟨hnd, h5, h6, h3, h4, h7⟩, rfl, rfl, rfl, rfl, rfl⟩
  | false =>
    rw [if_neg (by simp)] at h
    obtain ⟨exports, h7, rfl⟩ := Option.map_eq_some_iff.1 h
    refine ⟨imports, order, st1, st2, st2, rs2, [], h1, ⟨hnd, h5, h6, h3, h4, rfl⟩, rfl, rfl, rfl, rfl, ?_⟩
    refine (mapM_some_iff.1 h7).imp fun f e he => ?_
    obtain ⟨r, h8, rfl⟩ := Option.map_eq_some_iff.1 he
    exact ⟨r, h8, rfl⟩

theorem parentImports_spec {parentEnv : List (N × Ref)} {imports : List (Import N)} (h : parentImports body parentEnv = some imports) :
    ∀ imp ∈ imports, imp.name ∉ localNames body ∧ ∃ r, imp.src = .parent r ∧ parentEnv.lookup imp.name = some r := by
  intro imp himp
  obtain ⟨i, hi⟩ := List.getElem?_of_mem himp
  obtain ⟨n, h1, h2⟩ := forall₂_get (mapM_some_iff.1 h) i imp hi
  obtain ⟨r, h3, rfl⟩ := Option.map_eq_some_iff.1 h2
  have h4 := List.mem_of_getElem? h1
  rw [List.mem_insertionSort, List.mem_dedup, bodyFree, List.mem_filter] at h4
  exact ⟨by simpa using h4.2, r, rfl, h3⟩

/-- A nested scope. -/
theorem lowerWith_kid (hnd : (localNames body).Nodup) (hkids : ∀ n lower, kids.lookup n = some lower → ∃ b, .scopeS n b ∈ body ∧ KidOk sem b lower) (name : N) :
    KidOk sem body (lowerWith inputName name body kids false) := by
  intro parentEnv wanted s h
  obtain ⟨imports, order, st1, st2, st3, rs2, rs3, h1, hlow, -, hi, hv, hit, hex⟩ := lowerWith_lowered hnd h
  simp only [Bool.false_eq_true, ↓reduceIte] at h1 hex hlow
  have hspec := parentImports_spec h1
  obtain ⟨-, -, e1, e2⟩ := hlow.mono
  obtain ⟨r1, r2⟩ := lowerOrder_inner hlow.items rfl
  have himp : st3.imports = imports := by rw [e2.inner (e1.isRoot.trans r1), e1.inner r1, r2]
  rw [himp] at hi
  refine ⟨by rw [hi]; exact fun imp him => (hspec imp him).2, fun depth outer I hout => ?_⟩
  rw [hi] at hout
  have hfed : Fed (fun _ => none) I st3.imports := by
    intro i imp him hp
    rw [himp] at him
    obtain ⟨r, hr, -⟩ := (hspec imp (List.mem_of_getElem? him)).2
    exact absurd hr (hp r)
  have hname : ∀ imp ∈ imports, imp.name ∉ localNames body := fun imp him => (hspec imp him).1
  have hwanted : ∀ {env : N → Option (Rendered Col Arr)} {fields : N → N → Option (Rendered Col Arr)} {V : List Col} {F : List (RItem Col Arr)}, Agree env fields I V st3 F →
      ∃ outs, exportsOf sem (resolve (F[·]?) I V) s.exports = some outs ∧ wanted.mapM (fun f => (env f).map fun x => x.collection sem) = some outs := by
    intro env fields V F ha
    unfold exportsOf
    clear h
    revert hex
    generalize s.exports = exports
    intro hex
    induction hex with
    | nil => exact ⟨[], rfl, rfl⟩
    | @cons f e wanted exports he _ ih =>
      obtain ⟨r, g1, rfl⟩ := he
      obtain ⟨x, g2, g3⟩ := ha.env f r g1
      obtain ⟨outs, g4, g5⟩ := ih
      refine ⟨x.collection sem :: outs, ?_, ?_⟩
      · rw [mapM_some_iff] at g4 ⊢
        exact List.Forall₂.cons (by simp only [g3, Option.map_some]) g4
      · rw [mapM_some_iff] at g5 ⊢
        exact List.Forall₂.cons (by simp only [g2, Option.map_some]) g5
  constructor
  · intro inner innerFields hb
    obtain ⟨V, F, -, -, -, ha, -⟩ := hlow.backward hkids hout hname hfed hb (xs := []) (by simp only [exprsSem])
    obtain ⟨outs, -, h2⟩ := hwanted ha
    exact ⟨outs, h2⟩
  · intro outs
    rw [scopeSem_def, hv, hit]
    constructor
    · rintro ⟨V, F, g1, g2, g3, g4⟩
      obtain ⟨env, fields, g5, ha, -⟩ := hlow.forward hkids hout hname hfed (by rw [g1, List.length_map]) g2 g3
      obtain ⟨outs', g6, g7⟩ := hwanted ha
      rw [g4] at g6
      cases g6
      exact ⟨env, fields, g5, g7⟩
    · rintro ⟨env, fields, hb, g1⟩
      obtain ⟨V, F, g2, g3, g4, ha, -⟩ := hlow.backward hkids hout hname hfed hb (xs := []) (by simp only [exprsSem])
      obtain ⟨outs', g6, g7⟩ := hwanted ha
      rw [g1] at g7
      cases g7
      exact ⟨V, F, by rw [g2, List.length_map], g3, g4, g6⟩

mutual
theorem lowerKid_ok : ∀ s : Stmt L P Q N, StmtDistinct s → ∀ p ∈ lowerKid inputName s, ∃ b, s = .scopeS p.1 b ∧ KidOk sem b p.2
  | .letS _ _, _, p, hp => by simp [lowerKid] at hp
  | .varS _ _, _, p, hp => by simp [lowerKid] at hp
  | .exportS _ _, _, p, hp => by simp [lowerKid] at hp
  | .scopeS n body, hd, p, hp => by
    simp only [lowerKid, List.mem_singleton] at hp
    subst hp
    simp only [StmtDistinct] at hd
    refine ⟨body, rfl, lowerWith_kid hd.1 (fun m lower hl => ?_) n⟩
    obtain ⟨s, b, h1, h2, h3⟩ := lowerKids_ok body hd.2 (m, lower) (List.mem_reverse.1 (mem_of_lookup hl))
    subst h2
    exact ⟨b, h1, h3⟩
theorem lowerKids_ok : ∀ body : List (Stmt L P Q N), StmtsDistinct body → ∀ p ∈ lowerKids inputName body, ∃ s b, s ∈ body ∧ s = .scopeS p.1 b ∧ KidOk sem b p.2
  | [], _, p, hp => by simp [lowerKids] at hp
  | s :: body, hd, p, hp => by
    simp only [StmtsDistinct] at hd
    simp only [lowerKids, List.mem_append] at hp
    rcases hp with hp | hp
    · obtain ⟨b, h1, h2⟩ := lowerKid_ok s hd.1 p hp
      exact ⟨s, b, List.mem_cons_self, h1, h2⟩
    · obtain ⟨s', b, h1, h2, h3⟩ := lowerKids_ok body hd.2 p hp
      exact ⟨s', b, List.mem_cons_of_mem _ h1, h2, h3⟩
end

theorem kids_ok (hd : Distinct body) : ∀ n lower, ((lowerKids inputName body).reverse).lookup n = some lower → ∃ b, .scopeS n b ∈ body ∧ KidOk sem b lower := by
  intro n lower hl
  obtain ⟨s, b, h1, h2, h3⟩ := lowerKids_ok (sem := sem) body hd.2 (n, lower) (List.mem_reverse.1 (mem_of_lookup hl))
  subst h2
  exact ⟨b, h1, h3⟩

/-- The imports of the root are inputs and named traces. -/
def IsExternal (imports : List (Import N)) : Prop := ∀ imp ∈ imports, ∀ r, imp.src ≠ .parent r

omit [LinearOrder N] in
theorem external_of_mem [DecidableEq N] {st st' : LowerState L P Q N} {name : N} {src : Source N} {r : Ref} (h : st.external name src = some (st', r)) (hs : ∀ r, src ≠ .parent r)
    (hi : IsExternal st.imports) : IsExternal st'.imports := by
  unfold LowerState.external at h
  by_cases hr : st.isRoot = true
  · rw [if_pos hr] at h
    cases hf : st.imports.findIdx? (fun i => decide (i.src = src)) with
    | some i => rw [hf] at h; cases h; exact hi
    | none =>
      rw [hf] at h
      cases h
      intro imp him
      rcases List.mem_append.1 him with h | h
      · exact hi imp h
      · rw [List.mem_singleton.1 h]; exact hs
  · rw [if_neg hr] at h
    cases h

mutual
theorem lowerExpr_external : ∀ (e : Expr L P Q N) {st st' : LowerState L P Q N} {r : Ref}, lowerExpr inputName e st = some (st', r) → IsExternal st.imports → IsExternal st'.imports
  | .input n, st, st', r, h, hi => external_of_mem (by simpa only [lowerExpr] using h) (fun r h => by cases h) hi
  | .imported name, st, st', r, h, hi => external_of_mem (by simpa only [lowerExpr] using h) (fun r h => by cases h) hi
  | .name n, st, st', r, h, hi => by
    simp only [lowerExpr] at h
    obtain ⟨_, -, h2⟩ := Option.map_eq_some_iff.1 h
    cases h2
    exact hi
  | .qualified s f, st, st', r, h, hi => by
    simp only [lowerExpr] at h
    obtain ⟨_, -, h2⟩ := Option.map_eq_some_iff.1 h
    cases h2
    exact hi
  | .linear e op, st, st', r, h, hi => by
    simp only [lowerExpr] at h
    obtain ⟨p, h1, h2⟩ := Option.map_eq_some_iff.1 h
    cases h2
    exact lowerExpr_external e (r := p.2) (st' := p.1) h1 hi
  | .arrange e, st, st', r, h, hi => by
    simp only [lowerExpr] at h
    obtain ⟨p, h1, h2⟩ := Option.map_eq_some_iff.1 h
    cases h2
    exact lowerExpr_external e (r := p.2) (st' := p.1) h1 hi
  | .inspect e label, st, st', r, h, hi => by
    simp only [lowerExpr] at h
    obtain ⟨p, h1, h2⟩ := Option.map_eq_some_iff.1 h
    cases h2
    exact lowerExpr_external e (r := p.2) (st' := p.1) h1 hi
  | .reduce e red, st, st', r, h, hi => by
    simp only [lowerExpr] at h
    obtain ⟨p, h1, h2⟩ := Option.map_eq_some_iff.1 h
    cases h2
    exact lowerExpr_external e (r := p.2) (st' := p.1) h1 hi
  | .join l r' pr, st, st', r, h, hi => by
    simp only [lowerExpr] at h
    obtain ⟨p, h1, h2⟩ := Option.bind_eq_some_iff.1 h
    obtain ⟨q, h3, h4⟩ := Option.map_eq_some_iff.1 h2
    cases h4
    exact lowerExpr_external r' (r := q.2) (st' := q.1) h3 (lowerExpr_external l (r := p.2) (st' := p.1) h1 hi)
  | .concat es, st, st', r, h, hi => by
    simp only [lowerExpr] at h
    obtain ⟨p, h1, h2⟩ := Option.map_eq_some_iff.1 h
    cases h2
    exact lowerExprs_external es (rs := p.2) (st' := p.1) h1 hi
theorem lowerExprs_external : ∀ (es : List (Expr L P Q N)) {st st' : LowerState L P Q N} {rs : List Ref}, lowerExprs inputName es st = some (st', rs) → IsExternal st.imports →
    IsExternal st'.imports
  | [], st, st', rs, h, hi => by
    simp only [lowerExprs] at h
    cases h
    exact hi
  | e :: es, st, st', rs, h, hi => by
    simp only [lowerExprs] at h
    obtain ⟨p, h1, h2⟩ := Option.bind_eq_some_iff.1 h
    obtain ⟨q, h3, h4⟩ := Option.map_eq_some_iff.1 h2
    cases h4
    exact lowerExprs_external es h3 (lowerExpr_external e h1 hi)
end

theorem lowerOrder_external : ∀ {order : List (ItemKind × N)} {st stF : LowerState L P Q N}, order.foldlM (fun st p => lowerItem inputName body kids p st) st = some stF →
    IsExternal st.imports → IsExternal stF.imports := by
  intro order
  induction order with
  | nil => intro st stF h hr; cases h; exact hr
  | cons p order ih =>
    intro st stF h hr
    rw [List.foldlM_cons] at h
    obtain ⟨st', h1, h2⟩ := Option.bind_eq_some_iff.1 h
    refine ih h2 ?_
    obtain ⟨kind, name⟩ := p
    unfold lowerItem at h1
    cases kind with
    | letK =>
      obtain ⟨e, -, g2⟩ := Option.bind_eq_some_iff.1 h1
      obtain ⟨q, g3, rfl⟩ := Option.map_eq_some_iff.1 g2
      exact lowerExpr_external e (r := q.2) (st' := q.1) g3 hr
    | scopeK =>
      obtain ⟨lower, g1, g2⟩ := Option.bind_eq_some_iff.1 h1
      obtain ⟨child, g3, rfl⟩ := Option.map_eq_some_iff.1 g2
      exact hr

/-- A program. -/
theorem lowerTree_ok {root : N} {s : Scope L P Q N} (hd : Distinct body) (h : lowerTree inputName root body = some s) (inputs : Nat → Col) (traces : N → Col) :
    s.exports.map Export.name = (exportsIn body).map Prod.fst ∧ ∃ I, s.imports.mapM (fun i => external inputs traces i.src) = some I ∧
      ∀ outs, ProgramSem sem body inputs traces outs ↔ outs.map Prod.fst = (exportsIn body).map Prod.fst ∧ ScopeSem sem s 0 I (outs.map Prod.snd) := by
  obtain ⟨imports, order, st1, st2, st3, rs2, rs3, h1, hlow, -, hi, hv, hit, hex⟩ := lowerWith_lowered hd.1 h
  simp only [↓reduceIte, Option.some.injEq] at h1 hex hlow
  subst h1
  have hlen : rs3.length = (exportsIn body).length := by rw [lowerExprs_length _ hlow.exports, List.length_map]
  have hext : IsExternal s.imports := by
    rw [hi]
    exact lowerExprs_external _ hlow.exports (lowerExprs_external _ hlow.vars (lowerOrder_external hlow.items fun imp him => by cases him))
  have hnames : s.exports.map Export.name = (exportsIn body).map Prod.fst := by
    rw [hex]
    clear hex hlow
    generalize exportsIn body = l at hlen
    induction l generalizing rs3 with
    | nil => rfl
    | cons p l ih =>
      cases rs3 with
      | nil => cases hlen
      | cons r rs =>
        simp only [List.map_cons, List.zipWith_cons_cons, List.cons.injEq, true_and]
        exact ih (rs3 := rs) (by simpa using hlen)
  have hI : ∃ I, s.imports.mapM (fun i => external inputs traces i.src) = some I := by
    revert hext
    generalize s.imports = l
    intro hext
    induction l with
    | nil => exact ⟨[], rfl⟩
    | cons imp l ih =>
      obtain ⟨I, hI⟩ := ih fun i hi => hext i (List.mem_cons_of_mem _ hi)
      have : ∃ c, external inputs traces imp.src = some c := by
        cases hs : imp.src with
        | parent r => exact absurd hs (hext imp List.mem_cons_self r)
        | input n => exact ⟨_, rfl⟩
        | trace n => exact ⟨_, rfl⟩
      obtain ⟨c, hc⟩ := this
      exact ⟨c :: I, mapM_some_iff.2 (List.Forall₂.cons hc (mapM_some_iff.1 hI))⟩
  obtain ⟨I, hI⟩ := hI
  refine ⟨hnames, I, hI, fun outs => ?_⟩
  have hfed : Fed (external inputs traces) I st3.imports := by
    intro i imp him hp
    rw [← hi] at him
    obtain ⟨c, g1, g2⟩ := forall₂_get' (mapM_some_iff.1 hI) i imp him
    exact ⟨c, g2, g1⟩
  have hout : Outside (fun _ => none : N → Option (Rendered Col Arr)) I ([] : List (Import N)) := fun i imp him => by cases him
  have hvals : ∀ {V : List Col} {F : List (RItem Col Arr)} {xs : List (Rendered Col Arr)}, List.Forall₂ (fun r x => resolve (F[·]?) I V r = some x) rs3 xs →
      exportsOf sem (resolve (F[·]?) I V) s.exports = some (xs.map fun x => x.collection sem) := by
    intro V F xs hx
    rw [hex]
    clear hex hlow
    unfold exportsOf
    generalize exportsIn body = l at hlen
    induction hx generalizing l with
    | nil => cases l <;> rfl
    | @cons r x rs xs hr _ ih =>
      cases l with
      | nil => cases hlen
      | cons p l =>
        have := mapM_some_iff.1 (ih l (by simpa using hlen))
        simp only [List.map_cons, List.zipWith_cons_cons]
        exact mapM_some_iff.2 (List.Forall₂.cons (by simp only [hr, Option.map_some]) this)
  rw [scopeSem_def, hv, hit]
  constructor
  · rintro ⟨env, fields, hb, ho⟩
    have hx : ∃ xs, exprsSem sem 0 (external inputs traces) env fields ((exportsIn body).map Prod.snd) = some xs ∧ outs.map Prod.snd = xs.map (fun x => x.collection sem) ∧
        outs.map Prod.fst = (exportsIn body).map Prod.fst := by
      clear hnames hex hlow hlen hvals
      generalize exportsIn body = l at ho
      induction ho with
      | nil => exact ⟨[], rfl, rfl, rfl⟩
      | cons hp _ ih =>
        obtain ⟨g1, x, g2, g3⟩ := hp
        obtain ⟨xs, g4, g5, g6⟩ := ih
        exact ⟨x :: xs, exprsSem_iff.2 (List.Forall₂.cons g2 (exprsSem_iff.1 g4)), by simp only [List.map_cons, g5, g3], by simp only [List.map_cons, g6, g1]⟩
    obtain ⟨xs, g1, g2, g3⟩ := hx
    obtain ⟨V, F, k1, k2, k3, -, k4⟩ := hlow.backward (kids_ok hd) hout (fun imp him => by cases him) hfed hb g1
    exact ⟨g3, V, F, by rw [k1, List.length_map], k2, k3, by rw [hvals k4, g2]⟩
  · rintro ⟨g3, V, F, k1, k2, k3, k4⟩
    obtain ⟨env, fields, hb, -, xs, g1, g2⟩ := hlow.forward (kids_ok hd) hout (fun imp him => by cases him) hfed (by rw [k1, List.length_map]) k2 k3
    refine ⟨env, fields, hb, ?_⟩
    rw [hvals g2, Option.some.injEq] at k4
    replace g1 := exprsSem_iff.1 g1
    clear hnames hex hlow hlen hvals g2
    generalize exportsIn body = l at g1 g3
    induction l generalizing outs xs with
    | nil =>
      cases outs with
      | nil => exact List.Forall₂.nil
      | cons o outs => cases g3
    | cons p l ih =>
      cases outs with
      | nil => cases g3
      | cons o outs =>
        cases g1 with
        | @cons _ x _ xs g5 g6 =>
          simp only [List.map_cons, List.cons.injEq] at g3 k4
          exact List.Forall₂.cons ⟨g3.1, x, g5, k4.1.symm⟩ (ih outs xs k4.2 g6 g3.2)

end

end DD.Ir
