import Verif.Proofs.LowerTree

/-!
# The references in lowered programs
-/

namespace DD.Ir
variable {L P Q N : Type*}

/-- The references in a state are in order. -/
structure StateWF [DecidableEq N] (st : LowerState L P Q N) : Prop where
  items : ∀ (i : Nat) it, st.items[i]? = some it → ∀ r ∈ it.refs, RefOk st.items i r
  kids : ∀ it ∈ st.items, ItemWF it
  env : ∀ n r, st.env.lookup n = some r → RefOk st.items st.items.length r
  children : ∀ s c, st.children.lookup s = some c → ∃ k, st.items[c.1]? = some (.sub k)

theorem refOk_mono {items items' : List (Item L P Q N)} (h : items <+: items') {i i' : Nat} (hi : i ≤ i') {r : Ref} (hr : RefOk items i r) : RefOk items' i' r := by
  cases r with
  | loc j => obtain ⟨h1, n, h2⟩ := hr; exact ⟨by omega, n, get_of_prefix h h2⟩
  | childExport j k => obtain ⟨h1, n, h2⟩ := hr; exact ⟨by omega, n, get_of_prefix h h2⟩
  | imp _ => trivial
  | var _ => trivial

section
variable [DecidableEq N] {inputName : Nat → N}

theorem StateWF.add {st : LowerState L P Q N} (h : StateWF st) {it : Item L P Q N} (hr : ∀ r ∈ it.refs, RefOk st.items st.items.length r) (hw : ItemWF it) :
    StateWF { st with items := st.items ++ [it] } := by
  have hp : st.items <+: st.items ++ [it] := List.prefix_append _ _
  refine ⟨?_, ?_, ?_, ?_⟩
  · intro i it' hi r hr'
    have hi : (st.items ++ [it])[i]? = some it' := hi
    by_cases hlt : i < st.items.length
    · rw [List.getElem?_append_left hlt] at hi
      exact refOk_mono hp le_rfl (h.items i it' hi r hr')
    · have : i = st.items.length := by
        have := (List.getElem?_eq_some_iff.1 hi).1
        rw [List.length_append, List.length_singleton] at this
        omega
      subst this
      rw [List.getElem?_concat_length] at hi
      cases hi
      exact refOk_mono hp le_rfl (hr r hr')
  · intro it' hit
    rcases List.mem_append.1 hit with h' | h'
    · exact h.kids it' h'
    · rw [List.mem_singleton.1 h']; exact hw
  · intro n r hr'
    exact refOk_mono hp (by rw [List.length_append]; omega) (h.env n r hr')
  · intro s c hc
    obtain ⟨k, hk⟩ := h.children s c hc
    exact ⟨k, get_of_prefix hp hk⟩

theorem StateWF.push {st : LowerState L P Q N} (h : StateWF st) {n : Node L P Q N} (hr : ∀ r ∈ n.refs, RefOk st.items st.items.length r) :
    StateWF (st.push n).1 ∧ RefOk (st.push n).1.items (st.push n).1.items.length (st.push n).2 := by
  refine ⟨h.add (it := .op n) hr (by simp only [ItemWF]), ?_⟩
  exact ⟨by simp [LowerState.push], n, by simp [LowerState.push]⟩

theorem StateWF.external {st st' : LowerState L P Q N} {name : N} {src : Source N} {r : Ref} (hw : StateWF st) (h : st.external name src = some (st', r)) :
    StateWF st' ∧ RefOk st'.items st'.items.length r := by
  unfold LowerState.external at h
  by_cases hr : st.isRoot = true
  · rw [if_pos hr] at h
    cases hf : st.imports.findIdx? (fun i => decide (i.src = src)) with
    | some i => rw [hf] at h; cases h; exact ⟨hw, trivial⟩
    | none => rw [hf] at h; cases h; exact ⟨⟨hw.items, hw.kids, hw.env, hw.children⟩, trivial⟩
  · rw [if_neg hr] at h
    cases h

mutual
theorem lowerExpr_wf : ∀ (e : Expr L P Q N) {st st' : LowerState L P Q N} {r : Ref}, lowerExpr inputName e st = some (st', r) → StateWF st → StateWF st' ∧ RefOk st'.items st'.items.length r
  | .input n, st, st', r, h, hw => hw.external (by simpa only [lowerExpr] using h)
  | .imported name, st, st', r, h, hw => hw.external (by simpa only [lowerExpr] using h)
  | .name n, st, st', r, h, hw => by
    simp only [lowerExpr] at h
    obtain ⟨_, h1, h2⟩ := Option.map_eq_some_iff.1 h
    cases h2
    exact ⟨hw, hw.env _ _ h1⟩
  | .qualified s f, st, st', r, h, hw => by
    simp only [lowerExpr, LowerState.qualified] at h
    obtain ⟨_, h1, h2⟩ := Option.map_eq_some_iff.1 h
    cases h2
    obtain ⟨c, h3, h4⟩ := Option.bind_eq_some_iff.1 h1
    obtain ⟨j, -, rfl⟩ := Option.map_eq_some_iff.1 h4
    obtain ⟨k, hk⟩ := hw.children s c h3
    exact ⟨hw, (List.getElem?_eq_some_iff.1 hk).1, k, hk⟩
  | .linear e op, st, st', r, h, hw => by
    simp only [lowerExpr] at h
    obtain ⟨p, h1, h2⟩ := Option.map_eq_some_iff.1 h
    cases h2
    obtain ⟨w, g⟩ := lowerExpr_wf e (r := p.2) (st' := p.1) h1 hw
    exact w.push (by simpa only [Node.refs, List.mem_singleton, forall_eq] using g)
  | .arrange e, st, st', r, h, hw => by
    simp only [lowerExpr] at h
    obtain ⟨p, h1, h2⟩ := Option.map_eq_some_iff.1 h
    cases h2
    obtain ⟨w, g⟩ := lowerExpr_wf e (r := p.2) (st' := p.1) h1 hw
    exact w.push (by simpa only [Node.refs, List.mem_singleton, forall_eq] using g)
  | .inspect e label, st, st', r, h, hw => by
    simp only [lowerExpr] at h
    obtain ⟨p, h1, h2⟩ := Option.map_eq_some_iff.1 h
    cases h2
    obtain ⟨w, g⟩ := lowerExpr_wf e (r := p.2) (st' := p.1) h1 hw
    exact w.push (by simpa only [Node.refs, List.mem_singleton, forall_eq] using g)
  | .reduce e red, st, st', r, h, hw => by
    simp only [lowerExpr] at h
    obtain ⟨p, h1, h2⟩ := Option.map_eq_some_iff.1 h
    cases h2
    obtain ⟨w, g⟩ := lowerExpr_wf e (r := p.2) (st' := p.1) h1 hw
    obtain ⟨w2, g2⟩ := w.push (n := .arrange p.2) (by simpa only [Node.refs, List.mem_singleton, forall_eq] using g)
    exact w2.push (by simpa only [Node.refs, List.mem_singleton, forall_eq] using g2)
  | .join l r' pr, st, st', r, h, hw => by
    simp only [lowerExpr] at h
    obtain ⟨p, h1, h2⟩ := Option.bind_eq_some_iff.1 h
    obtain ⟨q, h3, h4⟩ := Option.map_eq_some_iff.1 h2
    cases h4
    obtain ⟨w1, g1⟩ := lowerExpr_wf l (r := p.2) (st' := p.1) h1 hw
    obtain ⟨w2, g2⟩ := w1.push (n := .arrange p.2) (by simpa only [Node.refs, List.mem_singleton, forall_eq] using g1)
    obtain ⟨w3, g3⟩ := lowerExpr_wf r' (r := q.2) (st' := q.1) h3 w2
    obtain ⟨w4, g4⟩ := w3.push (n := .arrange q.2) (by simpa only [Node.refs, List.mem_singleton, forall_eq] using g3)
    refine w4.push ?_
    have hp := ((lowerExpr_ext r' (r := q.2) (st' := q.1) h3).trans (Ext.push q.1 (.arrange q.2))).items
    intro r hr
    simp only [Node.refs, List.mem_cons, List.not_mem_nil, or_false] at hr
    rcases hr with rfl | rfl
    · exact refOk_mono hp hp.length_le g2
    · exact g4
  | .concat es, st, st', r, h, hw => by
    simp only [lowerExpr] at h
    obtain ⟨p, h1, h2⟩ := Option.map_eq_some_iff.1 h
    cases h2
    obtain ⟨w, g⟩ := lowerExprs_wf es (rs := p.2) (st' := p.1) h1 hw
    exact w.push g
theorem lowerExprs_wf : ∀ (es : List (Expr L P Q N)) {st st' : LowerState L P Q N} {rs : List Ref}, lowerExprs inputName es st = some (st', rs) → StateWF st →
    StateWF st' ∧ ∀ r ∈ rs, RefOk st'.items st'.items.length r
  | [], st, st', rs, h, hw => by
    simp only [lowerExprs] at h
    cases h
    exact ⟨hw, fun r hr => by cases hr⟩
  | e :: es, st, st', rs, h, hw => by
    simp only [lowerExprs] at h
    obtain ⟨p, h1, h2⟩ := Option.bind_eq_some_iff.1 h
    obtain ⟨q, h3, h4⟩ := Option.map_eq_some_iff.1 h2
    cases h4
    obtain ⟨w1, g1⟩ := lowerExpr_wf e (r := p.2) (st' := p.1) h1 hw
    obtain ⟨w2, g2⟩ := lowerExprs_wf es (rs := q.2) (st' := q.1) h3 w1
    have hp := (lowerExprs_ext es (rs := q.2) (st' := q.1) h3).items
    refine ⟨w2, fun r hr => ?_⟩
    rcases List.mem_cons.1 hr with rfl | hr
    · exact refOk_mono hp hp.length_le g1
    · exact g2 r hr
end

variable {body : List (Stmt L P Q N)} {kids : List (N × LowerChild L P Q N)}

/-- Lowering a nested scope gives a scope whose references are in order, and that imports names from its parent. -/
def KidWF (lower : LowerChild L P Q N) : Prop :=
  ∀ parentEnv wanted s, lower parentEnv wanted = some s → ScopeWF s ∧ ∀ imp ∈ s.imports, ∃ r, imp.src = .parent r ∧ parentEnv.lookup imp.name = some r

theorem lowerOrder_wf (hkids : ∀ n lower, kids.lookup n = some lower → KidWF lower) : ∀ {order : List (ItemKind × N)} {st stF : LowerState L P Q N},
    order.foldlM (fun st p => lowerItem inputName body kids p st) st = some stF → StateWF st → StateWF stF := by
  intro order
  induction order with
  | nil => intro st stF h hr; cases h; exact hr
  | cons p order ih =>
    intro st stF h hw
    rw [List.foldlM_cons] at h
    obtain ⟨st', h1, h2⟩ := Option.bind_eq_some_iff.1 h
    refine ih h2 ?_
    obtain ⟨kind, name⟩ := p
    unfold lowerItem at h1
    cases kind with
    | letK =>
      obtain ⟨e, -, g2⟩ := Option.bind_eq_some_iff.1 h1
      obtain ⟨q, g3, rfl⟩ := Option.map_eq_some_iff.1 g2
      obtain ⟨w, g⟩ := lowerExpr_wf e (r := q.2) (st' := q.1) g3 hw
      refine ⟨w.items, w.kids, fun n r hr => ?_, w.children⟩
      have hr : List.lookup n ((name, q.2) :: q.1.env) = some r := hr
      rw [List.lookup_cons] at hr
      by_cases hn : n = name
      · subst hn
        rw [show (n == n) = true from by simp] at hr
        cases hr
        exact g
      · rw [show (n == name) = false from by simpa using hn] at hr
        exact w.env n r hr
    | scopeK =>
      obtain ⟨lower, g1, g2⟩ := Option.bind_eq_some_iff.1 h1
      obtain ⟨child, g3, rfl⟩ := Option.map_eq_some_iff.1 g2
      obtain ⟨k1, k2⟩ := hkids name lower g1 _ _ _ g3
      have w := hw.add (it := .sub child) (fun r hr => by
        simp only [Item.refs, List.mem_flatMap] at hr
        obtain ⟨imp, k3, k4⟩ := hr
        obtain ⟨r', k5, k6⟩ := k2 imp k3
        rw [k5] at k4
        simp only [Source.refs, List.mem_singleton] at k4
        subst k4
        exact hw.env _ _ k6) (by simpa only [ItemWF] using k1)
      refine ⟨w.items, w.kids, w.env, fun s c hc => ?_⟩
      have hc : List.lookup s ((name, st.items.length, qualifiedFields body name) :: st.children) = some c := hc
      rw [List.lookup_cons] at hc
      by_cases hs : s = name
      · subst hs
        rw [show (s == s) = true from by simp] at hc
        cases hc
        exact ⟨child, by simp⟩
      · rw [show (s == name) = false from by simpa using hs] at hc
        exact w.children s c hc

end

section
variable [LinearOrder N] {inputName : Nat → N} {body : List (Stmt L P Q N)} {kids : List (N × LowerChild L P Q N)}

theorem lowerWith_wf (hnd : (localNames body).Nodup) (hkids : ∀ n lower, kids.lookup n = some lower → KidWF lower) {name : N} {isRoot : Bool} {parentEnv : List (N × Ref)} {wanted : List N}
    {s : Scope L P Q N} (h : lowerWith inputName name body kids isRoot parentEnv wanted = some s) : ScopeWF s := by
  obtain ⟨imports, order, st1, st2, st3, rs2, rs3, h1, hlow, -, hi, hv, hit, hex⟩ := lowerWith_lowered hnd h
  have w0 : StateWF (⟨isRoot, [], imports, firstEnv ((varsOf body).map Prod.fst) imports, []⟩ : LowerState L P Q N) := by
    refine ⟨fun i it hit => by simp at hit, fun it hit => by simp at hit, fun n r hr => ?_, fun s c hc => by cases hc⟩
    rcases firstEnv_lookup hr with ⟨i, -, rfl⟩ | ⟨i, imp, -, -, rfl⟩ <;> trivial
  have w1 := lowerOrder_wf hkids hlow.items w0
  obtain ⟨w2, g2⟩ := lowerExprs_wf _ hlow.vars w1
  obtain ⟨w3, g3⟩ := lowerExprs_wf _ hlow.exports w2
  obtain ⟨m1, m2, -, -⟩ := hlow.mono
  rw [scopeWF_iff]
  refine ⟨⟨by rw [hit]; exact w3.items, ?_, ?_⟩, by rw [hit]; exact w3.kids⟩
  · intro b hb
    obtain ⟨i, hi⟩ := List.getElem?_of_mem hb
    rw [hit]
    exact refOk_mono m2 m2.length_le (g2 _ (List.mem_of_getElem? (hlow.binds_get.2 i b hi).2))
  · intro e he
    rw [hit]
    cases isRoot with
    | true =>
      simp only [↓reduceIte] at hex
      rw [hex] at he
      obtain ⟨i, hi⟩ := List.getElem?_of_mem he
      rw [List.getElem?_zipWith_eq_some] at hi
      obtain ⟨x, r, -, k2, k3⟩ := hi
      subst k3
      exact g3 _ (List.mem_of_getElem? k2)
    | false =>
      simp only [Bool.false_eq_true, ↓reduceIte] at hex
      obtain ⟨i, hi⟩ := List.getElem?_of_mem he
      obtain ⟨f, -, r, k1, rfl⟩ := forall₂_get hex i e hi
      exact w3.env f r k1

theorem lowerWith_kidWF (hnd : (localNames body).Nodup) (hkids : ∀ n lower, kids.lookup n = some lower → KidWF lower) (name : N) : KidWF (lowerWith inputName name body kids false) := by
  intro parentEnv wanted s h
  refine ⟨lowerWith_wf hnd hkids h, ?_⟩
  obtain ⟨imports, order, st1, st2, st3, rs2, rs3, h1, hlow, -, hi, -, -, -⟩ := lowerWith_lowered hnd h
  simp only [Bool.false_eq_true, ↓reduceIte] at h1
  obtain ⟨-, -, e1, e2⟩ := hlow.mono
  obtain ⟨r1, r2⟩ := lowerOrder_inner hlow.items rfl
  rw [hi, e2.inner (e1.isRoot.trans r1), e1.inner r1, r2]
  exact fun imp him => (parentImports_spec h1 imp him).2

mutual
theorem lowerKid_wf : ∀ s : Stmt L P Q N, StmtDistinct s → ∀ p ∈ lowerKid inputName s, KidWF p.2
  | .letS _ _, _, p, hp => by simp [lowerKid] at hp
  | .varS _ _, _, p, hp => by simp [lowerKid] at hp
  | .exportS _ _, _, p, hp => by simp [lowerKid] at hp
  | .scopeS n body, hd, p, hp => by
    simp only [lowerKid, List.mem_singleton] at hp
    subst hp
    simp only [StmtDistinct] at hd
    exact lowerWith_kidWF hd.1 (fun m lower hl => lowerKids_wf body hd.2 (m, lower) (List.mem_reverse.1 (mem_of_lookup hl))) n
theorem lowerKids_wf : ∀ body : List (Stmt L P Q N), StmtsDistinct body → ∀ p ∈ lowerKids inputName body, KidWF p.2
  | [], _, p, hp => by simp [lowerKids] at hp
  | s :: body, hd, p, hp => by
    simp only [StmtsDistinct] at hd
    simp only [lowerKids, List.mem_append] at hp
    rcases hp with hp | hp
    · exact lowerKid_wf s hd.1 p hp
    · exact lowerKids_wf body hd.2 p hp
end

theorem lowerTree_wf {root : N} {s : Scope L P Q N} (hd : Distinct body) (h : lowerTree inputName root body = some s) : ScopeWF s :=
  lowerWith_wf hd.1 (fun n lower hl => lowerKids_wf body hd.2 (n, lower) (List.mem_reverse.1 (mem_of_lookup hl))) h

end

end DD.Ir
