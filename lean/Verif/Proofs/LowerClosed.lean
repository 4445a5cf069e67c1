import Verif.Proofs.LowerWF
import Verif.Proofs.CloneSem

/-!
# The references in lowered programs are to something that is there
-/

namespace DD.Ir
variable {L P Q N : Type*}

/-- The reference is to something that is there, in a scope with `nV` variables. -/
def There (nV : Nat) (st : LowerState L P Q N) : Ref → Prop
  | .loc _ => True
  | .imp k => k < st.imports.length
  | .var v => v < nV
  | .childExport i j => ∃ c, st.items[i]? = some (.sub c) ∧ j < c.exports.length

theorem There.mono' {nV : Nat} {st st' : LowerState L P Q N} (h : st.items <+: st'.items) (hi : st.imports <+: st'.imports) {r : Ref} (hr : There nV st r) : There nV st' r := by
  cases r with
  | loc j => trivial
  | childExport j k => obtain ⟨n, h2, h3⟩ := hr; exact ⟨n, get_of_prefix h h2, h3⟩
  | imp k => exact lt_of_lt_of_le hr hi.length_le
  | var v => exact hr

theorem There.mono {nV : Nat} {st st' : LowerState L P Q N} (h : Ext st st') {r : Ref} (hr : There nV st r) : There nV st' r := hr.mono' h.items h.imports

/-- All references in a state are to something that is there. -/
structure StateClosed [DecidableEq N] (nV : Nat) (st : LowerState L P Q N) : Prop where
  items : ∀ it ∈ st.items, ∀ r ∈ it.refs, There nV st r
  kids : ∀ it ∈ st.items, ItemClosed it
  env : ∀ n r, st.env.lookup n = some r → There nV st r
  children : ∀ s c, st.children.lookup s = some c → ∃ k, st.items[c.1]? = some (.sub k) ∧ k.exports.length = c.2.length

section
variable [DecidableEq N] {inputName : Nat → N} {nV : Nat}

theorem idxOf?_get {l : List N} {x : N} {j : Nat} (h : l.idxOf? x = some j) : l[j]? = some x := by
  rw [List.idxOf?, List.findIdx?_eq_some_iff_getElem] at h
  obtain ⟨h1, h2, -⟩ := h
  rw [List.getElem?_eq_getElem h1]
  simpa using h2

theorem StateClosed.add {st : LowerState L P Q N} (h : StateClosed nV st) {it : Item L P Q N} (hr : ∀ r ∈ it.refs, There nV st r) (hw : ItemClosed it) :
    StateClosed nV { st with items := st.items ++ [it] } := by
  have hp : ∀ {r : Ref}, There nV st r → There nV { st with items := st.items ++ [it] } r := fun {r} h => There.mono' (st := st) (st' := { st with items := st.items ++ [it] }) (List.prefix_append _ _) List.prefix_rfl h
  refine ⟨?_, ?_, fun n r hr' => hp (h.env n r hr'), ?_⟩
  · intro it' hi r hr'
    rcases List.mem_append.1 hi with h' | h'
    · exact hp (h.items it' h' r hr')
    · cases List.mem_singleton.1 h'; exact hp (hr r hr')
  · intro it' hit
    rcases List.mem_append.1 hit with h' | h'
    · exact h.kids it' h'
    · rw [List.mem_singleton.1 h']; exact hw
  · intro s c hc
    obtain ⟨k, hk, hl⟩ := h.children s c hc
    exact ⟨k, get_of_prefix (List.prefix_append _ _) hk, hl⟩

theorem StateClosed.push {st : LowerState L P Q N} (h : StateClosed nV st) {n : Node L P Q N} (hr : ∀ r ∈ n.refs, There nV st r) :
    StateClosed nV (st.push n).1 ∧ There nV (st.push n).1 (st.push n).2 :=
  ⟨h.add (it := .op n) hr (by simp only [ItemClosed]), trivial⟩

theorem StateClosed.external {st st' : LowerState L P Q N} {name : N} {src : Source N} {r : Ref} (hw : StateClosed nV st) (h : st.external name src = some (st', r)) :
    StateClosed nV st' ∧ There nV st' r := by
  obtain ⟨he, hi, i, imp, rfl, h1, -⟩ := external_ext h
  refine ⟨⟨?_, by rw [hi]; exact hw.kids, ?_, ?_⟩, (List.getElem?_eq_some_iff.1 h1).1⟩
  · rw [hi]; exact fun it hit r hr => (hw.items it hit r hr).mono he
  · rw [he.env]; exact fun n r hr => (hw.env n r hr).mono he
  · rw [he.children, hi]; exact hw.children

mutual
theorem lowerExpr_closed : ∀ (e : Expr L P Q N) {st st' : LowerState L P Q N} {r : Ref}, lowerExpr inputName e st = some (st', r) → StateClosed nV st → StateClosed nV st' ∧ There nV st' r
  | .input n, st, st', r, h, hw => hw.external (by simpa only [lowerExpr] using h)
  | .imported name, st, st', r, h, hw => hw.external (by simpa only [lowerExpr] using h)
  | .name n, st, st', r, h, hw => by
    simp only [lowerExpr] at h
    obtain ⟨_, h1, h2⟩ := Option.map_eq_some_iff.1 h
    cases h2
    exact ⟨hw, hw.env _ _ h1⟩
  | .qualified s f, st, st', r, h, hw => by
    simp only [lowerExpr, LowerState.qualified] at h
    obtain ⟨_, h1, h2⟩ := Option.map_eq_some_iff.1 h
    cases h2
    obtain ⟨c, h3, h4⟩ := Option.bind_eq_some_iff.1 h1
    obtain ⟨j, hj, rfl⟩ := Option.map_eq_some_iff.1 h4
    obtain ⟨k, hk, hl⟩ := hw.children s c h3
    exact ⟨hw, k, hk, by rw [hl]; exact (List.getElem?_eq_some_iff.1 (idxOf?_get hj)).1⟩
  | .linear e op, st, st', r, h, hw => by
    simp only [lowerExpr] at h
    obtain ⟨p, h1, h2⟩ := Option.map_eq_some_iff.1 h
    cases h2
    obtain ⟨w, g⟩ := lowerExpr_closed e (r := p.2) (st' := p.1) h1 hw
    exact w.push (by simpa only [Node.refs, List.mem_singleton, forall_eq] using g)
  | .arrange e, st, st', r, h, hw => by
    simp only [lowerExpr] at h
    obtain ⟨p, h1, h2⟩ := Option.map_eq_some_iff.1 h
    cases h2
    obtain ⟨w, g⟩ := lowerExpr_closed e (r := p.2) (st' := p.1) h1 hw
    exact w.push (by simpa only [Node.refs, List.mem_singleton, forall_eq] using g)
  | .inspect e label, st, st', r, h, hw => by
    simp only [lowerExpr] at h
    obtain ⟨p, h1, h2⟩ := Option.map_eq_some_iff.1 h
    cases h2
    obtain ⟨w, g⟩ := lowerExpr_closed e (r := p.2) (st' := p.1) h1 hw
    exact w.push (by simpa only [Node.refs, List.mem_singleton, forall_eq] using g)
  | .reduce e red, st, st', r, h, hw => by
    simp only [lowerExpr] at h
    obtain ⟨p, h1, h2⟩ := Option.map_eq_some_iff.1 h
    cases h2
    obtain ⟨w, g⟩ := lowerExpr_closed e (r := p.2) (st' := p.1) h1 hw
    obtain ⟨w2, g2⟩ := w.push (n := .arrange p.2) (by simpa only [Node.refs, List.mem_singleton, forall_eq] using g)
    exact w2.push (by simpa only [Node.refs, List.mem_singleton, forall_eq] using g2)
  | .join l r' pr, st, st', r, h, hw => by
    simp only [lowerExpr] at h
    obtain ⟨p, h1, h2⟩ := Option.bind_eq_some_iff.1 h
    obtain ⟨q, h3, h4⟩ := Option.map_eq_some_iff.1 h2
    cases h4
    obtain ⟨w1, g1⟩ := lowerExpr_closed l (r := p.2) (st' := p.1) h1 hw
    obtain ⟨w2, g2⟩ := w1.push (n := .arrange p.2) (by simpa only [Node.refs, List.mem_singleton, forall_eq] using g1)
    obtain ⟨w3, g3⟩ := lowerExpr_closed r' (r := q.2) (st' := q.1) h3 w2
    obtain ⟨w4, g4⟩ := w3.push (n := .arrange q.2) (by simpa only [Node.refs, List.mem_singleton, forall_eq] using g3)
    refine w4.push ?_
    have hp := (lowerExpr_ext r' (r := q.2) (st' := q.1) h3).trans (Ext.push q.1 (.arrange q.2))
    intro r hr
    simp only [Node.refs, List.mem_cons, List.not_mem_nil, or_false] at hr
    rcases hr with rfl | rfl
    · exact There.mono hp g2
    · exact g4
  | .concat es, st, st', r, h, hw => by
    simp only [lowerExpr] at h
    obtain ⟨p, h1, h2⟩ := Option.map_eq_some_iff.1 h
    cases h2
    obtain ⟨w, g⟩ := lowerExprs_closed es (rs := p.2) (st' := p.1) h1 hw
    exact w.push g
theorem lowerExprs_closed : ∀ (es : List (Expr L P Q N)) {st st' : LowerState L P Q N} {rs : List Ref}, lowerExprs inputName es st = some (st', rs) → StateClosed nV st →
    StateClosed nV st' ∧ ∀ r ∈ rs, There nV st' r
  | [], st, st', rs, h, hw => by
    simp only [lowerExprs] at h
    cases h
    exact ⟨hw, fun r hr => by cases hr⟩
  | e :: es, st, st', rs, h, hw => by
    simp only [lowerExprs] at h
    obtain ⟨p, h1, h2⟩ := Option.bind_eq_some_iff.1 h
    obtain ⟨q, h3, h4⟩ := Option.map_eq_some_iff.1 h2
    cases h4
    obtain ⟨w1, g1⟩ := lowerExpr_closed e (r := p.2) (st' := p.1) h1 hw
    obtain ⟨w2, g2⟩ := lowerExprs_closed es (rs := q.2) (st' := q.1) h3 w1
    have hp := lowerExprs_ext es (rs := q.2) (st' := q.1) h3
    refine ⟨w2, fun r hr => ?_⟩
    rcases List.mem_cons.1 hr with rfl | hr
    · exact There.mono hp g1
    · exact g2 r hr
end

variable {body : List (Stmt L P Q N)} {kids : List (N × LowerChild L P Q N)}

/-- Lowering a nested scope gives a scope whose references are to something that is there, with the wanted exports, and that imports names from its parent. -/
def KidClosed (lower : LowerChild L P Q N) : Prop :=
  ∀ parentEnv wanted s, lower parentEnv wanted = some s → ScopeClosed s ∧ s.exports.length = wanted.length ∧ ∀ imp ∈ s.imports, ∃ r, imp.src = .parent r ∧ parentEnv.lookup imp.name = some r

theorem lowerOrder_closed (hkids : ∀ n lower, kids.lookup n = some lower → KidClosed lower) : ∀ {order : List (ItemKind × N)} {st stF : LowerState L P Q N},
    order.foldlM (fun st p => lowerItem inputName body kids p st) st = some stF → StateClosed nV st → StateClosed nV stF := by
  intro order
  induction order with
  | nil => intro st stF h hr; cases h; exact hr
  | cons p order ih =>
    intro st stF h hw
    rw [List.foldlM_cons] at h
    obtain ⟨st', h1, h2⟩ := Option.bind_eq_some_iff.1 h
    refine ih h2 ?_
    obtain ⟨kind, name⟩ := p
    unfold lowerItem at h1
    cases kind with
    | letK =>
      obtain ⟨e, -, g2⟩ := Option.bind_eq_some_iff.1 h1
      obtain ⟨q, g3, rfl⟩ := Option.map_eq_some_iff.1 g2
      obtain ⟨w, g⟩ := lowerExpr_closed e (r := q.2) (st' := q.1) g3 hw
      refine ⟨fun it hit r hr => (w.items it hit r hr).mono' List.prefix_rfl List.prefix_rfl, w.kids, fun n r hr => ?_, w.children⟩
      have hr : List.lookup n ((name, q.2) :: q.1.env) = some r := hr
      rw [List.lookup_cons] at hr
      by_cases hn : n = name
      · subst hn
        rw [show (n == n) = true from by simp] at hr
        cases hr
        exact g.mono' List.prefix_rfl List.prefix_rfl
      · rw [show (n == name) = false from by simpa using hn] at hr
        exact (w.env n r hr).mono' List.prefix_rfl List.prefix_rfl
    | scopeK =>
      obtain ⟨lower, g1, g2⟩ := Option.bind_eq_some_iff.1 h1
      obtain ⟨child, g3, rfl⟩ := Option.map_eq_some_iff.1 g2
      obtain ⟨k1, k0, k2⟩ := hkids name lower g1 _ _ _ g3
      have w := hw.add (it := .sub child) (fun r hr => by
        simp only [Item.refs, List.mem_flatMap] at hr
        obtain ⟨imp, k3, k4⟩ := hr
        obtain ⟨r', k5, k6⟩ := k2 imp k3
        rw [k5] at k4
        simp only [Source.refs, List.mem_singleton] at k4
        subst k4
        exact hw.env _ _ k6) (by simp only [ItemClosed]; exact ⟨fun i hi => (k2 i hi).imp fun _ h => h.1, k1⟩)
      refine ⟨fun it hit r hr => (w.items it hit r hr).mono' List.prefix_rfl List.prefix_rfl, w.kids, fun n r hr => (w.env n r hr).mono' List.prefix_rfl List.prefix_rfl, fun s c hc => ?_⟩
      have hc : List.lookup s ((name, st.items.length, qualifiedFields body name) :: st.children) = some c := hc
      rw [List.lookup_cons] at hc
      by_cases hs : s = name
      · subst hs
        rw [show (s == s) = true from by simp] at hc
        cases hc
        exact ⟨child, by simp, k0⟩
      · rw [show (s == name) = false from by simpa using hs] at hc
        exact w.children s c hc

end

section
variable [LinearOrder N] {inputName : Nat → N} {body : List (Stmt L P Q N)} {kids : List (N × LowerChild L P Q N)}

theorem lowerWith_closed (hnd : (localNames body).Nodup) (hkids : ∀ n lower, kids.lookup n = some lower → KidClosed lower) {name : N} {isRoot : Bool} {parentEnv : List (N × Ref)} {wanted : List N}
    {s : Scope L P Q N} (h : lowerWith inputName name body kids isRoot parentEnv wanted = some s) : ScopeClosed s := by
  obtain ⟨imports, order, st1, st2, st3, rs2, rs3, h1, hlow, -, hi, hv, hit, hex⟩ := lowerWith_lowered hnd h
  have w0 : StateClosed (varsOf body).length (⟨isRoot, [], imports, firstEnv ((varsOf body).map Prod.fst) imports, []⟩ : LowerState L P Q N) := by
    refine ⟨fun it hit => by simp at hit, fun it hit => by simp at hit, fun n r hr => ?_, fun s c hc => by cases hc⟩
    rcases firstEnv_lookup hr with ⟨i, k, rfl⟩ | ⟨i, imp, k, -, rfl⟩
    · have := (List.getElem?_eq_some_iff.1 k).1
      rwa [List.length_map] at this
    · exact (List.getElem?_eq_some_iff.1 k).1
  have w1 := lowerOrder_closed hkids hlow.items w0
  obtain ⟨w2, g2⟩ := lowerExprs_closed _ hlow.vars w1
  obtain ⟨w3, g3⟩ := lowerExprs_closed _ hlow.exports w2
  obtain ⟨-, -, -, m2⟩ := hlow.mono
  have hin : ∀ r, There (varsOf body).length st3 r → RefIn s r := by
    intro r hr
    cases r with
    | loc j => trivial
    | imp k => exact (by rw [hi]; exact hr : k < s.imports.length)
    | var v => exact (by rw [hv, List.length_map]; exact hr : v < s.vars.length)
    | childExport i j =>
      intro c hc
      obtain ⟨c', k1, k2⟩ := hr
      rw [hit, k1] at hc
      cases hc
      exact k2
  rw [scopeClosed_iff]
  refine ⟨?_, ?_, by rw [hit]; exact w3.kids⟩
  · intro r hr
    refine hin r ?_
    simp only [refsOf, List.mem_append, List.mem_flatMap, List.mem_map] at hr
    rcases hr with (⟨it, k1, k2⟩ | ⟨b, hb, rfl⟩) | ⟨e, he, rfl⟩
    · exact w3.items it (by rw [← hit]; exact k1) r k2
    · obtain ⟨i, hi⟩ := List.getElem?_of_mem hb
      exact (g2 _ (List.mem_of_getElem? (hlow.binds_get.2 i b hi).2)).mono m2
    · cases isRoot with
      | true =>
        simp only [↓reduceIte] at hex
        rw [hex] at he
        obtain ⟨i, hi⟩ := List.getElem?_of_mem he
        rw [List.getElem?_zipWith_eq_some] at hi
        obtain ⟨x, r, -, k2, k3⟩ := hi
        subst k3
        exact g3 _ (List.mem_of_getElem? k2)
      | false =>
        simp only [Bool.false_eq_true, ↓reduceIte] at hex
        obtain ⟨i, hi⟩ := List.getElem?_of_mem he
        obtain ⟨f, -, r, k1, rfl⟩ := forall₂_get hex i e hi
        exact w3.env f r k1
  · intro b hb
    obtain ⟨i, hi⟩ := List.getElem?_of_mem hb
    rw [(hlow.binds_get.2 i b hi).1, hv, List.length_map, ← hlow.binds_get.1]
    exact (List.getElem?_eq_some_iff.1 hi).1

theorem lowerWith_kidClosed (hnd : (localNames body).Nodup) (hkids : ∀ n lower, kids.lookup n = some lower → KidClosed lower) (name : N) : KidClosed (lowerWith inputName name body kids false) := by
  intro parentEnv wanted s h
  refine ⟨lowerWith_closed hnd hkids h, ?_⟩
  obtain ⟨imports, order, st1, st2, st3, rs2, rs3, h1, hlow, -, hi, -, -, hex⟩ := lowerWith_lowered hnd h
  simp only [Bool.false_eq_true, ↓reduceIte] at h1 hex
  refine ⟨hex.length_eq.symm, ?_⟩
  obtain ⟨-, -, e1, e2⟩ := hlow.mono
  obtain ⟨r1, r2⟩ := lowerOrder_inner hlow.items rfl
  rw [hi, e2.inner (e1.isRoot.trans r1), e1.inner r1, r2]
  exact fun imp him => (parentImports_spec h1 imp him).2

mutual
theorem lowerKid_closed : ∀ s : Stmt L P Q N, StmtDistinct s → ∀ p ∈ lowerKid inputName s, KidClosed p.2
  | .letS _ _, _, p, hp => by simp [lowerKid] at hp
  | .varS _ _, _, p, hp => by simp [lowerKid] at hp
  | .exportS _ _, _, p, hp => by simp [lowerKid] at hp
  | .scopeS n body, hd, p, hp => by
    simp only [lowerKid, List.mem_singleton] at hp
    subst hp
    simp only [StmtDistinct] at hd
    exact lowerWith_kidClosed hd.1 (fun m lower hl => lowerKids_closed body hd.2 (m, lower) (List.mem_reverse.1 (mem_of_lookup hl))) n
theorem lowerKids_closed : ∀ body : List (Stmt L P Q N), StmtsDistinct body → ∀ p ∈ lowerKids inputName body, KidClosed p.2
  | [], _, p, hp => by simp [lowerKids] at hp
  | s :: body, hd, p, hp => by
    simp only [StmtsDistinct] at hd
    simp only [lowerKids, List.mem_append] at hp
    rcases hp with hp | hp
    · exact lowerKid_closed s hd.1 p hp
    · exact lowerKids_closed body hd.2 p hp
end

theorem lowerTree_closed {root : N} {s : Scope L P Q N} (hd : Distinct body) (h : lowerTree inputName root body = some s) : ScopeClosed s :=
  lowerWith_closed hd.1 (fun n lower hl => lowerKids_closed body hd.2 (n, lower) (List.mem_reverse.1 (mem_of_lookup hl))) h

end

end DD.Ir
