import Verif.Spec.ScopeIr
import Mathlib.Data.List.Count
import Mathlib.Data.List.Nodup
import Mathlib.Data.List.Perm.Basic
import Mathlib.Logic.Function.Basic

/-! # The optimizer of scope trees: elementary steps -/

namespace DD.Ir
set_option linter.unusedSectionVars false
variable {L P Q N : Type*} {Col Arr : Type*} {sem : Sem L P Q N Col Arr}

/-! ### References -/

theorem Node.refs_mapRefs (f : Ref → Ref) (n : Node L P Q N) : (n.mapRefs f).refs = n.refs.map f := by cases n <;> rfl

theorem Source.refs_mapRefs (f : Ref → Ref) (s : Source N) : (s.mapRefs f).refs = s.refs.map f := by cases s <;> rfl

theorem Item.refs_mapRefs (f : Ref → Ref) (it : Item L P Q N) : (it.mapRefs f).refs = it.refs.map f := by
  cases it with
  | op n => exact n.refs_mapRefs f
  | sub child =>
    show List.flatMap _ (child.imports.map _) = (List.flatMap _ _).map f
    rw [List.flatMap_map, List.map_flatMap]
    exact List.flatMap_congr fun i _ => Source.refs_mapRefs f _

theorem foldlM_congr {A B : Type*} (g h : A → B → Option A) (l : List B) (hl : ∀ a, ∀ b ∈ l, g a b = h a b) : ∀ a, l.foldlM g a = l.foldlM h a := by
  induction l with
  | nil => intro a; rfl
  | cons x l ih =>
    intro a
    rw [List.foldlM_cons, List.foldlM_cons, hl a x List.mem_cons_self]
    congr 1
    funext a'
    exact ih (fun a b hb => hl a b (List.mem_cons_of_mem _ hb)) a'

theorem mapM_congr {A B : Type*} (g h : A → Option B) (l : List A) (hl : ∀ a ∈ l, g a = h a) : l.mapM g = l.mapM h := by
  induction l with
  | nil => rfl
  | cons x l ih => rw [List.mapM_cons, List.mapM_cons, hl x List.mem_cons_self, ih fun a ha => hl a (List.mem_cons_of_mem _ ha)]

theorem mapM_map' {A B C : Type*} (f : A → B) (g : B → Option C) (l : List A) : (l.map f).mapM g = l.mapM (g ∘ f) := by
  induction l with
  | nil => rfl
  | cons x l ih => rw [List.map_cons, List.mapM_cons, List.mapM_cons, ih]; rfl

section
variable {depth : Nat} {res res' : Ref → Option (Rendered Col Arr)} {f : Ref → Ref}

theorem renderNode_map (n : Node L P Q N) : renderNode sem depth res (n.mapRefs f) = renderNode sem depth (res ∘ f) n := by
  cases n with
  | concat refs =>
    cases refs with
    | nil => rfl
    | cons r rs =>
      simp only [Node.mapRefs, List.map_cons, renderNode, List.foldlM_map, Function.comp]
  | _ => rfl

theorem renderNode_congr {n : Node L P Q N} (h : ∀ r ∈ n.refs, res r = res' r) : renderNode sem depth res n = renderNode sem depth res' n := by
  cases n with
  | concat refs =>
    cases refs with
    | nil => rfl
    | cons r rs =>
      simp only [renderNode]
      rw [h r List.mem_cons_self]
      congr 1
      congr 1
      funext c
      exact foldlM_congr _ _ _ (fun a b hb => by rw [h b (List.mem_cons_of_mem _ hb)]) _
  | linear input ops => simp only [renderNode]; rw [h input List.mem_cons_self]
  | arrange input => simp only [renderNode]; rw [h input List.mem_cons_self]
  | join left right p => simp only [renderNode]; rw [h left List.mem_cons_self, h right (List.mem_cons_of_mem _ List.mem_cons_self)]
  | reduce input r => simp only [renderNode]; rw [h input List.mem_cons_self]
  | inspect input r => simp only [renderNode]; rw [h input List.mem_cons_self]

theorem scopeSem_imports (s : Scope L P Q N) (x : List (Import N)) (imports outs : List Col) : ScopeSem sem { s with imports := x } depth imports outs ↔ ScopeSem sem s depth imports outs := by
  cases s; simp only [ScopeSem]

theorem childImport_map (i : Import N) : childImport sem res { i with src := i.src.mapRefs f } = childImport sem (res ∘ f) i := by
  obtain ⟨name, src⟩ := i
  cases src <;> rfl

theorem childImport_congr {i : Import N} (h : ∀ r ∈ i.src.refs, res r = res' r) : childImport sem res i = childImport sem res' i := by
  obtain ⟨name, src⟩ := i
  cases src with
  | parent r => simp only [childImport]; rw [h r List.mem_cons_self]
  | _ => rfl

theorem itemSem_op {n : Node L P Q N} {v : RItem Col Arr} : ItemSem sem (.op n) depth res v ↔ ∃ r, renderNode sem depth res n = some r ∧ v = .op r := by
  simp only [ItemSem]

theorem itemSem_map {it : Item L P Q N} {v : RItem Col Arr} : ItemSem sem (it.mapRefs f) depth res v ↔ ItemSem sem it depth (res ∘ f) v := by
  cases it with
  | op n => simp only [Item.mapRefs, ItemSem, renderNode_map]
  | sub child =>
    simp only [Item.mapRefs, ItemSem, scopeSem_imports, mapM_map']
    have : (childImport sem res ∘ fun i : Import N => { i with src := i.src.mapRefs f }) = childImport sem (res ∘ f) := funext fun i => childImport_map i
    rw [this]

theorem itemSem_congr {it : Item L P Q N} {v : RItem Col Arr} (h : ∀ r ∈ it.refs, res r = res' r) : ItemSem sem it depth res v ↔ ItemSem sem it depth res' v := by
  cases it with
  | op n => simp only [ItemSem]; rw [renderNode_congr h]
  | sub child =>
    simp only [ItemSem]
    rw [mapM_congr _ _ _ fun i hi => childImport_congr fun r hr => h r (List.mem_flatMap.2 ⟨i, hi, hr⟩)]

theorem varsOk_map {binds : List Bind} {vars : List Col} :
    VarsOk sem depth res (binds.map fun b => { b with value := f b.value }) vars ↔ VarsOk sem depth (res ∘ f) binds vars := by
  unfold VarsOk
  rw [List.map_map]
  simp only [List.forall_mem_map, Function.comp_def]

theorem varsOk_congr {binds : List Bind} {vars : List Col} (h : ∀ b ∈ binds, res b.value = res' b.value) : VarsOk sem depth res binds vars ↔ VarsOk sem depth res' binds vars := by
  unfold VarsOk
  refine and_congr Iff.rfl (and_congr ?_ Iff.rfl)
  exact forall₂_congr fun b hb => by rw [h b hb]

theorem exportsOf_map {exports : List (Export N)} : exportsOf sem res (exports.map fun e => { e with value := f e.value }) = exportsOf sem (res ∘ f) exports := by
  rw [exportsOf, mapM_map']; rfl

theorem exportsOf_congr {exports : List (Export N)} (h : ∀ e ∈ exports, res e.value = res' e.value) : exportsOf sem res exports = exportsOf sem res' exports :=
  mapM_congr _ _ _ fun e he => by rw [h e he]

end

/-! ### Solutions -/

/-- The values satisfy the equations of the live items. -/
def Sol (sem : Sem L P Q N Col Arr) (s : Scope L P Q N) (dead : List Bool) (depth : Nat) (imports vars : List Col) (vals : Nat → Option (RItem Col Arr)) : Prop :=
  ∀ i it, s.items[i]? = some it → dead[i]? = some false → ∃ v, vals i = some v ∧ ItemSem sem it depth (resolve vals imports vars) v

/-- The exports of the live items. -/
def Outs (sem : Sem L P Q N Col Arr) (s : Scope L P Q N) (dead : List Bool) (depth : Nat) (imports outs : List Col) : Prop :=
  ∃ vars vals, vars.length = s.vars.length ∧ Sol sem s dead depth imports vars vals ∧ VarsOk sem depth (resolve vals imports vars) s.binds vars ∧
    exportsOf sem (resolve vals imports vars) s.exports = some outs

/-- What holds throughout. -/
structure Inv (R : L → L → Prop) (s : Scope L P Q N) (dead : List Bool) : Prop where
  len : dead.length = s.items.length
  refs : RefsOk s
  live : ∀ r ∈ liveRefs s dead, ∀ k, r.item? = some k → dead[k]? = some false
  chains : ChainsOk R s.items
  children : ∀ it ∈ s.items, ItemWF it

/-- A state reached by sound steps. -/
structure Le (sem : Sem L P Q N Col Arr) (R : L → L → Prop) (s : Scope L P Q N) (dead : List Bool) (s' : Scope L P Q N) (dead' : List Bool) : Prop where
  inv : Inv R s' dead'
  equiv : ∀ depth imports outs, Outs sem s dead depth imports outs ↔ Outs sem s' dead' depth imports outs
  name : s'.name = s.name
  imports : s'.imports = s.imports
  vars : s'.vars = s.vars
  binds : s'.binds.map Bind.var = s.binds.map Bind.var
  exports : s'.exports.map Export.name = s.exports.map Export.name
  length : s'.items.length = s.items.length
  live : dead'.count false ≤ dead.count false

variable {R : L → L → Prop}

theorem Le.refl {s : Scope L P Q N} {dead : List Bool} (h : Inv R s dead) : Le sem R s dead s dead := ⟨h, fun _ _ _ => Iff.rfl, rfl, rfl, rfl, rfl, rfl, rfl, le_rfl⟩

theorem Le.trans {s1 s2 s3 : Scope L P Q N} {d1 d2 d3 : List Bool} (h1 : Le sem R s1 d1 s2 d2) (h2 : Le sem R s2 d2 s3 d3) : Le sem R s1 d1 s3 d3 :=
  ⟨h2.inv, fun a b c => (h1.equiv a b c).trans (h2.equiv a b c), h2.name.trans h1.name, h2.imports.trans h1.imports, h2.vars.trans h1.vars, h2.binds.trans h1.binds,
    h2.exports.trans h1.exports, h2.length.trans h1.length, h2.live.trans h1.live⟩

theorem mem_liveRefs {s : Scope L P Q N} {dead : List Bool} {r : Ref} : r ∈ liveRefs s dead ↔
    (∃ (i : Nat) (it : Item L P Q N), s.items[i]? = some it ∧ dead[i]? = some false ∧ r ∈ it.refs) ∨ (∃ b ∈ s.binds, b.value = r) ∨ ∃ e ∈ s.exports, e.value = r := by
  rw [liveRefs, List.mem_append, List.mem_append, List.mem_map, List.mem_map, or_assoc]
  refine or_congr ?_ Iff.rfl
  rw [List.mem_flatMap]
  constructor
  · rintro ⟨⟨it, d⟩, h1, h2⟩
    obtain ⟨i, h3⟩ := List.mem_iff_getElem?.1 h1
    obtain ⟨h4, h5⟩ := List.getElem?_zip_eq_some.1 h3
    cases d with
    | true => simp at h2
    | false => exact ⟨i, it, h4, h5, by simpa using h2⟩
  · rintro ⟨i, it, h1, h2, h3⟩
    exact ⟨(it, false), List.mem_of_getElem? (List.getElem?_zip_eq_some.2 ⟨h1, h2⟩), by simpa using h3⟩

theorem count_set_true {dead : List Bool} : ∀ {a : Nat}, dead[a]? = some false → (dead.set a true).count false + 1 = dead.count false := by
  induction dead with
  | nil => intro a h; cases h
  | cons d dead ih =>
    intro a h
    cases a with
    | zero => cases h; simp
    | succ a =>
      have := ih (a := a) (by simpa using h)
      simp only [List.set_cons_succ, List.count_cons]
      omega

/-! ### Redirects -/

section redirect
variable {s : Scope L P Q N} {dead : List Bool} {a b : Nat} {na nb : Node L P Q N}

/-- What a redirect does to a reference. -/
def redir (a b : Nat) (r : Ref) : Ref := if r = .loc a then .loc b else r

theorem refOk_mapRefs {items : List (Item L P Q N)} {f : Ref → Ref} {i : Nat} {r : Ref} : RefOk (items.map (Item.mapRefs f)) i r ↔ RefOk items i r := by
  cases r with
  | loc j =>
    simp only [RefOk, List.getElem?_map]
    refine and_congr Iff.rfl ⟨?_, ?_⟩
    · rintro ⟨n, h⟩
      obtain ⟨it, h1, h2⟩ := Option.map_eq_some_iff.1 h
      cases it with
      | op m => exact ⟨m, h1⟩
      | sub c => cases h2
    · rintro ⟨n, h⟩; exact ⟨n.mapRefs f, by rw [h]; rfl⟩
  | childExport j k =>
    simp only [RefOk, List.getElem?_map]
    refine and_congr Iff.rfl ⟨?_, ?_⟩
    · rintro ⟨n, h⟩
      obtain ⟨it, h1, h2⟩ := Option.map_eq_some_iff.1 h
      cases it with
      | op m => cases h2
      | sub c => exact ⟨c, h1⟩
    · rintro ⟨n, h⟩; exact ⟨_, by rw [h]; rfl⟩
  | imp k => exact Iff.rfl
  | var k => exact Iff.rfl

theorem refOk_redir (hab : b < a) (hb : s.items[b]? = some (.op nb)) {i : Nat} {r : Ref} (h : RefOk s.items i r) : RefOk s.items i (redir a b r) := by
  rw [redir]
  split_ifs with hr
  · subst hr
    exact ⟨by have := h.1; omega, nb, hb⟩
  · exact h

theorem refOk_ne (ha : s.items[a]? = some (.op na)) {i k : Nat} {r : Ref} (h : RefOk s.items i r) : r ≠ .childExport a k := by
  rintro rfl
  obtain ⟨-, c, hc⟩ := h
  rw [ha] at hc; cases hc

theorem linear?_mapRefs (f : Ref → Ref) (it : Item L P Q N) : (it.mapRefs f).linear? = it.linear?.map fun p => (f p.1, p.2) := by
  cases it with
  | op n => cases n <;> rfl
  | sub c => rfl

theorem opsAt_mapRefs (f : Ref → Ref) (items : List (Item L P Q N)) (i : Nat) : opsAt (items.map (Item.mapRefs f)) i = opsAt items i := by
  rw [opsAt, opsAt, List.getElem?_map]
  cases items[i]? with
  | none => rfl
  | some it =>
    simp only [Option.map_some, Option.bind_some, linear?_mapRefs]
    cases it.linear? <;> rfl

theorem feeds_mapRefs {items : List (Item L P Q N)} {f : Ref → Ref} {j i : Nat} (h : Feeds (items.map (Item.mapRefs f)) j i) : ∃ r ops, items[i]? = some (.op (.linear r ops)) ∧ f r = .loc j := by
  obtain ⟨ops, h⟩ := h
  rw [List.getElem?_map] at h
  obtain ⟨it, h1, h2⟩ := Option.map_eq_some_iff.1 h
  cases it with
  | sub c => cases h2
  | op n =>
    cases n with
    | linear r ops' =>
      simp only [Item.mapRefs, Node.mapRefs, Item.op.injEq, Node.linear.injEq] at h2
      obtain ⟨h2, rfl⟩ := h2
      exact ⟨r, ops', h1, h2⟩
    | _ => cases h2

theorem chains_redir (hc : ChainsOk R s.items) (hfeed : ∀ j, Feeds s.items j b → Feeds s.items j a) (hops : opsAt s.items a = opsAt s.items b) :
    ChainsOk R (s.items.map (Item.mapRefs (redir a b))) := by
  have hlast : ∀ {j k : Nat} {l : Nat}, Relation.TransGen (Feeds s.items) j k → (∀ x, Feeds s.items x k → Feeds s.items x l) → Relation.TransGen (Feeds s.items) j l := by
    intro j k l h hx
    cases h with
    | single h => exact .single (hx _ h)
    | tail h1 h2 => exact .tail h1 (hx _ h2)
  have hstep : ∀ {j i : Nat}, Feeds (s.items.map (Item.mapRefs (redir a b))) j i → ∃ j0, Feeds s.items j0 i ∧ opsAt s.items j0 = opsAt s.items j ∧ ∀ x, Feeds s.items x j → Feeds s.items x j0 := by
    intro j i h
    obtain ⟨r, ops, h1, h2⟩ := feeds_mapRefs h
    rw [redir] at h2
    split_ifs at h2 with hr
    · cases h2; subst hr
      exact ⟨a, ⟨ops, h1⟩, hops, hfeed⟩
    · subst h2
      exact ⟨j, ⟨ops, h1⟩, rfl, fun _ h => h⟩
  have hall : ∀ {j i : Nat}, Relation.TransGen (Feeds (s.items.map (Item.mapRefs (redir a b)))) j i → ∃ j0, Relation.TransGen (Feeds s.items) j0 i ∧ opsAt s.items j0 = opsAt s.items j := by
    intro j i h
    induction h with
    | single h =>
      obtain ⟨j0, h1, h2, -⟩ := hstep h
      exact ⟨j0, .single h1, h2⟩
    | tail _ h ih =>
      obtain ⟨j0, h1, h2⟩ := ih
      obtain ⟨k0, h3, -, h5⟩ := hstep h
      exact ⟨j0, .tail (hlast h1 h5) h3, h2⟩
  intro j i h x hx y hy
  obtain ⟨j0, h1, h2⟩ := hall h
  rw [opsAt_mapRefs] at hx hy
  exact hc j0 i h1 x (by rw [h2]; exact hx) y hy

theorem itemWF_mapRefs {it : Item L P Q N} {f : Ref → Ref} (h : ItemWF it) : ItemWF (it.mapRefs f) := by
  cases it with
  | op n => trivial
  | sub c =>
    obtain ⟨c1, c2, c3, c4, c5, c6⟩ := c
    simp only [Item.mapRefs, ItemWF, ScopeWF] at h ⊢
    exact ⟨⟨h.1.items, h.1.binds, h.1.exports⟩, h.2⟩

theorem redirect_ok (h : Inv R s dead) (hab : b < a) (ha : s.items[a]? = some (.op na)) (hb : s.items[b]? = some (.op nb)) (da : dead[a]? = some false) (db : dead[b]? = some false)
    (hfeed : ∀ j, Feeds s.items j b → Feeds s.items j a) (hops : opsAt s.items a = opsAt s.items b)
    (h2 : ∀ depth res r, renderNode sem depth res nb = some r → res (.loc b) = some r → renderNode sem depth res na = some r) :
    Le sem R s dead (redirect a (.loc b) s dead).1 (redirect a (.loc b) s dead).2 ∧ (redirect a (.loc b) s dead).2.count false < dead.count false := by
  have hne : a ≠ b := by omega
  have hf : (fun r => if r = Ref.loc a then Ref.loc b else r) = redir a b := rfl
  have hcount := count_set_true da
  have hlive' : ∀ k, k ≠ a → (dead.set a true)[k]? = dead[k]? := fun k hk => List.getElem?_set_ne (Ne.symm hk)
  have hdead : (dead.set a true)[a]? = some true := by
    rw [List.getElem?_set_self]
    exact (List.getElem?_eq_some_iff.1 da).1
  simp only [redirect, hf]
  refine ⟨⟨⟨?_, ⟨?_, ?_, ?_⟩, ?_, ?_, ?_⟩, ?_, rfl, rfl, rfl, ?_, ?_, ?_, ?_⟩, ?_⟩
  · simp [mapRefs, h.len]
  · intro i it hit r hr
    simp only [mapRefs, List.getElem?_map] at hit ⊢
    obtain ⟨it0, h3, rfl⟩ := Option.map_eq_some_iff.1 hit
    rw [Item.refs_mapRefs] at hr
    obtain ⟨r0, h4, rfl⟩ := List.mem_map.1 hr
    rw [refOk_mapRefs]
    exact refOk_redir hab hb (h.refs.items i it0 h3 r0 h4)
  · intro x hx
    simp only [mapRefs] at hx ⊢
    obtain ⟨y, h3, rfl⟩ := List.mem_map.1 hx
    rw [refOk_mapRefs, List.length_map]
    exact refOk_redir hab hb (h.refs.binds y h3)
  · intro x hx
    simp only [mapRefs] at hx ⊢
    obtain ⟨y, h3, rfl⟩ := List.mem_map.1 hx
    rw [refOk_mapRefs, List.length_map]
    exact refOk_redir hab hb (h.refs.exports y h3)
  · -- live references
    have key : ∀ r0 ∈ liveRefs s dead, (∃ i, RefOk s.items i r0) → ∀ k, (redir a b r0).item? = some k → (dead.set a true)[k]? = some false := by
      intro r0 hr0 ⟨i, hi⟩ k hk
      rw [redir] at hk
      split_ifs at hk with hr
      · cases hk
        rw [hlive' b (Ne.symm hne)]; exact db
      · have hka : k ≠ a := by
          rintro rfl
          cases r0 with
          | loc j => cases hk; exact hr rfl
          | imp j => cases hk
          | var j => cases hk
          | childExport j l => cases hk; exact refOk_ne ha hi rfl
        rw [hlive' k hka]
        exact h.live r0 hr0 k hk
    intro r hr
    rw [mem_liveRefs] at hr
    simp only [mapRefs, List.getElem?_map] at hr
    rcases hr with ⟨i, it, h3, h4, h5⟩ | ⟨x, h3, rfl⟩ | ⟨x, h3, rfl⟩
    · obtain ⟨it0, h6, rfl⟩ := Option.map_eq_some_iff.1 h3
      rw [Item.refs_mapRefs] at h5
      obtain ⟨r0, h7, rfl⟩ := List.mem_map.1 h5
      have hia : i ≠ a := by rintro rfl; rw [hdead] at h4; cases h4
      rw [hlive' i hia] at h4
      exact key r0 (mem_liveRefs.2 (Or.inl ⟨i, it0, h6, h4, h7⟩)) ⟨i, h.refs.items i it0 h6 r0 h7⟩
    · obtain ⟨y, h6, rfl⟩ := List.mem_map.1 h3
      exact key _ (mem_liveRefs.2 (Or.inr (Or.inl ⟨y, h6, rfl⟩))) ⟨_, h.refs.binds y h6⟩
    · obtain ⟨y, h6, rfl⟩ := List.mem_map.1 h3
      exact key _ (mem_liveRefs.2 (Or.inr (Or.inr ⟨y, h6, rfl⟩))) ⟨_, h.refs.exports y h6⟩
  · exact chains_redir h.chains hfeed hops
  · intro it hit
    simp only [mapRefs] at hit
    obtain ⟨it0, h3, rfl⟩ := List.mem_map.1 hit
    exact itemWF_mapRefs (h.children it0 h3)
  · -- solutions
    intro depth imports outs
    constructor
    · rintro ⟨vars, vals, g1, g2, g3, g4⟩
      have hab' : vals a = vals b := by
        obtain ⟨vb, e1, e2⟩ := g2 b _ hb db
        obtain ⟨va, e3, e4⟩ := g2 a _ ha da
        obtain ⟨rb, e2', rfl⟩ := itemSem_op.1 e2
        obtain ⟨ra, e4', rfl⟩ := itemSem_op.1 e4
        have hres : resolve vals imports vars (.loc b) = some rb := by simp only [resolve, e1, Option.bind_some]
        have := h2 _ _ _ e2' hres
        rw [e4'] at this
        cases this
        rw [e1, e3]
      have hres : resolve vals imports vars ∘ redir a b = resolve vals imports vars := by
        funext r
        simp only [Function.comp, redir]
        split_ifs with hr
        · subst hr; simp only [resolve, hab']
        · rfl
      refine ⟨vars, vals, g1, ?_, ?_, ?_⟩
      · intro i it hit hd
        simp only [mapRefs, List.getElem?_map] at hit
        obtain ⟨it0, h3, rfl⟩ := Option.map_eq_some_iff.1 hit
        have hia : i ≠ a := by rintro rfl; rw [hdead] at hd; cases hd
        rw [hlive' i hia] at hd
        obtain ⟨v, e1, e2⟩ := g2 i it0 h3 hd
        exact ⟨v, e1, by rw [itemSem_map, hres]; exact e2⟩
      · simp only [mapRefs]; rw [varsOk_map, hres]; exact g3
      · simp only [mapRefs]; rw [exportsOf_map, hres]; exact g4
    · rintro ⟨vars, vals, g1, g2, g3, g4⟩
      have hres : ∀ i r, RefOk s.items i r → (resolve vals imports vars ∘ redir a b) r = resolve (Function.update vals a (vals b)) imports vars r := by
        intro i r hr
        simp only [Function.comp, redir]
        split_ifs with hra
        · subst hra; simp only [resolve, Function.update_self]
        · cases r with
          | loc j =>
            have : j ≠ a := by rintro rfl; exact hra rfl
            simp only [resolve, Function.update_of_ne this]
          | childExport j k =>
            have : j ≠ a := by rintro rfl; exact refOk_ne ha hr rfl
            simp only [resolve, Function.update_of_ne this]
          | imp k => rfl
          | var k => rfl
      have hother : ∀ i it, s.items[i]? = some it → dead[i]? = some false → i ≠ a → ∃ v, vals i = some v ∧ ItemSem sem it depth (resolve (Function.update vals a (vals b)) imports vars) v := by
        intro i it hit hd hia
        obtain ⟨v, e1, e2⟩ := g2 i (it.mapRefs (redir a b)) (by simp only [mapRefs, List.getElem?_map, hit, Option.map_some]) (by rw [hlive' i hia]; exact hd)
        rw [itemSem_map] at e2
        exact ⟨v, e1, (itemSem_congr fun r hr => hres i r (h.refs.items i it hit r hr)).1 e2⟩
      refine ⟨vars, Function.update vals a (vals b), g1, ?_, ?_, ?_⟩
      · intro i it hit hd
        by_cases hia : i = a
        · subst hia
          rw [ha] at hit; cases hit
          obtain ⟨v, e1, e2⟩ := hother b _ hb db (Ne.symm hne)
          obtain ⟨r, e2', rfl⟩ := itemSem_op.1 e2
          refine ⟨.op r, by rw [Function.update_self, e1], itemSem_op.2 ⟨r, ?_, rfl⟩⟩
          refine h2 _ _ _ e2' ?_
          simp only [resolve, Function.update_of_ne (Ne.symm hne), e1, Option.bind_some]
        · obtain ⟨v, e1, e2⟩ := hother i it hit hd hia
          exact ⟨v, by rw [Function.update_of_ne hia, e1], e2⟩
      · simp only [mapRefs] at g3
        rw [varsOk_map] at g3
        exact (varsOk_congr fun x hx => hres _ _ (h.refs.binds x hx)).1 g3
      · simp only [mapRefs] at g4
        rw [exportsOf_map] at g4
        rw [← g4]
        exact (exportsOf_congr fun x hx => hres _ _ (h.refs.exports x hx)).symm
  · simp [mapRefs]
  · simp [mapRefs]
  · simp [mapRefs]
  · omega
  · omega

end redirect

/-! ### Fusion -/

section fuse
variable {s : Scope L P Q N} {dead : List Bool} {i j : Nat} {inner : Ref} {inops ops : List L}

/-- How often the item is referred to by what is live. -/
def uses (s : Scope L P Q N) (dead : List Bool) (k : Nat) : Nat := ((liveRefs s dead).filterMap Ref.item?).count k

/-- How often one item refers to another. -/
def usesIn (k : Nat) (p : Item L P Q N × Bool) : Nat := ((if p.2 then [] else p.1.refs).filterMap Ref.item?).count k

theorem uses_eq (k : Nat) : uses s dead k = ((s.items.zip dead).map (usesIn k)).sum + ((s.binds.map Bind.value ++ s.exports.map Export.value).filterMap Ref.item?).count k := by
  rw [uses, liveRefs, List.append_assoc, List.filterMap_append, List.count_append]
  congr 1
  induction s.items.zip dead with
  | nil => rfl
  | cons p l ih => rw [List.flatMap_cons, List.filterMap_append, List.count_append, ih, List.map_cons, List.sum_cons]; rfl

theorem sum_set {A : Type*} (w : A → Nat) {l : List A} : ∀ {i : Nat} {x : A} (y : A), l[i]? = some x → ((l.set i y).map w).sum + w x = (l.map w).sum + w y := by
  induction l with
  | nil => intro i x y h; cases h
  | cons z l ih =>
    intro i x y h
    cases i with
    | zero => cases h; simp only [List.set_cons_zero, List.map_cons, List.sum_cons]; omega
    | succ i =>
      have := ih (i := i) y (by simpa using h)
      simp only [List.set_cons_succ, List.map_cons, List.sum_cons]; omega

theorem le_sum_of_get {A : Type*} (w : A → Nat) {l : List A} : ∀ {i : Nat} {x : A}, l[i]? = some x → w x ≤ (l.map w).sum := by
  induction l with
  | nil => intro i x h; cases h
  | cons z l ih =>
    intro i x h
    rw [List.map_cons, List.sum_cons]
    cases i with
    | zero => cases h; omega
    | succ i => have := ih (i := i) (by simpa using h); omega

theorem sum_mem {A : Type*} (w : A → Nat) {l : List A} : ∀ {i k : Nat} {x y : A}, i ≠ k → l[i]? = some x → l[k]? = some y → w x + w y ≤ (l.map w).sum := by
  induction l with
  | nil => intro i k x y _ h; cases h
  | cons z l ih =>
    intro i k x y hik h1 h2
    rw [List.map_cons, List.sum_cons]
    cases i with
    | zero =>
      cases k with
      | zero => exact absurd rfl hik
      | succ k => cases h1; have := le_sum_of_get w (l := l) (i := k) (by simpa using h2); omega
    | succ i =>
      cases k with
      | zero => cases h2; have := le_sum_of_get w (l := l) (i := i) (by simpa using h1); omega
      | succ k => have := ih (i := i) (k := k) (by omega) (by simpa using h1) (by simpa using h2); omega

theorem usesIn_pos {k : Nat} {it : Item L P Q N} (h : Ref.loc k ∈ it.refs) : 0 < usesIn k (it, false) :=
  List.count_pos_iff.2 (List.mem_filterMap.2 ⟨.loc k, by simpa using h, rfl⟩)

/-- The scope after a fusion. -/
def fused (s : Scope L P Q N) (i : Nat) (inner : Ref) (ops : List L) : Scope L P Q N := { s with items := s.items.set i (.op (.linear inner ops)) }

theorem zip_fused (hij : i ≠ j) {jt : Item L P Q N} (di : dead[i]? = some false) (hj : s.items[j]? = some jt) (x : Item L P Q N) :
    (s.items.set i x).zip (dead.set j true) = ((s.items.zip dead).set i (x, false)).set j (jt, true) := by
  apply List.ext_getElem?
  intro k
  have e1 : ∀ (l : List (Item L P Q N)) (d : List Bool), (l.zip d)[k]? = (l[k]?).bind fun a => (d[k]?).map fun b => (a, b) := by
    intro l d
    rw [List.zip, List.getElem?_zipWith]
    cases l[k]? <;> cases d[k]? <;> rfl
  rw [e1, List.getElem?_set, List.getElem?_set, List.getElem?_set, List.getElem?_set, e1]
  have hil : i < dead.length := (List.getElem?_eq_some_iff.1 di).1
  have hjl : j < s.items.length := (List.getElem?_eq_some_iff.1 hj).1
  rw [List.length_set, List.length_zip]
  by_cases hjk : j = k
  · subst hjk
    rw [if_neg hij, if_pos rfl, if_pos rfl, hj]
    by_cases hl : j < dead.length
    · rw [if_pos hl, if_pos (by omega)]; rfl
    · rw [if_neg hl, if_neg (by omega)]; rfl
  · rw [if_neg hjk, if_neg hjk]
    by_cases hik : i = k
    · subst hik
      rw [if_pos rfl, if_pos rfl, di]
      by_cases hl : i < s.items.length
      · rw [if_pos hl, if_pos (by omega)]; rfl
      · rw [if_neg hl, if_neg (by omega)]; rfl
    · rw [if_neg hik, if_neg hik]

theorem uses_fused (hij : i ≠ j) (hi : s.items[i]? = some (.op (.linear (.loc j) ops))) (hj : s.items[j]? = some (.op (.linear inner inops))) (di : dead[i]? = some false)
    (dj : dead[j]? = some false) {k : Nat} (hk : k ≠ j) : uses (fused s i inner (inops ++ ops)) (dead.set j true) k = uses s dead k := by
  rw [uses_eq, uses_eq]
  simp only [fused]
  rw [zip_fused hij di hj]
  have h1 := sum_set (usesIn k) (l := (s.items.zip dead).set i (.op (.linear inner (inops ++ ops)), false)) (i := j) (x := (.op (.linear inner inops), false)) (.op (.linear inner inops), true)
    (by rw [List.getElem?_set_ne hij]; exact List.getElem?_zip_eq_some.2 ⟨hj, dj⟩)
  have h2 := sum_set (usesIn k) (l := s.items.zip dead) (i := i) (x := (.op (.linear (.loc j) ops), false)) (.op (.linear inner (inops ++ ops)), false)
    (List.getElem?_zip_eq_some.2 ⟨hi, di⟩)
  have e1 : usesIn k ((Item.op (Node.linear (.loc j) ops), false) : Item L P Q N × Bool) = 0 := by
    simp only [usesIn, Item.refs, Node.refs]
    exact List.count_eq_zero.2 (by simp [Ref.item?, hk])
  have e2 : usesIn k ((Item.op (Node.linear inner inops), true) : Item L P Q N × Bool) = 0 := rfl
  have e3 : usesIn k ((Item.op (Node.linear inner (inops ++ ops)), false) : Item L P Q N × Bool) = usesIn k ((Item.op (Node.linear inner inops), false) : Item L P Q N × Bool) := rfl
  omega

/-- The item is used by no other. -/
theorem uses_one (hi : s.items[i]? = some (.op (.linear (.loc j) ops))) (di : dead[i]? = some false) (h1 : uses s dead j = 1) :
    (∀ (k : Nat) (it : Item L P Q N), k ≠ i → s.items[k]? = some it → dead[k]? = some false → Ref.loc j ∉ it.refs) ∧ (∀ b ∈ s.binds, b.value ≠ .loc j) ∧ ∀ e ∈ s.exports, e.value ≠ .loc j := by
  rw [uses_eq] at h1
  have hi' := usesIn_pos (k := j) (it := (.op (.linear (.loc j) ops) : Item L P Q N)) List.mem_cons_self
  have hz : (s.items.zip dead)[i]? = some (.op (.linear (.loc j) ops), false) := List.getElem?_zip_eq_some.2 ⟨hi, di⟩
  have hle : usesIn j ((.op (.linear (.loc j) ops), false) : Item L P Q N × Bool) ≤ ((s.items.zip dead).map (usesIn j)).sum := le_sum_of_get _ hz
  have hrest : ((s.binds.map Bind.value ++ s.exports.map Export.value).filterMap Ref.item?).count j = 0 := by omega
  have hno : Ref.loc j ∉ s.binds.map Bind.value ++ s.exports.map Export.value := fun hm =>
    List.count_eq_zero.1 hrest (List.mem_filterMap.2 ⟨.loc j, hm, rfl⟩)
  refine ⟨?_, fun b hb he => hno (List.mem_append_left _ (List.mem_map.2 ⟨b, hb, he⟩)), fun b hb he => hno (List.mem_append_right _ (List.mem_map.2 ⟨b, hb, he⟩))⟩
  intro k it hk hit hd hm
  have hz2 : (s.items.zip dead)[k]? = some (it, false) := List.getElem?_zip_eq_some.2 ⟨hit, hd⟩
  have := sum_mem (usesIn j) (Ne.symm hk) hz hz2
  have := usesIn_pos hm
  omega

theorem refOk_fused (hi : s.items[i]? = some (.op (.linear (.loc j) ops))) {k : Nat} {r : Ref} (h : RefOk s.items k r) : RefOk (fused s i inner (inops ++ ops)).items k r := by
  have hil : i < s.items.length := (List.getElem?_eq_some_iff.1 hi).1
  cases r with
  | loc l =>
    obtain ⟨h1, n, h2⟩ := h
    refine ⟨h1, ?_⟩
    simp only [fused]
    by_cases hl : l = i
    · subst hl; exact ⟨_, List.getElem?_set_self hil⟩
    · exact ⟨n, by rw [List.getElem?_set_ne (Ne.symm hl)]; exact h2⟩
  | childExport l m =>
    obtain ⟨h1, n, h2⟩ := h
    refine ⟨h1, n, ?_⟩
    simp only [fused]
    have hl : l ≠ i := by rintro rfl; rw [hi] at h2; cases h2
    rw [List.getElem?_set_ne (Ne.symm hl)]; exact h2
  | imp k => trivial
  | var k => trivial

theorem feeds_lt (h : RefsOk s) {j i : Nat} (hf : Feeds s.items j i) : j < i := by
  obtain ⟨ops, h1⟩ := hf
  exact (h.items i _ h1 (.loc j) List.mem_cons_self).1

theorem transGen_lt (h : RefsOk s) {j i : Nat} (hf : Relation.TransGen (Feeds s.items) j i) : j < i := by
  induction hf with
  | single h1 => exact feeds_lt h h1
  | tail _ h1 ih => exact ih.trans (feeds_lt h h1)

theorem opsAt_of {items : List (Item L P Q N)} {i : Nat} {r : Ref} {ops : List L} (h : items[i]? = some (.op (.linear r ops))) : opsAt items i = ops := by
  rw [opsAt, h]; rfl

theorem chains_fused (hr : RefsOk s) (hc : ChainsOk R s.items) (hi : s.items[i]? = some (.op (.linear (.loc j) ops))) (hj : s.items[j]? = some (.op (.linear inner inops))) :
    ChainsOk R (fused s i inner (inops ++ ops)).items := by
  have hil : i < s.items.length := (List.getElem?_eq_some_iff.1 hi).1
  have hstep : ∀ {p q : Nat}, Feeds (fused s i inner (inops ++ ops)).items p q → Relation.TransGen (Feeds s.items) p q ∧ (q = i → Relation.TransGen (Feeds s.items) p j) := by
    rintro p q ⟨ops', h⟩
    simp only [fused] at h
    by_cases hq : q = i
    · subst hq
      rw [List.getElem?_set_self hil] at h
      cases h
      have : Relation.TransGen (Feeds s.items) p j := .single ⟨inops, hj⟩
      exact ⟨this.tail ⟨ops, hi⟩, fun _ => this⟩
    · rw [List.getElem?_set_ne (Ne.symm hq)] at h
      exact ⟨.single ⟨ops', h⟩, fun h => absurd h hq⟩
  have hall : ∀ {p q : Nat}, Relation.TransGen (Feeds (fused s i inner (inops ++ ops)).items) p q → Relation.TransGen (Feeds s.items) p q ∧ (q = i → Relation.TransGen (Feeds s.items) p j) := by
    intro p q h
    induction h with
    | single h => exact hstep h
    | tail _ h ih => exact ⟨ih.1.trans (hstep h).1, fun hq => ih.1.trans ((hstep h).2 hq)⟩
  have hops : ∀ q, opsAt (fused s i inner (inops ++ ops)).items q = if q = i then inops ++ ops else opsAt s.items q := by
    intro q
    split_ifs with hq
    · subst hq; exact opsAt_of (r := inner) (by simp only [fused]; exact List.getElem?_set_self hil)
    · simp only [opsAt, fused]; rw [List.getElem?_set_ne (Ne.symm hq)]
  intro p q h x hx y hy
  obtain ⟨h1, h2⟩ := hall h
  have hlt := transGen_lt hr h1
  rw [hops] at hx hy
  split_ifs at hx hy with hp hq
  · omega
  · rcases List.mem_append.1 hx with hx | hx
    · subst hp
      exact hc j q (.head ⟨ops, hi⟩ h1) x (by rw [opsAt_of hj]; exact hx) y hy
    · subst hp
      exact hc p q h1 x (by rw [opsAt_of hi]; exact hx) y hy
  · rename_i hq
    subst hq
    rcases List.mem_append.1 hy with hy | hy
    · exact hc p j (h2 rfl) x hx y (by rw [opsAt_of hj]; exact hy)
    · exact hc p q h1 x hx y (by rw [opsAt_of hi]; exact hy)
  · exact hc p q h1 x hx y hy

theorem fuse_ok (hF : sem.Fuses R) (h : Inv R s dead) (hi : s.items[i]? = some (.op (.linear (.loc j) ops))) (hj : s.items[j]? = some (.op (.linear inner inops))) (di : dead[i]? = some false)
    (dj : dead[j]? = some false) (h1 : uses s dead j = 1) :
    Le sem R s dead (fused s i inner (inops ++ ops)) (dead.set j true) ∧ (dead.set j true).count false < dead.count false := by
  have hji : j < i := (h.refs.items i _ hi (.loc j) List.mem_cons_self).1
  have hij : i ≠ j := by omega
  have hil : i < s.items.length := (List.getElem?_eq_some_iff.1 hi).1
  have hcount := count_set_true dj
  obtain ⟨ho1, ho2, ho3⟩ := uses_one hi di h1
  have hlive' : ∀ k, k ≠ j → (dead.set j true)[k]? = dead[k]? := fun k hk => List.getElem?_set_ne (Ne.symm hk)
  have hdead : (dead.set j true)[j]? = some true := by
    rw [List.getElem?_set_self]
    exact (List.getElem?_eq_some_iff.1 dj).1
  have hinner : RefOk s.items j inner := h.refs.items j _ hj inner List.mem_cons_self
  have hinner_ne : ∀ k, inner.item? = some k → k ≠ j := by
    intro k hk
    cases inner with
    | loc l => cases hk; have := hinner.1; omega
    | childExport l m => cases hk; have := hinner.1; omega
    | imp l => cases hk
    | var l => cases hk
  have hfuse : ∀ depth c, sem.linear depth (inops ++ ops) c = sem.linear depth ops (sem.linear depth inops c) := by
    intro depth c
    refine hF depth inops ops c fun x hx y hy => ?_
    exact h.chains j i (.single ⟨ops, hi⟩) x (by rw [opsAt_of hj]; exact hx) y (by rw [opsAt_of hi]; exact hy)
  have hget : ∀ k, (fused s i inner (inops ++ ops)).items[k]? = if k = i then some (.op (.linear inner (inops ++ ops))) else s.items[k]? := by
    intro k
    split_ifs with hk
    · subst hk; simp only [fused]; exact List.getElem?_set_self hil
    · simp only [fused]; exact List.getElem?_set_ne (Ne.symm hk)
  refine ⟨⟨⟨?_, ⟨?_, ?_, ?_⟩, ?_, ?_, ?_⟩, ?_, rfl, rfl, rfl, rfl, rfl, ?_, ?_⟩, ?_⟩
  · simp [fused, h.len]
  · intro k it hit r hr
    rw [hget] at hit
    apply refOk_fused hi
    split_ifs at hit with hk
    · cases hit
      simp only [Item.refs, Node.refs, List.mem_singleton] at hr
      subst hr hk
      cases r with
      | loc l => exact ⟨by have := hinner.1; omega, hinner.2⟩
      | childExport l m => exact ⟨by have := hinner.1; omega, hinner.2⟩
      | imp l => trivial
      | var l => trivial
    · exact h.refs.items k it hit r hr
  · intro b hb
    rw [show (fused s i inner (inops ++ ops)).items.length = s.items.length by simp [fused]]
    exact refOk_fused hi (h.refs.binds b hb)
  · intro b hb
    rw [show (fused s i inner (inops ++ ops)).items.length = s.items.length by simp [fused]]
    exact refOk_fused hi (h.refs.exports b hb)
  · -- live references
    have hb : ∀ k r, RefOk s.items k r → r ≠ .loc j → ∀ l, r.item? = some l → l ≠ j := by
      rintro k r hr hne l hl rfl
      cases r with
      | loc m => cases hl; exact hne rfl
      | childExport m n => cases hl; exact refOk_ne hj hr rfl
      | imp m => cases hl
      | var m => cases hl
    intro r hr k hk
    rw [mem_liveRefs] at hr
    rcases hr with ⟨l, it, h3, h4, h5⟩ | ⟨x, h3, rfl⟩ | ⟨x, h3, rfl⟩
    · rw [hget] at h3
      split_ifs at h3 with hl
      · cases h3
        simp only [Item.refs, Node.refs, List.mem_singleton] at h5
        subst h5
        rw [hlive' k (hinner_ne k hk)]
        exact h.live r (mem_liveRefs.2 (Or.inl ⟨j, _, hj, dj, List.mem_cons_self⟩)) k hk
      · have hlj : l ≠ j := by rintro rfl; rw [hdead] at h4; cases h4
        rw [hlive' l hlj] at h4
        have hne : r ≠ .loc j := by rintro rfl; exact ho1 l it hl h3 h4 h5
        rw [hlive' k (hb l r (h.refs.items l it h3 r h5) hne k hk)]
        exact h.live r (mem_liveRefs.2 (Or.inl ⟨l, it, h3, h4, h5⟩)) k hk
    · rw [hlive' k (hb _ _ (h.refs.binds x h3) (ho2 x h3) k hk)]
      exact h.live _ (mem_liveRefs.2 (Or.inr (Or.inl ⟨x, h3, rfl⟩))) k hk
    · rw [hlive' k (hb _ _ (h.refs.exports x h3) (ho3 x h3) k hk)]
      exact h.live _ (mem_liveRefs.2 (Or.inr (Or.inr ⟨x, h3, rfl⟩))) k hk
  · exact chains_fused h.refs h.chains hi hj
  · intro it hit
    rcases List.mem_or_eq_of_mem_set (show it ∈ s.items.set i _ from hit) with hm | rfl
    · exact h.children it hm
    · trivial
  · -- solutions
    intro depth imports outs
    constructor
    · rintro ⟨vars, vals, g1, g2, g3, g4⟩
      refine ⟨vars, vals, g1, ?_, g3, g4⟩
      intro k it hit hd
      have hkj : k ≠ j := by rintro rfl; rw [hdead] at hd; cases hd
      rw [hlive' k hkj] at hd
      rw [hget] at hit
      split_ifs at hit with hk
      · cases hit
        subst hk
        obtain ⟨vj, e1, e2⟩ := g2 j _ hj dj
        obtain ⟨vi, e3, e4⟩ := g2 k _ hi di
        obtain ⟨rj, e2', rfl⟩ := itemSem_op.1 e2
        obtain ⟨ri, e4', rfl⟩ := itemSem_op.1 e4
        refine ⟨_, e3, itemSem_op.2 ⟨ri, ?_, rfl⟩⟩
        simp only [renderNode] at e2' e4' ⊢
        obtain ⟨c, e5, e6⟩ := Option.map_eq_some_iff.1 e2'
        have hres : resolve vals imports vars (.loc j) = some rj := by simp only [resolve, e1, Option.bind_some]
        rw [hres] at e4'
        rw [e5, Option.map_some, hfuse]
        rw [← e6] at e4'
        exact e4'
      · exact g2 k it hit hd
    · rintro ⟨vars, vals, g1, g2, g3, g4⟩
      obtain ⟨vi, e3, e4⟩ := g2 i (.op (.linear inner (inops ++ ops))) (by rw [hget, if_pos rfl]) (by rw [hlive' i hij]; exact di)
      obtain ⟨ri, e4', rfl⟩ := itemSem_op.1 e4
      simp only [renderNode] at e4'
      obtain ⟨c, e5, e6⟩ := Option.map_eq_some_iff.1 e4'
      rw [hfuse] at e6
      have hres : ∀ k r, RefOk s.items k r → r ≠ .loc j → resolve vals imports vars r = resolve (Function.update vals j (some (.op (.coll (sem.linear depth inops (c.collection sem)))))) imports vars r := by
        intro k r hr hne
        cases r with
        | loc m =>
          have : m ≠ j := by rintro rfl; exact hne rfl
          simp only [resolve, Function.update_of_ne this]
        | childExport m n =>
          have : m ≠ j := by rintro rfl; exact refOk_ne hj hr rfl
          simp only [resolve, Function.update_of_ne this]
        | imp m => rfl
        | var m => rfl
      have hinner' : inner ≠ .loc j := by rintro rfl; exact hinner_ne j rfl rfl
      refine ⟨vars, Function.update vals j (some (.op (.coll (sem.linear depth inops (c.collection sem))))), g1, ?_, ?_, ?_⟩
      · intro k it hit hd
        by_cases hkj : k = j
        · subst hkj
          rw [hj] at hit; cases hit
          refine ⟨_, Function.update_self .., itemSem_op.2 ⟨_, ?_, rfl⟩⟩
          simp only [renderNode]
          rw [← hres k inner hinner hinner', e5]; rfl
        · by_cases hki : k = i
          · subst hki
            rw [hi] at hit; cases hit
            refine ⟨.op ri, by rw [Function.update_of_ne hkj]; exact e3, itemSem_op.2 ⟨_, ?_, rfl⟩⟩
            simp only [renderNode, resolve, Function.update_self, Option.bind_some, Option.map_some]
            exact congrArg some e6
          · obtain ⟨v, e7, e8⟩ := g2 k it (by rw [hget, if_neg hki]; exact hit) (by rw [hlive' k hkj]; exact hd)
            refine ⟨v, by rw [Function.update_of_ne hkj]; exact e7, (itemSem_congr fun r hr => ?_).1 e8⟩
            refine hres k r (h.refs.items k it hit r hr) ?_
            rintro rfl
            exact ho1 k it hki hit hd hr
      · exact (varsOk_congr fun x hx => hres _ _ (h.refs.binds x hx) (ho2 x hx)).1 g3
      · rw [← g4]
        exact (exportsOf_congr fun x hx => hres _ _ (h.refs.exports x hx) (ho3 x hx)).symm
  · simp [fused]
  · omega
  · omega

end fuse

end DD.Ir
