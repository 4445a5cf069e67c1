import Verif.Spec.Clone
import Verif.Proofs.ScopeIrOpt

/-!
# What a clone is
-/

namespace DD.Ir
variable {L P Q N : Type*}

/-- Where a reference points in the clone. -/
def shiftRef (base vb : Nat) (m : List Ref) : Ref → Ref
  | .loc i => .loc (base + i)
  | .imp k => m.getD k (.imp k)
  | .var v => .var (vb + v)
  | .childExport i j => .childExport (base + i) j

theorem shiftRef_id (n : Nat) : shiftRef 0 0 ((List.range n).map .imp) = id := by
  funext r
  cases r with
  | imp k =>
    simp only [shiftRef, List.getD_eq_getElem?_getD, List.getElem?_map, id]
    by_cases h : k < n
    · rw [List.getElem?_range h]; rfl
    · rw [List.getElem?_eq_none (by simpa using h)]; rfl
  | _ => simp [shiftRef]

mutual
/-- The sites of an item, and the references to their host forms. -/
def visItem : Nat → Item L P Q N → List (Addr × Ref)
  | i, .op (.arrange r) => [(⟨[], .op i⟩, r)]
  | i, .op _ => [(⟨[], .op i⟩, .loc i)]
  | i, .sub c => (visScope c).mapIdx fun k a => (⟨i :: a.1.path, a.1.site⟩, .childExport i (c.exports.length + k))
def visItems : Nat → List (Item L P Q N) → List (Addr × Ref)
  | _, [] => []
  | i, it :: its => visItem i it ++ visItems (i + 1) its
def visScope : ScopeOf N (Item L P Q N) → List (Addr × Ref)
  | ⟨_, _, vars, items, _, _⟩ => ((List.range vars.length).map fun v => (⟨[], .var v⟩, .var v)) ++ visItems 0 items
end

variable (lift : L) (host : Nat → N)

/-- A scope, with lifted sites exported. -/
def withHosts (s : Scope L P Q N) (vis : List (Addr × Ref)) : Scope L P Q N :=
  { s with
    items := s.items ++ vis.map fun a => .op (.linear a.2 [lift])
    exports := s.exports ++ vis.mapIdx fun k _ => ⟨host (s.exports.length + k), .loc (s.items.length + k)⟩ }

mutual
/-- An item, with the sites inside it exported. -/
def hostItem : Item L P Q N → Item L P Q N
  | .op n => .op n
  | .sub c => .sub (hostScope c)
def hostItems : List (Item L P Q N) → List (Item L P Q N)
  | [] => []
  | it :: its => hostItem it :: hostItems its
def hostScope : ScopeOf N (Item L P Q N) → ScopeOf N (Item L P Q N)
  | ⟨name, imports, vars, items, binds, exports⟩ =>
    withHosts lift host ⟨name, imports, vars, hostItems items, binds, exports⟩ (visScope (⟨name, imports, vars, items, binds, exports⟩ : Scope L P Q N))
end

theorem hostItems_eq (items : List (Item L P Q N)) : hostItems lift host items = items.map (hostItem lift host) := by
  induction items with
  | nil => rfl
  | cons it its ih => rw [hostItems, ih]; rfl

theorem visScope_eq (s : Scope L P Q N) : visScope s = ((List.range s.vars.length).map fun v => ((⟨[], .var v⟩ : Addr), Ref.var v)) ++ visItems 0 s.items := by
  cases s; rw [visScope]

theorem hostScope_eq (s : Scope L P Q N) : hostScope lift host s = withHosts lift host { s with items := s.items.map (hostItem lift host) } (visScope s) := by
  cases s; rw [hostScope, hostItems_eq]

theorem liftSites_foldl (subIdx : Nat) (vis : List (Addr × Ref)) : ∀ (s : Scope L P Q N) (acc : List (Addr × Ref)), vis.foldl (liftSites lift host subIdx) (s, acc) =
    (withHosts lift host s vis, acc ++ vis.mapIdx fun k a => (a.1, .childExport subIdx (s.exports.length + k))) := by
  induction vis with
  | nil => intro s acc; simp [withHosts]
  | cons a vis ih =>
    intro s acc
    rw [List.foldl_cons, liftSites, ih]
    simp only [withHosts, List.mapIdx_cons, List.map_cons, List.append_assoc, List.length_append, List.length_singleton, List.cons_append, List.nil_append, Nat.add_zero,
      Nat.add_assoc, Nat.add_comm 1]

theorem mapIdx_map' {A B C : Type*} (f : Nat → B → C) (g : A → B) (l : List A) : (l.map g).mapIdx f = l.mapIdx fun i a => f i (g a) := by
  apply List.ext_getElem?; intro i; simp [Function.comp_def]

theorem map_mapIdx' {A B C : Type*} (f : Nat → A → B) (g : B → C) (l : List A) : (l.mapIdx f).map g = l.mapIdx fun i a => g (f i a) := by
  apply List.ext_getElem?; intro i; simp [Function.comp_def]

theorem mapM_some {A B : Type*} {g : A → Option B} {f : A → B} {l : List A} (h : ∀ a ∈ l, g a = some (f a)) : l.mapM g = some (l.map f) := by
  rw [mapM_congr g (fun a => some (f a)) l h]
  induction l with
  | nil => rfl
  | cons x l ih => rw [List.mapM_cons, ih fun a ha => h a (List.mem_cons_of_mem _ ha)]; rfl

theorem cloneNode_some {m : Ref → Option Ref} {f : Ref → Ref} {n : Node L P Q N} (h : ∀ r ∈ n.refs, m r = some (f r)) : cloneNode m n = some (n.mapRefs f) := by
  cases n with
  | concat refs => simp only [cloneNode, Node.mapRefs]; rw [mapM_some (l := refs) h]; rfl
  | join left right p => simp only [cloneNode, Node.mapRefs]; rw [h left List.mem_cons_self, h right (List.mem_cons_of_mem _ List.mem_cons_self)]; rfl
  | linear input ops => simp only [cloneNode, Node.mapRefs]; rw [h input List.mem_cons_self]; rfl
  | arrange input => simp only [cloneNode, Node.mapRefs]; rw [h input List.mem_cons_self]; rfl
  | reduce input r => simp only [cloneNode, Node.mapRefs]; rw [h input List.mem_cons_self]; rfl
  | inspect input r => simp only [cloneNode, Node.mapRefs]; rw [h input List.mem_cons_self]; rfl

theorem cloneImport_some {m : Ref → Option Ref} {f : Ref → Ref} {i : Import N} (hi : ∃ r, i.src = .parent r) (h : ∀ r ∈ i.src.refs, m r = some (f r)) :
    cloneImport m i = some { i with src := i.src.mapRefs f } := by
  obtain ⟨r, hr⟩ := hi
  obtain ⟨name, src⟩ := i
  subst hr
  simp only [cloneImport, Source.mapRefs]
  rw [h r List.mem_cons_self]; rfl

/-- What holds before the item `i` is cloned. -/
structure CInv (all : List (Item L P Q N)) (base i : Nat) (st : CloneState L P Q N) : Prop where
  items : st.out.items.length = base + i
  llen : st.locals.length = all.length
  slen : st.subs.length = all.length
  locals : ∀ k n, k < i → all[k]? = some (.op n) → st.locals[k]? = some (some (.loc (base + k)))
  subs : ∀ k c, k < i → all[k]? = some (.sub c) → st.subs[k]? = some (some (base + k))

theorem mapRef_some {all : List (Item L P Q N)} {base vb i : Nat} {m : List Ref} {st : CloneState L P Q N} (h : CInv all base i st) {r : Ref} (hr : RefOk all i r) (hm : ∀ k, r = .imp k → k < m.length) :
    mapRef st.locals st.subs m vb r = some (shiftRef base vb m r) := by
  cases r with
  | loc k =>
    obtain ⟨hk, n, hn⟩ := hr
    simp only [mapRef, shiftRef, h.locals k n hk hn]; rfl
  | childExport k j =>
    obtain ⟨hk, n, hn⟩ := hr
    simp only [mapRef, shiftRef, h.subs k n hk hn]; rfl
  | var v => rfl
  | imp k =>
    have := hm k rfl
    simp only [mapRef, shiftRef, List.getD_eq_getElem?_getD, List.getElem?_eq_getElem this]; rfl

/-- The visible sites of a part of a scope, as seen from the clone. -/
def placed (f : Ref → Ref) (path : List Nat) (a : Addr × Ref) : Addr × Ref := (⟨path ++ a.1.path, a.1.site⟩, f a.2)

theorem Node.mapRefs_id (n : Node L P Q N) : n.mapRefs id = n := by cases n <;> simp [Node.mapRefs]

theorem Item.mapRefs_id (it : Item L P Q N) : it.mapRefs id = it := by
  cases it with
  | op n => simp only [Item.mapRefs, Node.mapRefs_id]
  | sub c =>
    have : (fun i : Import N => ({ i with src := i.src.mapRefs id } : Import N)) = id := by
      funext i
      obtain ⟨name, src⟩ := i
      cases src <;> rfl
    simp only [Item.mapRefs, this, List.map_id]

mutual
theorem cloneItem_ok : ∀ (it : Item L P Q N) (all : List (Item L P Q N)) (base vb i : Nat) (m : List Ref) (path : List Nat) (st : CloneState L P Q N), all[i]? = some it → CInv all base i st →
    (∀ r ∈ it.refs, RefOk all i r) → (∀ r ∈ it.refs, ∀ k, r = .imp k → k < m.length) → ItemWF it → ItemClosed it →
    ∃ st', cloneItem lift host it m vb path i st = some st' ∧ CInv all base (i + 1) st' ∧
      st'.out = { st.out with items := st.out.items ++ [(hostItem lift host it).mapRefs (shiftRef base vb m)] } ∧
      st'.visible = st.visible ++ (visItem i it).map (placed (shiftRef base vb m) path)
  | .op n, all, base, vb, i, m, path, st, hi, h, hr, hm, _, _ => by
    have hlt : i < all.length := (List.getElem?_eq_some_iff.1 hi).1
    have hc : ∀ vis, CInv all base (i + 1) { out := { st.out with items := st.out.items ++ [.op (n.mapRefs (shiftRef base vb m))] }, locals := st.locals.set i (some (.loc (base + i))), subs := st.subs, visible := vis } := by
      intro vis
      refine ⟨by simp [h.items]; omega, by simp [h.llen], h.slen, ?_, ?_⟩
      · intro k n' hk hn'
        simp only
        by_cases hki : k = i
        · subst hki; rw [List.getElem?_set_self (by rw [h.llen]; exact hlt)]
        · rw [List.getElem?_set_ne (Ne.symm hki)]; exact h.locals k n' (by omega) hn'
      · intro k c hk hc
        by_cases hki : k = i
        · subst hki; rw [hi] at hc; cases hc
        · exact h.subs k c (by omega) hc
    have hmap : ∀ r ∈ n.refs, mapRef st.locals st.subs m vb r = some (shiftRef base vb m r) := fun r hr' => mapRef_some h (hr r hr') (hm r hr')
    have hmap' : ∀ r ∈ n.refs, mapRef (st.locals.set i (some (.loc (base + i)))) st.subs m vb r = some (shiftRef base vb m r) := fun r hr' => by
      refine mapRef_some (hc []) ?_ (hm r hr')
      have := hr r hr'
      cases r with
      | loc k => exact ⟨by have := this.1; omega, this.2⟩
      | childExport k j => exact ⟨by have := this.1; omega, this.2⟩
      | _ => trivial
    have hn := cloneNode_some hmap
    cases n with
    | arrange input =>
      refine ⟨_, ?_, hc (st.visible ++ [(⟨path, .op i⟩, shiftRef base vb m input)]), rfl, by simp [visItem, placed]⟩
      simp only [cloneItem, hn, Option.bind_some, h.items]
      rw [hmap' input List.mem_cons_self]; rfl
    | _ =>
      refine ⟨_, ?_, hc (st.visible ++ [(⟨path, .op i⟩, .loc (base + i))]), rfl, by simp [visItem, placed, shiftRef]⟩
      simp only [cloneItem, hn, Option.bind_some, h.items]; rfl
  | .sub c, all, base, vb, i, m, path, st, hi, h, hr, hm, hw, hcl => by
    have hlt : i < all.length := (List.getElem?_eq_some_iff.1 hi).1
    rw [ItemWF] at hw
    rw [ItemClosed] at hcl
    have himp : c.imports.mapM (cloneImport (mapRef st.locals st.subs m vb)) = some (c.imports.map fun x => { x with src := x.src.mapRefs (shiftRef base vb m) }) := by
      refine mapM_some fun x hx => cloneImport_some (hcl.1 x hx) fun r hr' => ?_
      have hmem : r ∈ (Item.sub c : Item L P Q N).refs := List.mem_flatMap.2 ⟨x, hx, hr'⟩
      exact mapRef_some h (hr r hmem) (hm r hmem)
    have hrec := cloneRec_ok c ⟨c.name, c.imports.map fun x => { x with src := x.src.mapRefs (shiftRef base vb m) }, [], [], [], []⟩ ((List.range c.imports.length).map .imp) (path ++ [i]) hw hcl.2 (by simp)
    simp only [List.length_nil, shiftRef_id, List.nil_append, Nat.zero_add] at hrec
    refine ⟨_, by simp only [cloneItem, himp, Option.bind_some, hrec, liftSites_foldl, h.items]; rfl, ⟨?_, ?_, ?_, ?_, ?_⟩, ?_, ?_⟩
    · simp [h.items]; omega
    · simp [h.llen]
    · simp [h.slen]
    · intro k n hk hn
      by_cases hki : k = i
      · subst hki; rw [hi] at hn; cases hn
      · exact h.locals k n (by omega) hn
    · intro k n hk hn
      simp only
      by_cases hki : k = i
      · subst hki; rw [List.getElem?_set_self (by rw [h.slen]; exact hlt)]
      · rw [List.getElem?_set_ne (Ne.symm hki)]; exact h.subs k n (by omega) hn
    · have e1 : c.items.map (Item.mapRefs id ∘ hostItem lift host) = c.items.map (hostItem lift host) := List.map_congr_left fun x _ => Item.mapRefs_id _
      obtain ⟨name, imports, vars, items, binds, exports⟩ := c
      simp only [hostItem, hostScope_eq, Item.mapRefs, withHosts, List.map_map, id, List.map_id', e1]
      simp [placed, Function.comp_def, mapIdx_map']
    · simp only [visItem, List.nil_append]
      congr 1
      rw [mapIdx_map', map_mapIdx']
      simp [placed, shiftRef, List.append_assoc]
theorem cloneItems_ok : ∀ (its all : List (Item L P Q N)) (base vb i : Nat) (m : List Ref) (path : List Nat) (st : CloneState L P Q N), (∀ k it, its[k]? = some it → all[i + k]? = some it) → CInv all base i st →
    (∀ k it, its[k]? = some it → ∀ r ∈ it.refs, RefOk all (i + k) r) → (∀ it ∈ its, ∀ r ∈ it.refs, ∀ k, r = .imp k → k < m.length) → ItemsWF its → ItemsClosed its →
    ∃ st', cloneItems lift host its m vb path i st = some st' ∧ CInv all base (i + its.length) st' ∧
      st'.out = { st.out with items := st.out.items ++ (its.map (hostItem lift host)).map (Item.mapRefs (shiftRef base vb m)) } ∧
      st'.visible = st.visible ++ (visItems i its).map (placed (shiftRef base vb m) path)
  | [], all, base, vb, i, m, path, st, _, h, _, _, _, _ => ⟨st, rfl, h, by simp, by simp [visItems]⟩
  | it :: its, all, base, vb, i, m, path, st, ha, h, hr, hm, hw, hc => by
    rw [ItemsWF] at hw
    rw [ItemsClosed] at hc
    obtain ⟨st1, e1, h1, o1, v1⟩ := cloneItem_ok it all base vb i m path st (ha 0 it rfl) h (hr 0 it rfl) (hm it List.mem_cons_self) hw.1 hc.1
    obtain ⟨st2, e2, h2, o2, v2⟩ := cloneItems_ok its all base vb (i + 1) m path st1 (fun k x hx => by have := ha (k + 1) x (by simpa using hx); rwa [Nat.add_right_comm, Nat.add_assoc])
      h1 (fun k x hx => by have := hr (k + 1) x (by simpa using hx); rwa [Nat.add_assoc, Nat.add_comm 1]) (fun x hx => hm x (List.mem_cons_of_mem _ hx)) hw.2 hc.2
    refine ⟨st2, by simp only [cloneItems, e1, Option.bind_some, e2], by rw [List.length_cons, Nat.add_comm its.length, ← Nat.add_assoc]; exact h2, ?_, ?_⟩
    · rw [o2, o1]; simp
    · rw [v2, v1]; simp [visItems]
theorem cloneRec_ok : ∀ (s : ScopeOf N (Item L P Q N)) (out : Scope L P Q N) (m : List Ref) (path : List Nat), ScopeWF s → ScopeClosed s → m.length = s.imports.length →
    cloneRec lift host s out m path = some
      ({ out with
          vars := out.vars ++ s.vars
          items := out.items ++ (s.items.map (hostItem lift host)).map (Item.mapRefs (shiftRef out.items.length out.vars.length m))
          binds := out.binds ++ s.binds.map fun b => ⟨out.vars.length + b.var, shiftRef out.items.length out.vars.length m b.value⟩
          exports := out.exports ++ s.exports.map fun e => ⟨e.name, shiftRef out.items.length out.vars.length m e.value⟩ },
        (visScope s).map (placed (shiftRef out.items.length out.vars.length m) path))
  | ⟨name, imports, vars, items, binds, exports⟩, out, m, path, hw, hc, hm => by
    rw [ScopeWF] at hw
    rw [ScopeClosed] at hc
    simp only at hm
    have hrefs : ∀ r ∈ refsOf (⟨name, imports, vars, items, binds, exports⟩ : Scope L P Q N), ∀ k, r = .imp k → k < m.length := by
      rintro r hr k rfl
      rw [hm]; exact hc.1 _ hr
    obtain ⟨st, e, h, o, v⟩ := cloneItems_ok items items out.items.length out.vars.length 0 m path
      { out := { out with vars := out.vars ++ vars }
        locals := List.replicate items.length none
        subs := List.replicate items.length none
        visible := (List.range vars.length).map fun v => (⟨path, .var v⟩, .var (out.vars.length + v)) }
      (fun k it hk => by rwa [Nat.zero_add]) ⟨rfl, by simp, by simp, fun k n hk => by omega, fun k n hk => by omega⟩
      (fun k it hk => by rw [Nat.zero_add]; exact hw.1.items k it hk)
      (fun it hit r hr => hrefs r (by simp only [refsOf, List.mem_append, List.mem_flatMap]; exact Or.inl (Or.inl ⟨it, hit, hr⟩))) hw.2 hc.2.2
    rw [Nat.zero_add] at h
    have hb : (binds.mapM fun b => (mapRef st.locals st.subs m out.vars.length b.value).map fun r => (⟨out.vars.length + b.var, r⟩ : Bind)) =
        some (binds.map fun b => ⟨out.vars.length + b.var, shiftRef out.items.length out.vars.length m b.value⟩) := by
      refine mapM_some fun b hb => ?_
      rw [mapRef_some h (hw.1.binds b hb) (hrefs _ (by simp only [refsOf, List.mem_append, List.mem_map]; exact Or.inl (Or.inr ⟨b, hb, rfl⟩)))]; rfl
    have he : (exports.mapM fun e => (mapRef st.locals st.subs m out.vars.length e.value).map fun r => (⟨e.name, r⟩ : Export N)) =
        some (exports.map fun e => ⟨e.name, shiftRef out.items.length out.vars.length m e.value⟩) := by
      refine mapM_some fun b hb => ?_
      rw [mapRef_some h (hw.1.exports b hb) (hrefs _ (by simp only [refsOf, List.mem_append, List.mem_map]; exact Or.inr ⟨b, hb, rfl⟩))]; rfl
    simp only [cloneRec, e, Option.bind_some, hb, he, Option.map_some, o, v, visScope]
    simp [placed, shiftRef, Function.comp_def]
end

end DD.Ir
