import Verif.Proofs.CloneSem

/-!
# Clones spliced into other scopes
-/

namespace DD.Ir
variable {L P Q N Col Arr : Type*} {sem : Sem L P Q N Col Arr} {lift : L} {host : Nat → N}

/-! ### Runs and meanings -/

mutual
theorem itemSem_iff_solves : ∀ (it : Item L P Q N) (depth : Nat) (res : Ref → Option (Rendered Col Arr)) (v : RItem Col Arr), ItemSem sem it depth res v ↔ ∃ p, SolvesItem sem it depth res p ∧ v = p.value sem depth
  | .op n, depth, res, v => by
    simp only [ItemSem, SolvesItem]
    constructor
    · rintro ⟨r, h, rfl⟩; exact ⟨.op r, ⟨r, h, rfl⟩, rfl⟩
    · rintro ⟨p, ⟨r, h, rfl⟩, rfl⟩; exact ⟨r, h, rfl⟩
  | .sub c, depth, res, v => by
    simp only [ItemSem, SolvesItem]
    constructor
    · rintro ⟨entering, outs, h1, h2, rfl⟩
      obtain ⟨vars, parts, h3⟩ := (scopeSem_iff_solves c _ _ _).1 h2
      exact ⟨_, ⟨entering, vars, parts, outs, h1, h3, rfl⟩, rfl⟩
    · rintro ⟨p, ⟨entering, vars, parts, outs, h1, h3, rfl⟩, rfl⟩
      exact ⟨entering, outs, h1, (scopeSem_iff_solves c _ _ _).2 ⟨vars, parts, h3⟩, rfl⟩
theorem itemsSem_iff_solves : ∀ (items : List (Item L P Q N)) (depth : Nat) (imports vars : List Col) (before : List (RunPart Col Arr)) (vals : List (RItem Col Arr)),
    ItemsSem sem items depth imports vars (before.map (RunPart.value sem depth)) vals ↔ ∃ parts, SolvesItems sem items depth imports vars before parts ∧ vals = (before ++ parts).map (RunPart.value sem depth)
  | [], depth, imports, vars, before, vals => by
    simp only [ItemsSem, SolvesItems]
    constructor
    · rintro rfl; exact ⟨[], rfl, by simp⟩
    · rintro ⟨parts, rfl, rfl⟩; simp
  | it :: its, depth, imports, vars, before, vals => by
    simp only [ItemsSem, SolvesItems]
    constructor
    · rintro ⟨v, h1, h2⟩
      obtain ⟨p, h3, rfl⟩ := (itemSem_iff_solves it _ _ _).1 h1
      rw [show before.map (RunPart.value sem depth) ++ [p.value sem depth] = (before ++ [p]).map (RunPart.value sem depth) by simp] at h2
      obtain ⟨ps, h4, rfl⟩ := (itemsSem_iff_solves its _ _ _ _ _).1 h2
      exact ⟨p :: ps, ⟨p, ps, rfl, h3, h4⟩, by simp⟩
    · rintro ⟨parts, ⟨p, ps, rfl, h3, h4⟩, rfl⟩
      refine ⟨p.value sem depth, (itemSem_iff_solves it _ _ _).2 ⟨p, h3, rfl⟩, ?_⟩
      rw [show before.map (RunPart.value sem depth) ++ [p.value sem depth] = (before ++ [p]).map (RunPart.value sem depth) by simp]
      exact (itemsSem_iff_solves its _ _ _ _ _).2 ⟨ps, h4, by simp⟩
theorem scopeSem_iff_solves : ∀ (s : ScopeOf N (Item L P Q N)) (depth : Nat) (imports outs : List Col), ScopeSem sem s depth imports outs ↔ ∃ vars parts, Solves (Arr := Arr) sem s depth imports vars parts outs
  | ⟨name, imps, names, items, binds, exports⟩, depth, imports, outs => by
    simp only [ScopeSem, Solves]
    constructor
    · rintro ⟨vars, vals, h1, h2, h3, h4⟩
      obtain ⟨parts, h5, rfl⟩ := (itemsSem_iff_solves items depth imports vars [] vals).1 h2
      exact ⟨vars, parts, h1, h5, h3, h4⟩
    · rintro ⟨vars, parts, h1, h2, h3, h4⟩
      exact ⟨vars, parts.map (RunPart.value sem depth), h1, (itemsSem_iff_solves items depth imports vars [] _).2 ⟨parts, h2, by simp⟩, h3, h4⟩
end

/-! ### Sites -/

/-- The item an address is in. -/
def Addr.item? : Addr → Option Nat
  | ⟨[], .op i⟩ => some i
  | ⟨[], .var _⟩ => none
  | ⟨i :: _, _⟩ => some i

theorem visItem_item {i : Nat} {it : Item L P Q N} {a : Addr × Ref} (h : a ∈ visItem i it) : a.1.item? = some i := by
  rcases visItem_mem h with ⟨n, rfl, h1, -⟩ | ⟨c, b, k, rfl, hb, rfl⟩
  · rw [h1]; rfl
  · rfl

mutual
theorem visItem_nodup : ∀ (i : Nat) (it : Item L P Q N), ((visItem i it).map Prod.fst).Nodup
  | i, .op n => by cases n <;> simp [visItem]
  | i, .sub c => by
    have h := visScope_nodup c
    rw [visItem, map_mapIdx']
    rw [show (fun (j : Nat) (a : Addr × Ref) => ((⟨i :: a.1.path, a.1.site⟩ : Addr), Ref.childExport i (c.exports.length + j)).fst) = fun (_ : Nat) (a : Addr × Ref) => (fun a : Addr => (⟨i :: a.path, a.site⟩ : Addr)) a.1 from rfl]
    have e : (visScope c).mapIdx (fun (_ : Nat) (a : Addr × Ref) => (fun a : Addr => (⟨i :: a.path, a.site⟩ : Addr)) a.1) = ((visScope c).map Prod.fst).map fun a : Addr => (⟨i :: a.path, a.site⟩ : Addr) := by
      apply List.ext_getElem?; intro k; simp [Function.comp_def]
    rw [e]
    refine List.Pairwise.map _ (fun x y hxy => ?_) h
    intro he
    apply hxy
    cases x; cases y
    simpa using he
theorem visItems_nodup : ∀ (i : Nat) (items : List (Item L P Q N)), ((visItems i items).map Prod.fst).Nodup
  | _, [] => by simp [visItems]
  | i, it :: its => by
    rw [visItems, List.map_append, List.nodup_append]
    refine ⟨visItem_nodup i it, visItems_nodup (i + 1) its, ?_⟩
    intro x hx y hy he
    obtain ⟨a, ha, rfl⟩ := List.mem_map.1 hx
    obtain ⟨b, hb, rfl⟩ := List.mem_map.1 hy
    obtain ⟨k, z, -, hz⟩ := visItems_mem.1 hb
    have h1 := visItem_item ha
    have h2 := visItem_item hz
    rw [he, h2] at h1
    have := Option.some.inj h1
    omega
theorem visScope_nodup : ∀ s : ScopeOf N (Item L P Q N), ((visScope s).map Prod.fst).Nodup
  | ⟨_, _, vars, items, _, _⟩ => by
    rw [visScope, List.map_append, List.nodup_append]
    refine ⟨?_, visItems_nodup 0 items, ?_⟩
    · rw [List.map_map]
      refine List.Pairwise.map _ (fun x y hxy => ?_) List.nodup_range
      intro he
      apply hxy
      simpa using he
    · intro x hx y hy he
      obtain ⟨a, ha, rfl⟩ := List.mem_map.1 hx
      obtain ⟨b, hb, rfl⟩ := List.mem_map.1 hy
      obtain ⟨k, z, -, hz⟩ := visItems_mem.1 hb
      obtain ⟨v, -, rfl⟩ := List.mem_map.1 ha
      have h2 := visItem_item hz
      rw [← he] at h2
      cases h2
end

theorem visScope_hasSite : ∀ (path : List Nat) (site : Site) (s : Scope L P Q N), (⟨path, site⟩ : Addr) ∈ (visScope s).map Prod.fst ↔ HasSite path site s := by
  intro path
  induction path with
  | nil =>
    intro site s
    simp only [List.mem_map, visScope_mem]
    constructor
    · rintro ⟨a, ⟨v, hv, rfl⟩ | ⟨i, it, hit, hm⟩, he⟩
      · cases he; exact hv
      · rcases visItem_mem hm with ⟨n, rfl, h1, -⟩ | ⟨c, b, k, rfl, hb, rfl⟩
        · rw [h1] at he; cases he; exact ⟨n, hit⟩
        · cases he
    · intro h
      cases site with
      | var v => exact ⟨_, Or.inl ⟨v, h, rfl⟩, rfl⟩
      | op i =>
        obtain ⟨n, hn⟩ := h
        cases n with
        | arrange r => exact ⟨(⟨[], .op i⟩, r), Or.inr ⟨i, _, hn, by simp [visItem]⟩, rfl⟩
        | _ => exact ⟨(⟨[], .op i⟩, .loc i), Or.inr ⟨i, _, hn, by simp [visItem]⟩, rfl⟩
  | cons i path ih =>
    intro site s
    simp only [List.mem_map, visScope_mem]
    constructor
    · rintro ⟨a, ⟨v, hv, rfl⟩ | ⟨j, it, hit, hm⟩, he⟩
      · cases he
      · rcases visItem_mem hm with ⟨n, rfl, h1, -⟩ | ⟨c, b, k, rfl, hb, rfl⟩
        · rw [h1] at he; cases he
        · cases he
          exact ⟨c, hit, (ih _ c).1 (List.mem_map.2 ⟨b, List.mem_of_getElem? hb, rfl⟩)⟩
    · rintro ⟨c, hc, h⟩
      obtain ⟨b, hb, he⟩ := List.mem_map.1 ((ih site c).2 h)
      obtain ⟨k, hk⟩ := List.mem_iff_getElem?.1 hb
      refine ⟨(⟨i :: b.1.path, b.1.site⟩, .childExport i (c.exports.length + k)), Or.inr ⟨i, _, hc, ?_⟩, by rw [he]⟩
      rw [visItem, List.mem_mapIdx]
      obtain ⟨hk', e⟩ := List.getElem?_eq_some_iff.1 hk
      exact ⟨k, hk', by rw [e]⟩

/-! ### Splicing -/

theorem resolve_mono {f g : Nat → Option (RItem Col Arr)} (h : ∀ k v, f k = some v → g k = some v) {imports vars : List Col} {r : Ref} {x : Rendered Col Arr} (hx : resolve f imports vars r = some x) :
    resolve g imports vars r = some x := by
  cases r with
  | imp k => exact hx
  | var v => exact hx
  | loc k =>
    simp only [resolve] at hx ⊢
    cases hf : f k with
    | none => rw [hf] at hx; cases hx
    | some v => rw [hf] at hx; rw [h k v hf]; exact hx
  | childExport k j =>
    simp only [resolve] at hx ⊢
    cases hf : f k with
    | none => rw [hf] at hx; cases hx
    | some v => rw [hf] at hx; rw [h k v hf]; exact hx

/-- References in the clone mean what they mean in the original. -/
theorem resolve_shift {items : List (Item L P Q N)} {i base vb np : Nat} {m : List Ref} {f : Nat → Option (RItem Col Arr)} {V : List (RItem Col Arr)} {imports vars entering : List Col}
    (hf : ∀ k, k < i → f (base + k) = V[k]?) (hm : ∀ (k : Nat) r, m[k]? = some r → ∃ c, entering[k]? = some c ∧ resolve f imports vars r = some (.coll c)) {r : Ref} (hr : RefOk items i r)
    (h1 : ∀ k, r = .imp k → k < m.length) (h2 : ∀ v, r = .var v → v < np) :
    resolve f imports vars (shiftRef base vb m r) = resolve (V[·]?) entering ((vars.drop vb).take np) r := by
  cases r with
  | loc k => simp only [shiftRef, resolve, hf k hr.1]
  | childExport k j => simp only [shiftRef, resolve, hf k hr.1]
  | var v =>
    have := h2 v rfl
    simp only [shiftRef, resolve, List.getElem?_take, List.getElem?_drop, if_pos this]
  | imp k =>
    have hk := h1 k rfl
    obtain ⟨c, hc, hres⟩ := hm k m[k] (List.getElem?_eq_getElem hk)
    rw [shiftRef, List.getD_eq_getElem?_getD, List.getElem?_eq_getElem hk, Option.getD_some, hres]
    simp only [resolve, hc, Option.map_some]

theorem mapM_get {A B : Type*} {f : A → Option B} : ∀ {l : List A} {r : List B}, l.mapM f = some r → ∀ (k : Nat) a, l[k]? = some a → r[k]? = f a ∧ (f a).isSome := by
  intro l
  induction l with
  | nil => intro r h k a hk; cases hk
  | cons a l ih =>
    intro r h
    rw [List.mapM_cons] at h
    cases ha : f a with
    | none => rw [ha] at h; cases h
    | some b =>
      cases hl : l.mapM f with
      | none => rw [ha, hl] at h; cases h
      | some bs =>
        rw [ha, hl] at h
        cases h
        intro k x hk
        cases k with
        | zero => cases hk; simp [ha]
        | succ k => simpa using ih hl k x (by simpa using hk)

theorem vis_refIn {s : Scope L P Q N} (hc : ∀ r ∈ refsOf s, RefIn s r) {a : Addr × Ref} (ha : a ∈ visScope s) : (∀ k, a.2 = .imp k → k < s.imports.length) ∧ ∀ v, a.2 = .var v → v < s.vars.length := by
  rcases visScope_mem.1 ha with ⟨v, hlt, rfl⟩ | ⟨i, it, hit, hm⟩
  · exact ⟨fun k h => (by cases h), fun v' h => (by cases h; exact hlt)⟩
  · rcases visItem_mem hm with ⟨n, rfl, h1, ⟨r, rfl, h2⟩ | ⟨-, h2⟩⟩ | ⟨c, b, k, rfl, hb, rfl⟩
    · rw [h2]
      have := hc r (mem_refsOf_item hit List.mem_cons_self)
      exact ⟨fun k h => by subst h; exact this, fun v h => by subst h; exact this⟩
    · rw [h2]; exact ⟨fun k h => (by cases h), fun v h => (by cases h)⟩
    · exact ⟨fun k h => (by cases h), fun v h => (by cases h)⟩

theorem refIn_ranges {s : Scope L P Q N} {r : Ref} (h : RefIn s r) : (∀ k, r = .imp k → k < s.imports.length) ∧ ∀ v, r = .var v → v < s.vars.length :=
  ⟨fun k e => by subst e; exact h, fun v e => by subst e; exact h⟩

theorem resolve_isSome {s : Scope L P Q N} {depth n : Nat} {parts : List (RunPart Col Arr)} {imports vars : List Col} (hp : ∀ (i : Nat) it, s.items[i]? = some it → ∃ p, parts[i]? = some p ∧ PartOk it p)
    (him : ∀ k, k < s.imports.length → k < imports.length) (hv : vars.length = s.vars.length) {r : Ref} (hr : RefOk s.items n r) (hi : RefIn s r) :
    (resolve ((parts.map (RunPart.value sem depth))[·]?) imports vars r).isSome := by
  cases r with
  | imp k => simp [resolve, him k hi]
  | var v =>
    have h : v < vars.length := by rw [hv]; exact hi
    simp [resolve, h]
  | loc k =>
    obtain ⟨-, nd, hn⟩ := hr
    obtain ⟨p, h1, h2⟩ := hp k _ hn
    cases p with
    | op r => simp [resolve, h1, RunPart.value]
    | sub => cases h2
  | childExport k j =>
    obtain ⟨-, c, hn⟩ := hr
    obtain ⟨p, h1, h2⟩ := hp k _ hn
    cases p with
    | op r => cases h2
    | sub a b ps outs =>
      have hj : j < outs.length := by rw [show outs.length = c.exports.length from h2]; exact hi c hn
      simp [resolve, h1, RunPart.value, hj]

/-- A run of a scope that a program is cloned into contains a run of the program. -/
theorem splice_run {p out w : Scope L P Q N} {m : List Ref} {moreItems : List (Item L P Q N)} {moreBinds : List Bind} (hw : ScopeWF p) (hc : ScopeClosed p) (hml : m.length = p.imports.length)
    (hitems : w.items = out.items ++ (p.items.map (hostItem lift host)).map (Item.mapRefs (shiftRef out.items.length out.vars.length m)) ++ moreItems)
    (hvarl : out.vars.length + p.vars.length ≤ w.vars.length)
    (hbinds : w.binds = out.binds ++ (p.binds.map fun b => (⟨out.vars.length + b.var, shiftRef out.items.length out.vars.length m b.value⟩ : Bind)) ++ moreBinds)
    (hother : ∀ b ∈ out.binds ++ moreBinds, ∀ v, v < p.vars.length → b.var ≠ out.vars.length + v)
    {depth : Nat} {imports vars entering : List Col} {vals : List (RItem Col Arr)} (hvars : vars.length = w.vars.length) (hrun : ItemsSem sem w.items depth imports vars [] vals)
    (hvok : VarsOk sem depth (resolve (vals[·]?) imports vars) w.binds vars)
    (hent : ∀ (k : Nat) r, m[k]? = some r → ∃ c, entering[k]? = some c ∧ resolve ((vals.take out.items.length)[·]?) imports vars r = some (.coll c)) :
    ∃ parts outs, Solves sem p depth entering ((vars.drop out.vars.length).take p.vars.length) parts outs ∧
      (∀ a ∈ visScope p, ∃ x, resolve (vals[·]?) imports vars (shiftRef out.items.length out.vars.length m a.2) = some x ∧
        hostOf sem lift a.1.path a.1.site p depth entering ((vars.drop out.vars.length).take p.vars.length) parts = some (x.collection sem)) ∧
      exportsOf sem (resolve (vals[·]?) imports vars ∘ shiftRef out.items.length out.vars.length m) p.exports = some outs := by
  have hw' := scopeWF_iff.1 hw
  have hc' := scopeClosed_iff.1 hc
  obtain ⟨t, e0, hlen, hgets⟩ := itemsSem_iff.1 hrun
  rw [List.nil_append] at e0
  subst e0
  have hlen' : out.items.length + p.items.length ≤ vals.length := by rw [hlen, hitems]; simp
  have hV : ((vals.drop out.items.length).take p.items.length).length = p.items.length := by simp; omega
  have hget : ∀ k, k < p.items.length → vals[out.items.length + k]? = ((vals.drop out.items.length).take p.items.length)[k]? := fun k hk => by
    rw [List.getElem?_take, if_pos hk, List.getElem?_drop]
  have htake : ∀ b k v, (vals.take b)[k]? = some v → vals[k]? = some v := fun b k v h => by
    rw [List.getElem?_take] at h
    split at h
    · exact h
    · cases h
  -- references from the whole scope
  have hwhole : ∀ r, RefOk p.items p.items.length r → (∀ k, r = .imp k → k < p.imports.length) → (∀ v, r = .var v → v < p.vars.length) →
      resolve (vals[·]?) imports vars (shiftRef out.items.length out.vars.length m r) =
        resolve (((vals.drop out.items.length).take p.items.length)[·]?) entering ((vars.drop out.vars.length).take p.vars.length) r := by
    intro r hr h1 h2
    refine resolve_shift hget (fun k r hk => ?_) hr (fun k hk => by rw [hml]; exact h1 k hk) h2
    obtain ⟨c, h3, h4⟩ := hent k r hk
    exact ⟨c, h3, resolve_mono (htake _) h4⟩
  obtain ⟨parts, hVe, hparts⟩ := parts_of_values (sem := sem) (lift := lift) (host := host) (depth := depth) (imports := entering) (vars := (vars.drop out.vars.length).take p.vars.length)
    (V := (vals.drop out.items.length).take p.items.length)
    (res := resolve (((vals.drop out.items.length).take p.items.length)[·]?) entering ((vars.drop out.vars.length).take p.vars.length)) hw'.1 hc'.1 hV
    (fun n r hr hok => rfl) (fun it hit => hostItem_sem it (hw'.2 it hit) (hc'.2.2 it hit))
    (fun i it hit => by
      have hi := (List.getElem?_eq_some_iff.1 hit).1
      obtain ⟨v, e1, e2⟩ := hgets (out.items.length + i) ((hostItem lift host it).mapRefs (shiftRef out.items.length out.vars.length m)) (by
        rw [hitems, List.append_assoc, List.getElem?_append_right (by omega), List.getElem?_append_left (by simpa using hi)]
        simp [hit])
      rw [itemSem_map] at e2
      refine ⟨v, by rw [← hget i hi]; exact e1, (itemSem_congr fun r hr => ?_).1 e2⟩
      rw [hostItem_refs] at hr
      obtain ⟨h1, h2⟩ := refIn_ranges (hc'.1 r (mem_refsOf_item hit hr))
      refine resolve_shift (i := i) (items := p.items) (fun k hk => ?_) (fun k r hk => ?_) (hw'.1.items i it hit r hr) (fun k hk => by rw [hml]; exact h1 k hk) h2
      · rw [List.nil_append, List.getElem?_take, if_pos (by omega)]; exact hget k (by omega)
      · obtain ⟨c, h3, h4⟩ := hent k r hk
        refine ⟨c, h3, resolve_mono (fun k v h => ?_) h4⟩
        rw [List.getElem?_take] at h
        split at h
        · rw [List.nil_append, List.getElem?_take, if_pos (by omega)]; exact h
        · cases h)
  have hok := partOk_of_solves hw'.1 hparts
  have hall : ∀ r ∈ refsOf p, RefOk p.items p.items.length r → resolve (vals[·]?) imports vars (shiftRef out.items.length out.vars.length m r) =
      resolve ((parts.map (RunPart.value sem depth))[·]?) entering ((vars.drop out.vars.length).take p.vars.length) r := by
    intro r hr hro
    obtain ⟨h1, h2⟩ := refIn_ranges (hc'.1 r hr)
    rw [hwhole r hro h1 h2, hVe, resolve_hostValues hok hro (hc'.1 r hr)]
  have hpv : ((vars.drop out.vars.length).take p.vars.length).length = p.vars.length := by simp; omega
  have hvok' : VarsOk sem depth (resolve ((parts.map (RunPart.value sem depth))[·]?) entering ((vars.drop out.vars.length).take p.vars.length)) p.binds ((vars.drop out.vars.length).take p.vars.length) := by
    obtain ⟨g1, g2, g3⟩ := hvok
    rw [hbinds] at g1 g2 g3
    refine ⟨?_, ?_, ?_⟩
    · rw [List.map_append, List.map_append, List.nodup_append, List.nodup_append] at g1
      have h := g1.1.2.1
      rw [List.map_map] at h
      rw [List.Nodup, List.pairwise_map] at h ⊢
      exact h.imp fun hab e => hab (by simp [e])
    · intro b hb
      obtain ⟨c, h1, h2⟩ := g2 ⟨out.vars.length + b.var, shiftRef out.items.length out.vars.length m b.value⟩ (by simp only [List.mem_append, List.mem_map]; exact Or.inl (Or.inr ⟨b, hb, rfl⟩))
      refine ⟨c, by rw [← hall _ (mem_refsOf_bind hb) (hw'.1.binds b hb)]; exact h1, ?_⟩
      rw [List.getElem?_take, if_pos (hc'.2.1 b hb), List.getElem?_drop]; exact h2
    · intro v hv hnot
      rw [hpv] at hv
      rw [List.getElem?_take, if_pos hv, List.getElem?_drop]
      refine g3 _ (by omega) fun hmem => ?_
      simp only [List.map_append, List.map_map, List.mem_append, List.mem_map, Function.comp] at hmem
      rcases hmem with (⟨b, hb, e⟩ | ⟨b, hb, e⟩) | ⟨b, hb, e⟩
      · exact hother b (List.mem_append_left _ hb) v hv e
      · exact hnot (List.mem_map.2 ⟨b, hb, by omega⟩)
      · exact hother b (List.mem_append_right _ hb) v hv e
  have hexports : exportsOf sem (resolve (vals[·]?) imports vars ∘ shiftRef out.items.length out.vars.length m) p.exports =
      exportsOf sem (resolve ((parts.map (RunPart.value sem depth))[·]?) entering ((vars.drop out.vars.length).take p.vars.length)) p.exports :=
    exportsOf_congr fun e he => hall _ (mem_refsOf_export he) (hw'.1.exports e he)
  have hsome : ∃ outs, exportsOf sem (resolve (vals[·]?) imports vars ∘ shiftRef out.items.length out.vars.length m) p.exports = some outs := by
    refine ⟨p.exports.map fun e => ((resolve (vals[·]?) imports vars (shiftRef out.items.length out.vars.length m e.value)).map fun c => c.collection sem).getD sem.never, mapM_some fun e he => ?_⟩
    have := resolve_isSome (sem := sem) (depth := depth) (imports := entering) (vars := (vars.drop out.vars.length).take p.vars.length) hok (fun k hk => ?_) hpv (hw'.1.exports e he) (hc'.1 _ (mem_refsOf_export he))
    · rw [← hall _ (mem_refsOf_export he) (hw'.1.exports e he)] at this
      simp only [Function.comp]
      cases h : resolve (vals[·]?) imports vars (shiftRef out.items.length out.vars.length m e.value) with
      | none => rw [h] at this; cases this
      | some c => rfl
    · obtain ⟨c, h1, -⟩ := hent k m[k] (List.getElem?_eq_getElem (by omega))
      exact (List.getElem?_eq_some_iff.1 h1).1
  obtain ⟨outs, houts⟩ := hsome
  have hsol : Solves sem p depth entering ((vars.drop out.vars.length).take p.vars.length) parts outs := solves_iff.2 ⟨hpv, hparts, hvok', by rw [← hexports, houts]⟩
  refine ⟨parts, outs, hsol, fun a ha => ?_, houts⟩
  obtain ⟨x, h1, h2⟩ := vis_resolve (lift := lift) _ hw hc hsol ha rfl
  obtain ⟨h3, h4⟩ := vis_refIn hc'.1 ha
  exact ⟨x, by rw [hwhole a.2 (refOk_vis hw'.1 ha) h3 h4, hVe]; exact h1, h2⟩

/-- A run of the program makes a run of the scope that it is cloned into. -/
theorem splice_extend {p out : Scope L P Q N} {m : List Ref} (hw : ScopeWF p) (hc : ScopeClosed p) (hml : m.length = p.imports.length)
    {depth : Nat} {imports vars entering outs : List Col} {vals : List (RItem Col Arr)} {parts : List (RunPart Col Arr)} (hrun : ItemsSem sem out.items depth imports vars [] vals)
    (hent : ∀ (k : Nat) r, m[k]? = some r → ∃ c, entering[k]? = some c ∧ resolve (vals[·]?) imports vars r = some (.coll c))
    (hsol : Solves sem p depth entering ((vars.drop out.vars.length).take p.vars.length) parts outs) :
    ItemsSem sem (out.items ++ (p.items.map (hostItem lift host)).map (Item.mapRefs (shiftRef out.items.length out.vars.length m))) depth imports vars [] (vals ++ hostValues sem lift depth p.items parts) ∧
      ∀ r ∈ refsOf p, RefOk p.items p.items.length r → resolve ((vals ++ hostValues sem lift depth p.items parts)[·]?) imports vars (shiftRef out.items.length out.vars.length m r) =
        resolve ((parts.map (RunPart.value sem depth))[·]?) entering ((vars.drop out.vars.length).take p.vars.length) r := by
  have hw' := scopeWF_iff.1 hw
  have hc' := scopeClosed_iff.1 hc
  obtain ⟨g1, g2, g3, g4⟩ := solves_iff.1 hsol
  have hok := partOk_of_solves hw'.1 g2
  obtain ⟨hpl, hps⟩ := (solvesItems_iff' hw'.1.items).1 g2
  have hV : (hostValues sem lift depth p.items parts).length = p.items.length := by simp [hostValues, hpl]
  obtain ⟨t, e0, hlen, hgets⟩ := itemsSem_iff.1 hrun
  rw [List.nil_append] at e0
  subst e0
  have hres : ∀ i, i ≤ p.items.length → ∀ r ∈ refsOf p, RefOk p.items i r →
      resolve (((vals ++ hostValues sem lift depth p.items parts).take (out.items.length + i))[·]?) imports vars (shiftRef out.items.length out.vars.length m r) =
        resolve ((parts.map (RunPart.value sem depth))[·]?) entering ((vars.drop out.vars.length).take p.vars.length) r := by
    intro i hi r hr hro
    obtain ⟨h1, h2⟩ := refIn_ranges (hc'.1 r hr)
    rw [← resolve_hostValues (lift := lift) hok hro (hc'.1 r hr)]
    refine resolve_shift (i := i) (items := p.items) (fun k hk => ?_) (fun k r hk => ?_) hro (fun k hk => by rw [hml]; exact h1 k hk) h2
    · rw [List.getElem?_take, if_pos (by omega), List.getElem?_append_right (by omega), hlen, Nat.add_sub_cancel_left]
    · obtain ⟨c, h3, h4⟩ := hent k r hk
      refine ⟨c, h3, resolve_mono (fun k v h => ?_) h4⟩
      have hk := (List.getElem?_eq_some_iff.1 h).1
      rw [List.getElem?_take, if_pos (by omega), List.getElem?_append_left hk]; exact h
  constructor
  · refine itemsSem_iff.2 ⟨_, (List.nil_append _).symm, by simp [hlen, hV], ?_⟩
    intro i it hit
    by_cases hi : i < out.items.length
    · rw [List.getElem?_append_left hi] at hit
      obtain ⟨v, e1, e2⟩ := hgets i it hit
      refine ⟨v, by rw [List.getElem?_append_left (by omega)]; exact e1, ?_⟩
      rw [List.take_append_of_le_length (by omega)]; exact e2
    · obtain ⟨k, rfl⟩ := Nat.exists_eq_add_of_le (Nat.not_lt.1 hi)
      rw [List.getElem?_append_right (by omega), Nat.add_sub_cancel_left, List.getElem?_map, List.getElem?_map, Option.map_map, Option.map_eq_some_iff] at hit
      obtain ⟨x, hx, rfl⟩ := hit
      have hk := (List.getElem?_eq_some_iff.1 hx).1
      obtain ⟨q, hq, hsq⟩ := hps k x hx
      refine ⟨hostValue sem lift depth x q, by rw [List.getElem?_append_right (by omega), hlen, Nat.add_sub_cancel_left]; exact hostValues_get hx hq, ?_⟩
      simp only [Function.comp]
      rw [itemSem_map]
      refine (hostItem_sem x (hw'.2 x (List.mem_of_getElem? hx)) (hc'.2.2 x (List.mem_of_getElem? hx)) _ _ _).2 ⟨q, (solvesItem_congr fun r hr => ?_).1 hsq, rfl⟩
      exact (hres k hk.le r (mem_refsOf_item hx hr) (hw'.1.items k x hx r hr)).symm
  · intro r hr hro
    have := hres p.items.length le_rfl r hr hro
    rwa [List.take_of_length_le (by simp [hV, hlen])] at this

/-- The clone of a whole program. -/
theorem identity_sem {p : Scope L P Q N} (hw : ScopeWF p) (hc : ScopeClosed p) {depth : Nat} {imports outs : List Col} :
    ScopeSem sem { p with items := p.items.map (hostItem lift host) } depth imports outs ↔ ScopeSem sem p depth imports outs := by
  have hw' := scopeWF_iff.1 hw
  have hc' := scopeClosed_iff.1 hc
  have hrefs : ∀ i it, (p.items.map (hostItem lift host))[i]? = some it → ∀ r ∈ it.refs, RefOk (p.items.map (hostItem lift host)) i r := by
    intro i it hit r hr
    rw [List.getElem?_map, Option.map_eq_some_iff] at hit
    obtain ⟨x, hx, rfl⟩ := hit
    rw [hostItem_refs] at hr
    simpa using refOk_host (lift := lift) (host := host) (more := []) (hw'.1.items i x hx r hr)
  rw [scopeSem_iff_solves p, scopeSem_unfold]
  constructor
  · rintro ⟨vars, vals, g1, g2, g3, g4⟩
    obtain ⟨hlen, hg⟩ := (itemsSem_iff' hrefs).1 g2
    rw [List.length_map] at hlen
    obtain ⟨parts, hVe, hparts⟩ := parts_of_values (sem := sem) (lift := lift) (host := host) (V := vals) (res := resolve (vals[·]?) imports vars) hw'.1 hc'.1 hlen (fun n r hr hok => rfl)
      (fun it hit => hostItem_sem it (hw'.2 it hit) (hc'.2.2 it hit))
      (fun i it hit => hg i _ (by rw [List.getElem?_map, hit]; rfl))
    have hR : ∀ n, ∀ r ∈ refsOf p, RefOk p.items n r → resolve (vals[·]?) imports vars r = resolve ((parts.map (RunPart.value sem depth))[·]?) imports vars r :=
      fun n r hr hok => by rw [hVe, resolve_hostValues (partOk_of_solves hw'.1 hparts) hok (hc'.1 r hr)]
    exact ⟨vars, parts, solves_iff.2 ⟨g1, hparts, (varsOk_congr fun b hb => hR _ _ (mem_refsOf_bind hb) (hw'.1.binds b hb)).1 g3, by
      rw [← g4]; exact (exportsOf_congr fun b hb => hR _ _ (mem_refsOf_export hb) (hw'.1.exports b hb)).symm⟩⟩
  · rintro ⟨vars, parts, hsol⟩
    obtain ⟨g1, g2, g3, g4⟩ := solves_iff.1 hsol
    obtain ⟨hpl, hps⟩ := (solvesItems_iff' hw'.1.items).1 g2
    have hR : ∀ n, ∀ r ∈ refsOf p, RefOk p.items n r → resolve ((hostValues sem lift depth p.items parts)[·]?) imports vars r = resolve ((parts.map (RunPart.value sem depth))[·]?) imports vars r :=
      fun n r hr hok => resolve_hostValues (partOk_of_solves hw'.1 g2) hok (hc'.1 r hr)
    refine ⟨vars, hostValues sem lift depth p.items parts, g1, (itemsSem_iff' hrefs).2 ⟨by simp [hostValues, hpl], ?_⟩, (varsOk_congr fun b hb => hR _ _ (mem_refsOf_bind hb) (hw'.1.binds b hb)).2 g3, ?_⟩
    · intro i it hit
      rw [List.getElem?_map, Option.map_eq_some_iff] at hit
      obtain ⟨x, hx, rfl⟩ := hit
      obtain ⟨q, hq, hsq⟩ := hps i x hx
      refine ⟨_, hostValues_get hx hq, (hostItem_sem x (hw'.2 x (List.mem_of_getElem? hx)) (hc'.2.2 x (List.mem_of_getElem? hx)) _ _ _).2 ⟨q, (solvesItem_congr fun r hr => ?_).1 hsq, rfl⟩⟩
      exact (hR i r (mem_refsOf_item hx hr) (hw'.1.items i x hx r hr)).symm
    · rw [← g4]; exact exportsOf_congr fun b hb => hR _ _ (mem_refsOf_export hb) (hw'.1.exports b hb)

end DD.Ir
