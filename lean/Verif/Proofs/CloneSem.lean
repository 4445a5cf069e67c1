import Verif.Proofs.Clone

/-!
# What a clone computes
-/

namespace DD.Ir
variable {L P Q N Col Arr : Type*} {sem : Sem L P Q N Col Arr}

/-! ### The equations, all at once -/

theorem itemsSem_iff' {depth : Nat} {imports vars : List Col} {items : List (Item L P Q N)} (hr : ∀ i it, items[i]? = some it → ∀ r ∈ it.refs, RefOk items i r) {l : List (RItem Col Arr)} :
    ItemsSem sem items depth imports vars [] l ↔ l.length = items.length ∧
      ∀ (i : Nat) it, items[i]? = some it → ∃ v, l[i]? = some v ∧ ItemSem sem it depth (resolve (l[·]?) imports vars) v := by
  have key : ∀ (i : Nat) it v, items[i]? = some it → (ItemSem sem it depth (resolve (fun k => ([] ++ l.take i)[k]?) imports vars) v ↔ ItemSem sem it depth (resolve (l[·]?) imports vars) v) :=
    fun i it v hit => itemSem_congr fun r hr' => resolve_congr (hr i it hit r hr') fun k hk => by rw [List.nil_append, List.getElem?_take, if_pos hk]
  rw [itemsSem_iff]
  constructor
  · rintro ⟨t, e, h1, h2⟩
    rw [List.nil_append] at e
    subst e
    exact ⟨h1, fun i it hit => by obtain ⟨v, e3, e4⟩ := h2 i it hit; exact ⟨v, e3, (key i it v hit).1 e4⟩⟩
  · rintro ⟨h1, h2⟩
    exact ⟨l, rfl, h1, fun i it hit => by obtain ⟨v, e3, e4⟩ := h2 i it hit; exact ⟨v, e3, (key i it v hit).2 e4⟩⟩

theorem solvesItem_congr {it : Item L P Q N} {depth : Nat} {res res' : Ref → Option (Rendered Col Arr)} {p : RunPart Col Arr} (h : ∀ r ∈ it.refs, res r = res' r) :
    SolvesItem sem it depth res p ↔ SolvesItem sem it depth res' p := by
  cases it with
  | op n => simp only [SolvesItem]; rw [renderNode_congr h]
  | sub child =>
    simp only [SolvesItem]
    rw [mapM_congr _ _ _ fun i hi => childImport_congr fun r hr => h r (List.mem_flatMap.2 ⟨i, hi, hr⟩)]

theorem solvesItems_iff {depth : Nat} {imports vars : List Col} : ∀ {items : List (Item L P Q N)} {before l : List (RunPart Col Arr)},
    SolvesItems sem items depth imports vars before l ↔ l.length = items.length ∧
      ∀ (i : Nat) it, items[i]? = some it → ∃ p, l[i]? = some p ∧ SolvesItem sem it depth (resolve (fun k => ((before ++ l.take i).map (RunPart.value sem depth))[k]?) imports vars) p := by
  intro items
  induction items with
  | nil =>
    intro before l
    simp only [SolvesItems]
    constructor
    · rintro rfl; exact ⟨rfl, fun i it h => by cases h⟩
    · rintro ⟨ht, -⟩; exact List.length_eq_zero_iff.1 ht
  | cons it items ih =>
    intro before l
    simp only [SolvesItems]
    constructor
    · rintro ⟨p, ps, rfl, h1, h2⟩
      obtain ⟨h3, h4⟩ := ih.1 h2
      refine ⟨by simp [h3], ?_⟩
      intro i it' hit
      cases i with
      | zero => cases hit; exact ⟨p, rfl, by simpa using h1⟩
      | succ i =>
        obtain ⟨w, h5, h6⟩ := h4 i it' (by simpa using hit)
        exact ⟨w, by simpa using h5, by simpa using h6⟩
    · rintro ⟨h3, h4⟩
      cases l with
      | nil => cases h3
      | cons v t =>
        obtain ⟨w, h5, h6⟩ := h4 0 it rfl
        cases h5
        refine ⟨v, t, rfl, by simpa using h6, ih.2 ⟨by simpa using h3, ?_⟩⟩
        intro i it' hit
        obtain ⟨w, h5, h6⟩ := h4 (i + 1) it' (by simpa using hit)
        exact ⟨w, by simpa using h5, by simpa using h6⟩

theorem solvesItems_iff' {depth : Nat} {imports vars : List Col} {items : List (Item L P Q N)} (hr : ∀ i it, items[i]? = some it → ∀ r ∈ it.refs, RefOk items i r) {l : List (RunPart Col Arr)} :
    SolvesItems sem items depth imports vars [] l ↔ l.length = items.length ∧
      ∀ (i : Nat) it, items[i]? = some it → ∃ p, l[i]? = some p ∧ SolvesItem sem it depth (resolve ((l.map (RunPart.value sem depth))[·]?) imports vars) p := by
  have key : ∀ (i : Nat) it p, items[i]? = some it → (SolvesItem sem it depth (resolve (fun k => (([] ++ l.take i).map (RunPart.value sem depth))[k]?) imports vars) p ↔
      SolvesItem sem it depth (resolve ((l.map (RunPart.value sem depth))[·]?) imports vars) p) :=
    fun i it v hit => solvesItem_congr fun r hr' => resolve_congr (hr i it hit r hr') fun k hk => by
      rw [List.nil_append, List.getElem?_map, List.getElem?_map, List.getElem?_take, if_pos hk]
  rw [solvesItems_iff]
  refine and_congr Iff.rfl ⟨fun h2 => ?_, fun h2 => ?_⟩
  · exact fun i it hit => by obtain ⟨v, e3, e4⟩ := h2 i it hit; exact ⟨v, e3, (key i it v hit).1 e4⟩
  · exact fun i it hit => by obtain ⟨v, e3, e4⟩ := h2 i it hit; exact ⟨v, e3, (key i it v hit).2 e4⟩

theorem solves_iff {s : Scope L P Q N} {depth : Nat} {imports vars outs : List Col} {parts : List (RunPart Col Arr)} : Solves sem s depth imports vars parts outs ↔
    vars.length = s.vars.length ∧ SolvesItems sem s.items depth imports vars [] parts ∧ VarsOk sem depth (resolve ((parts.map (RunPart.value sem depth))[·]?) imports vars) s.binds vars ∧
      exportsOf sem (resolve ((parts.map (RunPart.value sem depth))[·]?) imports vars) s.exports = some outs := by
  cases s; simp only [Solves]

theorem scopeSem_unfold {s : Scope L P Q N} {depth : Nat} {imports outs : List Col} : ScopeSem sem s depth imports outs ↔ ∃ vars vals, vars.length = s.vars.length ∧
    ItemsSem sem s.items depth imports vars [] vals ∧ VarsOk sem depth (resolve (vals[·]?) imports vars) s.binds vars ∧ exportsOf sem (resolve (vals[·]?) imports vars) s.exports = some outs := by
  cases s; simp only [ScopeSem]

theorem mapM_option_length {A B : Type*} {f : A → Option B} : ∀ {l : List A} {r : List B}, l.mapM f = some r → r.length = l.length := by
  intro l
  induction l with
  | nil => intro r h; cases h; rfl
  | cons a l ih =>
    intro r h
    rw [List.mapM_cons] at h
    cases ha : f a with
    | none => rw [ha] at h; cases h
    | some b =>
      cases hl : l.mapM f with
      | none => rw [ha, hl] at h; cases h
      | some bs =>
        rw [ha, hl] at h
        cases h
        simp [ih hl]

theorem mapM_append' {A B : Type*} (f : A → Option B) (l l' : List A) : (l ++ l').mapM f = (l.mapM f).bind fun a => (l'.mapM f).map fun b => a ++ b := by
  induction l with
  | nil => simp
  | cons x l ih =>
    rw [List.cons_append, List.mapM_cons, List.mapM_cons, ih]
    cases f x <;> cases l.mapM f <;> cases l'.mapM f <;> simp

/-! ### Parts of items -/

/-- The part is of the kind of the item. -/
def PartOk : Item L P Q N → RunPart Col Arr → Prop
  | .op _, .op _ => True
  | .sub c, .sub _ _ _ outs => outs.length = c.exports.length
  | _, _ => False

theorem solvesItem_partOk {it : Item L P Q N} {depth : Nat} {res : Ref → Option (Rendered Col Arr)} {p : RunPart Col Arr} (h : SolvesItem sem it depth res p) : PartOk it p := by
  cases it with
  | op n => simp only [SolvesItem] at h; obtain ⟨r, -, rfl⟩ := h; trivial
  | sub c =>
    simp only [SolvesItem] at h
    obtain ⟨e, vars, parts, outs, -, h, rfl⟩ := h
    exact mapM_option_length (solves_iff.1 h).2.2.2

variable (sem) (lift : L) (host : Nat → N)

/-- The lifted collection of a site. -/
def lifted (s : Scope L P Q N) (depth : Nat) (imports vars : List Col) (parts : List (RunPart Col Arr)) (a : Addr × Ref) : Col :=
  sem.linear depth [lift] ((hostOf sem lift a.1.path a.1.site s depth imports vars parts).getD sem.never)

/-- What a cloned item computes. -/
def hostValue (depth : Nat) : Item L P Q N → RunPart Col Arr → RItem Col Arr
  | .sub c, .sub imports vars parts outs => .sub ((outs ++ (visScope c).map (lifted sem lift c (depth + 1) imports vars parts)).map fun c => sem.leaveDynamic (depth + 1) (sem.leave c))
  | _, p => p.value sem depth

/-- What the cloned items of a scope compute. -/
def hostValues (depth : Nat) (items : List (Item L P Q N)) (parts : List (RunPart Col Arr)) : List (RItem Col Arr) := List.zipWith (hostValue sem lift depth) items parts

variable {sem lift host}

theorem hostValues_get {depth : Nat} {items : List (Item L P Q N)} {parts : List (RunPart Col Arr)} {i : Nat} {it : Item L P Q N} {p : RunPart Col Arr} (h1 : items[i]? = some it) (h2 : parts[i]? = some p) :
    (hostValues sem lift depth items parts)[i]? = some (hostValue sem lift depth it p) := by
  rw [hostValues, List.getElem?_zipWith, h1, h2]

/-- References of the original mean the same in the clone. -/
theorem resolve_hostValues {s : Scope L P Q N} {depth n : Nat} {parts : List (RunPart Col Arr)} {imports vars : List Col} (hp : ∀ (i : Nat) it, s.items[i]? = some it → ∃ p, parts[i]? = some p ∧ PartOk it p)
    {r : Ref} (hr : RefOk s.items n r) (hi : RefIn s r) : resolve ((hostValues sem lift depth s.items parts)[·]?) imports vars r = resolve ((parts.map (RunPart.value sem depth))[·]?) imports vars r := by
  cases r with
  | imp k => rfl
  | var v => rfl
  | loc k =>
    obtain ⟨-, nd, hn⟩ := hr
    obtain ⟨p, h1, h2⟩ := hp k _ hn
    simp only [resolve, hostValues_get hn h1, List.getElem?_map, h1]
    cases p with
    | op r => rfl
    | sub => cases h2
  | childExport k j =>
    obtain ⟨-, c, hn⟩ := hr
    obtain ⟨p, h1, h2⟩ := hp k _ hn
    simp only [resolve, hostValues_get hn h1, List.getElem?_map, h1]
    cases p with
    | op r => rfl
    | sub a b ps outs =>
      have hj : j < outs.length := by rw [show outs.length = c.exports.length from h2]; exact hi c hn
      simp only [hostValue, Option.bind_some, Option.map_some, RunPart.value, List.map_append]
      rw [List.getElem?_append_left (by simpa using hj)]

/-! ### Sites -/

theorem visItem_mem : ∀ {i : Nat} {it : Item L P Q N} {a : Addr × Ref}, a ∈ visItem i it →
    (∃ n, it = .op n ∧ a.1 = ⟨[], .op i⟩ ∧ ((∃ r, n = .arrange r ∧ a.2 = r) ∨ ((∀ r, n ≠ .arrange r) ∧ a.2 = .loc i))) ∨
      ∃ c b k, it = .sub c ∧ (visScope c)[k]? = some b ∧ a = (⟨i :: b.1.path, b.1.site⟩, .childExport i (c.exports.length + k))
  | i, .op n, a, h => by
    refine Or.inl ⟨n, rfl, ?_⟩
    cases n with
    | arrange r => simp only [visItem, List.mem_singleton] at h; subst h; exact ⟨rfl, Or.inl ⟨r, rfl, rfl⟩⟩
    | _ => simp only [visItem, List.mem_singleton] at h; subst h; exact ⟨rfl, Or.inr ⟨fun r hr => (by cases hr), rfl⟩⟩
  | i, .sub c, a, h => by
    simp only [visItem, List.mem_mapIdx] at h
    obtain ⟨k, hk, rfl⟩ := h
    exact Or.inr ⟨c, _, k, rfl, List.getElem?_eq_getElem hk, rfl⟩

theorem visItems_mem {a : Addr × Ref} : ∀ {items : List (Item L P Q N)} {i : Nat}, a ∈ visItems i items ↔ ∃ (k : Nat) (it : Item L P Q N), items[k]? = some it ∧ a ∈ visItem (i + k) it := by
  intro items
  induction items with
  | nil => intro i; simp [visItems]
  | cons it its ih =>
    intro i
    rw [visItems, List.mem_append, ih]
    constructor
    · rintro (h | ⟨k, x, h1, h2⟩)
      · exact ⟨0, it, rfl, h⟩
      · exact ⟨k + 1, x, by simpa using h1, by rwa [Nat.add_assoc, Nat.add_comm 1] at h2⟩
    · rintro ⟨k, x, h1, h2⟩
      cases k with
      | zero => cases h1; exact Or.inl h2
      | succ k => exact Or.inr ⟨k, x, by simpa using h1, by rwa [Nat.add_assoc, Nat.add_comm 1]⟩

theorem visScope_mem {s : Scope L P Q N} {a : Addr × Ref} : a ∈ visScope s ↔ (∃ v, v < s.vars.length ∧ a = (⟨[], .var v⟩, .var v)) ∨ ∃ (i : Nat) (it : Item L P Q N), s.items[i]? = some it ∧ a ∈ visItem i it := by
  rw [visScope_eq, List.mem_append, visItems_mem]
  simp only [List.mem_map, List.mem_range, Nat.zero_add]
  constructor
  · rintro (⟨v, h, rfl⟩ | h)
    · exact Or.inl ⟨v, h, rfl⟩
    · exact Or.inr h
  · rintro (⟨v, h, rfl⟩ | h)
    · exact Or.inl ⟨v, h, rfl⟩
    · exact Or.inr h

theorem itemsClosed_iff {items : List (Item L P Q N)} : ItemsClosed items ↔ ∀ it ∈ items, ItemClosed it := by
  induction items with
  | nil => simp [ItemsClosed]
  | cons it items ih => simp only [ItemsClosed, ih, List.forall_mem_cons]

theorem scopeClosed_iff {s : Scope L P Q N} : ScopeClosed s ↔ (∀ r ∈ refsOf s, RefIn s r) ∧ (∀ b ∈ s.binds, b.var < s.vars.length) ∧ ∀ it ∈ s.items, ItemClosed it := by
  obtain ⟨a, b, c, d, e, f⟩ := s
  simp only [ScopeClosed, itemsClosed_iff]

theorem mem_refsOf_item {s : Scope L P Q N} {i : Nat} {it : Item L P Q N} (h : s.items[i]? = some it) {r : Ref} (hr : r ∈ it.refs) : r ∈ refsOf s := by
  simp only [refsOf, List.mem_append, List.mem_flatMap]
  exact Or.inl (Or.inl ⟨it, List.mem_of_getElem? h, hr⟩)

theorem mem_refsOf_bind {s : Scope L P Q N} {b : Bind} (h : b ∈ s.binds) : b.value ∈ refsOf s := by
  simp only [refsOf, List.mem_append, List.mem_map]
  exact Or.inl (Or.inr ⟨b, h, rfl⟩)

theorem mem_refsOf_export {s : Scope L P Q N} {b : Export N} (h : b ∈ s.exports) : b.value ∈ refsOf s := by
  simp only [refsOf, List.mem_append, List.mem_map]
  exact Or.inr ⟨b, h, rfl⟩

/-- Every reference to a site gives the collection of the site. -/
theorem vis_resolve : ∀ (path : List Nat) {s : Scope L P Q N} (_ : ScopeWF s) (_ : ScopeClosed s) {depth : Nat} {imports vars outs : List Col} {parts : List (RunPart Col Arr)}
    (_ : Solves sem s depth imports vars parts outs) {a : Addr × Ref} (_ : a ∈ visScope s) (_ : a.1.path = path),
    ∃ x, resolve ((hostValues sem lift depth s.items parts)[·]?) imports vars a.2 = some x ∧ hostOf sem lift a.1.path a.1.site s depth imports vars parts = some (x.collection sem) := by
  intro path
  induction path with
  | nil =>
    intro s hw hc depth imports vars outs parts hs a ha hpath
    rw [scopeWF_iff] at hw
    rw [scopeClosed_iff] at hc
    rw [solves_iff, solvesItems_iff' hw.1.items] at hs
    obtain ⟨hv, ⟨hlen, hparts⟩, -, -⟩ := hs
    have hok : ∀ (i : Nat) it, s.items[i]? = some it → ∃ p, parts[i]? = some p ∧ PartOk it p := fun i it h => by
      obtain ⟨p, h1, h2⟩ := hparts i it h; exact ⟨p, h1, solvesItem_partOk h2⟩
    rcases visScope_mem.1 ha with ⟨v, hlt, rfl⟩ | ⟨i, it, hit, hm⟩
    · rw [← hv] at hlt
      exact ⟨.coll vars[v], by simp [resolve, hlt], by simp [hostOf, hlt, Rendered.collection]⟩
    · rcases visItem_mem hm with ⟨n, rfl, h1, h2⟩ | ⟨c, b, k, rfl, hb, rfl⟩
      · obtain ⟨p, hp, hsol⟩ := hparts i _ hit
        simp only [SolvesItem] at hsol
        obtain ⟨r, hr, rfl⟩ := hsol
        rcases h2 with ⟨input, rfl, h3⟩ | ⟨hne, h3⟩
        · have hmem : input ∈ (Item.op (.arrange input) : Item L P Q N).refs := List.mem_cons_self
          rw [h3, resolve_hostValues hok (hw.1.items i _ hit _ hmem) (hc.1 _ (mem_refsOf_item hit hmem)), h1]
          simp only [renderNode, Option.map_eq_some_iff] at hr
          obtain ⟨x, hx, -⟩ := hr
          exact ⟨x, hx, by simp only [hostOf, hit, hx, Option.map_some]⟩
        · rw [h3, h1]
          refine ⟨r, by simp only [resolve, hostValues_get hit hp]; rfl, ?_⟩
          cases n with
          | arrange r => exact (hne r rfl).elim
          | _ => simp only [hostOf, hit, hp]
      · cases hpath
  | cons i0 path ih =>
    intro s hw hc depth imports vars outs parts hs a ha hpath
    rw [scopeWF_iff] at hw
    rw [scopeClosed_iff] at hc
    rw [solves_iff, solvesItems_iff' hw.1.items] at hs
    obtain ⟨hv, ⟨hlen, hparts⟩, -, -⟩ := hs
    rcases visScope_mem.1 ha with ⟨v, hlt, rfl⟩ | ⟨i, it, hit, hm⟩
    · cases hpath
    · rcases visItem_mem hm with ⟨n, rfl, h1, h2⟩ | ⟨c, b, k, rfl, hb, rfl⟩
      · rw [h1] at hpath; cases hpath
      · obtain ⟨p, hp, hsol⟩ := hparts i _ hit
        simp only [SolvesItem] at hsol
        obtain ⟨entering, vars', parts', outs', h4, h5, rfl⟩ := hsol
        have hcw := hw.2 _ (List.mem_of_getElem? hit)
        have hcc := hc.2.2 _ (List.mem_of_getElem? hit)
        rw [ItemWF] at hcw
        rw [ItemClosed] at hcc
        cases hpath
        obtain ⟨x, hx1, hx2⟩ := ih hcw hcc.2 h5 (List.mem_of_getElem? hb) rfl
        have hlen' : outs'.length = c.exports.length := mapM_option_length (solves_iff.1 h5).2.2.2
        refine ⟨.coll (sem.leaveDynamic (depth + 1) (sem.leave (sem.linear (depth + 1) [lift] (x.collection sem)))), ?_, ?_⟩
        · simp only [resolve, hostValues_get hit hp, Option.bind_some, hostValue, List.map_append]
          rw [List.getElem?_append_right (by simp [hlen'])]
          simp [hlen', hb, lifted, hx2]
        · simp only [hostOf, hit, hp, hx2, Option.map_some, Rendered.collection]

/-! ### Clones compute the same -/

theorem hostItem_refs (it : Item L P Q N) : (hostItem lift host it).refs = it.refs := by
  cases it with
  | op n => rfl
  | sub c => obtain ⟨a, b, c, d, e, f⟩ := c; simp only [hostItem, hostScope, withHosts, Item.refs]

theorem hostItem_op (it : Item L P Q N) : (∃ n, hostItem lift host it = .op n) ↔ ∃ n, it = .op n := by
  cases it <;> simp [hostItem]

theorem hostItem_sub (it : Item L P Q N) : (∃ n, hostItem lift host it = .sub n) ↔ ∃ n, it = .sub n := by
  cases it <;> simp [hostItem]

/-- From what the cloned items compute to what the items compute. -/
theorem parts_of_values {s : Scope L P Q N} (hw : RefsOk s) (hc : ∀ r ∈ refsOf s, RefIn s r) {depth : Nat} {imports vars : List Col} {V : List (RItem Col Arr)} {res : Ref → Option (Rendered Col Arr)}
    (hV : V.length = s.items.length) (hres : ∀ n, ∀ r ∈ refsOf s, RefOk s.items n r → res r = resolve (V[·]?) imports vars r)
    (hitem : ∀ it ∈ s.items, ∀ depth res v, ItemSem sem (hostItem lift host it) depth res v ↔ ∃ p, SolvesItem sem it depth res p ∧ v = hostValue sem lift depth it p)
    (h : ∀ (i : Nat) it, s.items[i]? = some it → ∃ v, V[i]? = some v ∧ ItemSem sem (hostItem lift host it) depth res v) :
    ∃ parts, V = hostValues sem lift depth s.items parts ∧ SolvesItems sem s.items depth imports vars [] parts := by
  have hall : ∀ i : Fin s.items.length, ∃ p, SolvesItem sem s.items[i] depth res p ∧ V[i]? = some (hostValue sem lift depth s.items[i] p) := by
    intro i
    obtain ⟨v, h1, h2⟩ := h i s.items[i] (List.getElem?_eq_getElem i.2)
    obtain ⟨p, h3, h4⟩ := (hitem s.items[i] (List.getElem_mem _) depth res v).1 h2
    exact ⟨p, h3, by rw [← h4]; exact h1⟩
  choose f hf1 hf2 using hall
  have hget : ∀ k (hk : k < s.items.length), (List.ofFn f)[k]? = some (f ⟨k, hk⟩) := fun k hk => by rw [List.getElem?_ofFn, dif_pos hk]
  have hVe : V = hostValues sem lift depth s.items (List.ofFn f) := by
    apply List.ext_getElem?
    intro k
    by_cases hk : k < s.items.length
    · rw [hostValues_get (List.getElem?_eq_getElem hk) (hget k hk)]; exact hf2 ⟨k, hk⟩
    · rw [List.getElem?_eq_none (by omega), List.getElem?_eq_none (by simp [hostValues]; omega)]
  refine ⟨List.ofFn f, hVe, (solvesItems_iff' hw.items).2 ⟨List.length_ofFn, ?_⟩⟩
  intro i it hit
  have hi := (List.getElem?_eq_some_iff.1 hit).1
  have hit' : it = s.items[i] := by rw [List.getElem?_eq_getElem hi] at hit; exact (Option.some.inj hit).symm
  subst hit'
  refine ⟨f ⟨i, hi⟩, hget i hi, (solvesItem_congr fun r hr => ?_).1 (hf1 ⟨i, hi⟩)⟩
  have hok := hw.items i _ hit r hr
  rw [hres i r (mem_refsOf_item hit hr) hok, hVe, resolve_hostValues (fun i it h => ?_) hok (hc _ (mem_refsOf_item hit hr))]
  have hi := (List.getElem?_eq_some_iff.1 h).1
  have hit' : it = s.items[i] := by rw [List.getElem?_eq_getElem hi] at h; exact (Option.some.inj h).symm
  subst hit'
  exact ⟨_, hget i hi, solvesItem_partOk (hf1 ⟨i, hi⟩)⟩


theorem partOk_of_solves {s : Scope L P Q N} (hw : RefsOk s) {depth : Nat} {imports vars : List Col} {parts : List (RunPart Col Arr)} (h : SolvesItems sem s.items depth imports vars [] parts) :
    ∀ (i : Nat) it, s.items[i]? = some it → ∃ p, parts[i]? = some p ∧ PartOk it p := fun i it hit => by
  obtain ⟨p, h1, h2⟩ := ((solvesItems_iff' hw.items).1 h).2 i it hit; exact ⟨p, h1, solvesItem_partOk h2⟩

/-- A reference of the original has the same value when more items follow. -/
theorem resolve_append {s : Scope L P Q N} {n : Nat} {V W : List (RItem Col Arr)} (hV : V.length = s.items.length) {imports vars : List Col} {r : Ref} (hr : RefOk s.items n r) :
    resolve ((V ++ W)[·]?) imports vars r = resolve (V[·]?) imports vars r := by
  cases r with
  | imp k => rfl
  | var v => rfl
  | loc k => simp only [resolve]; rw [List.getElem?_append_left (by rw [hV]; exact (List.getElem?_eq_some_iff.1 hr.2.choose_spec).1)]
  | childExport k j => simp only [resolve]; rw [List.getElem?_append_left (by rw [hV]; exact (List.getElem?_eq_some_iff.1 hr.2.choose_spec).1)]

theorem refOk_host {items more : List (Item L P Q N)} {i : Nat} {r : Ref} (h : RefOk items i r) : RefOk (items.map (hostItem lift host) ++ more) i r := by
  cases r with
  | imp k => trivial
  | var v => trivial
  | loc k =>
    obtain ⟨h1, n, h2⟩ := h
    have hk := (List.getElem?_eq_some_iff.1 h2).1
    exact ⟨h1, n, by rw [List.getElem?_append_left (by simpa using hk), List.getElem?_map, h2]; rfl⟩
  | childExport k j =>
    obtain ⟨h1, n, h2⟩ := h
    have hk := (List.getElem?_eq_some_iff.1 h2).1
    exact ⟨h1, hostScope lift host n, by rw [List.getElem?_append_left (by simpa using hk), List.getElem?_map, h2]; rfl⟩

/-- The reference to the host form of a site is to an item. -/
theorem refOk_vis {s : Scope L P Q N} (hw : RefsOk s) {a : Addr × Ref} (ha : a ∈ visScope s) : RefOk s.items s.items.length a.2 := by
  rcases visScope_mem.1 ha with ⟨v, hlt, rfl⟩ | ⟨i, it, hit, hm⟩
  · trivial
  · have hi := (List.getElem?_eq_some_iff.1 hit).1
    rcases visItem_mem hm with ⟨n, rfl, h1, ⟨r, rfl, h2⟩ | ⟨-, h2⟩⟩ | ⟨c, b, k, rfl, hb, rfl⟩
    · rw [h2]
      have := hw.items i _ hit r List.mem_cons_self
      cases r with
      | loc k => exact ⟨by have := this.1; omega, this.2⟩
      | childExport k j => exact ⟨by have := this.1; omega, this.2⟩
      | _ => trivial
    · rw [h2]; exact ⟨hi, n, hit⟩
    · exact ⟨hi, c, hit⟩

/-- The items of a scope with hosts refer to earlier items. -/
theorem refsOk_host {s : Scope L P Q N} (hw : RefsOk s) : ∀ i it, (s.items.map (hostItem lift host) ++ (visScope s).map fun a => Item.op (.linear a.2 [lift]))[i]? = some it →
    ∀ r ∈ it.refs, RefOk (s.items.map (hostItem lift host) ++ (visScope s).map fun a => Item.op (.linear a.2 [lift])) i r := by
  intro i it hit r hr
  by_cases hi : i < s.items.length
  · rw [List.getElem?_append_left (by simpa using hi), List.getElem?_map, Option.map_eq_some_iff] at hit
    obtain ⟨x, hx, rfl⟩ := hit
    rw [hostItem_refs] at hr
    exact refOk_host (hw.items i x hx r hr)
  · rw [List.getElem?_append_right (by simp; omega), List.getElem?_map, Option.map_eq_some_iff] at hit
    obtain ⟨x, hx, rfl⟩ := hit
    have hr' : r = x.2 := by simpa [Item.refs, Node.refs] using hr
    subst hr'
    have := refOk_host (lift := lift) (host := host) (more := (visScope s).map fun a => Item.op (.linear a.2 [lift])) (refOk_vis hw (List.mem_of_getElem? hx))
    generalize x.2 = r at this
    cases r with
    | loc k => exact ⟨by have := this.1; omega, this.2⟩
    | childExport k j => exact ⟨by have := this.1; omega, this.2⟩
    | _ => trivial

theorem mapM_mapIdx_some {A B C : Type*} {f : Nat → A → B} {g : B → Option C} {h : A → C} : ∀ {l : List A}, (∀ k a, l[k]? = some a → g (f k a) = some (h a)) → (l.mapIdx f).mapM g = some (l.map h) := by
  intro l
  induction l generalizing f with
  | nil => intro _; rfl
  | cons x l ih =>
    intro hl
    rw [List.mapIdx_cons, List.mapM_cons, hl 0 x rfl, ih fun k a ha => hl (k + 1) a (by simpa using ha)]
    rfl

/-- The values of a scope with hosts. -/
def allValues (sem : Sem L P Q N Col Arr) (lift : L) (s : Scope L P Q N) (depth : Nat) (imports vars : List Col) (parts : List (RunPart Col Arr)) : List (RItem Col Arr) :=
  hostValues sem lift depth s.items parts ++ (visScope s).map fun a => .op (.coll (lifted sem lift s depth imports vars parts a))

theorem scope_sem_of_items {s : Scope L P Q N} (hw : ScopeWF s) (hc : ScopeClosed s)
    (hitem : ∀ it ∈ s.items, ∀ depth res v, ItemSem sem (hostItem lift host it) depth res v ↔ ∃ p, SolvesItem sem it depth res p ∧ v = hostValue sem lift depth it p)
    {depth : Nat} {imports outs' : List Col} : ScopeSem sem (hostScope lift host s) depth imports outs' ↔
      ∃ vars parts outs, Solves sem s depth imports vars parts outs ∧ outs' = outs ++ (visScope s).map (lifted sem lift s depth imports vars parts) := by
  have hw' := scopeWF_iff.1 hw
  have hc' := scopeClosed_iff.1 hc
  -- what holds for all values of the clone
  have common : ∀ vars parts, SolvesItems sem s.items depth imports vars [] parts → (hostValues sem lift depth s.items parts).length = s.items.length ∧
      ∀ W n, ∀ r ∈ refsOf s, RefOk s.items n r → resolve ((hostValues sem lift depth s.items parts ++ W)[·]?) imports vars r = resolve ((parts.map (RunPart.value sem depth))[·]?) imports vars r := by
    intro vars parts h
    have hlen : (hostValues sem lift depth s.items parts).length = s.items.length := by
      simp [hostValues, ((solvesItems_iff' hw'.1.items).1 h).1]
    exact ⟨hlen, fun W n r hr hok => by rw [resolve_append hlen hok, resolve_hostValues (partOk_of_solves hw'.1 h) hok (hc'.1 r hr)]⟩
  have hexps : ∀ vars parts outs, Solves sem s depth imports vars parts outs →
      exportsOf sem (resolve ((allValues sem lift s depth imports vars parts)[·]?) imports vars)
        ((visScope s).mapIdx fun k _ => (⟨host (s.exports.length + k), .loc ((s.items.map (hostItem lift host)).length + k)⟩ : Export N)) =
        some ((visScope s).map (lifted sem lift s depth imports vars parts)) := by
    intro vars parts outs h
    have hlen := (common vars parts (solves_iff.1 h).2.1).1
    refine mapM_mapIdx_some fun k a hk => ?_
    have hget : (allValues sem lift s depth imports vars parts)[s.items.length + k]? = some (.op (.coll (lifted sem lift s depth imports vars parts a))) := by
      rw [allValues, List.getElem?_append_right (by omega), hlen]
      simp [hk]
    simp only [List.length_map, resolve, hget, Option.bind_some, Option.map_some, Rendered.collection]
  rw [hostScope_eq, scopeSem_unfold]
  simp only [withHosts]
  constructor
  · rintro ⟨vars, vals, g1, g2, g3, g4⟩
    rw [itemsSem_iff' (refsOk_host hw'.1)] at g2
    obtain ⟨glen, g2⟩ := g2
    simp only [List.length_append, List.length_map] at glen
    have hsplit : vals.take s.items.length ++ vals.drop s.items.length = vals := List.take_append_drop _ _
    have hV : (vals.take s.items.length).length = s.items.length := by simp; omega
    obtain ⟨parts, hVe, hparts⟩ := parts_of_values (V := vals.take s.items.length) (res := resolve (vals[·]?) imports vars) hw'.1 hc'.1 hV
      (fun n r hr hok => by conv_lhs => rw [← hsplit]
                            exact resolve_append hV hok) hitem
      (fun i it hit => by
        have hi := (List.getElem?_eq_some_iff.1 hit).1
        obtain ⟨v, e1, e2⟩ := g2 i (hostItem lift host it) (by rw [List.getElem?_append_left (by simpa using hi), List.getElem?_map, hit]; rfl)
        exact ⟨v, by rw [List.getElem?_take, if_pos hi]; exact e1, e2⟩)
    obtain ⟨hl, hR⟩ := common vars parts hparts
    have hR' : ∀ n, ∀ r ∈ refsOf s, RefOk s.items n r → resolve (vals[·]?) imports vars r = resolve ((parts.map (RunPart.value sem depth))[·]?) imports vars r := by
      intro n r hr hok
      rw [← hR (vals.drop s.items.length) n r hr hok, ← hVe, hsplit]
    rw [exportsOf, mapM_append'] at g4
    cases ho : exportsOf sem (resolve (vals[·]?) imports vars) s.exports with
    | none => rw [exportsOf] at ho; rw [ho] at g4; cases g4
    | some outs =>
      have hsol : Solves sem s depth imports vars parts outs := solves_iff.2 ⟨g1, hparts, (varsOk_congr fun b hb => hR' _ _ (mem_refsOf_bind hb) (hw'.1.binds b hb)).1 g3, by
        rw [← ho]; exact (exportsOf_congr fun b hb => hR' _ _ (mem_refsOf_export hb) (hw'.1.exports b hb)).symm⟩
      have hall : vals = allValues sem lift s depth imports vars parts := by
        rw [allValues, ← hVe]
        conv_lhs => rw [← hsplit]
        congr 1
        apply List.ext_getElem?
        intro k
        rw [List.getElem?_drop, List.getElem?_map]
        cases hk : (visScope s)[k]? with
        | none => rw [List.getElem?_eq_none (by have := List.getElem?_eq_none_iff.1 hk; omega)]; rfl
        | some a =>
          obtain ⟨v, e1, e2⟩ := g2 (s.items.length + k) (.op (.linear a.2 [lift])) (by rw [List.getElem?_append_right (by simp)]; simp [hk])
          rw [e1]
          simp only [ItemSem, renderNode, Option.map_eq_some_iff] at e2
          obtain ⟨r, ⟨x, e3, rfl⟩, rfl⟩ := e2
          obtain ⟨y, e4, e5⟩ := vis_resolve (lift := lift) _ hw hc hsol (List.mem_of_getElem? hk) rfl
          rw [← hVe] at e4
          have e3' : resolve (vals[·]?) imports vars a.2 = some y := by
            conv_lhs => rw [← hsplit]
            rw [resolve_append hV (refOk_vis hw'.1 (List.mem_of_getElem? hk))]; exact e4
          rw [e3'] at e3
          cases e3
          simp only [Option.map_some, lifted, e5, Option.getD_some]
      have h2 := hexps vars parts outs hsol
      rw [← hall] at h2
      rw [exportsOf] at ho h2
      rw [ho, h2] at g4
      exact ⟨vars, parts, outs, hsol, (Option.some.inj g4).symm⟩
  · rintro ⟨vars, parts, outs, hsol, rfl⟩
    obtain ⟨g1, g2, g3, g4⟩ := solves_iff.1 hsol
    obtain ⟨hl, hR⟩ := common vars parts g2
    refine ⟨vars, allValues sem lift s depth imports vars parts, g1, (itemsSem_iff' (refsOk_host hw'.1)).2 ⟨by simp [allValues, hl], ?_⟩, ?_, ?_⟩
    · intro i it hit
      by_cases hi : i < s.items.length
      · rw [List.getElem?_append_left (by simpa using hi), List.getElem?_map, Option.map_eq_some_iff] at hit
        obtain ⟨x, hx, rfl⟩ := hit
        obtain ⟨p, hp, hsp⟩ := ((solvesItems_iff' hw'.1.items).1 g2).2 i x hx
        refine ⟨hostValue sem lift depth x p, by rw [allValues, List.getElem?_append_left (by omega)]; exact hostValues_get hx hp, ?_⟩
        refine (hitem x (List.mem_of_getElem? hx) _ _ _).2 ⟨p, (solvesItem_congr fun r hr => ?_).1 hsp, rfl⟩
        exact (hR _ i r (mem_refsOf_item hx hr) (hw'.1.items i x hx r hr)).symm
      · rw [List.getElem?_append_right (by simp; omega), List.getElem?_map, Option.map_eq_some_iff] at hit
        obtain ⟨a, ha, rfl⟩ := hit
        simp only [List.length_map] at ha
        obtain ⟨y, e4, e5⟩ := vis_resolve (lift := lift) _ hw hc hsol (List.mem_of_getElem? ha) rfl
        refine ⟨.op (.coll (lifted sem lift s depth imports vars parts a)), by rw [allValues, List.getElem?_append_right (by omega), hl, List.getElem?_map, ha]; rfl, ?_⟩
        simp only [ItemSem, renderNode]
        rw [allValues, resolve_append hl (refOk_vis hw'.1 (List.mem_of_getElem? ha)), e4]
        exact ⟨_, rfl, by simp only [lifted, e5, Option.getD_some]⟩
    · exact (varsOk_congr fun b hb => hR _ _ _ (mem_refsOf_bind hb) (hw'.1.binds b hb)).2 g3
    · rw [exportsOf, mapM_append']
      have h1 : exportsOf sem (resolve ((allValues sem lift s depth imports vars parts)[·]?) imports vars) s.exports = some outs := by
        rw [← g4]; exact exportsOf_congr fun b hb => hR _ _ _ (mem_refsOf_export hb) (hw'.1.exports b hb)
      have h2 := hexps vars parts outs hsol
      rw [exportsOf] at h1 h2
      rw [h1, h2]
      rfl

mutual
theorem hostItem_sem : ∀ it : Item L P Q N, ItemWF it → ItemClosed it → ∀ depth res v, ItemSem sem (hostItem lift host it) depth res v ↔ ∃ p, SolvesItem sem it depth res p ∧ v = hostValue sem lift depth it p
  | .op n, _, _, depth, res, v => by
    simp only [hostItem, ItemSem, SolvesItem]
    constructor
    · rintro ⟨r, h, rfl⟩; exact ⟨.op r, ⟨r, h, rfl⟩, rfl⟩
    · rintro ⟨p, ⟨r, h, rfl⟩, rfl⟩; exact ⟨r, h, rfl⟩
  | .sub c, hw, hc, depth, res, v => by
    rw [ItemWF] at hw
    rw [ItemClosed] at hc
    have himp : (hostScope lift host c).imports = c.imports := by rw [hostScope_eq]; rfl
    simp only [hostItem, ItemSem, SolvesItem, himp, hostScope_sem c hw hc.2]
    constructor
    · rintro ⟨entering, outs', h1, ⟨vars, parts, outs, h2, rfl⟩, rfl⟩
      exact ⟨_, ⟨entering, vars, parts, outs, h1, h2, rfl⟩, rfl⟩
    · rintro ⟨p, ⟨entering, vars, parts, outs, h1, h2, rfl⟩, rfl⟩
      exact ⟨entering, _, h1, ⟨vars, parts, outs, h2, rfl⟩, rfl⟩
theorem hostItems_sem : ∀ items : List (Item L P Q N), ItemsWF items → ItemsClosed items →
    ∀ it ∈ items, ∀ depth res v, ItemSem sem (hostItem lift host it) depth res v ↔ ∃ p, SolvesItem sem it depth res p ∧ v = hostValue sem lift depth it p
  | [], _, _, it, hit => by cases hit
  | x :: xs, hw, hc, it, hit => by
    rw [ItemsWF] at hw
    rw [ItemsClosed] at hc
    rcases List.mem_cons.1 hit with h | h
    · rw [h]; exact hostItem_sem x hw.1 hc.1
    · exact hostItems_sem xs hw.2 hc.2 it h
theorem hostScope_sem : ∀ s : ScopeOf N (Item L P Q N), ScopeWF s → ScopeClosed s → ∀ depth imports outs', ScopeSem sem (hostScope lift host s) depth imports outs' ↔
    ∃ vars parts outs, Solves sem s depth imports vars parts outs ∧ outs' = outs ++ (visScope s).map (lifted sem lift s depth imports vars parts)
  | ⟨name, imps, names, items, binds, exports⟩, hw, hc, depth, imports, outs' => by
    have hitem := hostItems_sem items (by rw [ScopeWF] at hw; exact hw.2) (by rw [ScopeClosed] at hc; exact hc.2.2)
    exact scope_sem_of_items hw hc hitem
end

end DD.Ir
