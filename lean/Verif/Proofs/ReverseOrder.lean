import Verif.Proofs.Reverse

/-!
# In the walk, all that use a collection come before it
-/

namespace DD.Ir.Ex
variable {N : Type*} {root : XScope N}

/-- The target whose contributions a step takes. -/
def Step.takes : Step N → Option Addr
  | .bind _ _ => none
  | .op path i _ => some ⟨path, .op i⟩
  | .close path v => some ⟨path, .var v⟩

/-- The references of a step, and the scope they are in. -/
def Step.refs : Step N → List (List Nat × Ref)
  | .bind path b => [(path, b.value)]
  | .op path _ node => node.refs.map fun r => (path, r)
  | .close _ _ => []

theorem stepsItems_append : ∀ (a b : List (Item (LinearOp Term) Projection Reducer N)) (path : List Nat) (i : Nat), stepsItems (a ++ b) path i = stepsItems b path (i + a.length) ++ stepsItems a path i
  | [], b, path, i => by simp [stepsItems]
  | it :: a, b, path, i => by
    simp only [List.cons_append, stepsItems, stepsItems_append a b, List.append_assoc, List.length_cons]
    rw [show i + 1 + a.length = i + (a.length + 1) by omega]

theorem stepsItems_split {items : List (Item (LinearOp Term) Projection Reducer N)} {i : Nat} {it : Item (LinearOp Term) Projection Reducer N} (h : items[i]? = some it) (path : List Nat) :
    stepsItems items path 0 = stepsItems (items.drop (i + 1)) path (i + 1) ++ stepsItem it path i ++ stepsItems (items.take i) path 0 := by
  obtain ⟨hi, rfl⟩ := List.getElem?_eq_some_iff.1 h
  conv_lhs => rw [← List.take_append_drop i items, List.drop_eq_getElem_cons hi]
  rw [stepsItems_append, stepsItems]
  simp [List.length_take, Nat.min_eq_left hi.le]

theorem stepsScope_eq (s : XScope N) (path : List Nat) :
    stepsScope s path = s.binds.map (.bind path) ++ stepsItems s.items path 0 ++ (List.range s.vars.length).map (.close path) := by
  obtain ⟨a, b, c, d, e, f⟩ := s
  simp only [stepsScope]

/-- What comes after item `i` of a scope, if `rest` comes after the scope. -/
def stepsBelow (s : XScope N) (path : List Nat) (i : Nat) (rest : List (Step N)) : List (Step N) := stepsItems (s.items.take i) path 0 ++ ((List.range s.vars.length).map (.close path) ++ rest)

/-- The scope is at the path, and the steps come after it. -/
inductive Located (root : XScope N) : List Nat → XScope N → List (Step N) → Prop
  | root : Located root [] root []
  | child {path s rest c child} : Located root path s rest → s.items[c]? = some (.sub child) → Located root (path ++ [c]) child (stepsBelow s path c rest)

theorem Located.scopeAt {path : List Nat} {s : XScope N} {rest : List (Step N)} (h : Located root path s rest) : scopeAt root path = some s := by
  induction h with
  | root => rfl
  | child _ hc ih => exact scopeAt_snoc.2 ⟨_, ih, hc⟩

theorem Located.parent {path : List Nat} {c : Nat} {k : XScope N} {rest : List (Step N)} (h : Located root (path ++ [c]) k rest) :
    ∃ s rest', Located root path s rest' ∧ s.items[c]? = some (.sub k) ∧ rest = stepsBelow s path c rest' := by
  generalize hp : path ++ [c] = p at h
  cases h with
  | root => simp at hp
  | child h hc =>
    obtain ⟨rfl, e⟩ := List.append_inj' hp rfl
    cases e
    exact ⟨_, _, h, hc, rfl⟩

theorem stepsBelow_mono {s : XScope N} {path : List Nat} {i j : Nat} {rest : List (Step N)} (h : i ≤ j) : stepsBelow s path i rest <:+ stepsBelow s path j rest := by
  unfold stepsBelow
  have e : s.items.take j = s.items.take i ++ (s.items.take j).drop i := by
    conv_lhs => rw [← List.take_append_drop i (s.items.take j), List.take_take, Nat.min_eq_left h]
  rw [e, stepsItems_append, List.append_assoc]
  exact List.suffix_append _ _

theorem stepsBelow_rest {s : XScope N} {path : List Nat} {i : Nat} {rest : List (Step N)} : rest <:+ stepsBelow s path i rest :=
  ⟨stepsItems (s.items.take i) path 0 ++ (List.range s.vars.length).map (.close path), by simp [stepsBelow]⟩

theorem stepsBelow_item {s : XScope N} {path : List Nat} {i j : Nat} {it : Item (LinearOp Term) Projection Reducer N} {rest : List (Step N)} (hi : s.items[i]? = some it) (h : i < j) :
    stepsItem it path i ++ stepsBelow s path i rest <:+ stepsBelow s path j rest := by
  have h1 : stepsBelow s path (i + 1) rest = stepsItem it path i ++ stepsBelow s path i rest := by
    obtain ⟨hlt, rfl⟩ := List.getElem?_eq_some_iff.1 hi
    unfold stepsBelow
    rw [List.take_succ_eq_append_getElem hlt, stepsItems_append]
    simp [stepsItems, List.length_take, Nat.min_eq_left hlt.le]
  rw [← h1]
  exact stepsBelow_mono h

/-- The targets that steps take, and the sources. -/
def Later (steps : List (Step N)) : Target → Prop
  | .site a => ∃ x ∈ steps, x.takes = some a
  | .source _ => True

theorem Later.mono {a b : List (Step N)} (h : ∀ x ∈ a, x ∈ b) {t : Target} (ht : Later a t) : Later b t := by
  cases t with
  | site a => obtain ⟨x, h1, h2⟩ := ht; exact ⟨x, h x h1, h2⟩
  | source k => trivial

theorem names_later (hw : ScopeWF root) (hc : ScopeClosed root) {path : List Nat} {r : Ref} {t : Target} (h : Names root path r t) :
    ∀ {s : XScope N} {rest : List (Step N)} {i : Nat}, Located root path s rest → RefOk s.items i r → RefIn s r → Later (stepsBelow s path i rest) t := by
  induction h with
  | loc path j =>
    intro s rest i hl ho _
    obtain ⟨h1, n, h2⟩ := ho
    exact ⟨.op path j n, (stepsBelow_item h2 h1).subset (by simp [stepsItem]), rfl⟩
  | var path v =>
    intro s rest i hl _ hin
    exact ⟨.close path v, by
      have : v < s.vars.length := hin
      simp only [stepsBelow, List.mem_append, List.mem_map, List.mem_range]
      exact .inr (.inl ⟨v, this, rfl⟩), rfl⟩
  | source k => intros; trivial
  | imp path c k s' name r t h1 h2 h3 ih =>
    intro s rest i hl _ _
    obtain ⟨p, rest', hl', hc', rfl⟩ := hl.parent
    rw [hl.scopeAt] at h1
    cases h1
    have hr : r ∈ (Item.sub s' : Item (LinearOp Term) Projection Reducer N).refs := by
      simp only [Item.refs, List.mem_flatMap]
      exact ⟨_, List.mem_of_getElem? h2, List.mem_singleton.2 rfl⟩
    exact (ih hl' ((scopeWF_iff.1 (scopeAt_wf hw hl'.scopeAt)).1.items _ _ hc' _ hr) ((scopeClosed_iff.1 (scopeAt_closed hc hl'.scopeAt)).1 _ (mem_refsOf_item hc' hr))).mono fun x hx => stepsBelow_rest.subset hx
  | childExport path c j s' name r t h1 h2 h3 ih =>
    intro s rest i hl ho hin
    obtain ⟨hlt, k, hk⟩ := ho
    have hl' := hl.child hk
    rw [hl'.scopeAt] at h1
    cases h1
    have he := List.mem_of_getElem? h2
    have := ih hl' ((scopeWF_iff.1 (scopeAt_wf hw hl'.scopeAt)).1.exports _ he) ((scopeClosed_iff.1 (scopeAt_closed hc hl'.scopeAt)).1 _ (mem_refsOf_export he))
    refine this.mono fun x hx => (stepsBelow_item hk hlt).subset ?_
    simp only [stepsBelow, List.take_length, stepsItem, stepsScope_eq, List.mem_append] at hx ⊢
    tauto

/-- In the steps, followed by `rest`, all that use a collection come before it. -/
def OrderedBy (root : XScope N) (steps rest : List (Step N)) : Prop :=
  ∀ pre x post, steps = pre ++ x :: post → ∀ p ∈ x.refs, ∀ t, Names root p.1 p.2 t → Later (post ++ rest) t

theorem OrderedBy.append {a b rest : List (Step N)} (ha : OrderedBy root a (b ++ rest)) (hb : OrderedBy root b rest) : OrderedBy root (a ++ b) rest := by
  intro pre x post h p hp t ht
  rcases List.append_eq_append_iff.1 h with ⟨c, h1, h2⟩ | ⟨c, h1, h2⟩
  · exact hb c x post h2 p hp t ht
  · cases c with
    | nil => exact hb [] x post h2.symm p hp t ht
    | cons y c =>
      rw [List.cons_append] at h2
      cases h2
      rw [List.append_assoc]
      exact ha pre x c h1 p hp t ht

theorem OrderedBy.of_all {a rest : List (Step N)} (h : ∀ x ∈ a, ∀ p ∈ x.refs, ∀ t, Names root p.1 p.2 t → Later rest t) : OrderedBy root a rest := by
  intro pre x post e p hp t ht
  exact (h x (by rw [e]; simp) p hp t ht).mono fun y hy => List.mem_append_right _ hy

mutual
theorem stepsItem_ordered (hw : ScopeWF root) (hc : ScopeClosed root) {s : XScope N} {path : List Nat} {rest : List (Step N)} (hl : Located root path s rest) :
    ∀ (it : Item (LinearOp Term) Projection Reducer N) (i : Nat), s.items[i]? = some it → OrderedBy root (stepsItem it path i) (stepsBelow s path i rest)
  | .op node, i, hi => by
    refine OrderedBy.of_all fun x hx p hp t ht => ?_
    simp only [stepsItem, List.mem_singleton] at hx
    subst hx
    simp only [Step.refs, List.mem_map] at hp
    obtain ⟨r, hr, rfl⟩ := hp
    exact names_later hw hc ht hl ((scopeWF_iff.1 (scopeAt_wf hw hl.scopeAt)).1.items _ _ hi _ hr) ((scopeClosed_iff.1 (scopeAt_closed hc hl.scopeAt)).1 _ (mem_refsOf_item hi hr))
  | .sub child, i, hi => by
    simp only [stepsItem]
    exact stepsScope_ordered hw hc child (hl.child hi)
theorem stepsItems_ordered (hw : ScopeWF root) (hc : ScopeClosed root) {s : XScope N} {path : List Nat} {rest : List (Step N)} (hl : Located root path s rest) :
    ∀ (its : List (Item (LinearOp Term) Projection Reducer N)) (i : Nat), (∀ (j : Nat) it, its[j]? = some it → s.items[i + j]? = some it) → OrderedBy root (stepsItems its path i) (stepsBelow s path i rest)
  | [], i, hi => by
    intro pre x post h
    simp [stepsItems] at h
  | it :: its, i, hi => by
    have h0 : s.items[i]? = some it := hi 0 it rfl
    have h1 := stepsItem_ordered hw hc hl it i h0
    have h2 := stepsItems_ordered hw hc hl its (i + 1) (fun j it' hj => by rw [← hi (j + 1) it' hj]; congr 1; omega)
    simp only [stepsItems]
    refine OrderedBy.append ?_ h1
    have e : stepsBelow s path (i + 1) rest = stepsItem it path i ++ stepsBelow s path i rest := by
      obtain ⟨hlt, rfl⟩ := List.getElem?_eq_some_iff.1 h0
      unfold stepsBelow
      rw [List.take_succ_eq_append_getElem hlt, stepsItems_append]
      simp [stepsItems, List.length_take, Nat.min_eq_left hlt.le]
    rwa [e] at h2
theorem stepsScope_ordered (hw : ScopeWF root) (hc : ScopeClosed root) : ∀ (s : ScopeOf N (Item (LinearOp Term) Projection Reducer N)) {path : List Nat} {rest : List (Step N)},
    Located root path s rest → OrderedBy root (stepsScope s path) rest
  | ⟨name, imports, vars, items, binds, exports⟩, path, rest, hl => by
    have h1 := stepsItems_ordered hw hc hl items 0 (fun j it hj => by simpa using hj)
    have hb : ∀ x ∈ binds.map (Step.bind (N := N) path), ∀ p ∈ x.refs, ∀ t, Names root p.1 p.2 t →
        Later (stepsBelow (⟨name, imports, vars, items, binds, exports⟩ : XScope N) path items.length rest) t := by
      intro x hx p hp t ht
      obtain ⟨b, hb, rfl⟩ := List.mem_map.1 hx
      simp only [Step.refs, List.mem_singleton] at hp
      subst hp
      exact names_later hw hc ht hl ((scopeWF_iff.1 (scopeAt_wf hw hl.scopeAt)).1.binds _ hb) ((scopeClosed_iff.1 (scopeAt_closed hc hl.scopeAt)).1 _ (mem_refsOf_bind hb))
    simp only [stepsScope]
    rw [List.append_assoc]
    refine OrderedBy.append (OrderedBy.of_all ?_) (OrderedBy.append ?_ (OrderedBy.of_all ?_))
    · simpa [stepsBelow] using hb
    · simpa [stepsBelow, stepsItems] using h1
    · intro x hx p hp
      obtain ⟨v, -, rfl⟩ := List.mem_map.1 hx
      simp [Step.refs] at hp
end

/-! ### Which steps there are -/

/-- The step is one of the scope at `path`. -/
def StepOf (s : XScope N) (path : List Nat) (x : Step N) : Prop :=
  (∃ b ∈ s.binds, x = .bind path b) ∨ (∃ i node, s.items[i]? = some (.op node) ∧ x = .op path i node) ∨ ∃ v < s.vars.length, x = .close path v

mutual
theorem mem_stepsItem : ∀ (it : Item (LinearOp Term) Projection Reducer N) (path : List Nat) (i : Nat) (x : Step N),
    x ∈ stepsItem it path i ↔ (∃ node, it = .op node ∧ x = .op path i node) ∨ ∃ c, it = .sub c ∧ ∃ q s, scopeAt c q = some s ∧ StepOf s (path ++ [i] ++ q) x
  | .op node, path, i, x => by simp [stepsItem]
  | .sub child, path, i, x => by
    simp only [stepsItem, mem_stepsScope child]
    simp
theorem mem_stepsItems : ∀ (its : List (Item (LinearOp Term) Projection Reducer N)) (path : List Nat) (i : Nat) (x : Step N),
    x ∈ stepsItems its path i ↔ ∃ (j : Nat) (it : Item (LinearOp Term) Projection Reducer N), its[j]? = some it ∧
      ((∃ node, it = .op node ∧ x = .op path (i + j) node) ∨ ∃ c, it = .sub c ∧ ∃ q s, scopeAt c q = some s ∧ StepOf s (path ++ [i + j] ++ q) x)
  | [], path, i, x => by simp [stepsItems]
  | it :: its, path, i, x => by
    simp only [stepsItems, List.mem_append, mem_stepsItems its, mem_stepsItem it]
    constructor
    · rintro (⟨j, it', h1, h2⟩ | h)
      · exact ⟨j + 1, it', h1, by rwa [show i + (j + 1) = i + 1 + j by omega]⟩
      · exact ⟨0, it, rfl, h⟩
    · rintro ⟨j, it', h1, h2⟩
      cases j with
      | zero => cases h1; exact .inr h2
      | succ j => exact .inl ⟨j, it', h1, by rwa [show i + (j + 1) = i + 1 + j by omega] at h2⟩
theorem mem_stepsScope : ∀ (s : ScopeOf N (Item (LinearOp Term) Projection Reducer N)) (path : List Nat) (x : Step N),
    x ∈ stepsScope s path ↔ ∃ q s', scopeAt s q = some s' ∧ StepOf s' (path ++ q) x
  | ⟨name, imports, vars, items, binds, exports⟩, path, x => by
    simp only [stepsScope, List.mem_append, List.mem_map, List.mem_range, mem_stepsItems items, Nat.zero_add]
    constructor
    · rintro ((⟨b, hb, rfl⟩ | ⟨j, it, h1, ⟨node, rfl, rfl⟩ | ⟨c, rfl, q, s', h2, h3⟩⟩) | ⟨v, hv, rfl⟩)
      · exact ⟨[], _, rfl, .inl ⟨b, hb, by simp⟩⟩
      · exact ⟨[], _, rfl, .inr (.inl ⟨j, node, h1, by simp⟩)⟩
      · exact ⟨j :: q, s', by simp only [scopeAt, h1, h2], by simpa using h3⟩
      · exact ⟨[], _, rfl, .inr (.inr ⟨v, hv, by simp⟩)⟩
    · rintro ⟨q, s', h1, h2⟩
      cases q with
      | nil =>
        cases h1
        rw [List.append_nil] at h2
        rcases h2 with ⟨b, hb, rfl⟩ | ⟨i, node, hi, rfl⟩ | ⟨v, hv, rfl⟩
        · exact .inl (.inl ⟨b, hb, rfl⟩)
        · exact .inl (.inr ⟨i, _, hi, .inl ⟨node, rfl, rfl⟩⟩)
        · exact .inr ⟨v, hv, rfl⟩
      | cons j q =>
        simp only [scopeAt] at h1
        cases hj : items[j]? with
        | none => rw [hj] at h1; cases h1
        | some it =>
          rw [hj] at h1
          cases it with
          | op n => cases h1
          | sub c => exact .inl (.inr ⟨j, _, hj, .inr ⟨c, rfl, q, s', h1, by simpa using h2⟩⟩)
end

theorem mem_steps {x : Step N} : x ∈ stepsScope root [] ↔ ∃ path s, scopeAt root path = some s ∧ StepOf s path x := by
  simp only [mem_stepsScope, List.nil_append]

theorem StepOf.takes_path {s : XScope N} {path : List Nat} {x : Step N} (h : StepOf s path x) {a : Addr} (ha : x.takes = some a) : a.path = path := by
  rcases h with ⟨b, hb, rfl⟩ | ⟨i, node, hi, rfl⟩ | ⟨v, hv, rfl⟩ <;> cases ha <;> rfl

/-- No two steps take the same. -/
def TakesOnce (steps : List (Step N)) : Prop := (steps.filterMap Step.takes).Nodup

theorem TakesOnce.append {a b : List (Step N)} (ha : TakesOnce a) (hb : TakesOnce b) (h : ∀ x ∈ a, ∀ y ∈ b, ∀ t, x.takes = some t → y.takes ≠ some t) : TakesOnce (a ++ b) := by
  unfold TakesOnce
  rw [List.filterMap_append, List.nodup_append]
  refine ⟨ha, hb, fun t ht u hu e => ?_⟩
  subst e
  obtain ⟨x, hx, h1⟩ := List.mem_filterMap.1 ht
  obtain ⟨y, hy, h2⟩ := List.mem_filterMap.1 hu
  exact h x hx y hy t h1 h2

mutual
theorem stepsItem_once : ∀ (it : Item (LinearOp Term) Projection Reducer N) (path : List Nat) (i : Nat), TakesOnce (stepsItem it path i)
  | .op node, path, i => by simp [stepsItem, TakesOnce, Step.takes]
  | .sub child, path, i => by simp only [stepsItem]; exact stepsScope_once child _
theorem stepsItems_once : ∀ (its : List (Item (LinearOp Term) Projection Reducer N)) (path : List Nat) (i : Nat), TakesOnce (stepsItems its path i)
  | [], path, i => by simp [stepsItems, TakesOnce]
  | it :: its, path, i => by
    simp only [stepsItems]
    refine (stepsItems_once its path (i + 1)).append (stepsItem_once it path i) fun x hx y hy t h1 h2 => ?_
    rw [mem_stepsItems] at hx
    rw [mem_stepsItem] at hy
    obtain ⟨j, it', -, ⟨node, rfl, rfl⟩ | ⟨c, rfl, q, s, -, h3⟩⟩ := hx <;> obtain ⟨node', rfl, rfl⟩ | ⟨c', rfl, q', s', -, h4⟩ := hy
    · cases h1
      simp only [Step.takes, Option.some.injEq, Addr.mk.injEq, Site.op.injEq, true_and] at h2
      omega
    · cases h1
      have := h4.takes_path h2
      simp at this
    · cases h2
      have := h3.takes_path h1
      simp at this
    · have e := (h3.takes_path h1).symm.trans (h4.takes_path h2)
      simp only [List.append_assoc, List.append_cancel_left_eq, List.cons_append, List.nil_append, List.cons.injEq] at e
      omega
theorem stepsScope_once : ∀ (s : ScopeOf N (Item (LinearOp Term) Projection Reducer N)) (path : List Nat), TakesOnce (stepsScope s path)
  | ⟨name, imports, vars, items, binds, exports⟩, path => by
    simp only [stepsScope]
    refine TakesOnce.append (TakesOnce.append ?_ (stepsItems_once items path 0) ?_) ?_ ?_
    · have : (binds.map (Step.bind (N := N) path)).filterMap Step.takes = [] := by rw [List.filterMap_map]; simp [Function.comp_def, Step.takes]
      rw [TakesOnce, this]; exact List.nodup_nil
    · intro x hx y hy t h1
      obtain ⟨b, -, rfl⟩ := List.mem_map.1 hx
      cases h1
    · have : ((List.range vars.length).map (Step.close (N := N) path)).filterMap Step.takes = (List.range vars.length).map fun v => ⟨path, .var v⟩ := by
        rw [List.filterMap_map]; simp [Function.comp_def, Step.takes]
      rw [TakesOnce, this, List.Nodup, List.pairwise_map]
      exact List.nodup_range.imp fun h e => h (by cases e; rfl)
    · intro x hx y hy t h1 h2
      obtain ⟨v, -, rfl⟩ := List.mem_map.1 hy
      cases h2
      rcases List.mem_append.1 hx with hx | hx
      · obtain ⟨b, -, rfl⟩ := List.mem_map.1 hx
        cases h1
      · rw [mem_stepsItems] at hx
        obtain ⟨j, it', -, ⟨node, rfl, rfl⟩ | ⟨c, rfl, q, s, -, h3⟩⟩ := hx
        · cases h1
        · have := h3.takes_path h1
          simp at this
end

theorem steps_ordered (hw : ScopeWF root) (hc : ScopeClosed root) : OrderedBy root (stepsScope root []) [] := stepsScope_ordered hw hc root .root

end DD.Ir.Ex
