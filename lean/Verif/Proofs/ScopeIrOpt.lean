import Verif.Proofs.ScopeIrPass

/-! # The optimizer of scope trees: compaction, and all of it -/

namespace DD.Ir
set_option linter.unusedSectionVars false
variable {L P Q N : Type*} {Col Arr : Type*} {sem : Sem L P Q N Col Arr} {R : L → L → Prop}

/-- The live items before an item. -/
def pos (dead : List Bool) (i : Nat) : Nat := (dead.take i).count false

/-- The items kept. -/
def kept (items : List (Item L P Q N)) (dead : List Bool) : List (Item L P Q N) := (items.zip dead).filterMap fun p => if p.2 then none else some p.1

theorem remap_get {dead : List Bool} : ∀ {i n : Nat}, dead[i]? = some false → (remap dead n)[i]? = some (some (n + pos dead i)) := by
  induction dead with
  | nil => intro i n h; cases h
  | cons d dead ih =>
    intro i n h
    cases i with
    | zero => cases h; rfl
    | succ i =>
      have h' : dead[i]? = some false := by simpa using h
      cases d with
      | true => simpa [remap, pos] using ih (n := n) h'
      | false =>
        have := ih (n := n + 1) h'
        simp only [remap, List.getElem?_cons_succ, this, pos, List.take_succ_cons, List.count_cons]
        simp only [beq_self_eq_true, if_true]
        congr 2; omega

theorem kept_get : ∀ {items : List (Item L P Q N)} {dead : List Bool} {p : Nat} {it : Item L P Q N},
    (kept items dead)[p]? = some it ↔ ∃ i : Nat, items[i]? = some it ∧ dead[i]? = some false ∧ pos dead i = p := by
  intro items
  induction items with
  | nil => intro dead p it; simp [kept]
  | cons it0 items ih =>
    intro dead p it
    cases dead with
    | nil => simp [kept]
    | cons d dead =>
      cases d with
      | true =>
        have e : kept (it0 :: items) (true :: dead) = kept items dead := rfl
        rw [e, ih]
        constructor
        · rintro ⟨i, h1, h2, h3⟩
          exact ⟨i + 1, h1, h2, by simpa [pos] using h3⟩
        · rintro ⟨i, h1, h2, h3⟩
          cases i with
          | zero => cases h2
          | succ i => exact ⟨i, h1, h2, by simpa [pos] using h3⟩
      | false =>
        have e : kept (it0 :: items) (false :: dead) = it0 :: kept items dead := rfl
        rw [e]
        cases p with
        | zero =>
          constructor
          · intro h; cases h; exact ⟨0, rfl, rfl, rfl⟩
          · rintro ⟨i, h1, h2, h3⟩
            cases i with
            | zero => exact h1
            | succ i => simp [pos] at h3
        | succ p =>
          rw [List.getElem?_cons_succ, ih]
          constructor
          · rintro ⟨i, h1, h2, h3⟩
            exact ⟨i + 1, h1, h2, by simpa [pos] using h3⟩
          · rintro ⟨i, h1, h2, h3⟩
            cases i with
            | zero => simp [pos] at h3
            | succ i => exact ⟨i, h1, h2, by simpa [pos] using h3⟩

theorem pos_lt {dead : List Bool} : ∀ {i k : Nat}, i < k → dead[i]? = some false → pos dead i < pos dead k := by
  induction dead with
  | nil => intro i k _ h; cases h
  | cons d dead ih =>
    intro i k hik h
    cases k with
    | zero => omega
    | succ k =>
      cases i with
      | zero => cases h; simp [pos]
      | succ i =>
        have := ih (i := i) (k := k) (by omega) (by simpa using h)
        simp only [pos, List.take_succ_cons, List.count_cons] at this ⊢
        omega

theorem pos_inj {dead : List Bool} {i k : Nat} (hi : dead[i]? = some false) (hk : dead[k]? = some false) (h : pos dead i = pos dead k) : i = k := by
  rcases lt_trichotomy i k with hlt | he | hlt
  · have := pos_lt hlt hi; omega
  · exact he
  · have := pos_lt hlt hk; omega

theorem kept_length : ∀ {items : List (Item L P Q N)} {dead : List Bool}, dead.length = items.length → (kept items dead).length = pos dead items.length := by
  intro items
  induction items with
  | nil => intro dead h; rfl
  | cons it items ih =>
    intro dead h
    cases dead with
    | nil => cases h
    | cons d dead =>
      have := ih (dead := dead) (by simpa using h)
      cases d with
      | true => simpa [kept, pos] using this
      | false =>
        have e : kept (it :: items) (false :: dead) = it :: kept items dead := rfl
        rw [e, List.length_cons, this]
        simp [pos]

section compact
variable {s : Scope L P Q N} {dead : List Bool}

theorem compact_ok (h : Inv R s dead) : ∃ s', compact s dead = some s' ∧ Inv R s' (List.replicate s'.items.length false) ∧
    (∀ depth imports outs, Outs sem s dead depth imports outs ↔ Outs sem s' (List.replicate s'.items.length false) depth imports outs) ∧
    s'.name = s.name ∧ s'.imports = s.imports ∧ s'.vars = s.vars ∧ s'.binds.map Bind.var = s.binds.map Bind.var ∧ s'.exports.map Export.name = s.exports.map Export.name := by
  have hk : ∀ p it, (kept s.items dead)[p]? = some it ↔ ∃ i : Nat, s.items[i]? = some it ∧ dead[i]? = some false ∧ pos dead i = p := fun p it => kept_get
  have hlen := kept_length h.len
  -- references that are live
  have hf : ∀ k, dead[k]? = some false → Ref.remap (remap dead 0) (.loc k) = .loc (pos dead k) := by
    intro k hk; simp [Ref.remap, remap_get (n := 0) hk]
  have hf2 : ∀ k j, dead[k]? = some false → Ref.remap (remap dead 0) (.childExport k j) = .childExport (pos dead k) j := by
    intro k j hk; simp [Ref.remap, remap_get (n := 0) hk]
  have hcheck : ∀ i ∈ (refsOf { s with items := kept s.items dead }).filterMap Ref.item?, (((remap dead 0)[i]?).join).isSome := by
    intro i hi
    obtain ⟨r, h1, h2⟩ := List.mem_filterMap.1 hi
    have hr : r ∈ liveRefs s dead := by
      rw [mem_liveRefs]
      simp only [refsOf, List.mem_append, List.mem_flatMap, List.mem_map] at h1
      rcases h1 with (⟨it, h3, h4⟩ | h3) | h3
      · obtain ⟨p, hp⟩ := List.mem_iff_getElem?.1 h3
        obtain ⟨j, e1, e2, -⟩ := (hk p it).1 hp
        exact Or.inl ⟨j, it, e1, e2, h4⟩
      · exact Or.inr (Or.inl h3)
      · exact Or.inr (Or.inr h3)
    simp [remap_get (n := 0) (h.live r hr i h2)]
  -- references stay in order
  have href : ∀ i r, RefOk s.items i r → r ∈ liveRefs s dead → ∀ q, (∀ k, k < i → dead[k]? = some false → pos dead k < q) →
      RefOk ((kept s.items dead).map (Item.mapRefs (Ref.remap (remap dead 0)))) q (Ref.remap (remap dead 0) r) := by
    intro i r hr hlive q hq
    rw [refOk_mapRefs]
    cases r with
    | loc k =>
      have hd := h.live _ hlive k rfl
      obtain ⟨h1, n, h2⟩ := hr
      rw [hf k hd]
      exact ⟨hq k h1 hd, n, (hk _ _).2 ⟨k, h2, hd, rfl⟩⟩
    | childExport k j =>
      have hd := h.live _ hlive k rfl
      obtain ⟨h1, n, h2⟩ := hr
      rw [hf2 k j hd]
      exact ⟨hq k h1 hd, n, (hk _ _).2 ⟨k, h2, hd, rfl⟩⟩
    | imp k => trivial
    | var k => trivial
  have hrep : ∀ (n p : Nat), p < n → (List.replicate n false)[p]? = some false := fun n p hp => by rw [List.getElem?_replicate, if_pos hp]
  refine ⟨mapRefs (Ref.remap (remap dead 0)) { s with items := kept s.items dead }, ?_, ?_, ?_, rfl, rfl, rfl, ?_, ?_⟩
  · rw [compact]; exact if_pos hcheck
  · have hitems : ∀ i it, ((kept s.items dead).map (Item.mapRefs (Ref.remap (remap dead 0))))[i]? = some it → ∀ r ∈ it.refs,
        RefOk ((kept s.items dead).map (Item.mapRefs (Ref.remap (remap dead 0)))) i r := by
      intro i it hit r hr
      rw [List.getElem?_map] at hit
      obtain ⟨it0, e1, rfl⟩ := Option.map_eq_some_iff.1 hit
      obtain ⟨k, e2, e3, rfl⟩ := (hk _ _).1 e1
      rw [Item.refs_mapRefs] at hr
      obtain ⟨r0, e4, rfl⟩ := List.mem_map.1 hr
      exact href k r0 (h.refs.items k it0 e2 r0 e4) (mem_liveRefs.2 (Or.inl ⟨k, it0, e2, e3, e4⟩)) _ fun l hl hd => pos_lt hl hd
    have hbinds : ∀ b ∈ (mapRefs (Ref.remap (remap dead 0)) { s with items := kept s.items dead }).binds,
        RefOk ((kept s.items dead).map (Item.mapRefs (Ref.remap (remap dead 0)))) (kept s.items dead).length b.value := by
      intro b hb
      obtain ⟨b0, hb0, rfl⟩ := List.mem_map.1 (show b ∈ s.binds.map _ from hb)
      exact href _ _ (h.refs.binds b0 hb0) (mem_liveRefs.2 (Or.inr (Or.inl ⟨b0, hb0, rfl⟩))) _ fun l hl hd => by rw [hlen]; exact pos_lt hl hd
    have hexports : ∀ b ∈ (mapRefs (Ref.remap (remap dead 0)) { s with items := kept s.items dead }).exports,
        RefOk ((kept s.items dead).map (Item.mapRefs (Ref.remap (remap dead 0)))) (kept s.items dead).length b.value := by
      intro b hb
      obtain ⟨b0, hb0, rfl⟩ := List.mem_map.1 (show b ∈ s.exports.map _ from hb)
      exact href _ _ (h.refs.exports b0 hb0) (mem_liveRefs.2 (Or.inr (Or.inr ⟨b0, hb0, rfl⟩))) _ fun l hl hd => by rw [hlen]; exact pos_lt hl hd
    have hlen' : (mapRefs (Ref.remap (remap dead 0)) { s with items := kept s.items dead }).items.length = (kept s.items dead).length := by simp [mapRefs]
    have hrefs : RefsOk (mapRefs (Ref.remap (remap dead 0)) { s with items := kept s.items dead }) :=
      ⟨hitems, fun b hb => by rw [hlen']; exact hbinds b hb, fun b hb => by rw [hlen']; exact hexports b hb⟩
    have hlt : ∀ r, (∃ q, q ≤ (kept s.items dead).length ∧ RefOk ((kept s.items dead).map (Item.mapRefs (Ref.remap (remap dead 0)))) q r) → ∀ k, r.item? = some k →
        (List.replicate (mapRefs (Ref.remap (remap dead 0)) { s with items := kept s.items dead }).items.length false)[k]? = some false := by
      rintro r ⟨q, hq, hr⟩ k hk'
      apply hrep
      rw [hlen']
      cases r with
      | loc j => cases hk'; have := hr.1; omega
      | childExport j l => cases hk'; have := hr.1; omega
      | imp j => cases hk'
      | var j => cases hk'
    refine ⟨by simp, hrefs, ?_, ?_, ?_⟩
    · intro r hr
      rcases mem_liveRefs.1 hr with ⟨i, it, e1, -, e3⟩ | ⟨b, hb, rfl⟩ | ⟨b, hb, rfl⟩
      · refine hlt r ⟨i, ?_, hitems i it e1 r e3⟩
        have := (List.getElem?_eq_some_iff.1 e1).1
        rw [hlen'] at this; omega
      · exact hlt _ ⟨_, le_rfl, hbinds b hb⟩
      · exact hlt _ ⟨_, le_rfl, hexports b hb⟩
    · -- chains
      have hget : ∀ p it, (mapRefs (Ref.remap (remap dead 0)) { s with items := kept s.items dead }).items[p]? = some it →
          ∃ i it0, s.items[i]? = some it0 ∧ dead[i]? = some false ∧ pos dead i = p ∧ it = it0.mapRefs (Ref.remap (remap dead 0)) := by
        intro p it hp
        simp only [mapRefs, List.getElem?_map] at hp
        obtain ⟨it0, e1, rfl⟩ := Option.map_eq_some_iff.1 hp
        obtain ⟨i, e2, e3, e4⟩ := (hk _ _).1 e1
        exact ⟨i, it0, e2, e3, e4, rfl⟩
      have hstep : ∀ {p q : Nat}, Feeds (mapRefs (Ref.remap (remap dead 0)) { s with items := kept s.items dead }).items p q →
          ∃ i k, Feeds s.items i k ∧ dead[i]? = some false ∧ dead[k]? = some false ∧ pos dead i = p ∧ pos dead k = q := by
        rintro p q ⟨ops, hp⟩
        obtain ⟨k, it0, e1, e2, e3, e4⟩ := hget q _ hp
        cases it0 with
        | sub c => cases e4
        | op n =>
          cases n with
          | linear r o =>
            simp only [Item.mapRefs, Node.mapRefs, Item.op.injEq, Node.linear.injEq] at e4
            obtain ⟨e4, rfl⟩ := e4
            cases r with
            | loc i =>
              have hd : dead[i]? = some false := h.live (.loc i) (mem_liveRefs.2 (Or.inl ⟨k, _, e1, e2, List.mem_cons_self⟩)) i rfl
              rw [hf i hd] at e4
              cases e4
              exact ⟨i, k, ⟨ops, e1⟩, hd, e2, rfl, e3⟩
            | _ => cases e4
          | _ => cases e4
      have hall : ∀ {p q : Nat}, Relation.TransGen (Feeds (mapRefs (Ref.remap (remap dead 0)) { s with items := kept s.items dead }).items) p q →
          ∃ i k, Relation.TransGen (Feeds s.items) i k ∧ dead[i]? = some false ∧ dead[k]? = some false ∧ pos dead i = p ∧ pos dead k = q := by
        intro p q hpq
        induction hpq with
        | single h1 =>
          obtain ⟨i, k, e1, e2, e3, e4, e5⟩ := hstep h1
          exact ⟨i, k, .single e1, e2, e3, e4, e5⟩
        | tail _ h1 ih =>
          obtain ⟨i, k, e1, e2, e3, e4, e5⟩ := ih
          obtain ⟨i', k', f1, f2, f3, f4, f5⟩ := hstep h1
          have := pos_inj e3 f2 (e5.trans f4.symm)
          subst this
          exact ⟨i, k', e1.tail f1, e2, f3, e4, f5⟩
      have hops : ∀ i, dead[i]? = some false → ∀ x ∈ opsAt (mapRefs (Ref.remap (remap dead 0)) { s with items := kept s.items dead }).items (pos dead i), x ∈ opsAt s.items i := by
        intro i hd x hx
        simp only [mapRefs] at hx
        rw [opsAt_mapRefs] at hx
        rw [opsAt] at hx ⊢
        cases hg : (kept s.items dead)[pos dead i]? with
        | none => rw [hg] at hx; cases hx
        | some it =>
          obtain ⟨k, e1, e2, e3⟩ := (hk _ _).1 hg
          have := pos_inj e2 hd e3
          subst this
          rw [hg] at hx
          rw [e1]; exact hx
      intro p q hpq x hx y hy
      obtain ⟨i, k, e1, e2, e3, rfl, rfl⟩ := hall hpq
      exact h.chains i k e1 x (hops i e2 x hx) y (hops k e3 y hy)
    · intro it hit
      obtain ⟨it0, h0, rfl⟩ := List.mem_map.1 (show it ∈ (kept s.items dead).map _ from hit)
      obtain ⟨p, hp⟩ := List.mem_iff_getElem?.1 h0
      obtain ⟨i, e1, -, -⟩ := (hk _ _).1 hp
      exact itemWF_mapRefs (h.children it0 (List.mem_of_getElem? e1))
  · -- solutions
    intro depth imports outs
    have hres : ∀ (vals vals' : Nat → Option (RItem Col Arr)) vars, (∀ i, dead[i]? = some false → vals' (pos dead i) = vals i) →
        ∀ r ∈ liveRefs s dead, (resolve vals' imports vars ∘ Ref.remap (remap dead 0)) r = resolve vals imports vars r := by
      intro vals vals' vars hv r hr
      cases r with
      | loc k =>
        have hd := h.live _ hr k rfl
        rw [Function.comp, hf k hd]
        simp only [resolve, hv k hd]
      | childExport k j =>
        have hd := h.live _ hr k rfl
        rw [Function.comp, hf2 k j hd]
        simp only [resolve, hv k hd]
      | imp k => rfl
      | var k => rfl
    have main : ∀ (vals vals' : Nat → Option (RItem Col Arr)) vars, (∀ i, dead[i]? = some false → vals' (pos dead i) = vals i) →
        ((Sol sem s dead depth imports vars vals ∧ VarsOk sem depth (resolve vals imports vars) s.binds vars ∧ exportsOf sem (resolve vals imports vars) s.exports = some outs) ↔
        (Sol sem (mapRefs (Ref.remap (remap dead 0)) { s with items := kept s.items dead })
          (List.replicate (mapRefs (Ref.remap (remap dead 0)) { s with items := kept s.items dead }).items.length false) depth imports vars vals' ∧
          VarsOk sem depth (resolve vals' imports vars) (mapRefs (Ref.remap (remap dead 0)) { s with items := kept s.items dead }).binds vars ∧
          exportsOf sem (resolve vals' imports vars) (mapRefs (Ref.remap (remap dead 0)) { s with items := kept s.items dead }).exports = some outs)) := by
      intro vals vals' vars hv
      have hr := hres vals vals' vars hv
      refine and_congr ⟨?_, ?_⟩ (and_congr ?_ ?_)
      · intro hs p it hit _
        simp only [mapRefs, List.getElem?_map] at hit
        obtain ⟨it0, e1, rfl⟩ := Option.map_eq_some_iff.1 hit
        obtain ⟨k, e2, e3, rfl⟩ := (hk _ _).1 e1
        obtain ⟨v, e4, e5⟩ := hs k it0 e2 e3
        refine ⟨v, by rw [hv k e3]; exact e4, ?_⟩
        rw [itemSem_map]
        exact (itemSem_congr fun r hm => hr r (mem_liveRefs.2 (Or.inl ⟨k, it0, e2, e3, hm⟩))).2 e5
      · intro hs k it0 e2 e3
        have e1 := (hk (pos dead k) it0).2 ⟨k, e2, e3, rfl⟩
        obtain ⟨v, e4, e5⟩ := hs (pos dead k) (it0.mapRefs (Ref.remap (remap dead 0))) (by simp only [mapRefs, List.getElem?_map, e1, Option.map_some]) (by
          apply hrep
          simp only [mapRefs, List.length_map]
          exact (List.getElem?_eq_some_iff.1 e1).1)
        refine ⟨v, by rw [← hv k e3]; exact e4, ?_⟩
        rw [itemSem_map] at e5
        exact (itemSem_congr fun r hm => hr r (mem_liveRefs.2 (Or.inl ⟨k, it0, e2, e3, hm⟩))).1 e5
      · simp only [mapRefs]
        rw [varsOk_map]
        exact (varsOk_congr fun b hb => (hr _ (mem_liveRefs.2 (Or.inr (Or.inl ⟨b, hb, rfl⟩)))).symm)
      · simp only [mapRefs]
        rw [exportsOf_map]
        rw [exportsOf_congr fun b hb => hr _ (mem_liveRefs.2 (Or.inr (Or.inr ⟨b, hb, rfl⟩)))]
    constructor
    · rintro ⟨vars, vals, g1, g2⟩
      classical
      refine ⟨vars, fun p => if hp : ∃ i, dead[i]? = some false ∧ pos dead i = p then vals hp.choose else none, g1, (main vals _ vars ?_).1 g2⟩
      intro i hd
      have hp : ∃ k, dead[k]? = some false ∧ pos dead k = pos dead i := ⟨i, hd, rfl⟩
      rw [dif_pos hp]
      rw [pos_inj hp.choose_spec.1 hd hp.choose_spec.2]
    · rintro ⟨vars, vals', g1, g2⟩
      exact ⟨vars, fun i => vals' (pos dead i), g1, (main _ vals' vars fun _ _ => rfl).2 g2⟩
  · simp [mapRefs]
  · simp [mapRefs]

end compact

/-! ### The equations, all at once -/

theorem itemsSem_iff {depth : Nat} {imports vars : List Col} : ∀ {items : List (Item L P Q N)} {before l : List (RItem Col Arr)},
    ItemsSem sem items depth imports vars before l ↔ ∃ t, l = before ++ t ∧ t.length = items.length ∧
      ∀ (i : Nat) it, items[i]? = some it → ∃ v, t[i]? = some v ∧ ItemSem sem it depth (resolve (fun k => (before ++ t.take i)[k]?) imports vars) v := by
  intro items
  induction items with
  | nil =>
    intro before l
    simp only [ItemsSem]
    constructor
    · rintro rfl; exact ⟨[], by simp, rfl, fun i it h => by cases h⟩
    · rintro ⟨t, rfl, ht, -⟩; rw [List.length_eq_zero_iff.1 ht, List.append_nil]
  | cons it items ih =>
    intro before l
    simp only [ItemsSem]
    constructor
    · rintro ⟨v, h1, h2⟩
      obtain ⟨t, rfl, h3, h4⟩ := ih.1 h2
      refine ⟨v :: t, by simp, by simp [h3], ?_⟩
      intro i it' hit
      cases i with
      | zero => cases hit; exact ⟨v, rfl, by simpa using h1⟩
      | succ i =>
        obtain ⟨w, h5, h6⟩ := h4 i it' (by simpa using hit)
        exact ⟨w, by simpa using h5, by simpa using h6⟩
    · rintro ⟨t, rfl, h3, h4⟩
      cases t with
      | nil => cases h3
      | cons v t =>
        obtain ⟨w, h5, h6⟩ := h4 0 it rfl
        cases h5
        refine ⟨v, by simpa using h6, ih.2 ⟨t, by simp, by simpa using h3, ?_⟩⟩
        intro i it' hit
        obtain ⟨w, h5, h6⟩ := h4 (i + 1) it' (by simpa using hit)
        exact ⟨w, by simpa using h5, by simpa using h6⟩

theorem resolve_congr {items : List (Item L P Q N)} {i : Nat} {r : Ref} {vals vals' : Nat → Option (RItem Col Arr)} {imports vars : List Col} (hr : RefOk items i r)
    (h : ∀ k, k < i → vals k = vals' k) : resolve vals imports vars r = resolve vals' imports vars r := by
  cases r with
  | loc k => simp only [resolve, h k hr.1]
  | childExport k j => simp only [resolve, h k hr.1]
  | imp k => rfl
  | var k => rfl

theorem scopeSem_iff {s : Scope L P Q N} (h : RefsOk s) {depth : Nat} {imports outs : List Col} :
    ScopeSem sem s depth imports outs ↔ Outs sem s (List.replicate s.items.length false) depth imports outs := by
  have hrep : ∀ (n p : Nat), p < n → (List.replicate n false)[p]? = some false := fun n p hp => by rw [List.getElem?_replicate, if_pos hp]
  have key : ScopeSem sem s depth imports outs ↔ ∃ vars vals, vars.length = s.vars.length ∧ ItemsSem sem s.items depth imports vars [] vals ∧
      VarsOk sem depth (resolve (vals[·]?) imports vars) s.binds vars ∧ exportsOf sem (resolve (vals[·]?) imports vars) s.exports = some outs := by
    obtain ⟨a, b, c, d, e, f⟩ := s
    simp only [ScopeSem]
  rw [key]
  constructor
  · rintro ⟨vars, l, g1, g2, g3, g4⟩
    obtain ⟨t, e0, e1, e2⟩ := itemsSem_iff.1 g2
    rw [List.nil_append] at e0
    subst e0
    refine ⟨vars, fun k => l[k]?, g1, ?_, g3, g4⟩
    intro i it hit _
    obtain ⟨v, e3, e4⟩ := e2 i it hit
    refine ⟨v, e3, (itemSem_congr fun r hr => ?_).1 e4⟩
    refine resolve_congr (h.items i it hit r hr) fun k hk => ?_
    rw [List.nil_append, List.getElem?_take, if_pos hk]
  · rintro ⟨vars, vals, g1, g2, g3, g4⟩
    have hall : ∀ i : Fin s.items.length, ∃ v, vals i = some v := by
      intro i
      obtain ⟨v, hv, -⟩ := g2 i s.items[i] (List.getElem?_eq_getElem i.2) (hrep _ _ i.2)
      exact ⟨v, hv⟩
    choose f hf using hall
    have hl : ∀ k, k < s.items.length → (List.ofFn f)[k]? = vals k := by
      intro k hk
      rw [List.getElem?_ofFn, dif_pos hk]
      exact (hf ⟨k, hk⟩).symm
    refine ⟨vars, List.ofFn f, g1, itemsSem_iff.2 ⟨List.ofFn f, rfl, List.length_ofFn, ?_⟩, ?_, ?_⟩
    · intro i it hit
      have hi := (List.getElem?_eq_some_iff.1 hit).1
      obtain ⟨v, e1, e2⟩ := g2 i it hit (hrep _ _ hi)
      refine ⟨v, by rw [hl i hi]; exact e1, (itemSem_congr fun r hr => ?_).1 e2⟩
      refine resolve_congr (h.items i it hit r hr) fun k hk => ?_
      rw [List.nil_append, List.getElem?_take, if_pos hk, hl k (by omega)]
    · exact (varsOk_congr fun b hb => resolve_congr (h.binds b hb) fun k hk => (hl k hk).symm).1 g3
    · rw [← g4]
      exact exportsOf_congr fun b hb => resolve_congr (h.exports b hb) fun k hk => hl k hk

theorem itemsWF_iff {items : List (Item L P Q N)} : ItemsWF items ↔ ∀ it ∈ items, ItemWF it := by
  induction items with
  | nil => simp [ItemsWF]
  | cons it items ih => simp only [ItemsWF, ih, List.forall_mem_cons]

theorem scopeWF_iff {s : Scope L P Q N} : ScopeWF s ↔ RefsOk s ∧ ∀ it ∈ s.items, ItemWF it := by
  obtain ⟨a, b, c, d, e, f⟩ := s
  simp only [ScopeWF, itemsWF_iff]

/-- What is promised of an optimized scope. -/
structure SameScope (sem : Sem L P Q N Col Arr) (s s' : Scope L P Q N) : Prop where
  wf : ScopeWF s'
  name : s'.name = s.name
  imports : s'.imports = s.imports
  vars : s'.vars = s.vars
  binds : s'.binds.map Bind.var = s.binds.map Bind.var
  exports : s'.exports.map Export.name = s.exports.map Export.name
  equiv : ∀ depth imports outs, ScopeSem sem s depth imports outs ↔ ScopeSem sem s' depth imports outs

/-- What is promised of an optimized item. -/
structure SameItem (sem : Sem L P Q N Col Arr) (it it' : Item L P Q N) : Prop where
  wf : ItemWF it'
  refs : it'.refs = it.refs
  op : ∀ n, it = .op n ↔ it' = .op n
  equiv : ∀ depth res v, ItemSem sem it depth res v ↔ ItemSem sem it' depth res v

variable [DecidableEq L] [DecidableEq P] [DecidableEq Q] [DecidableEq N]

theorem optLocal_ok (hF : sem.Fuses R) {s : Scope L P Q N} (hw : ScopeWF s) (hc : ChainsOk R s.items) : ∃ s', optLocal s = some s' ∧ SameScope sem s s' := by
  obtain ⟨hr, hch⟩ := scopeWF_iff.1 hw
  have hinv : Inv R s (List.replicate s.items.length false) := by
    refine ⟨by simp, hr, ?_, hc, hch⟩
    have : ∀ i r, i ≤ s.items.length → RefOk s.items i r → ∀ k, r.item? = some k → (List.replicate s.items.length false)[k]? = some false := by
      intro i r hi hr k hk
      rw [List.getElem?_replicate, if_pos]
      cases r with
      | loc j => cases hk; have := hr.1; omega
      | childExport j l => cases hk; have := hr.1; omega
      | imp j => cases hk
      | var j => cases hk
    intro r hm
    rcases mem_liveRefs.1 hm with ⟨i, it, e1, -, e3⟩ | ⟨b, hb, rfl⟩ | ⟨b, hb, rfl⟩
    · exact this i r (List.getElem?_eq_some_iff.1 e1).1.le (hr.items i it e1 r e3)
    · exact this _ _ le_rfl (hr.binds b hb)
    · exact this _ _ le_rfl (hr.exports b hb)
  obtain ⟨r, r1, r2⟩ := optLoop_ok hF (s.items.length + 1) hinv (by simp)
  obtain ⟨s', c1, c2, c3, c4, c5, c6, c7, c8⟩ := compact_ok (sem := sem) r2.inv
  refine ⟨s', by rw [optLocal, r1]; exact c1, scopeWF_iff.2 ⟨c2.refs, c2.children⟩, c4.trans r2.name, c5.trans r2.imports, c6.trans r2.vars, c7.trans r2.binds, c8.trans r2.exports, ?_⟩
  intro depth imports outs
  rw [scopeSem_iff hr, scopeSem_iff c2.refs, r2.equiv, c3]

theorem forall₂_get {A B : Type*} {S : A → B → Prop} {l : List A} {l' : List B} (h : List.Forall₂ S l l') : ∀ (i : Nat) (b : B), l'[i]? = some b → ∃ a, l[i]? = some a ∧ S a b := by
  induction h with
  | nil => intro i b h; cases h
  | cons h1 _ ih =>
    intro i b h
    cases i with
    | zero => cases h; exact ⟨_, rfl, h1⟩
    | succ i => exact ih i b (by simpa using h)

theorem forall₂_get' {A B : Type*} {S : A → B → Prop} {l : List A} {l' : List B} (h : List.Forall₂ S l l') : ∀ (i : Nat) (a : A), l[i]? = some a → ∃ b, l'[i]? = some b ∧ S a b := by
  induction h with
  | nil => intro i b h; cases h
  | cons h1 _ ih =>
    intro i b h
    cases i with
    | zero => cases h; exact ⟨_, rfl, h1⟩
    | succ i => exact ih i b (by simpa using h)

theorem itemsSem_same {depth : Nat} {imports vars : List Col} {items items' : List (Item L P Q N)} (h : List.Forall₂ (SameItem sem) items items') :
    ∀ {before l : List (RItem Col Arr)}, ItemsSem sem items depth imports vars before l ↔ ItemsSem sem items' depth imports vars before l := by
  induction h with
  | nil => intro before l; exact Iff.rfl
  | cons h1 _ ih =>
    intro before l
    simp only [ItemsSem]
    exact exists_congr fun v => and_congr (h1.equiv _ _ _) ih

theorem refOk_same {items items' : List (Item L P Q N)} (h : List.Forall₂ (SameItem sem) items items') {i : Nat} {r : Ref} (hr : RefOk items i r) : RefOk items' i r := by
  cases r with
  | loc j =>
    obtain ⟨h1, n, h2⟩ := hr
    obtain ⟨b, h3, h4⟩ := forall₂_get' h j _ h2
    rw [(h4.op n).1 rfl] at h3
    exact ⟨h1, n, h3⟩
  | childExport j k =>
    obtain ⟨h1, c, h2⟩ := hr
    obtain ⟨b, h3, h4⟩ := forall₂_get' h j _ h2
    cases b with
    | op n => cases (h4.op n).2 rfl
    | sub c' => exact ⟨h1, c', h3⟩
  | imp k => trivial
  | var k => trivial

theorem chains_same {items items' : List (Item L P Q N)} (h : List.Forall₂ (SameItem sem) items items') (hc : ChainsOk R items) : ChainsOk R items' := by
  have hf : ∀ {j i : Nat}, Feeds items' j i → Feeds items j i := by
    rintro j i ⟨ops, h1⟩
    obtain ⟨a, h2, h3⟩ := forall₂_get h i _ h1
    rw [(h3.op _).2 rfl] at h2
    exact ⟨ops, h2⟩
  have hops : ∀ i, ∀ x ∈ opsAt items' i, x ∈ opsAt items i := by
    intro i x hx
    rw [opsAt] at hx ⊢
    cases hi : items'[i]? with
    | none => rw [hi] at hx; cases hx
    | some b =>
      obtain ⟨a, h2, h3⟩ := forall₂_get h i _ hi
      rw [hi] at hx
      cases b with
      | sub c => cases hx
      | op n =>
        rw [h2, (h3.op n).2 rfl]; exact hx
  intro j i hji x hx y hy
  exact hc j i (Relation.TransGen.mono (fun _ _ h => hf h) _ _ hji) x (hops j x hx) y (hops i y hy)

mutual
theorem optItem_ok (hF : sem.Fuses R) : ∀ it : Item L P Q N, ItemWF it → ItemChains R it → ∃ it', optItem it = some it' ∧ SameItem sem it it'
  | .op n, _, _ => ⟨.op n, by simp only [optItem], trivial, rfl, fun _ => Iff.rfl, fun _ _ _ => Iff.rfl⟩
  | .sub s, hw, hc => by
    obtain ⟨s', h1, h2⟩ := optScope_ok hF s (by simpa only [ItemWF] using hw) (by simpa only [ItemChains] using hc)
    refine ⟨.sub s', by simp only [optItem, h1, Option.map_some], by simpa only [ItemWF] using h2.wf, ?_, ?_, ?_⟩
    · simp only [Item.refs, h2.imports]
    · intro n; constructor <;> intro h <;> cases h
    · intro depth res v
      simp only [ItemSem, h2.imports, h2.equiv]
theorem optItems_ok (hF : sem.Fuses R) : ∀ items : List (Item L P Q N), ItemsWF items → ItemsChains R items → ∃ items', optItems items = some items' ∧ List.Forall₂ (SameItem sem) items items'
  | [], _, _ => ⟨[], by simp only [optItems], .nil⟩
  | it :: its, hw, hc => by
    simp only [ItemsWF] at hw
    simp only [ItemsChains] at hc
    obtain ⟨it', h1, h2⟩ := optItem_ok hF it hw.1 hc.1
    obtain ⟨its', h3, h4⟩ := optItems_ok hF its hw.2 hc.2
    exact ⟨it' :: its', by simp only [optItems, h1, h3, Option.bind_some, Option.map_some], .cons h2 h4⟩
theorem optScope_ok (hF : sem.Fuses R) : ∀ s : ScopeOf N (Item L P Q N), ScopeWF s → ScopeChains R s → ∃ s', optScope s = some s' ∧ SameScope sem s s'
  | ⟨name, imports, vars, items, binds, exports⟩, hw, hc => by
    simp only [ScopeWF] at hw
    simp only [ScopeChains] at hc
    obtain ⟨items', h1, h2⟩ := optItems_ok hF items hw.2 hc.2
    have hlen : items'.length = items.length := h2.length_eq.symm
    have hw' : ScopeWF (⟨name, imports, vars, items', binds, exports⟩ : Scope L P Q N) := by
      refine scopeWF_iff.2 ⟨⟨?_, ?_, ?_⟩, ?_⟩
      · intro i it hit r hr
        obtain ⟨a, e1, e2⟩ := forall₂_get h2 i it hit
        rw [e2.refs] at hr
        exact refOk_same h2 (hw.1.items i a e1 r hr)
      · intro b hb
        simp only [hlen]
        exact refOk_same h2 (hw.1.binds b hb)
      · intro b hb
        simp only [hlen]
        exact refOk_same h2 (hw.1.exports b hb)
      · intro it hit
        obtain ⟨i, hi⟩ := List.mem_iff_getElem?.1 hit
        obtain ⟨a, e1, e2⟩ := forall₂_get h2 i it hi
        exact e2.wf
    obtain ⟨s', h3, h4⟩ := optLocal_ok hF hw' (chains_same h2 hc.1)
    refine ⟨s', by simp only [optScope, h1, Option.bind_some, h3], h4.wf, h4.name, h4.imports, h4.vars, h4.binds, h4.exports, ?_⟩
    intro depth ins outs
    rw [← h4.equiv]
    simp only [ScopeSem, itemsSem_same h2]
end

end DD.Ir
