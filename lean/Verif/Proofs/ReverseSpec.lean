import Verif.Proofs.ReverseRun
import Verif.Proofs.ExplainMore

/-!
# The contributions of the walk are what is asked for
-/

namespace DD.Ir.Ex
variable {N : Type*} {env : RevEnv N}

theorem side_iff {t : Target} {side : SideInfo} : env.side t = some side ↔ Input env t side := by
  obtain ⟨pair, shape, len⟩ := side
  cases t with
  | site a => simp only [RevEnv.side, Option.map_eq_some_iff, SideInfo.mk.injEq, Input, RevEnv.shapeOf, Target.len, Target.depth]; constructor <;> rintro ⟨h1, h2, h3⟩ <;> simp_all
  | source k => simp only [RevEnv.side, Option.map_eq_some_iff, SideInfo.mk.injEq, Input, RevEnv.shapeOf, Target.len, Target.depth]; constructor <;> rintro ⟨h1, h2, h3⟩ <;> simp_all

theorem len_eq (t : Target) : t.len = t.depth := by cases t <;> rfl

theorem route_iff {c c' : RowColl} {n : Nat} {t : Target} : env.route c n t = some c' ↔ Routed env t n c c' := by
  unfold RevEnv.route Routed
  simp only [← side_iff, ← len_eq]
  by_cases h : t.len = n
  · simp [h, eq_comm]
  · simp [h, Option.bind_eq_some_iff]

/-- What is pushed is the routed demand, to what the reference names. -/
theorem push_mem {path : List Nat} {r : Ref} {c : RowColl} {n : Nat} {e : List (Target × RowColl)} (h : (env.push path r c n).map (fun p => [p]) = some e) (t : Target) (c' : RowColl) :
    (t, c') ∈ e ↔ Names env.root path r t ∧ Routed env t n c c' := by
  obtain ⟨q, h1, rfl⟩ := Option.map_eq_some_iff.1 h
  obtain ⟨t', h2, h3⟩ := Option.bind_eq_some_iff.1 h1
  obtain ⟨c'', h4, rfl⟩ := Option.map_eq_some_iff.1 h3
  rw [List.mem_singleton, Prod.mk.injEq]
  constructor
  · rintro ⟨rfl, rfl⟩; exact ⟨resolveRef_names h2, route_iff.1 h4⟩
  · rintro ⟨h5, h6⟩
    obtain rfl := (resolveRef_names h2).det h5
    exact ⟨rfl, Option.some.inj ((route_iff.2 h6).symm.trans h4)⟩

/-- What is looked up on the side of the input. -/
theorem lookup_mem {path : List Nat} {r : Ref} {g : SideInfo → Option RowColl} {e : List (Target × RowColl)}
    (h : ((env.resolve path r).bind fun t => (env.side t).bind fun side => (g side).map fun c => [(t, c)]) = some e) (t : Target) (c' : RowColl) :
    (t, c') ∈ e ↔ Names env.root path r t ∧ ∃ side, env.side t = some side ∧ g side = some c' := by
  obtain ⟨t', h1, h⟩ := Option.bind_eq_some_iff.1 h
  obtain ⟨s, h2, h⟩ := Option.bind_eq_some_iff.1 h
  obtain ⟨c, h3, rfl⟩ := Option.map_eq_some_iff.1 h
  rw [List.mem_singleton, Prod.mk.injEq]
  constructor
  · rintro ⟨rfl, rfl⟩; exact ⟨resolveRef_names h1, s, h2, h3⟩
  · rintro ⟨h5, s', h6, h7⟩
    obtain rfl := (resolveRef_names h1).det h5
    obtain rfl := Option.some.inj (h2.symm.trans h6)
    exact ⟨rfl, Option.some.inj (h7.symm.trans h3)⟩

theorem lookup_mem' {path : List Nat} {r : Ref} {g : SideInfo → Option RowColl} {e : List (Target × RowColl)}
    (h : ((env.resolve path r).bind fun t => (env.side t).bind fun side => (g side).map fun c => [(t, c)]) = some e) (t : Target) (c' : RowColl) :
    (t, c') ∈ e ↔ Names env.root path r t ∧ ∃ side, Input env t side ∧ g side = some c' := by
  simpa only [side_iff] using lookup_mem h t c'

theorem emits_traces {path : List Nat} {shape : Nat × Nat} {dep : RowColl} {node : XNode N} {e : List (Target × RowColl)} (h : env.emits path shape dep node = some e) (t : Target) (c : RowColl) :
    (t, c) ∈ e ↔ ∃ r, Names env.root path r t ∧ Traces env path shape dep node r t c := by
  cases node with
  | linear input ops =>
    unfold RevEnv.emits at h
    split at h
    · rename_i e1; cases e1
      rw [lookup_mem' h]
      constructor
      · rintro ⟨h1, s, h2, h3⟩; exact ⟨_, h1, .project _ _ _ _ _ _ h2 h3⟩
      · rintro ⟨r, h1, h2⟩; cases h2 with | project _ _ s _ _ _ h3 h4 => exact ⟨h1, s, h3, h4⟩
    · rename_i e1; cases e1
      obtain ⟨c1, h0, h⟩ := Option.bind_eq_some_iff.1 h
      rw [push_mem h]
      constructor
      · rintro ⟨h1, h2⟩; exact ⟨_, h1, .filter _ _ _ _ _ h0 h2⟩
      · rintro ⟨r, h1, h2⟩
        cases h2 with
        | filter _ _ _ c2 _ h3 h4 =>
          obtain rfl := Option.some.inj (h0.symm.trans h3)
          exact ⟨h1, h4⟩
    · rename_i e1; cases e1
      rw [push_mem h]
      constructor
      · rintro ⟨h1, h2⟩; exact ⟨_, h1, .negate _ _ _ h2⟩
      · rintro ⟨r, h1, h2⟩; cases h2 with | negate _ _ _ h3 => exact ⟨h1, h3⟩
    · rename_i e1; cases e1
      rw [push_mem h]
      constructor
      · rintro ⟨h1, h2⟩; exact ⟨_, h1, .enterAt _ _ _ _ h2⟩
      · rintro ⟨r, h1, h2⟩; cases h2 with | enterAt _ _ _ _ h3 => exact ⟨h1, h3⟩
    · rename_i e1; cases e1
      rw [lookup_mem' h]
      constructor
      · rintro ⟨h1, s, h2, h3⟩; exact ⟨_, h1, .flatMap _ _ _ _ _ h2 h3⟩
      · rintro ⟨r, h1, h2⟩; cases h2 with | flatMap _ _ s _ _ h3 h4 => exact ⟨h1, s, h3, h4⟩
    · cases h
    all_goals (rename_i e1; cases e1)
  | concat refs =>
    simp only [RevEnv.emits] at h
    have hf := mapM_some_iff.1 h
    constructor
    · intro hp
      obtain ⟨i, hi⟩ := List.getElem?_of_mem hp
      obtain ⟨r, h1, h2⟩ := forall₂_get hf i _ hi
      obtain ⟨t', h3, h⟩ := Option.bind_eq_some_iff.1 h2
      obtain ⟨s, h4, h⟩ := Option.bind_eq_some_iff.1 h
      obtain ⟨c', h5, h6⟩ := Option.map_eq_some_iff.1 h
      cases h6
      exact ⟨r, resolveRef_names h3, .concat _ _ _ _ _ (List.mem_of_getElem? h1) (side_iff.1 h4) h5⟩
    · rintro ⟨r, h1, h2⟩
      cases h2 with
      | concat _ _ _ s _ hr h3 h4 =>
        obtain ⟨i, hi⟩ := List.getElem?_of_mem hr
        obtain ⟨p, hp, h5⟩ := forall₂_get hf.flip i _ hi
        obtain ⟨t', h6, h⟩ := Option.bind_eq_some_iff.1 h5
        obtain rfl := (resolveRef_names h6).det h1
        rw [side_iff.2 h3, Option.bind_some, h4] at h
        cases h
        exact List.mem_of_getElem? hp
  | arrange input =>
    rw [push_mem (by simpa only [RevEnv.emits] using h)]
    constructor
    · rintro ⟨h1, h2⟩; exact ⟨_, h1, .arrange _ _ _ h2⟩
    · rintro ⟨r, h1, h2⟩; cases h2 with | arrange _ _ _ h3 => exact ⟨h1, h3⟩
  | inspect input label =>
    rw [push_mem (by simpa only [RevEnv.emits] using h)]
    constructor
    · rintro ⟨h1, h2⟩; exact ⟨_, h1, .inspect _ _ _ _ h2⟩
    · rintro ⟨r, h1, h2⟩; cases h2 with | inspect _ _ _ _ h3 => exact ⟨h1, h3⟩
  | reduce input reducer =>
    rw [lookup_mem' (by simpa only [RevEnv.emits] using h)]
    constructor
    · rintro ⟨h1, s, h2, h3⟩; exact ⟨_, h1, .reduce _ _ _ _ _ h2 h3⟩
    · rintro ⟨r, h1, h2⟩; cases h2 with | reduce _ _ s _ _ h3 h4 => exact ⟨h1, s, h3, h4⟩
  | join left right projection =>
    simp only [RevEnv.emits] at h
    obtain ⟨lt, h1, h⟩ := Option.bind_eq_some_iff.1 h
    obtain ⟨rt, h2, h⟩ := Option.bind_eq_some_iff.1 h
    obtain ⟨ls, h3, h⟩ := Option.bind_eq_some_iff.1 h
    obtain ⟨rs, h4, h⟩ := Option.bind_eq_some_iff.1 h
    obtain ⟨c', h5, rfl⟩ := Option.map_eq_some_iff.1 h
    simp only [List.mem_cons, List.not_mem_nil, or_false, Prod.mk.injEq]
    constructor
    · rintro (⟨rfl, rfl⟩ | ⟨rfl, rfl⟩)
      · exact ⟨left, resolveRef_names h1, .left _ _ _ _ _ _ _ _ (side_iff.1 h3) (resolveRef_names h2) (side_iff.1 h4) h5⟩
      · exact ⟨right, resolveRef_names h2, .right _ _ _ _ _ _ _ _ (side_iff.1 h3) (resolveRef_names h1) (side_iff.1 h4) h5⟩
    · rintro ⟨r, k1, k2⟩
      cases k2 with
      | left _ _ _ rt' ls' rs' _ c2 g1 g2 g3 g4 =>
        left
        obtain rfl := (resolveRef_names h1).det k1
        obtain rfl := (resolveRef_names h2).det g2
        obtain rfl := Option.some.inj (h3.symm.trans (side_iff.2 g1))
        obtain rfl := Option.some.inj (h4.symm.trans (side_iff.2 g3))
        obtain rfl := Option.some.inj (h5.symm.trans g4)
        exact ⟨rfl, rfl⟩
      | right _ _ lt' _ ls' rs' _ c2 g1 g2 g3 g4 =>
        right
        obtain rfl := (resolveRef_names h2).det k1
        obtain rfl := (resolveRef_names h1).det g2
        obtain rfl := Option.some.inj (h3.symm.trans (side_iff.2 g1))
        obtain rfl := Option.some.inj (h4.symm.trans (side_iff.2 g3))
        obtain rfl := Option.some.inj (h5.symm.trans g4)
        exact ⟨rfl, rfl⟩

/-- What a run collects. -/
theorem reverse_spec (hw : ScopeWF env.root) (hc : ScopeClosed env.root) {query : RowColl} {st : RevState} (h : env.reverse query = some st) :
    ∃ L : List (Target × RowColl), (∀ t c, (t, c) ∈ L ↔ AskedOf env query st.demand t c) ∧ (∀ k, ofList st.contribs (.source k) = ofList L (.source k)) ∧
      (∀ a, (∀ x ∈ stepsScope env.root [], x.takes ≠ some a) → st.demand a = none ∧ st.binds a = none ∧ ∀ c, (Target.site a, c) ∉ L) ∧
      ∀ x ∈ stepsScope env.root [], env.Collected st.demand st.binds (ofList L) x := by
  obtain ⟨first, h1, h⟩ := Option.bind_eq_some_iff.1 h
  obtain ⟨t0, h2, h⟩ := Option.bind_eq_some_iff.1 h
  obtain ⟨seeded, h3, h⟩ := Option.bind_eq_some_iff.1 h
  rw [walkScope_steps] at h
  obtain ⟨es, g1, g2, g3, g4, g5⟩ := run_steps h (stepsScope_once env.root []) (steps_ordered hw hc) (fun _ _ _ _ => rfl)
  have hseed := resolveRef_names h2
  refine ⟨[(t0, seeded)] ++ es.flatten, ?_, fun k => g3 _ fun _ _ _ _ => by simp, ?_, g5⟩
  · intro t c
    rw [List.singleton_append, List.mem_cons, List.mem_flatten, Prod.mk.injEq]
    have hes := mapM_some_iff.1 g1
    constructor
    · rintro (⟨rfl, rfl⟩ | ⟨e, he, hp⟩)
      · exact .query _ _ h1 hseed (route_iff.1 h3)
      · obtain ⟨i, hi⟩ := List.getElem?_of_mem he
        obtain ⟨x, hx, hxe⟩ := forall₂_get hes i _ hi
        obtain ⟨path, s, hs, hxs⟩ := mem_steps.1 (List.mem_of_getElem? hx)
        rcases hxs with ⟨b, hb, rfl⟩ | ⟨j, node, hj, rfl⟩ | ⟨v, hv, rfl⟩
        · simp only [RevEnv.emission] at hxe
          obtain ⟨shape, k1, hxe⟩ := Option.bind_eq_some_iff.1 hxe
          obtain ⟨c1, k2, hxe⟩ := Option.bind_eq_some_iff.1 hxe
          obtain ⟨k3, k4⟩ := (push_mem hxe t c).1 hp
          exact .bind _ _ _ _ _ _ hs hb k3 k1 k2 k4
        · simp only [RevEnv.emission] at hxe
          cases hD : st.demand ⟨path, .op j⟩ with
          | none => rw [hD] at hxe; cases hxe; cases hp
          | some dep =>
            rw [hD] at hxe
            obtain ⟨shape, k1, hxe⟩ := Option.bind_eq_some_iff.1 hxe
            obtain ⟨r, k2, k3⟩ := (emits_traces hxe t c).1 hp
            exact .op _ _ _ _ _ _ _ _ hs hj k2 hD k1 k3
        · cases hxe; cases hp
    · intro ha
      have hstep : ∀ {x : Step N} {path : List Nat} {s : XScope N}, scopeAt env.root path = some s → StepOf s path x → ∃ e ∈ es, env.emission st.demand x = some e := by
        intro x path s hs hx
        obtain ⟨i, hi⟩ := List.getElem?_of_mem (mem_steps.2 ⟨path, s, hs, hx⟩)
        obtain ⟨e, he, hxe⟩ := forall₂_get hes.flip i _ hi
        exact ⟨e, List.mem_of_getElem? he, hxe⟩
      cases ha with
      | query first' _ k1 k2 k3 =>
        left
        obtain rfl := Option.some.inj (h1.symm.trans k1)
        obtain rfl := hseed.det k2
        exact ⟨rfl, Option.some.inj ((route_iff.2 k3).symm.trans h3)⟩
      | bind path s b shape c1 _ k1 k2 k3 k4 k5 k6 =>
        right
        obtain ⟨e, he, hxe⟩ := hstep k1 (.inl ⟨b, k2, rfl⟩)
        simp only [RevEnv.emission, k4, k5, Option.bind_some] at hxe
        exact ⟨e, he, (push_mem hxe t c).2 ⟨k3, k6⟩⟩
      | op path s i node r shape dep _ k1 k2 k3 k4 k5 k6 =>
        right
        obtain ⟨e, he, hxe⟩ := hstep k1 (.inr (.inl ⟨i, node, k2, rfl⟩))
        simp only [RevEnv.emission, k4, k5, Option.bind_some] at hxe
        exact ⟨e, he, (emits_traces hxe t c).2 ⟨r, k3, k6⟩⟩
  · intro a ha
    obtain ⟨k1, k2⟩ := g4 a ha
    refine ⟨k1, k2, fun c hp => ?_⟩
    rw [List.singleton_append, List.mem_cons] at hp
    have hlater : Later (stepsScope env.root []) (.site a) := by
      rcases hp with hp | hp
      · cases hp
        have he := List.mem_of_head? h1
        refine (names_later hw hc hseed .root ((scopeWF_iff.1 hw).1.exports _ he) ((scopeClosed_iff.1 hc).1 _ (mem_refsOf_export he))).mono fun x hx => ?_
        rw [stepsScope_eq, List.append_assoc]
        exact List.mem_append_right _ (by simpa [stepsBelow] using hx)
      · exact g2 _ hp
    obtain ⟨x, hx, h⟩ := hlater
    exact ha x hx h

end DD.Ir.Ex
