import Verif.Proofs.ReverseOrder

/-!
# What the walk collects
-/

namespace DD.Ir.Ex
variable {N : Type*} (env : RevEnv N)

/-- The contributions to a target. -/
def ofList (l : List (Target × RowColl)) (t : Target) : List RowColl := (l.filter fun p => p.1 = t).map Prod.snd

theorem ofList_append (a b : List (Target × RowColl)) (t : Target) : ofList (a ++ b) t = ofList a t ++ ofList b t := by simp [ofList]

theorem ofList_nil {l : List (Target × RowColl)} {t : Target} (h : ∀ p ∈ l, p.1 ≠ t) : ofList l t = [] := by
  rw [ofList, List.filter_eq_nil_iff.2 (fun p hp => by simpa using h p hp)]; rfl

theorem mem_ofList {l : List (Target × RowColl)} {t : Target} {c : RowColl} : c ∈ ofList l t ↔ (t, c) ∈ l := by
  simp only [ofList, List.mem_map, List.mem_filter, decide_eq_true_eq]
  constructor
  · rintro ⟨p, ⟨h1, rfl⟩, rfl⟩; exact h1
  · exact fun h => ⟨_, ⟨h, rfl⟩, rfl⟩

theorem ofList_without {l : List (Target × RowColl)} {t u : Target} (h : u ≠ t) : ofList (l.filter fun p => p.1 ≠ u) t = ofList l t := by
  rw [ofList, ofList, List.filter_filter]
  congr 1
  refine List.filter_congr fun p _ => ?_
  by_cases e : p.1 = t
  · simp [e, h.symm]
  · simp [e]

/-- What a step contributes, if `D` is the demand. -/
def RevEnv.emission (D : Addr → Option RowColl) : Step N → Option (List (Target × RowColl))
  | .bind path b => (env.shapes ⟨path, .var b.var⟩).bind fun shape => (bindLookup env.norm (env.vars ⟨path, .var b.var⟩) shape.1 shape.2 path.length).bind fun contrib =>
      (env.push path b.value contrib path.length).map fun p => [p]
  | .op path i node => match D ⟨path, .op i⟩ with
    | none => some []
    | some dep => (env.shapes ⟨path, .op i⟩).bind fun shape => env.emits path shape dep node
  | .close _ _ => some []

/-- What a step does with the contributions `cs` it takes. -/
def RevEnv.Collected (D B : Addr → Option RowColl) (cs : Target → List RowColl) : Step N → Prop
  | .bind _ _ => True
  | .op path i _ => (cs (.site ⟨path, .op i⟩) = [] → D ⟨path, .op i⟩ = none) ∧ (cs (.site ⟨path, .op i⟩) ≠ [] → ∃ shape dist, env.shapes ⟨path, .op i⟩ = some shape ∧
      distinctFull env.norm (cs (.site ⟨path, .op i⟩)).flatten shape.1 (shape.2 + path.length + 1) = some dist ∧ D ⟨path, .op i⟩ = some dist)
  | .close path v => (cs (.site ⟨path, .var v⟩) = [] → B ⟨path, .var v⟩ = some (env.vars ⟨path, .var v⟩)) ∧
      (cs (.site ⟨path, .var v⟩) ≠ [] → ∃ shape dist, env.shapes ⟨path, .var v⟩ = some shape ∧
        distinctFull env.norm (cs (.site ⟨path, .var v⟩)).flatten shape.1 (shape.2 + path.length + 1) = some dist ∧ B ⟨path, .var v⟩ = some dist)

variable {env}

theorem push_names {path : List Nat} {r : Ref} {c : RowColl} {n : Nat} {p : Target × RowColl} (h : env.push path r c n = some p) : Names env.root path r p.1 := by
  obtain ⟨t, h1, h2⟩ := Option.bind_eq_some_iff.1 h
  obtain ⟨c', -, rfl⟩ := Option.map_eq_some_iff.1 h2
  exact resolveRef_names h1

theorem emits_names {path : List Nat} {shape : Nat × Nat} {dep : RowColl} {node : XNode N} {e : List (Target × RowColl)} (h : env.emits path shape dep node = some e) :
    ∀ p ∈ e, ∃ r ∈ node.refs, Names env.root path r p.1 := by
  have hpush : ∀ {r : Ref} {c : RowColl}, (env.push path r c path.length).map (fun p => [p]) = some e → ∀ p ∈ e, Names env.root path r p.1 := by
    intro r c h p hp
    obtain ⟨q, h1, rfl⟩ := Option.map_eq_some_iff.1 h
    cases List.mem_singleton.1 hp
    exact push_names h1
  have hlook : ∀ {r : Ref} {g : SideInfo → Option RowColl}, ((env.resolve path r).bind fun t => (env.side t).bind fun side => (g side).map fun c => [(t, c)]) = some e →
      ∀ p ∈ e, Names env.root path r p.1 := by
    intro r g h p hp
    obtain ⟨t, h1, h⟩ := Option.bind_eq_some_iff.1 h
    obtain ⟨s, h2, h⟩ := Option.bind_eq_some_iff.1 h
    obtain ⟨c, h3, rfl⟩ := Option.map_eq_some_iff.1 h
    cases List.mem_singleton.1 hp
    exact resolveRef_names h1
  cases node with
  | linear input ops =>
    simp only [Node.refs, List.mem_singleton, exists_eq_left]
    unfold RevEnv.emits at h
    split at h
    · rename_i e1; cases e1; exact hlook h
    · rename_i e1
      cases e1
      obtain ⟨c, -, h⟩ := Option.bind_eq_some_iff.1 h
      exact hpush h
    · rename_i e1; cases e1; exact hpush h
    · rename_i e1; cases e1; exact hpush h
    · rename_i e1; cases e1; exact hlook h
    · cases h
    all_goals (rename_i e1; cases e1)
  | concat refs =>
    simp only [RevEnv.emits] at h
    intro p hp
    obtain ⟨i, hi⟩ := List.getElem?_of_mem hp
    obtain ⟨r, h1, h2⟩ := forall₂_get (mapM_some_iff.1 h) i p hi
    obtain ⟨t, h3, h⟩ := Option.bind_eq_some_iff.1 h2
    obtain ⟨s, -, h⟩ := Option.bind_eq_some_iff.1 h
    obtain ⟨c, -, rfl⟩ := Option.map_eq_some_iff.1 h
    exact ⟨r, List.mem_of_getElem? h1, resolveRef_names h3⟩
  | arrange input => simp only [Node.refs, List.mem_singleton, exists_eq_left]; exact hpush (by simpa only [RevEnv.emits] using h)
  | inspect input label => simp only [Node.refs, List.mem_singleton, exists_eq_left]; exact hpush (by simpa only [RevEnv.emits] using h)
  | reduce input reducer => simp only [Node.refs, List.mem_singleton, exists_eq_left]; exact hlook (by simpa only [RevEnv.emits] using h)
  | join left right projection =>
    simp only [RevEnv.emits] at h
    obtain ⟨lt, h1, h⟩ := Option.bind_eq_some_iff.1 h
    obtain ⟨rt, h2, h⟩ := Option.bind_eq_some_iff.1 h
    obtain ⟨ls, h3, h⟩ := Option.bind_eq_some_iff.1 h
    obtain ⟨rs, h4, h⟩ := Option.bind_eq_some_iff.1 h
    obtain ⟨c, h5, rfl⟩ := Option.map_eq_some_iff.1 h
    intro p hp
    simp only [List.mem_cons, List.not_mem_nil, or_false] at hp
    rcases hp with rfl | rfl
    · exact ⟨left, by simp [Node.refs], resolveRef_names h1⟩
    · exact ⟨right, by simp [Node.refs], resolveRef_names h2⟩

theorem emission_names {D : Addr → Option RowColl} {x : Step N} {e : List (Target × RowColl)} (h : env.emission D x = some e) : ∀ p ∈ e, ∃ r ∈ x.refs, Names env.root r.1 r.2 p.1 := by
  cases x with
  | bind path b =>
    simp only [RevEnv.emission] at h
    obtain ⟨s, -, h⟩ := Option.bind_eq_some_iff.1 h
    obtain ⟨c, -, h⟩ := Option.bind_eq_some_iff.1 h
    obtain ⟨q, h1, rfl⟩ := Option.map_eq_some_iff.1 h
    intro p hp
    cases List.mem_singleton.1 hp
    exact ⟨_, List.mem_singleton.2 rfl, push_names h1⟩
  | op path i node =>
    simp only [RevEnv.emission] at h
    cases hD : D ⟨path, .op i⟩ with
    | none => rw [hD] at h; cases h; intro p hp; cases hp
    | some dep =>
      rw [hD] at h
      obtain ⟨s, -, h⟩ := Option.bind_eq_some_iff.1 h
      intro p hp
      obtain ⟨r, h1, h2⟩ := emits_names h p hp
      exact ⟨(path, r), List.mem_map.2 ⟨r, h1, rfl⟩, h2⟩
  | close path v => cases h; intro p hp; cases hp

theorem step_ok {st st1 : RevState} {x : Step N} (h : env.step st x = some st1) (hf : ∀ a, x.takes = some a → st.demand a = none) :
    ∃ e, env.emission st1.demand x = some e ∧ (∀ t, (∀ a, x.takes = some a → t ≠ .site a) → ofList st1.contribs t = ofList st.contribs t ++ ofList e t) ∧
      (∀ a, x.takes ≠ some a → st1.demand a = st.demand a ∧ st1.binds a = st.binds a) ∧ env.Collected st1.demand st1.binds (ofList st.contribs) x := by
  cases x with
  | bind path b =>
    simp only [RevEnv.step, RevEnv.bindStep] at h
    obtain ⟨s, h1, h⟩ := Option.bind_eq_some_iff.1 h
    obtain ⟨c, h2, h⟩ := Option.bind_eq_some_iff.1 h
    obtain ⟨q, h3, rfl⟩ := Option.map_eq_some_iff.1 h
    refine ⟨[q], ?_, fun t _ => ofList_append _ _ _, fun a _ => ⟨rfl, rfl⟩, trivial⟩
    simp only [RevEnv.emission, h1, h2, h3, Option.bind_some, Option.map_some]
  | op path i node =>
    simp only [RevEnv.step, RevEnv.site] at h
    by_cases hcs : (st.of (.site ⟨path, .op i⟩)).isEmpty = true
    · rw [if_pos hcs] at h
      cases h
      have hD := hf _ rfl
      refine ⟨[], ?_, fun t _ => by simp [ofList], fun a _ => ⟨rfl, rfl⟩, fun _ => hD, fun hne => absurd (List.isEmpty_iff.1 hcs) hne⟩
      simp only [RevEnv.emission, hD]
    · rw [if_neg hcs] at h
      obtain ⟨s, h1, h⟩ := Option.bind_eq_some_iff.1 h
      obtain ⟨d, h2, h⟩ := Option.bind_eq_some_iff.1 h
      obtain ⟨e, h3, rfl⟩ := Option.map_eq_some_iff.1 h
      refine ⟨e, ?_, fun t ht => ?_, fun a ha => ⟨?_, rfl⟩, fun he => absurd (List.isEmpty_iff.2 he) hcs, fun _ => ⟨s, d, h1, h2, by simp⟩⟩
      · simp only [RevEnv.emission, Function.update_self, h1, h3, Option.bind_some]
      · rw [ofList_append, RevState.without, ofList_without (fun e => ht _ rfl e.symm)]
      · simp only [Step.takes, ne_eq, Option.some.injEq] at ha
        exact Function.update_of_ne (Ne.symm ha) _ _
  | close path v =>
    simp only [RevEnv.step, RevEnv.closeStep] at h
    by_cases hcs : (st.of (.site ⟨path, .var v⟩)).isEmpty = true
    · rw [if_pos hcs] at h
      cases h
      refine ⟨[], rfl, fun t _ => by simp [ofList], fun a ha => ⟨rfl, ?_⟩, fun _ => by simp, fun hne => absurd (List.isEmpty_iff.1 hcs) hne⟩
      simp only [Step.takes, ne_eq, Option.some.injEq] at ha
      exact Function.update_of_ne (Ne.symm ha) _ _
    · rw [if_neg hcs] at h
      obtain ⟨s, h1, h⟩ := Option.bind_eq_some_iff.1 h
      obtain ⟨d, h2, rfl⟩ := Option.map_eq_some_iff.1 h
      refine ⟨[], rfl, fun t ht => ?_, fun a ha => ⟨rfl, ?_⟩, fun he => absurd (List.isEmpty_iff.2 he) hcs, fun _ => ⟨s, d, h1, h2, by simp⟩⟩
      · simp only [RevState.without, ofList_without (fun e => ht _ rfl e.symm)]
        simp [ofList]
      · simp only [Step.takes, ne_eq, Option.some.injEq] at ha
        exact Function.update_of_ne (Ne.symm ha) _ _

theorem Collected.congr {D D' B B' : Addr → Option RowColl} {cs cs' : Target → List RowColl} {x : Step N} (h : env.Collected D B cs x) (hx : ∀ a, x.takes = some a → D' a = D a ∧ B' a = B a ∧ cs' (.site a) = cs (.site a)) :
    env.Collected D' B' cs' x := by
  cases x with
  | bind path b => trivial
  | op path i node =>
    obtain ⟨h1, -, h2⟩ := hx _ rfl
    simp only [RevEnv.Collected, h1, h2]
    exact h
  | close path v =>
    obtain ⟨-, h1, h2⟩ := hx _ rfl
    simp only [RevEnv.Collected, h1, h2]
    exact h

theorem run_steps : ∀ {σ : List (Step N)} {st st' : RevState}, σ.foldlM env.step st = some st' → TakesOnce σ → OrderedBy env.root σ [] → (∀ x ∈ σ, ∀ a, x.takes = some a → st.demand a = none) →
    ∃ es, σ.mapM (env.emission st'.demand) = some es ∧ (∀ p ∈ es.flatten, Later σ p.1) ∧
      (∀ t, (∀ x ∈ σ, ∀ a, x.takes = some a → t ≠ .site a) → ofList st'.contribs t = ofList (st.contribs ++ es.flatten) t) ∧
      (∀ a, (∀ x ∈ σ, x.takes ≠ some a) → st'.demand a = st.demand a ∧ st'.binds a = st.binds a) ∧
      ∀ x ∈ σ, env.Collected st'.demand st'.binds (ofList (st.contribs ++ es.flatten)) x := by
  intro σ
  induction σ with
  | nil =>
    intro st st' h _ _ _
    cases h
    exact ⟨[], rfl, fun p hp => by simp at hp, fun t _ => by simp, fun a _ => ⟨rfl, rfl⟩, fun x hx => by cases hx⟩
  | cons x σ ih =>
    intro st st' h hon hor hf
    rw [List.foldlM_cons] at h
    obtain ⟨st1, h1, h2⟩ := Option.bind_eq_some_iff.1 h
    obtain ⟨e, he, hc, hd, hx⟩ := step_ok h1 (hf x (by simp))
    have hon' : TakesOnce σ := by
      unfold TakesOnce at hon ⊢
      exact hon.sublist ((List.sublist_cons_self x σ).filterMap _)
    have hne : ∀ a, x.takes = some a → ∀ y ∈ σ, y.takes ≠ some a := by
      intro a ha y hy e
      unfold TakesOnce at hon
      rw [List.filterMap_cons_some ha, List.nodup_cons] at hon
      exact hon.1 (List.mem_filterMap.2 ⟨y, hy, e⟩)
    have hor' : OrderedBy env.root σ [] := fun pre y post e => hor (x :: pre) y post (by rw [e]; rfl)
    obtain ⟨es, g1, g2, g3, g4, g5⟩ := ih h2 hon' hor' fun y hy a ha => by
      rw [(hd a fun e => hne a e y hy ha).1]
      exact hf y (by simp [hy]) a ha
    have hlater : ∀ p ∈ e, Later σ p.1 := fun p hp => by
      obtain ⟨r, hr, hn⟩ := emission_names he p hp
      simpa using hor [] x σ rfl r hr _ hn
    have hsame : ∀ a, x.takes = some a → st'.demand a = st1.demand a ∧ st'.binds a = st1.binds a := fun a ha => g4 a fun y hy => hne a ha y hy
    have hem : env.emission st'.demand x = some e := by
      rw [← he]
      cases x with
      | bind path b => rfl
      | op path i node => simp only [RevEnv.emission, (hsame _ rfl).1]
      | close path v => rfl
    have hnone : ∀ a, x.takes = some a → ∀ l : List (Target × RowColl), (∀ p ∈ l, Later σ p.1) → ofList l (.site a) = [] := by
      intro a ha l hl
      refine ofList_nil fun p hp e => ?_
      have := hl p hp
      rw [e] at this
      obtain ⟨y, hy, h⟩ := this
      exact hne a ha y hy h
    have hL : ∀ t, (∀ a, x.takes = some a → t ≠ .site a) → ofList (st1.contribs ++ es.flatten) t = ofList (st.contribs ++ (e ++ es.flatten)) t := fun t ht => by
      rw [ofList_append, hc t ht, ofList_append, ofList_append, List.append_assoc]
    refine ⟨e :: es, ?_, ?_, ?_, ?_, ?_⟩
    · simp only [List.mapM_cons, hem, g1]; rfl
    · intro p hp
      rw [List.flatten_cons, List.mem_append] at hp
      exact (hp.elim (hlater p) (g2 p)).mono fun y hy => List.mem_cons_of_mem _ hy
    · intro t ht
      rw [List.flatten_cons, ← hL t (ht x (by simp))]
      exact g3 t fun y hy => ht y (by simp [hy])
    · intro a ha
      obtain ⟨k1, k2⟩ := g4 a fun y hy => ha y (by simp [hy])
      obtain ⟨k3, k4⟩ := hd a (ha x (by simp))
      exact ⟨k1.trans k3, k2.trans k4⟩
    · intro y hy
      rw [List.flatten_cons]
      rcases List.mem_cons.1 hy with rfl | hy
      · refine Collected.congr hx fun a ha => ⟨(hsame a ha).1, (hsame a ha).2, ?_⟩
        rw [ofList_append, ofList_append, hnone a ha e hlater, hnone a ha _ g2, List.append_nil, List.append_nil]
      · refine Collected.congr (g5 y hy) fun a ha => ⟨rfl, rfl, ?_⟩
        exact (hL _ fun b hb e => by cases e; exact hne a hb y hy ha).symm

end DD.Ir.Ex
