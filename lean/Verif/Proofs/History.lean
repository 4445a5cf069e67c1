import Verif.Model.History
import Verif.Spec.History
import Verif.Proofs.Consolidation
import Verif.Proofs.Lattice
import Mathlib.Algebra.Group.Hom.Instances

namespace DD

theorem timeLayout_lawful (T R : Type*) : (timeLayout T R).Lawful :=
  ⟨fun _ _ => rfl, fun _ _ => rfl, fun x y h1 h2 => Prod.ext h1 h2⟩

theorem consolidatedL_mem_key {α K R : Type*} [LinearOrder K] [AddCommMonoid R] [DecidableEq R] (L : Layout α K R)
    (hL : L.Lawful) (s : List α) : ∀ y ∈ consolidatedL L s, ∃ x ∈ s, L.key y = L.key x := by
  intro y hy
  unfold consolidatedL at hy
  have hp := List.perm_insertionSort (fun x y => L.key x ≤ L.key y) s
  cases hs : s.insertionSort (fun x y => L.key x ≤ L.key y) with
  | nil => rw [hs] at hy; simp [scanned] at hy
  | cons x xs =>
    rw [hs] at hy hp
    obtain ⟨z, hz, e⟩ := runScan_mem_key L hL xs x _ y hy
    exact ⟨z, hp.mem_iff.1 hz, e⟩

theorem le_joinOpt {T : Type*} [Lattice T] (m : Option T) (t : T) : t ≤ joinOpt m t := by
  cases m <;> simp [joinOpt]

theorem joinOpt_le_iff {T : Type*} [Lattice T] {m : Option T} {q : T} (h : ∀ x ∈ m, x ≤ q) (t : T) :
    joinOpt m t ≤ q ↔ t ≤ q := by
  cases m with
  | none => rfl
  | some x => simp only [joinOpt, sup_le_iff]; exact ⟨fun a => a.1, fun a => ⟨a, h x rfl⟩⟩

/-! ### Edit lists hold groups of edits -/

namespace EditList
variable {V T R : Type*}

/-- Append the edits of one value. -/
def addGroup (el : EditList V T R) (g : V × List (T × R)) : EditList V T R :=
  { values := el.values ++ [(g.1, el.edits.length + g.2.length)], edits := el.edits ++ g.2 }

/-- The edit list of a list of groups. -/
def ofGroups (gs : List (V × List (T × R))) : EditList V T R := gs.foldl addGroup empty

theorem ofGroups_snoc (gs : List (V × List (T × R))) (g : V × List (T × R)) :
    ofGroups (gs ++ [g]) = (ofGroups gs).addGroup g := by simp [ofGroups]

theorem prev_ofGroups (gs : List (V × List (T × R))) :
    ((ofGroups gs).values.getLast?.map (·.2)).getD 0 = (ofGroups gs).edits.length := by
  induction gs using List.reverseRecOn with
  | nil => rfl
  | append_singleton gs g _ => simp [ofGroups_snoc, addGroup]

theorem edits_ofGroups (gs : List (V × List (T × R))) : (ofGroups gs).edits = gs.flatMap (·.2) := by
  induction gs using List.reverseRecOn with
  | nil => rfl
  | append_singleton gs g ih => simp [ofGroups_snoc, addGroup, ih]

theorem values_length (gs : List (V × List (T × R))) : (ofGroups gs).values.length = gs.length := by
  induction gs using List.reverseRecOn with
  | nil => rfl
  | append_singleton gs g ih => simp [ofGroups_snoc, addGroup, ih]

/-- The indexes of one value. -/
def indexesAt (el : EditList V T R) (index : Nat) : Option (List (Nat × Nat)) :=
  match el.lowerOf index, el.values[index]? with
  | some lower, some value => some ((List.range' lower (value.2 - lower)).map fun edit => (index, edit))
  | _, _ => none

theorem indexes_eq (el : EditList V T R) :
    el.indexes = ((List.range el.values.length).mapM el.indexesAt).map List.flatten := rfl

theorem lowerOf_addGroup (el : EditList V T R) (g : V × List (T × R)) {i : Nat} (h : i < el.values.length) :
    (el.addGroup g).lowerOf i = el.lowerOf i := by
  unfold lowerOf
  by_cases h0 : i = 0
  · simp [h0]
  · simp only [h0, if_false, addGroup]
    rw [List.getElem?_append_left (by omega)]

theorem indexesAt_addGroup (el : EditList V T R) (g : V × List (T × R)) {i : Nat} (h : i < el.values.length) :
    (el.addGroup g).indexesAt i = el.indexesAt i := by
  unfold indexesAt
  rw [lowerOf_addGroup el g h]
  have : (el.addGroup g).values[i]? = el.values[i]? := by
    simp only [addGroup]; rw [List.getElem?_append_left h]
  rw [this]

theorem mapM_congr_mem {α β : Type*} {f g : α → Option β} {l : List α} (h : ∀ a ∈ l, f a = g a) :
    l.mapM f = l.mapM g := by
  induction l with
  | nil => rfl
  | cons a l ih =>
    simp only [List.mapM_cons]
    rw [h a (by simp), ih fun x hx => h x (by simp [hx])]

theorem mapM_some_eq {α β : Type*} {f : α → Option β} {l : List α} {g : α → β} (h : ∀ a ∈ l, f a = some (g a)) :
    l.mapM f = some (l.map g) := by
  induction l with
  | nil => rfl
  | cons a l ih =>
    simp only [List.mapM_cons]
    rw [h a (by simp), ih fun x hx => h x (by simp [hx])]
    rfl

/-- The indexes of groups: each resolves to its edit, in order. -/
theorem indexes_ofGroups (gs : List (V × List (T × R))) :
    ∃ is, (ofGroups gs).indexes = some is ∧ is.map (ofGroups gs).at? = (valUpds gs).map some ∧ is.Nodup := by
  induction gs using List.reverseRecOn with
  | nil => exact ⟨[], rfl, rfl, List.nodup_nil⟩
  | append_singleton gs g ih =>
    obtain ⟨is, h1, h2, h3⟩ := ih
    rw [indexes_eq] at h1
    set el := ofGroups gs with hel
    have hlow : (el.addGroup g).lowerOf el.values.length = some el.edits.length := by
      unfold lowerOf
      have hp := prev_ofGroups gs
      rw [← hel] at hp
      by_cases h0 : el.values.length = 0
      · rw [if_pos h0]
        have : el.values = [] := List.length_eq_zero_iff.1 h0
        rw [this] at hp; simp at hp
        rw [← hp]
      · rw [if_neg h0]
        simp only [addGroup]
        rw [List.getElem?_append_left (by omega), ← List.getLast?_eq_getElem?]
        cases hl : el.values.getLast? with
        | none => rw [List.getLast?_eq_none_iff] at hl; simp [hl] at h0
        | some x => rw [hl] at hp; simp at hp; simp [hp]
    have hval : (el.addGroup g).values[el.values.length]? = some (g.1, el.edits.length + g.2.length) := by
      simp [addGroup]
    have hlen : (el.addGroup g).values.length = el.values.length + 1 := by simp [addGroup]
    have hnew : (el.addGroup g).indexesAt el.values.length =
        some ((List.range' el.edits.length g.2.length).map fun e => (el.values.length, e)) := by
      unfold indexesAt; rw [hlow, hval]; simp
    have hold : (List.range el.values.length).mapM (el.addGroup g).indexesAt
        = (List.range el.values.length).mapM el.indexesAt :=
      mapM_congr_mem fun i hi => indexesAt_addGroup el g (List.mem_range.1 hi)
    cases ho : (List.range el.values.length).mapM el.indexesAt with
    | none => rw [ho] at h1; simp at h1
    | some iss =>
      rw [ho] at h1
      simp only [Option.map_some, Option.some.injEq] at h1
      have hin : ∀ i ∈ is, ∃ u, el.at? i = some u := by
        intro i hi
        have : el.at? i ∈ (valUpds gs).map some := by rw [← h2]; exact List.mem_map_of_mem hi
        obtain ⟨u, _, hu⟩ := List.mem_map.1 this
        exact ⟨u, hu.symm⟩
      have hlt : ∀ i ∈ is, i.1 < el.values.length ∧ i.2 < el.edits.length := by
        intro i hi
        obtain ⟨u, hu⟩ := hin i hi
        unfold at? at hu
        constructor
        · by_contra hc
          rw [List.getElem?_eq_none (by omega)] at hu; simp at hu
        · by_contra hc
          rw [List.getElem?_eq_none (l := el.edits) (by omega)] at hu
          cases el.values[i.1]? <;> simp at hu
      refine ⟨is ++ (List.range' el.edits.length g.2.length).map (fun e => (el.values.length, e)), ?_, ?_, ?_⟩
      · rw [ofGroups_snoc, ← hel, indexes_eq, hlen, List.range_succ, List.mapM_append, hold, ho]
        simp [hnew, ← h1]
      · rw [ofGroups_snoc, ← hel, List.map_append]
        have e1 : is.map (el.addGroup g).at? = is.map el.at? := by
          apply List.map_congr_left
          intro i hi
          obtain ⟨a, b⟩ := hlt i hi
          unfold at?
          simp only [addGroup]
          rw [List.getElem?_append_left a, List.getElem?_append_left b]
        rw [e1, h2]
        have e2 : valUpds (gs ++ [g]) = valUpds gs ++ g.2.map fun u => (g.1, u.1, u.2) := by simp [valUpds]
        rw [e2, List.map_append]
        congr 1
        apply List.ext_getElem
        · simp
        · intro n hn1 hn2
          simp only [List.length_map, List.length_range'] at hn1
          simp only [List.getElem_map, List.getElem_range', at?]
          have hv : (el.addGroup g).values[el.values.length]? = some (g.1, el.edits.length + g.2.length) := hval
          simp only [hv]
          have he : (el.addGroup g).edits[el.edits.length + 1 * n]? = some g.2[n] := by
            simp only [addGroup]
            rw [List.getElem?_append_right (by omega)]
            rw [show el.edits.length + 1 * n - el.edits.length = n by omega]
            exact List.getElem?_eq_getElem hn1
          rw [he]
      · refine List.nodup_append.2 ⟨h3, ?_, ?_⟩
        · exact (List.nodup_range' (step := 1)).map fun a b h => by simpa using h
        · intro a ha b hb e
          obtain ⟨x, _, rfl⟩ := List.mem_map.1 hb
          have := (hlt a ha).1
          rw [e] at this
          simp at this

theorem map_ofGroups (gs : List (V × List (T × R))) : (ofGroups gs).map = some (valUpds gs) := by
  obtain ⟨is, h1, h2, -⟩ := indexes_ofGroups gs
  unfold map
  rw [h1]
  show is.mapM (ofGroups gs).at? = _
  clear h1
  generalize (ofGroups gs).at? = f at *
  generalize valUpds gs = us at *
  induction is generalizing us with
  | nil => cases us <;> simp_all
  | cons i is ih =>
    cases us with
    | nil => simp at h2
    | cons u us =>
      simp only [List.map_cons, List.cons.injEq] at h2
      simp only [List.mapM_cons]
      rw [h2.1, ih us h2.2]
      rfl

section
variable [LinearOrder (Lin T)] [AddCommMonoid R] [DecidableEq R]

/-- `seal` closes a group with the consolidation of the edits pushed since the last one. -/
theorem seal_spec (gs : List (V × List (T × R))) (new : List (T × R)) (v : V) :
    ({ values := (ofGroups gs).values, edits := (ofGroups gs).edits ++ new } : EditList V T R).«seal» v
      = some (ofGroups (if consolidatedL (timeLayout T R) new = [] then gs
          else gs ++ [(v, consolidatedL (timeLayout T R) new)])) := by
  unfold «seal»
  simp only [prev_ofGroups]
  rw [consolidateFrom_spec _ (timeLayout_lawful T R) _ _ (by simp)]
  simp only [List.take_left, List.drop_left]
  by_cases h : consolidatedL (timeLayout T R) new = []
  · simp [h]
  · rw [if_pos, if_neg h, ofGroups_snoc]
    · simp [addGroup]
    · have := List.length_pos_iff.2 h
      simp; exact this

theorem foldl_push (el : EditList V T R) (us : List (T × R)) (f : T → T) :
    us.foldl (fun el u => el.push (f u.1) u.2) el = { el with edits := el.edits ++ us.map fun u => (f u.1, u.2) } := by
  induction us generalizing el with
  | nil => simp
  | cons u us ih => rw [List.foldl_cons, ih]; simp [push]

/-- The groups `load` makes of a list of values. -/
def loadGroups [Max T] (meet : Option T) (vals : List (V × List (T × R))) : List (V × List (T × R)) :=
  vals.filterMap fun vu =>
    let c := consolidatedL (timeLayout T R) (vu.2.map fun u => (joinOpt meet u.1, u.2))
    if c = [] then none else some (vu.1, c)

theorem load_aux [Max T] (meet : Option T) (vals : List (V × List (T × R))) (gs : List (V × List (T × R))) :
    vals.foldlM (loadVal meet) (ofGroups gs) = some (ofGroups (gs ++ loadGroups meet vals)) := by
  induction vals generalizing gs with
  | nil => simp [loadGroups]
  | cons vu vals ih =>
    rw [List.foldlM_cons]
    have : loadVal meet (ofGroups gs) vu = some (ofGroups (gs ++ loadGroups meet [vu])) := by
      unfold loadVal
      rw [foldl_push, seal_spec]
      congr 1; congr 1
      simp only [loadGroups, List.filterMap_cons, List.filterMap_nil]
      split_ifs with h <;> simp [h]
    rw [this]
    show List.foldlM _ _ _ = _
    rw [ih]
    congr 1; congr 1
    rw [List.append_assoc]; congr 1
    simp only [loadGroups, ← List.filterMap_append]; rfl

theorem load_spec [Max T] (meet : Option T) (vals : List (V × List (T × R))) :
    load meet vals = some (ofGroups (loadGroups meet vals)) := by
  have := load_aux meet vals []
  simpa [load, ofGroups] using this

end

end EditList

section
variable {V T R : Type*} [DecidableEq V] [Lattice T] [DecidableLE T] [LinearOrder (Lin T)] [AddCommMonoid R] [DecidableEq R]

theorem valUpds_cons (vu : V × List (T × R)) (vals : List (V × List (T × R))) :
    valUpds (vu :: vals) = vu.2.map (fun u => (vu.1, u.1, u.2)) ++ valUpds vals := by simp [valUpds]

theorem accum_loadVal (meet : Option T) (x : V) (us : List (T × R)) (v : V) (q : T) (hq : ∀ m ∈ meet, m ≤ q) :
    accum ((EditList.loadGroups meet [(x, us)]).flatMap fun vu => vu.2.map fun u => (vu.1, u.1, u.2)) v q
      = accum (us.map fun u => (x, u.1, u.2)) v q := by
  have key : accum ((consolidatedL (timeLayout T R) (us.map fun u => (joinOpt meet u.1, u.2))).map fun u => (x, u.1, u.2)) v q
      = accum (us.map fun u => (x, u.1, u.2)) v q := by
    have := measure_consolidatedL (timeLayout T R) (timeLayout_lawful T R)
      (fun t => if x = v ∧ (show T from t) ≤ q then AddMonoidHom.id R else 0) (us.map fun u => (joinOpt meet u.1, u.2))
    unfold measure at this
    unfold accum
    rw [List.map_map, List.map_map] at *
    have e1 : ((fun u : V × T × R => if u.1 = v ∧ u.2.1 ≤ q then u.2.2 else 0) ∘ fun u : T × R => (x, u.1, u.2))
        = fun u => (if x = v ∧ u.1 ≤ q then AddMonoidHom.id R else 0) u.2 := by
      funext u; simp only [Function.comp]; split_ifs <;> rfl
    rw [e1]
    refine Eq.trans this ?_
    congr 1
    apply List.map_congr_left
    intro u _
    simp only [Function.comp, timeLayout, toLin, joinOpt_le_iff hq]
  simp only [EditList.loadGroups, List.filterMap_cons, List.filterMap_nil]
  split_ifs with h
  · rw [h] at key; simpa using key
  · simpa using key

theorem accum_loadGroups (meet : Option T) (vals : List (V × List (T × R))) (v : V) (q : T) (hq : ∀ m ∈ meet, m ≤ q) :
    accum (valUpds (EditList.loadGroups meet vals)) v q = accum (valUpds vals) v q := by
  induction vals with
  | nil => rfl
  | cons vu vals ih =>
    have : EditList.loadGroups meet (vu :: vals) = EditList.loadGroups meet [vu] ++ EditList.loadGroups meet vals := by
      simp only [EditList.loadGroups, ← List.filterMap_append]; rfl
    rw [this, valUpds_cons, accum_append, ← ih, ← accum_loadVal meet vu.1 vu.2 v q hq]
    simp only [valUpds, List.flatMap_append, accum_append]

end


/-! ### Built histories -/

/-- Every entry's meet is the greatest lower bound of its time and the times after it. -/
def MeetsOk {T E : Type*} [LE T] (time meet : E → T) : List E → Prop
  | [] => True
  | e :: es => IsGLB {t | ∃ x ∈ e :: es, time x = t} (meet e) ∧ MeetsOk time meet es

theorem isGLB_cons {T E : Type*} [Lattice T] (time : E → T) (e : E) (es : List E) {m : T}
    (h : IsGLB {t | ∃ x ∈ es, time x = t} m) : IsGLB {t | ∃ x ∈ e :: es, time x = t} (time e ⊓ m) := by
  constructor
  · rintro t ⟨x, hx, rfl⟩
    rcases List.mem_cons.1 hx with rfl | hx
    · exact inf_le_left
    · exact inf_le_right.trans (h.1 ⟨x, hx, rfl⟩)
  · intro b hb
    exact le_inf (hb ⟨e, by simp, rfl⟩) (h.2 fun t ⟨x, hx, e'⟩ => hb ⟨x, by simp [hx], e'⟩)

theorem suffixMeets_spec {T : Type*} [Lattice T] (es : List (T × T × Nat × Nat)) (h : ∀ e ∈ es, e.2.1 = e.1) :
    MeetsOk (·.1) (·.2.1) (suffixMeets es)
      ∧ (suffixMeets es).map (fun e => (e.1, e.2.2)) = es.map (fun e => (e.1, e.2.2)) := by
  induction es with
  | nil => exact ⟨trivial, rfl⟩
  | cons e es ih =>
    obtain ⟨h1, h2⟩ := ih fun x hx => h x (by simp [hx])
    cases es with
    | nil =>
      refine ⟨⟨?_, trivial⟩, rfl⟩
      have := h e (by simp)
      constructor
      · rintro t ⟨x, hx, rfl⟩
        simp only [List.mem_singleton] at hx; subst hx; exact this.le
      · intro b hb
        show b ≤ e.2.1
        rw [this]; exact hb ⟨e, by simp, rfl⟩
    | cons e' es =>
      simp only [suffixMeets]
      cases hs : suffixMeets (e' :: es) with
      | nil => rw [hs] at h2; simp at h2
      | cons p ps =>
        rw [hs] at h1 h2
        simp only
        refine ⟨⟨?_, h1⟩, ?_⟩
        · have := isGLB_cons (fun x : T × T × Nat × Nat => x.1) (e.1, e.2.1 ⊓ p.2.1, e.2.2) (p :: ps) h1.1
          simp only at this ⊢
          rw [h e (by simp)] at this ⊢
          exact this
        · rw [List.map_cons, List.map_cons] at *
          rw [h2]; rfl

/-- A history whose entries, in order, are the updates `rest`. -/
structure HistOk {V T R : Type*} [Lattice T] [LinearOrder (Lin T)] (h : ValueHistory V T R) (rest : Upds V T R) : Prop where
  dec : List.Forall₂ (fun e u => h.edits.at? (e.2.2.1, e.2.2.2) = some u ∧ e.1 = u.2.1) h.history rest
  meets : MeetsOk (·.1) (·.2.1) h.history
  sorted : rest.Pairwise fun u v => toLin u.2.1 ≤ toLin v.2.1

theorem forall₂_map_eq {α β : Type*} {f : α → Option β} {l : List α} {us : List β} (h : l.map f = us.map some) :
    List.Forall₂ (fun a u => f a = some u) l us := by
  induction l generalizing us with
  | nil => cases us <;> simp_all
  | cons a l ih =>
    cases us with
    | nil => simp at h
    | cons u us =>
      simp only [List.map_cons, List.cons.injEq] at h
      exact List.Forall₂.cons h.1 (ih h.2)

theorem build_ok {V T R : Type*} [Lattice T] [LinearOrder (Lin T)] (gs : List (V × List (T × R))) :
    ∃ h rest, ValueHistory.build (EditList.ofGroups gs) = some h ∧ HistOk h rest ∧ rest.Perm (valUpds gs) ∧ h.buffer = [] := by
  obtain ⟨is, h1, h2, -⟩ := EditList.indexes_ofGroups gs
  have hf := forall₂_map_eq h2
  set el := EditList.ofGroups gs
  -- the unsorted entries
  have : ∃ hs : List (T × T × Nat × Nat),
      is.mapM (fun i => (el.edits[i.2]?).map fun e => (e.1, e.1, i.1, i.2)) = some hs
      ∧ List.Forall₂ (fun e u => el.at? (e.2.2.1, e.2.2.2) = some u ∧ e.1 = u.2.1) hs (valUpds gs)
      ∧ ∀ e ∈ hs, e.2.1 = e.1 := by
    clear h2 h1
    generalize valUpds gs = us at *
    induction hf with
    | nil => exact ⟨[], rfl, .nil, by simp⟩
    | @cons i u is us hi hf ih =>
      obtain ⟨hs, g1, g2, g3⟩ := ih
      have hi' := hi
      unfold EditList.at? at hi
      cases hv : el.values[i.1]? with
      | none => rw [hv] at hi; simp at hi
      | some value =>
        cases he : el.edits[i.2]? with
        | none => rw [hv, he] at hi; simp at hi
        | some ed =>
          rw [hv, he] at hi
          simp only [Option.some.injEq] at hi
          refine ⟨(ed.1, ed.1, i.1, i.2) :: hs, ?_, ?_, ?_⟩
          · simp only [List.mapM_cons]
            rw [g1, he]; rfl
          · exact .cons ⟨hi', by rw [← hi]⟩ g2
          · intro e he'
            rcases List.mem_cons.1 he' with rfl | he'
            · rfl
            · exact g3 e he'
  obtain ⟨hs, g1, g2, g3⟩ := this
  set ss := hs.insertionSort (fun x y => histKey x ≤ histKey y) with hss
  have hp : ss.Perm hs := List.perm_insertionSort _ _
  obtain ⟨rest, r1, r2⟩ := List.perm_comp_forall₂ hp g2
  obtain ⟨m1, m2⟩ := suffixMeets_spec ss fun e he => g3 e (hp.mem_iff.1 he)
  refine ⟨{ edits := el, history := suffixMeets ss, buffer := [] }, rest, ?_, ⟨?_, m1, ?_⟩, r2, rfl⟩
  · unfold ValueHistory.build; rw [h1]; simp only; rw [g1]
  · have h1' : List.Forall₂ (fun (p : T × Nat × Nat) (u : V × T × R) => el.at? (p.2.1, p.2.2) = some u ∧ p.1 = u.2.1)
        (ss.map fun e => (e.1, e.2.2)) rest := List.forall₂_map_left_iff.2 r1
    rw [← m2] at h1'
    exact List.forall₂_map_left_iff.1 h1'
  · have hsort : ss.Pairwise fun a b => toLin a.1 ≤ toLin b.1 := by
      have := List.pairwise_insertionSort (fun x y : T × T × Nat × Nat => histKey x ≤ histKey y) hs
      refine this.imp ?_
      intro a b h
      simp only [histKey] at h
      rw [Prod.Lex.toLex_le_toLex] at h
      rcases h with h | h
      · exact h.le
      · exact h.1.le
    have : (ss.map fun e => toLin e.1) = rest.map fun u => toLin u.2.1 := by
      clear hsort hp m1 m2 hss r2
      generalize ss = l at *
      induction r1 with
      | nil => rfl
      | cons h _ ih => simp only [List.map_cons]; rw [h.2, ih]
    have h3 := List.pairwise_map.2 hsort
    rw [this] at h3
    exact List.pairwise_map.1 h3

namespace ValueHistory
variable {V T R : Type*} [Lattice T] [LinearOrder (Lin T)]

theorem at?_some {el : EditList V T R} {i : Nat × Nat} {u : V × T × R} (h : el.at? i = some u) :
    ∃ n r, el.values[i.1]? = some (u.1, n) ∧ el.edits[i.2]? = some (u.2.1, r) ∧ r = u.2.2 := by
  unfold EditList.at? at h
  cases hv : el.values[i.1]? with
  | none => rw [hv] at h; simp at h
  | some value =>
    cases he : el.edits[i.2]? with
    | none => rw [hv, he] at h; simp at h
    | some ed =>
      rw [hv, he] at h
      simp only [Option.some.injEq] at h
      subst h
      exact ⟨value.2, ed.2, rfl, rfl, rfl⟩

theorem ok_nil {h : ValueHistory V T R} (hk : HistOk h []) : h.history = [] := by
  have := hk.dec; cases hh : h.history with
  | nil => rfl
  | cons e es => rw [hh] at this; cases this

theorem ok_done {h : ValueHistory V T R} {rest : Upds V T R} (hk : HistOk h rest) : h.isDone = rest.isEmpty := by
  have := hk.dec.length_eq
  unfold isDone
  cases hh : h.history <;> cases rest <;> simp_all

theorem ok_time {h : ValueHistory V T R} {rest : Upds V T R} (hk : HistOk h rest) : h.time = rest.head?.map (·.2.1) := by
  have := hk.dec
  unfold time
  cases hh : h.history <;> cases rest <;> rw [hh] at this <;> cases this
  · rfl
  · rename_i a b; simp [a.2]

theorem ok_edit {h : ValueHistory V T R} {rest : Upds V T R} (hk : HistOk h rest) : h.edit = some rest.head? := by
  have := hk.dec
  unfold edit
  cases hh : h.history <;> cases rest <;> rw [hh] at this <;> cases this
  · rfl
  · rename_i e es u us a b
    obtain ⟨n, r, h1, h2, h3⟩ := at?_some a.1
    simp only at h1 h2 ⊢
    rw [h1, h2]
    simp [a.2, h3]

theorem forall₂_times {h : ValueHistory V T R} {es : List (T × T × Nat × Nat)} {rest : Upds V T R}
    (hf : List.Forall₂ (fun e u => h.edits.at? (e.2.2.1, e.2.2.2) = some u ∧ e.1 = u.2.1) es rest) :
    {t | ∃ x ∈ es, x.1 = t} = {t | ∃ u ∈ rest, u.2.1 = t} := by
  ext t
  induction hf with
  | nil => simp
  | cons h _ ih =>
    simp only [Set.mem_setOf_eq, List.mem_cons, exists_eq_or_imp] at ih ⊢
    rw [h.2, ih]

theorem ok_meet {h : ValueHistory V T R} {u : V × T × R} {rest : Upds V T R} (hk : HistOk h (u :: rest)) :
    ∃ m, h.meet = some m ∧ IsGLB {t | ∃ x ∈ u :: rest, x.2.1 = t} m := by
  have h1 := hk.dec
  have h2 := hk.meets
  unfold meet
  cases hh : h.history with
  | nil => rw [hh] at h1; cases h1
  | cons e es =>
    rw [hh] at h1 h2
    refine ⟨e.2.1, rfl, ?_⟩
    rw [← forall₂_times h1]
    exact h2.1

theorem ok_step {h : ValueHistory V T R} {u : V × T × R} {rest : Upds V T R} (hk : HistOk h (u :: rest)) :
    ∃ h', h.step = some h' ∧ HistOk h' rest ∧ h'.buffer = h.buffer ++ [u] ∧ h'.history.length + 1 = h.history.length := by
  have h1 := hk.dec
  have h2 := hk.meets
  unfold step
  cases hh : h.history with
  | nil => rw [hh] at h1; cases h1
  | cons e es =>
    rw [hh] at h1 h2
    cases h1 with
    | cons a b =>
      obtain ⟨n, r, g1, g2, g3⟩ := at?_some a.1
      simp only at g1 g2
      refine ⟨{ h with history := es, buffer := h.buffer ++ [u] }, ?_, ⟨b, h2.2, (List.pairwise_cons.1 hk.sorted).2⟩, rfl, by simp⟩
      simp only
      rw [g1, g2]
      simp [a.2, g3]

theorem ok_stepWhile (p : T → Bool) : ∀ (n : Nat) {h : ValueHistory V T R} {rest : Upds V T R},
    HistOk h rest → rest.length ≤ n →
    ∃ h', stepWhile p n h = some (!(rest.takeWhile fun u => p u.2.1).isEmpty, h')
      ∧ HistOk h' (rest.dropWhile fun u => p u.2.1) ∧ h'.buffer = h.buffer ++ rest.takeWhile fun u => p u.2.1 := by
  intro n
  induction n with
  | zero =>
    intro h rest hk hn
    have : rest = [] := List.length_eq_zero_iff.1 (by omega)
    subst this
    exact ⟨h, rfl, hk, by simp⟩
  | succ n ih =>
    intro h rest hk hn
    unfold stepWhile
    rw [ok_time hk]
    cases rest with
    | nil => exact ⟨h, rfl, hk, by simp⟩
    | cons u rest =>
      simp only [List.head?_cons, Option.map_some]
      by_cases hp : p u.2.1
      · obtain ⟨h1, a1, a2, a3, _⟩ := ok_step hk
        obtain ⟨h', b1, b2, b3⟩ := ih a2 (by simpa using hn)
        rw [if_pos hp, a1]
        simp only
        refine ⟨h', ?_, ?_, ?_⟩
        · rw [b1]; simp [List.takeWhile_cons, hp]
        · simpa [List.dropWhile_cons, hp] using b2
        · rw [b3, a3]; simp [List.takeWhile_cons, hp]
      · rw [if_neg hp]
        refine ⟨h, ?_, ?_, ?_⟩
        · simp [List.takeWhile_cons, hp]
        · simpa [List.dropWhile_cons, hp] using hk
        · simp [List.takeWhile_cons, hp]

theorem ok_advance [LinearOrder V] [AddCommMonoid R] [DecidableEq R] {h : ValueHistory V T R} {rest : Upds V T R}
    (hk : HistOk h rest) (m : T) :
    ∃ h', h.advanceBufferBy m = some h' ∧ HistOk h' rest
      ∧ h'.buffer = consolidatedU (h.buffer.map fun e => (e.1, e.2.1 ⊔ m, e.2.2)) ∧ h'.history = h.history := by
  unfold advanceBufferBy
  rw [consolidateUpdates_eq]
  exact ⟨_, rfl, ⟨hk.dec, hk.meets, hk.sorted⟩, rfl, rfl⟩

end ValueHistory

theorem accum_advanced {V T R : Type*} [LinearOrder V] [Lattice T] [DecidableLE T] [LinearOrder (Lin T)] [AddCommMonoid R]
    [DecidableEq R] (us : Upds V T R) (m : T) (v : V) (q : T) (hm : m ≤ q) :
    accum (consolidatedU (us.map fun e => (e.1, e.2.1 ⊔ m, e.2.2))) v q = accum us v q := by
  rw [accum_consolidatedU]
  unfold accum
  rw [List.map_map]
  congr 1
  apply List.map_congr_left
  intro u _
  simp [Function.comp, sup_le_iff, hm]


/-! ### The wave -/

section
variable {V1 V2 T R1 R2 M : Type*} [Lattice T] [DecidableLE T] [LinearOrder V1] [LinearOrder V2] [LinearOrder (Lin T)]
  [AddCommMonoid R1] [DecidableEq R1] [AddCommMonoid R2] [DecidableEq R2] [AddCommMonoid M]

omit [LinearOrder (Lin T)] [DecidableEq R1] [DecidableEq R2] [AddCommMonoid R1] [AddCommMonoid R2] in
theorem joinAccum_append (mul : R1 → R2 → M) (a b : JoinOut V1 V2 T R1 R2) (v1 : V1) (v2 : V2) (q : T) :
    joinAccum mul (a ++ b) v1 v2 q = joinAccum mul a v1 v2 q + joinAccum mul b v1 v2 q := by simp [joinAccum]

omit [LinearOrder (Lin T)] [DecidableEq R1] [DecidableEq R2] in
theorem joinAccum_left (mul : R1 →+ R2 →+ M) (u : V1 × T × R1) (b : Upds V2 T R2) (v1 : V1) (v2 : V2) (q : T) :
    joinAccum (fun a b => mul a b) (b.map fun e => (u.1, e.1, u.2.1 ⊔ e.2.1, u.2.2, e.2.2)) v1 v2 q
      = if u.1 = v1 ∧ u.2.1 ≤ q then mul u.2.2 (accum b v2 q) else 0 := by
  induction b with
  | nil => simp [joinAccum]
  | cons e b ih =>
    have : ∀ l : JoinOut V1 V2 T R1 R2, ∀ x, joinAccum (fun a b => mul a b) (x :: l) v1 v2 q
        = (if x.1 = v1 ∧ x.2.1 = v2 ∧ x.2.2.1 ≤ q then mul x.2.2.2.1 x.2.2.2.2 else 0)
          + joinAccum (fun a b => mul a b) l v1 v2 q := by intro l x; simp [joinAccum]
    rw [List.map_cons, this, ih, accum_cons]
    simp only [sup_le_iff]
    by_cases h1 : u.1 = v1 ∧ u.2.1 ≤ q
    · obtain ⟨ha, hb⟩ := h1
      simp only [ha, hb, true_and, and_self, if_true, map_add]
      congr 1
      split_ifs <;> simp
    · rw [if_neg h1, if_neg h1, if_neg (by tauto), zero_add]

omit [LinearOrder (Lin T)] [DecidableEq R1] [DecidableEq R2] in
theorem joinAccum_right (mul : R1 →+ R2 →+ M) (b : Upds V1 T R1) (u : V2 × T × R2) (v1 : V1) (v2 : V2) (q : T) :
    joinAccum (fun a b => mul a b) (b.map fun e => (e.1, u.1, e.2.1 ⊔ u.2.1, e.2.2, u.2.2)) v1 v2 q
      = if u.1 = v2 ∧ u.2.1 ≤ q then mul (accum b v1 q) u.2.2 else 0 := by
  induction b with
  | nil => simp [joinAccum]
  | cons e b ih =>
    have : ∀ l : JoinOut V1 V2 T R1 R2, ∀ x, joinAccum (fun a b => mul a b) (x :: l) v1 v2 q
        = (if x.1 = v1 ∧ x.2.1 = v2 ∧ x.2.2.1 ≤ q then mul x.2.2.2.1 x.2.2.2.2 else 0)
          + joinAccum (fun a b => mul a b) l v1 v2 q := by intro l x; simp [joinAccum]
    rw [List.map_cons, this, ih, accum_cons]
    simp only [sup_le_iff]
    by_cases h1 : u.1 = v2 ∧ u.2.1 ≤ q
    · obtain ⟨ha, hb⟩ := h1
      simp only [ha, hb, true_and, and_true, and_self, if_true, map_add, AddMonoidHom.add_apply]
      congr 1
      split_ifs <;> simp
    · rw [if_neg h1, if_neg h1, if_neg (by tauto), zero_add]

omit [LinearOrder (Lin T)] [DecidableEq R1] [DecidableEq R2] in
theorem joinAccum_cross (mul : R1 →+ R2 →+ M) (us1 : Upds V1 T R1) (us2 : Upds V2 T R2) (v1 : V1) (v2 : V2) (q : T) :
    joinAccum (fun a b => mul a b)
      (us1.flatMap fun u1 => us2.map fun u2 => (u1.1, u2.1, u1.2.1 ⊔ u2.2.1, u1.2.2, u2.2.2)) v1 v2 q
      = mul (accum us1 v1 q) (accum us2 v2 q) := by
  induction us1 with
  | nil => simp [joinAccum]
  | cons u us1 ih =>
    rw [List.flatMap_cons, joinAccum_append, ih, joinAccum_left mul, accum_cons]
    rw [map_add, AddMonoidHom.add_apply]
    congr 1
    split_ifs <;> simp

/-- The state of the wave. -/
structure WaveInv (h1 : ValueHistory V1 T R1) (h2 : ValueHistory V2 T R2) (s1 r1 : Upds V1 T R1) (s2 r2 : Upds V2 T R2) :
    Prop where
  ok1 : HistOk h1 r1
  ok2 : HistOk h2 r2
  buf1 : ∀ u ∈ r2, ∀ v q, u.2.1 ≤ q → accum h1.buffer v q = accum s1 v q
  buf2 : ∀ u ∈ r1, ∀ v q, u.2.1 ≤ q → accum h2.buffer v q = accum s2 v q

theorem waveLeft_spec {h1 : ValueHistory V1 T R1} {h2 : ValueHistory V2 T R2} {s1 r1 : Upds V1 T R1} {u : V1 × T × R1}
    {s2 r2 : Upds V2 T R2} (hi : WaveInv h1 h2 s1 (u :: r1) s2 r2) :
    ∃ h1' h2' out, waveLeft h1 h2 = some (h1', h2', out) ∧ WaveInv h1' h2' (s1 ++ [u]) r1 s2 r2
      ∧ ∀ (mul : R1 →+ R2 →+ M) v1 v2 q, joinAccum (fun a b => mul a b) out v1 v2 q
          + mul (accum s1 v1 q) (accum s2 v2 q) = mul (accum (s1 ++ [u]) v1 q) (accum s2 v2 q) := by
  obtain ⟨m, hm, glb⟩ := ValueHistory.ok_meet hi.ok1
  obtain ⟨h2', a1, a2, a3, _⟩ := ValueHistory.ok_advance hi.ok2 m
  obtain ⟨h1', b1, b2, b3, _⟩ := ValueHistory.ok_step hi.ok1
  have hbuf : ∀ x ∈ u :: r1, ∀ v q, x.2.1 ≤ q → accum h2'.buffer v q = accum s2 v q := by
    intro x hx v q hq
    rw [a3, accum_advanced _ _ _ _ ((glb.1 ⟨x, hx, rfl⟩).trans hq)]
    exact hi.buf2 x hx v q hq
  refine ⟨h1', h2', h2'.buffer.map fun e => (u.1, e.1, u.2.1 ⊔ e.2.1, u.2.2, e.2.2), ?_, ⟨b2, a2, ?_, ?_⟩, ?_⟩
  · unfold waveLeft
    rw [hm]
    simp only
    rw [a1, ValueHistory.ok_edit hi.ok1, b1]
    rfl
  · intro x hx v q hq
    rw [b3, accum_append, accum_append, hi.buf1 x hx v q hq]
  · intro x hx v q hq
    exact hbuf x (by simp [hx]) v q hq
  · intro mul v1 v2 q
    rw [joinAccum_left mul, accum_append, map_add, AddMonoidHom.add_apply, add_comm]
    congr 1
    by_cases h : u.1 = v1 ∧ u.2.1 ≤ q
    · rw [if_pos h, hbuf u (by simp) v2 q h.2]
      simp [accum, h]
    · rw [if_neg h]
      simp [accum, h]

theorem waveRight_spec {h1 : ValueHistory V1 T R1} {h2 : ValueHistory V2 T R2} {s1 r1 : Upds V1 T R1} {u : V2 × T × R2}
    {s2 r2 : Upds V2 T R2} (hi : WaveInv h1 h2 s1 r1 s2 (u :: r2)) :
    ∃ h1' h2' out, waveRight h1 h2 = some (h1', h2', out) ∧ WaveInv h1' h2' s1 r1 (s2 ++ [u]) r2
      ∧ ∀ (mul : R1 →+ R2 →+ M) v1 v2 q, joinAccum (fun a b => mul a b) out v1 v2 q
          + mul (accum s1 v1 q) (accum s2 v2 q) = mul (accum s1 v1 q) (accum (s2 ++ [u]) v2 q) := by
  obtain ⟨m, hm, glb⟩ := ValueHistory.ok_meet hi.ok2
  obtain ⟨h1', a1, a2, a3, _⟩ := ValueHistory.ok_advance hi.ok1 m
  obtain ⟨h2', b1, b2, b3, _⟩ := ValueHistory.ok_step hi.ok2
  have hbuf : ∀ x ∈ u :: r2, ∀ v q, x.2.1 ≤ q → accum h1'.buffer v q = accum s1 v q := by
    intro x hx v q hq
    rw [a3, accum_advanced _ _ _ _ ((glb.1 ⟨x, hx, rfl⟩).trans hq)]
    exact hi.buf1 x hx v q hq
  refine ⟨h1', h2', h1'.buffer.map fun e => (e.1, u.1, e.2.1 ⊔ u.2.1, e.2.2, u.2.2), ?_, ⟨a2, b2, ?_, ?_⟩, ?_⟩
  · unfold waveRight
    rw [hm]
    simp only
    rw [a1, ValueHistory.ok_edit hi.ok2, b1]
    rfl
  · intro x hx v q hq
    exact hbuf x (by simp [hx]) v q hq
  · intro x hx v q hq
    rw [b3, accum_append, accum_append, hi.buf2 x hx v q hq]
  · intro mul v1 v2 q
    rw [joinAccum_right mul, accum_append, map_add, add_comm]
    congr 1
    by_cases h : u.1 = v2 ∧ u.2.1 ≤ q
    · rw [if_pos h, hbuf u (by simp) v1 q h.2]
      simp [accum, h]
    · rw [if_neg h]
      simp [accum, h]

theorem waveLoop_spec : ∀ (n : Nat) {h1 : ValueHistory V1 T R1} {h2 : ValueHistory V2 T R2} {s1 r1 : Upds V1 T R1}
    {s2 r2 : Upds V2 T R2}, WaveInv h1 h2 s1 r1 s2 r2 → r1.length + r2.length ≤ n →
    ∃ out, waveLoop n h1 h2 = some out
      ∧ ∀ (mul : R1 →+ R2 →+ M) v1 v2 q, joinAccum (fun a b => mul a b) out v1 v2 q
          + mul (accum s1 v1 q) (accum s2 v2 q) = mul (accum (s1 ++ r1) v1 q) (accum (s2 ++ r2) v2 q) := by
  intro n
  induction n with
  | zero =>
    intro h1 h2 s1 r1 s2 r2 hi hn
    have e1 : r1 = [] := List.length_eq_zero_iff.1 (by omega)
    have e2 : r2 = [] := List.length_eq_zero_iff.1 (by omega)
    subst e1 e2
    exact ⟨[], rfl, fun mul v1 v2 q => by simp [joinAccum]⟩
  | succ n ih =>
    intro h1 h2 s1 r1 s2 r2 hi hn
    have goL : ∀ u r1', r1 = u :: r1' → ∃ out, (match waveLeft h1 h2 with
        | none => none
        | some (h1', h2', out) => (waveLoop n h1' h2').map (out ++ ·)) = some out
      ∧ ∀ (mul : R1 →+ R2 →+ M) v1 v2 q, joinAccum (fun a b => mul a b) out v1 v2 q
          + mul (accum s1 v1 q) (accum s2 v2 q) = mul (accum (s1 ++ r1) v1 q) (accum (s2 ++ r2) v2 q) := by
      rintro u r1' rfl
      obtain ⟨h1', h2', o, a1, a2, a3⟩ := waveLeft_spec (M := M) hi
      obtain ⟨out, b1, b2⟩ := ih a2 (by simp at hn; omega)
      refine ⟨o ++ out, ?_, ?_⟩
      · rw [a1]; simp only; rw [b1]; rfl
      · intro mul v1 v2 q
        have := b2 mul v1 v2 q
        rw [List.append_assoc, List.singleton_append] at this
        rw [joinAccum_append, ← this, ← a3 mul v1 v2 q, add_comm (joinAccum _ o _ _ _), add_assoc]
    have goR : ∀ u r2', r2 = u :: r2' → ∃ out, (match waveRight h1 h2 with
        | none => none
        | some (h1', h2', out) => (waveLoop n h1' h2').map (out ++ ·)) = some out
      ∧ ∀ (mul : R1 →+ R2 →+ M) v1 v2 q, joinAccum (fun a b => mul a b) out v1 v2 q
          + mul (accum s1 v1 q) (accum s2 v2 q) = mul (accum (s1 ++ r1) v1 q) (accum (s2 ++ r2) v2 q) := by
      rintro u r2' rfl
      obtain ⟨h1', h2', o, a1, a2, a3⟩ := waveRight_spec (M := M) hi
      obtain ⟨out, b1, b2⟩ := ih a2 (by simp at hn; omega)
      refine ⟨o ++ out, ?_, ?_⟩
      · rw [a1]; simp only; rw [b1]; rfl
      · intro mul v1 v2 q
        have := b2 mul v1 v2 q
        rw [List.append_assoc, List.singleton_append] at this
        rw [joinAccum_append, ← this, ← a3 mul v1 v2 q, add_comm (joinAccum _ o _ _ _), add_assoc]
    unfold waveLoop
    rw [ValueHistory.ok_time hi.ok1, ValueHistory.ok_time hi.ok2]
    cases e1 : r1 with
    | nil =>
      cases e2 : r2 with
      | nil => subst e1 e2; exact ⟨[], rfl, fun mul v1 v2 q => by simp [joinAccum]⟩
      | cons u r2' =>
        have := goR u r2' e2
        rw [e1, e2] at this
        simp only [List.head?_nil, List.head?_cons, Option.map_none, Option.map_some]
        cases hw : waveRight h1 h2 with
        | none => rw [hw] at this; exact this
        | some x => rw [hw] at this; exact this
    | cons u r1' =>
      cases e2 : r2 with
      | nil =>
        have := goL u r1' e1
        rw [e1, e2] at this
        simp only [List.head?_nil, List.head?_cons, Option.map_none, Option.map_some]
        cases hw : waveLeft h1 h2 with
        | none => rw [hw] at this; exact this
        | some x => rw [hw] at this; exact this
      | cons u' r2' =>
        simp only [List.head?_cons, Option.map_some]
        by_cases hlt : toLin u.2.1 < toLin u'.2.1
        · have := goL u r1' e1
          rw [e1, e2] at this
          rw [if_pos hlt]
          cases hw : waveLeft h1 h2 with
          | none => rw [hw] at this; exact this
          | some x => rw [hw] at this; exact this
        · have := goR u' r2' e2
          rw [e1, e2] at this
          rw [if_neg hlt]
          cases hw : waveRight h1 h2 with
          | none => rw [hw] at this; exact this
          | some x => rw [hw] at this; exact this

theorem think_spec (limit : Nat) (gs1 : List (V1 × List (T × R1))) (gs2 : List (V2 × List (T × R2))) :
    ∃ out, think limit (EditList.ofGroups gs1) (EditList.ofGroups gs2) = some out
      ∧ ∀ (mul : R1 →+ R2 →+ M) v1 v2 q, joinAccum (fun a b => mul a b) out v1 v2 q
          = mul (accum (valUpds gs1) v1 q) (accum (valUpds gs2) v2 q) := by
  unfold think
  by_cases h : (EditList.ofGroups gs1).edits.length < limit ∨ (EditList.ofGroups gs2).edits.length < limit
  · rw [if_pos h]
    unfold crossProduct
    rw [EditList.map_ofGroups, EditList.map_ofGroups]
    exact ⟨_, rfl, fun mul v1 v2 q => joinAccum_cross mul _ _ v1 v2 q⟩
  · rw [if_neg h]
    obtain ⟨h1, r1, a1, a2, a3, a4⟩ := build_ok gs1
    obtain ⟨h2, r2, b1, b2, b3, b4⟩ := build_ok gs2
    rw [a1, b1]
    simp only
    unfold bilinearWave
    have hi : WaveInv h1 h2 [] r1 [] r2 := ⟨a2, b2, fun _ _ _ _ _ => by rw [a4], fun _ _ _ _ _ => by rw [b4]⟩
    obtain ⟨out, c1, c2⟩ := waveLoop_spec (M := M) (h1.history.length + h2.history.length) hi
      (by rw [a2.dec.length_eq, b2.dec.length_eq])
    refine ⟨out, c1, fun mul v1 v2 q => ?_⟩
    have := c2 mul v1 v2 q
    simp only [accum_nil, map_zero, AddMonoidHom.zero_apply, add_zero, List.nil_append] at this
    rw [this, accum_perm a3, accum_perm b3]

end


/-! ### Runs of operations -/

section
variable {V T R : Type*} [Lattice T] [DecidableLE T] [DecidableEq T] [LinearOrder V] [LinearOrder (Lin T)]
  [AddCommMonoid R] [DecidableEq R]

theorem hist_run (ops : List (HistOp T)) : ∀ {h : ValueHistory V T R} {w w' : HistWalk V T R},
    HistOk h w.rest → w.run ops = some w' →
    ∃ h', h.run ops = some h' ∧ HistOk h' w'.rest
      ∧ (∀ q, (∀ m ∈ HistOp.advances ops, m ≤ q) → (∀ v, accum h.buffer v q = accum w.stepped v q) →
          ∀ v, accum h'.buffer v q = accum w'.stepped v q) := by
  induction ops with
  | nil =>
    intro h w w' hk hw
    simp only [HistWalk.run, Option.some.injEq] at hw
    subst hw
    exact ⟨h, rfl, hk, fun _ _ hb => hb⟩
  | cons op ops ih =>
    intro h w w' hk hw
    simp only [HistWalk.run] at hw
    cases ha : w.apply op with
    | none => rw [ha] at hw; simp at hw
    | some w1 =>
      rw [ha] at hw
      simp only at hw
      have key : ∃ h1, h.apply op = some h1 ∧ HistOk h1 w1.rest
          ∧ (∀ q, (∀ m ∈ HistOp.advances [op], m ≤ q) → (∀ v, accum h.buffer v q = accum w.stepped v q) →
            ∀ v, accum h1.buffer v q = accum w1.stepped v q) := by
        cases op with
        | step =>
          simp only [HistWalk.apply] at ha
          cases hr : w.rest with
          | nil => rw [hr] at ha; simp at ha
          | cons u us =>
            rw [hr] at ha hk
            simp only [Option.some.injEq] at ha
            subst ha
            obtain ⟨h1, a1, a2, a3, _⟩ := ValueHistory.ok_step hk
            exact ⟨h1, a1, a2, fun q _ hb v => by rw [a3, accum_append, accum_append, hb]⟩
        | whileTimeIs t =>
          simp only [HistWalk.apply, Option.some.injEq] at ha
          subst ha
          obtain ⟨h1, a1, a2, a3⟩ := ValueHistory.ok_stepWhile (fun x => decide (x = t)) h.history.length hk
            (by rw [hk.dec.length_eq])
          refine ⟨h1, ?_, a2, fun q _ hb v => ?_⟩
          · simp only [ValueHistory.apply, ValueHistory.stepWhileTimeIs, a1, Option.map_some]
          · rw [a3]; simp only [HistWalk.goWhile, accum_append, hb]
        | through t =>
          simp only [HistWalk.apply, Option.some.injEq] at ha
          subst ha
          obtain ⟨h1, a1, a2, a3⟩ := ValueHistory.ok_stepWhile (fun x => decide (toLin x ≤ toLin t)) h.history.length hk
            (by rw [hk.dec.length_eq])
          refine ⟨h1, ?_, a2, fun q _ hb v => ?_⟩
          · simp only [ValueHistory.apply, ValueHistory.stepThrough, a1, Option.map_some]
          · rw [a3]; simp only [HistWalk.goWhile, accum_append, hb]
        | advance m =>
          simp only [HistWalk.apply, Option.some.injEq] at ha
          subst ha
          obtain ⟨h1, a1, a2, a3, _⟩ := ValueHistory.ok_advance hk m
          refine ⟨h1, a1, a2, fun q hq hb v => ?_⟩
          rw [a3, accum_advanced _ _ _ _ (hq m (by simp [HistOp.advances])), hb]
      obtain ⟨h1, a1, a2, a3⟩ := key
      obtain ⟨h', b1, b2, b3⟩ := ih a2 hw
      refine ⟨h', ?_, b2, fun q hq hb => ?_⟩
      · simp only [ValueHistory.run, a1]; exact b1
      · have hsplit : HistOp.advances (op :: ops) = HistOp.advances [op] ++ HistOp.advances ops := by
          simp only [HistOp.advances, ← List.filterMap_append]; rfl
        rw [hsplit] at hq
        exact b3 q (fun m hm => hq m (by simp [hm])) (a3 q (fun m hm => hq m (by simp [hm])) hb)

omit [DecidableLE T] [DecidableEq T] [LinearOrder V] in
theorem loadGroups_mem (meet : Option T) (vals : List (V × List (T × R))) :
    ∀ u ∈ valUpds (EditList.loadGroups meet vals), ∃ vu ∈ vals, ∃ x ∈ vu.2, u.1 = vu.1 ∧ u.2.1 = joinOpt meet x.1 := by
  intro u hu
  simp only [valUpds, EditList.loadGroups, List.mem_flatMap, List.mem_filterMap, List.mem_map] at hu
  obtain ⟨g, ⟨vu, hvu, hg⟩, x, hx, rfl⟩ := hu
  split_ifs at hg
  simp only [Option.some.injEq] at hg
  subst hg
  refine ⟨vu, hvu, ?_⟩
  obtain ⟨y, hy, e⟩ := consolidatedL_mem_key (timeLayout T R) (timeLayout_lawful T R) _ x hx
  obtain ⟨z, hz, rfl⟩ := List.mem_map.1 hy
  exact ⟨z, hz, rfl, e⟩

end


/-! ### Loading from an iterator -/

section
variable {V T R : Type*} [Lattice T] [DecidableLE T] [DecidableEq V] [LinearOrder (Lin T)]
  [AddCommMonoid R] [DecidableEq R]

/-- The state of `load_iter`: closed groups, and edits pushed for the current value. -/
structure LoadIterInv (adv : Option T) (st : EditList V T R × Option V) (gs : List (V × List (T × R))) (pend : List (T × R))
    (seen : Upds V T R) : Prop where
  list : st.1 = { values := (EditList.ofGroups gs).values, edits := (EditList.ofGroups gs).edits ++ pend }
  cur : st.2 = none → pend = []
  acc : ∀ v q, (∀ m ∈ adv, m ≤ q) →
    accum (valUpds gs) v q + accum (((st.2.map fun x => pend.map fun u => (x, u.1, u.2)).getD [])) v q = accum seen v q
  adv1 : ∀ u ∈ valUpds gs, ∃ w ∈ seen, u.2.1 = joinOpt adv w.2.1
  adv2 : ∀ u ∈ pend, ∃ w ∈ seen, u.1 = joinOpt adv w.2.1

omit [DecidableLE T] [DecidableEq V] [LinearOrder (Lin T)] [AddCommMonoid R] [DecidableEq R] in
theorem valUpds_snoc (gs : List (V × List (T × R))) (g : V × List (T × R)) :
    valUpds (gs ++ [g]) = valUpds gs ++ g.2.map fun u => (g.1, u.1, u.2) := by simp [valUpds]

theorem seal_inv {adv : Option T} {st : EditList V T R × Option V} {gs : List (V × List (T × R))} {pend : List (T × R)}
    {seen : Upds V T R} (hi : LoadIterInv adv st gs pend seen) {pv : V} (hp : st.2 = some pv) :
    ∃ gs', st.1.«seal» pv = some (EditList.ofGroups gs')
      ∧ (∀ v q, (∀ m ∈ adv, m ≤ q) → accum (valUpds gs') v q = accum seen v q)
      ∧ ∀ u ∈ valUpds gs', ∃ w ∈ seen, u.2.1 = joinOpt adv w.2.1 := by
  have h0 := EditList.seal_spec (V := V) gs pend pv
  rw [← hi.list] at h0
  refine ⟨_, h0, ?_, ?_⟩
  · intro v q hq
    rw [← hi.acc v q hq, hp]
    have := accum_loadVal (none : Option T) pv pend v q (by simp)
    simp only [EditList.loadGroups, joinOpt, List.map_id', List.filterMap_cons, List.filterMap_nil] at this
    simp only [Option.map_some, Option.getD_some]
    rw [← this]
    split_ifs with h
    · simp
    · simp [valUpds_snoc, accum_append]
  · intro u hu
    split_ifs at hu with h
    · exact hi.adv1 u hu
    · rw [valUpds_snoc, List.mem_append] at hu
      rcases hu with hu | hu
      · exact hi.adv1 u hu
      · obtain ⟨x, hx, rfl⟩ := List.mem_map.1 hu
        obtain ⟨y, hy, e⟩ := consolidatedL_mem_key (timeLayout T R) (timeLayout_lawful T R) _ x hx
        have := hi.adv2 y hy
        have e' : x.1 = y.1 := e
        simpa [e'] using this

omit [DecidableLE T] [DecidableEq V] [LinearOrder (Lin T)] [AddCommMonoid R] [DecidableEq R] in
theorem le_joinOpt_right (adv : Option T) (t : T) : ∀ m ∈ adv, m ≤ joinOpt adv t := by
  intro m hm
  rw [Option.mem_def] at hm
  subst hm
  exact le_sup_right

theorem loadIterStep_inv {adv : Option T} {st : EditList V T R × Option V} {gs : List (V × List (T × R))} {pend : List (T × R)}
    {seen : Upds V T R} (hi : LoadIterInv adv st gs pend seen) (u : V × T × R) :
    ∃ st' gs' pend', ValueHistory.loadIterStep adv st u = some st' ∧ LoadIterInv adv st' gs' pend' (seen ++ [u]) := by
  have hacc : ∀ v q, (∀ m ∈ adv, m ≤ q) →
      accum [(u.1, joinOpt adv u.2.1, u.2.2)] v q = accum [u] v q := by
    intro v q hq
    simp [accum, joinOpt_le_iff hq]
  have new : ∀ gs', (∀ v q, (∀ m ∈ adv, m ≤ q) → accum (valUpds gs') v q = accum seen v q) →
      (∀ x ∈ valUpds gs', ∃ w ∈ seen, x.2.1 = joinOpt adv w.2.1) →
      LoadIterInv adv ((EditList.ofGroups gs').push (joinOpt adv u.2.1) u.2.2, some u.1) gs' [(joinOpt adv u.2.1, u.2.2)]
        (seen ++ [u]) := by
    intro gs' h1 h2
    refine ⟨rfl, by simp, ?_, fun x hx => by obtain ⟨w, hw, e⟩ := h2 x hx; exact ⟨w, by simp [hw], e⟩, ?_⟩
    · intro v q hq
      rw [h1 v q hq, accum_append]
      congr 1
      simpa using hacc v q hq
    · intro x hx
      simp only [List.mem_singleton] at hx
      subst hx
      exact ⟨u, by simp, rfl⟩
  unfold ValueHistory.loadIterStep
  by_cases hc : st.2 = some u.1
  · simp only [hc, ne_eq, not_true_eq_false, if_false]
    refine ⟨_, gs, pend ++ [(joinOpt adv u.2.1, u.2.2)], rfl, ⟨?_, by simp, ?_, fun x hx => by obtain ⟨w, hw, e⟩ := hi.adv1 x hx; exact ⟨w, by simp [hw], e⟩, ?_⟩⟩
    · simp only; rw [hi.list]; simp [EditList.push]
    · intro v q hq
      rw [accum_append, ← hi.acc v q hq, hc, ← hacc v q hq]
      simp only [Option.map_some, Option.getD_some, List.map_append, accum_append, add_assoc]
      rfl
    · intro x hx
      rcases List.mem_append.1 hx with hx | hx
      · obtain ⟨w, hw, e⟩ := hi.adv2 x hx
        exact ⟨w, by simp [hw], e⟩
      · simp only [List.mem_singleton] at hx
        subst hx
        exact ⟨u, by simp, rfl⟩
  · simp only [ne_eq, hc, not_false_eq_true, if_true]
    cases h2 : st.2 with
    | none =>
      have hpend := hi.cur h2
      have hl := hi.list
      rw [hpend] at hl
      simp only
      have e : st.1 = EditList.ofGroups gs := by rw [hl]; simp
      rw [e]
      refine ⟨_, gs, _, rfl, new gs ?_ hi.adv1⟩
      intro v q hq
      have := hi.acc v q hq
      rw [h2] at this
      simpa using this
    | some pv =>
      obtain ⟨gs', a1, a2, a3⟩ := seal_inv hi h2
      simp only
      rw [a1]
      exact ⟨_, gs', _, rfl, new gs' a2 a3⟩

theorem loadIter_fold {adv : Option T} (us : Upds V T R) : ∀ {st : EditList V T R × Option V} {gs : List (V × List (T × R))}
    {pend : List (T × R)} {seen : Upds V T R}, LoadIterInv adv st gs pend seen →
    ∃ st' gs' pend', us.foldlM (ValueHistory.loadIterStep adv) st = some st' ∧ LoadIterInv adv st' gs' pend' (seen ++ us) := by
  induction us with
  | nil => intro st gs pend seen hi; exact ⟨st, gs, pend, rfl, by simpa using hi⟩
  | cons u us ih =>
    intro st gs pend seen hi
    obtain ⟨st1, gs1, p1, a1, a2⟩ := loadIterStep_inv hi u
    obtain ⟨st', gs', p', b1, b2⟩ := ih a2
    refine ⟨st', gs', p', ?_, by simpa using b2⟩
    rw [List.foldlM_cons, a1]
    exact b1

theorem loadIter_src (us : Upds V T R) (adv : Option T) :
    ∃ h rest, ValueHistory.loadIter us adv = some h ∧ HistOk h rest ∧ h.buffer = []
      ∧ (∀ v q, (∀ m ∈ adv, m ≤ q) → accum rest v q = accum us v q) ∧ ∀ u ∈ rest, ∃ w ∈ us, u.2.1 = joinOpt adv w.2.1 := by
  have h0 : LoadIterInv (R := R) adv (EditList.empty (V := V), none) [] [] [] :=
    ⟨rfl, fun _ => rfl, fun v q _ => by simp [valUpds], by simp [valUpds], by simp⟩
  obtain ⟨st, gs, pend, a1, a2⟩ := loadIter_fold us h0
  rw [List.nil_append] at a2
  unfold ValueHistory.loadIter
  rw [a1]
  obtain ⟨el, cur⟩ := st
  have fin : ∀ gs', (∀ v q, (∀ m ∈ adv, m ≤ q) → accum (valUpds gs') v q = accum us v q) →
      (∀ x ∈ valUpds gs', ∃ w ∈ us, x.2.1 = joinOpt adv w.2.1) →
      ∃ h rest, ValueHistory.build (EditList.ofGroups gs') = some h ∧ HistOk h rest ∧ h.buffer = []
      ∧ (∀ v q, (∀ m ∈ adv, m ≤ q) → accum rest v q = accum us v q) ∧ ∀ u ∈ rest, ∃ w ∈ us, u.2.1 = joinOpt adv w.2.1 := by
    intro gs' h1 h2
    obtain ⟨h, rest, b1, b2, b3, b4⟩ := build_ok gs'
    exact ⟨h, rest, b1, b2, b4, fun v q hq => by rw [accum_perm b3, h1 v q hq], fun u hu => h2 u (b3.mem_iff.1 hu)⟩
  cases cur with
  | none =>
    have hl := a2.list
    rw [a2.cur rfl] at hl
    simp only [List.append_nil] at hl
    simp only
    rw [hl]
    refine fin gs (fun v q hq => ?_) a2.adv1
    have := a2.acc v q hq
    simpa using this
  | some pv =>
    obtain ⟨gs', b1, b2, b3⟩ := seal_inv a2 rfl
    simp only
    simp only at b1
    rw [b1]
    exact fin gs' b2 b3

theorem loadIter_ok (us : Upds V T R) (adv : Option T) :
    ∃ h rest, ValueHistory.loadIter us adv = some h ∧ HistOk h rest ∧ h.buffer = []
      ∧ (∀ v q, (∀ m ∈ adv, m ≤ q) → accum rest v q = accum us v q) ∧ ∀ u ∈ rest, ∀ m ∈ adv, m ≤ u.2.1 := by
  obtain ⟨h, rest, a1, a2, a3, a4, a5⟩ := loadIter_src us adv
  refine ⟨h, rest, a1, a2, a3, a4, fun u hu m hm => ?_⟩
  obtain ⟨w, -, e⟩ := a5 u hu
  rw [e]
  exact le_joinOpt_right adv _ m hm

end

/-! ### Histories of times -/

section
variable {T : Type*} [Lattice T] [LinearOrder (Lin T)] [DecidableEq T]

omit [LinearOrder (Lin T)] [DecidableEq T] in
theorem timeSuffixMeets_spec (es : List (T × T)) (h : ∀ e ∈ es, e.2 = e.1) :
    MeetsOk (·.1) (·.2) (timeSuffixMeets es) ∧ (timeSuffixMeets es).map (·.1) = es.map (·.1) := by
  induction es with
  | nil => exact ⟨trivial, rfl⟩
  | cons e es ih =>
    obtain ⟨h1, h2⟩ := ih fun x hx => h x (by simp [hx])
    cases es with
    | nil =>
      refine ⟨⟨?_, trivial⟩, rfl⟩
      have := h e (by simp)
      constructor
      · rintro t ⟨x, hx, rfl⟩
        simp only [List.mem_singleton] at hx; subst hx; exact this.le
      · intro b hb
        show b ≤ e.2
        rw [this]; exact hb ⟨e, by simp, rfl⟩
    | cons e' es =>
      simp only [timeSuffixMeets]
      cases hs : timeSuffixMeets (e' :: es) with
      | nil => rw [hs] at h2; simp at h2
      | cons p ps =>
        rw [hs] at h1 h2
        simp only
        refine ⟨⟨?_, h1⟩, ?_⟩
        · have := isGLB_cons (fun x : T × T => x.1) (e.1, e.2 ⊓ p.2) (p :: ps) h1.1
          simp only at this ⊢
          rw [h e (by simp)] at this ⊢
          exact this
        · rw [List.map_cons, h2]; rfl

omit [Lattice T] [LinearOrder (Lin T)] in
theorem mem_dedupAdj (ts : List T) (x : T) : x ∈ dedupAdj ts ↔ x ∈ ts := by
  induction ts with
  | nil => simp [dedupAdj]
  | cons t ts ih =>
    cases ts with
    | nil => simp [dedupAdj]
    | cons t' ts =>
      simp only [dedupAdj]
      split_ifs with h
      · rw [ih]; simp [h]
      · rw [List.mem_cons, ih, List.mem_cons (a := x) (b := t)]

omit [Lattice T] in
theorem mem_sortDedup (ts : List T) (x : T) : x ∈ sortDedup ts ↔ x ∈ ts := by
  unfold sortDedup
  rw [mem_dedupAdj]
  exact (List.perm_insertionSort _ _).mem_iff

omit [Lattice T] in
theorem dedupAdj_sorted (ts : List T) (h : ts.Pairwise fun a b => toLin a ≤ toLin b) :
    (dedupAdj ts).Pairwise fun a b => toLin a < toLin b := by
  induction ts with
  | nil => simp [dedupAdj]
  | cons t ts ih =>
    cases ts with
    | nil => simp [dedupAdj]
    | cons t' ts =>
      have h' := List.pairwise_cons.1 h
      simp only [dedupAdj]
      split_ifs with e
      · exact ih h'.2
      · refine List.pairwise_cons.2 ⟨fun x hx => ?_, ih h'.2⟩
        rw [mem_dedupAdj] at hx
        have h1 : toLin t < toLin t' := lt_of_le_of_ne (h'.1 t' (by simp)) (fun c => e c.symm)
        rcases List.mem_cons.1 hx with rfl | hx
        · exact h1
        · exact h1.trans_le ((List.pairwise_cons.1 h'.2).1 x hx)

omit [Lattice T] in
theorem sortDedup_sorted (ts : List T) : (sortDedup ts).Pairwise fun a b => toLin a < toLin b := by
  refine dedupAdj_sorted _ ?_
  exact List.pairwise_insertionSort (fun a b : T => toLin a ≤ toLin b) ts

/-- A history of times that has `rest` left. -/
structure TimesOk (h : TimeHistory T) (rest : List T) : Prop where
  dec : h.history.map (·.1) = rest
  meets : MeetsOk (·.1) (·.2) h.history
  sorted : rest.Pairwise fun a b => toLin a ≤ toLin b

namespace TimeHistory

omit [DecidableEq T] in
theorem load_ok (times : List T) (adv : Option T) :
    ∃ rest, TimesOk (load times adv) rest ∧ rest.Perm (times.map (joinOpt adv)) ∧ (load times adv).buffer = [] := by
  set es := ((times.map (joinOpt adv)).map fun t => (t, t)) with hes
  set ss := es.insertionSort (fun x y : T × T => toLin x.1 ≤ toLin y.1) with hss
  have hp : ss.Perm es := List.perm_insertionSort _ _
  have he : ∀ e ∈ ss, e.2 = e.1 := by
    intro e he
    have := hp.mem_iff.1 he
    simp only [hes, List.mem_map] at this
    obtain ⟨t, _, rfl⟩ := this
    rfl
  obtain ⟨h1, h2⟩ := timeSuffixMeets_spec ss he
  refine ⟨ss.map (fun e => e.1), ⟨by exact h2, by exact h1, ?_⟩, ?_, rfl⟩
  · exact List.pairwise_map.2 (List.pairwise_insertionSort (fun x y : T × T => toLin x.1 ≤ toLin y.1) es)
  · have := hp.map (·.1)
    simpa [hes, Function.comp_def] using this

omit [DecidableEq T] in
theorem ofHistory_ok {V R : Type*} {h : ValueHistory V T R} {rest : Upds V T R} (hk : HistOk h rest) :
    TimesOk (ofHistory h) (rest.map (·.2.1)) := by
  refine ⟨?_, ?_, List.pairwise_map.2 hk.sorted⟩
  · simp only [ofHistory, List.map_map]
    have := hk.dec
    clear hk
    generalize h.history = es at *
    induction this with
    | nil => rfl
    | cons a _ ih => simp only [List.map_cons, Function.comp]; rw [a.2]; congr 1
  · have := hk.meets
    simp only [ofHistory]
    generalize h.history = es at *
    clear hk
    induction es with
    | nil => trivial
    | cons e es ih =>
      refine ⟨?_, ih this.2⟩
      have h1 := this.1
      convert h1 using 1
      ext t
      simp

theorem stepWhile_ok {h : TimeHistory T} {rest : List T} (hk : TimesOk h rest) (t : T) :
    (h.stepWhileTimeIs t).1 = !(rest.takeWhile fun x => decide (x = t)).isEmpty
      ∧ TimesOk (h.stepWhileTimeIs t).2 (rest.dropWhile fun x => decide (x = t))
      ∧ (h.stepWhileTimeIs t).2.buffer = h.buffer ++ rest.takeWhile fun x => decide (x = t) := by
  induction rest generalizing h with
  | nil =>
    obtain ⟨hist, b⟩ := h
    have h1 := hk.dec
    simp only [List.map_eq_nil_iff] at h1
    subst h1
    rw [stepWhileTimeIs]
    exact ⟨rfl, hk, by simp⟩
  | cons x rest ih =>
    obtain ⟨hist, b⟩ := h
    have h1 := hk.dec
    simp only at h1
    cases hist with
    | nil => simp at h1
    | cons e es =>
      simp only [List.map_cons, List.cons.injEq] at h1
      rw [stepWhileTimeIs]
      by_cases he : e.1 = t
      · rw [if_pos he]
        have hx : x = t := h1.1.symm.trans he
        have hk' : TimesOk { history := es, buffer := b ++ [e.1] } rest :=
          ⟨h1.2, hk.meets.2, (List.pairwise_cons.1 hk.sorted).2⟩
        obtain ⟨a1, a2, a3⟩ := ih hk'
        refine ⟨by simp [List.takeWhile_cons, hx], ?_, ?_⟩
        · simpa [List.dropWhile_cons, hx] using a2
        · rw [a3]; simp [List.takeWhile_cons, hx, he]
      · rw [if_neg he]
        have hx : ¬ x = t := fun c => he (h1.1.trans c)
        refine ⟨by simp [List.takeWhile_cons, hx], ?_, by simp [List.takeWhile_cons, hx]⟩
        simpa [List.dropWhile_cons, hx] using hk

omit [DecidableEq T] in
theorem ok_time {h : TimeHistory T} {rest : List T} (hk : TimesOk h rest) : h.time = rest.head? := by
  rw [← hk.dec]; unfold time; cases h.history <;> rfl

omit [DecidableEq T] in
theorem ok_meet {h : TimeHistory T} {t : T} {rest : List T} (hk : TimesOk h (t :: rest)) :
    ∃ m, h.meet = some m ∧ IsGLB {x | x ∈ t :: rest} m := by
  have h1 := hk.dec
  have h2 := hk.meets
  unfold meet
  cases hh : h.history with
  | nil => rw [hh] at h1; simp at h1
  | cons e es =>
    rw [hh] at h1 h2
    refine ⟨e.2, rfl, ?_⟩
    have := h2.1
    convert this using 1
    ext x
    rw [← h1]
    simp [eq_comm]

omit [DecidableEq T] in
theorem ok_meet_nil {h : TimeHistory T} (hk : TimesOk h []) : h.meet = none := by
  have h1 := hk.dec
  unfold meet
  cases hh : h.history with
  | nil => rfl
  | cons e es => rw [hh] at h1; simp at h1

theorem advance_ok {h : TimeHistory T} {rest : List T} (hk : TimesOk h rest) (m : T) :
    TimesOk (h.advanceBufferBy m) rest
      ∧ ∀ q, m ≤ q → ∀ x, (∃ b ∈ (h.advanceBufferBy m).buffer, b ⊔ q = x) ↔ ∃ b ∈ h.buffer, b ⊔ q = x := by
  refine ⟨⟨hk.dec, hk.meets, hk.sorted⟩, fun q hq x => ?_⟩
  simp only [advanceBufferBy, mem_sortDedup, List.mem_map]
  constructor
  · rintro ⟨_, ⟨b, hb, rfl⟩, rfl⟩
    exact ⟨b, hb, by rw [sup_assoc, sup_eq_right.2 hq]⟩
  · rintro ⟨b, hb, rfl⟩
    exact ⟨_, ⟨b, hb, rfl⟩, by rw [sup_assoc, sup_eq_right.2 hq]⟩

theorem run_ok (ops : List (TimeOp T)) : ∀ {h : TimeHistory T} {w : TimeWalk T}, TimesOk h w.rest →
    TimesOk (h.run ops) (w.run ops).rest
      ∧ ∀ q, (∀ m ∈ TimeOp.advances ops, m ≤ q) →
        (∀ x, (∃ b ∈ h.buffer, b ⊔ q = x) ↔ ∃ b ∈ w.stepped, b ⊔ q = x) →
        ∀ x, (∃ b ∈ (h.run ops).buffer, b ⊔ q = x) ↔ ∃ b ∈ (w.run ops).stepped, b ⊔ q = x := by
  induction ops with
  | nil => intro h w hk; exact ⟨hk, fun _ _ hb => hb⟩
  | cons op ops ih =>
    intro h w hk
    cases op with
    | whileTimeIs t =>
      obtain ⟨_, a2, a3⟩ := stepWhile_ok hk t
      obtain ⟨b1, b2⟩ := ih (h := (h.stepWhileTimeIs t).2)
        (w := { stepped := w.stepped ++ w.rest.takeWhile (fun x => decide (x = t)),
                rest := w.rest.dropWhile (fun x => decide (x = t)) }) a2
      refine ⟨b1, fun q hq hb => b2 q hq fun x => ?_⟩
      rw [a3]
      simp only [List.mem_append, or_and_right, exists_or, hb x]
    | advance m =>
      obtain ⟨a1, a2⟩ := advance_ok hk m
      obtain ⟨b1, b2⟩ := ih (h := h.advanceBufferBy m) (w := w) a1
      refine ⟨b1, fun q hq hb => b2 q (fun x hx => hq x ?_) fun x => ?_⟩
      · simp only [TimeOp.advances, List.filterMap_cons, List.mem_cons]; exact Or.inr hx
      · rw [a2 q (hq m (by simp [TimeOp.advances]))]; exact hb x

end TimeHistory

end

end DD
