import Verif.Model.Arranged
import Verif.Spec.ReduceOp
import Verif.Props.Cursor
import Verif.Proofs.TraceCursor
import Verif.Proofs.Wrappers

/-!
# What arrangements need of the types of a trace, and that those of `ord_neu.rs` provide it
-/

namespace DD
section
variable {K V T R : Type*} [LinearOrder K] [LinearOrder V]

theorem mem_keyUpds {t : Contents K V T R} {k : K} {s : T} (h : s ∈ (keyUpds t k).map (·.2.1)) : ∃ x ∈ t.flatten, x.1.1 = k ∧ x.2.1 = s := by
  obtain ⟨x, hx, rfl⟩ := List.mem_map.1 h
  obtain ⟨kv, h1, h2⟩ := List.mem_flatMap.1 hx
  by_cases hk : kv.1 = k
  · rw [if_pos hk] at h2
    obtain ⟨vu, h3, h4⟩ := List.mem_flatMap.1 h2
    obtain ⟨u, h5, rfl⟩ := List.mem_map.1 h4
    exact ⟨((kv.1, vu.1), u.1, u.2), List.mem_flatMap.2 ⟨kv, h1, List.mem_flatMap.2 ⟨vu, h3, List.mem_map.2 ⟨u, h5, rfl⟩⟩⟩, hk, rfl⟩
  · rw [if_neg hk] at h2
    cases h2

theorem accum_keyUpds [LE T] [DecidableLE T] [AddCommMonoid R] (t : Contents K V T R) (k : K) (v : V) (q : T) :
    accum (keyUpds t k) v q = accum t.flatten (k, v) q := by
  unfold keyUpds Contents.flatten
  rw [accum_flatMap_list, accum_flatMap_list]
  congr 1
  apply List.map_congr_left
  rintro ⟨k', vs⟩ -
  simp only
  by_cases hk : k' = k
  · subst hk
    rw [if_pos rfl, valUpds, accum_flatMap_list, accum_flatMap_list]
    congr 1
    apply List.map_congr_left
    rintro ⟨v', us⟩ -
    simp only [accum, List.map_map]
    congr 1
    apply List.map_congr_left
    rintro ⟨s, r⟩ -
    simp
  · rw [if_neg hk, accum_nil, accum_flatMap_list]
    symm
    apply List.sum_eq_zero
    intro x hx
    obtain ⟨⟨v', us⟩, -, rfl⟩ := List.mem_map.1 hx
    simp only [accum, List.map_map]
    apply List.sum_eq_zero
    intro x hx
    obtain ⟨⟨s, r⟩, -, rfl⟩ := List.mem_map.1 hx
    simp [hk]

theorem accum_keyUpds_perm [LE T] [DecidableLE T] [AddCommMonoid R] {t : Contents K V T R} {us : Upds (K × V) T R} (h : t.flatten.Perm us) (k : K) (v : V) (q : T) :
    accum (keyUpds t k) v q = accum us (k, v) q := by
  rw [accum_keyUpds, accum_perm h]

theorem accum_keyUpds_flatMap {A : Type*} [LE T] [DecidableLE T] [AddCommMonoid R] {t : Contents K V T R} {l : List A} {f : A → Upds (K × V) T R} (h : t.flatten.Perm (l.flatMap f))
    (k : K) (v : V) (q : T) : accum (keyUpds t k) v q = (l.map fun a => accum (f a) (k, v) q).sum := by
  rw [accum_keyUpds, accum_perm h, accum_flatMap_list]

theorem at_ne_nil {t : Contents K V T R} {k : K} {v : V} {vs : List (V × List (T × R))} {us : List (T × R)} (h1 : (k, vs) ∈ t) (h2 : (v, us) ∈ vs) (h3 : us ≠ []) :
    t.at k v ≠ [] := by
  intro h
  unfold Contents.at at h
  rw [List.flatMap_eq_nil_iff] at h
  have := h _ h1
  rw [if_pos rfl, List.flatMap_eq_nil_iff] at this
  have := this _ h2
  rw [if_pos rfl] at this
  exact h3 this

theorem exists_of_at {t : Contents K V T R} {k : K} {v : V} (h : t.at k v ≠ []) : ∃ vs us, (k, vs) ∈ t ∧ (v, us) ∈ vs ∧ us ≠ [] := by
  obtain ⟨x, hx⟩ := List.exists_mem_of_ne_nil _ h
  obtain ⟨⟨k', vs⟩, h1, h2⟩ := List.mem_flatMap.1 hx
  simp only at h2
  by_cases hk : k' = k
  · rw [if_pos hk] at h2
    obtain ⟨⟨v', us⟩, h3, h4⟩ := List.mem_flatMap.1 h2
    simp only at h4
    by_cases hv : v' = v
    · rw [if_pos hv] at h4
      subst hk; subst hv
      exact ⟨vs, us, h1, h3, List.ne_nil_of_mem h4⟩
    · rw [if_neg hv] at h4; cases h4
  · rw [if_neg hk] at h2; cases h2

theorem fst_inj_of_lt {A B : Type*} [LinearOrder A] {l : List (A × B)} (h : l.Pairwise fun x y => x.1 < y.1) {a : A} {b c : B} (h1 : (a, b) ∈ l) (h2 : (a, c) ∈ l) : b = c := by
  by_contra hne
  rcases List.pairwise_iff_getElem.1 h with hp
  obtain ⟨i, hi, e1⟩ := List.getElem_of_mem h1
  obtain ⟨j, hj, e2⟩ := List.getElem_of_mem h2
  rcases lt_trichotomy i j with hij | hij | hij
  · have := hp i j hi hj hij
    rw [e1, e2] at this; exact lt_irrefl _ this
  · subst hij; rw [e1] at e2; exact hne (by cases e2; rfl)
  · have := hp j i hj hi hij
    rw [e1, e2] at this; exact lt_irrefl _ this

/-- A union of contents without empty lists has no empty lists. -/
theorem IsUnion.noEmpty {ts : List (Contents K V T R)} {u : Contents K V T R} (h : IsUnion ts u) (hn : ∀ t ∈ ts, NoEmpty t) : NoEmpty u := by
  rintro ⟨k, vs⟩ hkv
  refine ⟨?_, ?_⟩
  · obtain ⟨t, ht, vs', h1⟩ := (h.keys k).1 ⟨vs, hkv⟩
    obtain ⟨⟨v, us⟩, h2⟩ := List.exists_mem_of_ne_nil _ (hn t ht _ h1).1
    obtain ⟨vs2, us2, h3, h4⟩ := (h.vals k v).2 ⟨t, ht, vs', us, h1, h2⟩
    rw [fst_inj_of_lt h.sorted.keys hkv h3]
    exact List.ne_nil_of_mem h4
  · rintro ⟨v, us⟩ hvu
    obtain ⟨t, ht, vs', us', h1, h2⟩ := (h.vals k v).1 ⟨vs, us, hkv, hvu⟩
    have h3 : u.at k v ≠ [] := by
      rw [h.upds, Ne, List.flatMap_eq_nil_iff]
      intro hc
      exact at_ne_nil h1 h2 ((hn t ht _ h1).2 _ h2) (hc t ht)
    obtain ⟨vs2, us2, h4, h5, h6⟩ := exists_of_at h3
    have e := fst_inj_of_lt h.sorted.keys hkv h4
    subst e
    rwa [show us = us2 from fst_inj_of_lt (h.sorted.vals _ hkv) hvu h5]

theorem NoEmpty.length_le {u : Contents K V T R} (h : NoEmpty u) : u.length ≤ u.flatten.length ∧ ∀ kv ∈ u, kv.2.length ≤ u.flatten.length := by
  have hv : ∀ vs : List (V × List (T × R)), (∀ vu ∈ vs, vu.2 ≠ []) → ∀ k : K, vs.length ≤ (vs.flatMap fun vu => vu.2.map fun u => ((k, vu.1), u.1, u.2)).length := by
    intro vs
    induction vs with
    | nil => simp
    | cons a vs ih =>
      intro h k
      have h1 := ih (fun x hx => h x (List.mem_cons_of_mem _ hx)) k
      have h2 := List.length_pos_of_ne_nil (h a List.mem_cons_self)
      simp only [List.flatMap_cons, List.length_append, List.length_map, List.length_cons] at h1 ⊢
      omega
  induction u with
  | nil => simp
  | cons a u ih =>
    obtain ⟨i1, i2⟩ := ih fun x hx => h x (List.mem_cons_of_mem _ hx)
    have h0 := h a List.mem_cons_self
    have h1 := hv a.2 h0.2 a.1
    have h2 := List.length_pos_of_ne_nil h0.1
    have e : Contents.flatten (a :: u) = (a.2.flatMap fun vu => vu.2.map fun u => ((a.1, vu.1), u.1, u.2)) ++ Contents.flatten u := rfl
    rw [e, List.length_append, List.length_cons]
    refine ⟨by omega, ?_⟩
    intro kv hkv
    rcases List.mem_cons.1 hkv with rfl | hkv
    · omega
    · have := i2 kv hkv
      omega

/-- Collecting what a cursor over several storages presents. -/
theorem readStorage_spec {C S : Type*} {cops : CursorOps C S K V T R} {cursor : C} {ss : List S} {ts : List (Contents K V T R)} (h : PresentsUnion cops cursor ss ts)
    (hn : ∀ t ∈ ts, NoEmpty t) {fuel : Nat} (hf : (ts.map fun t => t.flatten.length).sum < fuel) :
    ∃ u, readStorage cops cursor fuel ss = some u ∧ ContentsSorted u ∧ u.flatten.Perm (ts.flatMap Contents.flatten) := by
  obtain ⟨u, l, h1, h2, h3, h4, -⟩ := h
  obtain ⟨l', g1, -, g3⟩ := h4 [] (Pos.start u) (by simp) rfl
  cases g1
  have hl : u.flatten.length < fuel := by
    rw [h2.length_eq, List.length_flatMap]; exact hf
  obtain ⟨b1, b2⟩ := (h1.noEmpty hn).length_le
  refine ⟨u, ?_, h1.sorted, h2⟩
  rw [readStorage, cursorList]
  have h3' : CursorList.new cops (ss.map (fun _ => cursor)) ss = some l := h3
  rw [h3']
  exact g3 fuel (by omega) fun kv hkv => by have := b2 kv hkv; omega

end

/-- What arrangements need of the types of a trace. -/
structure TraceKindLaws {B N D K V T R : Type*} [LinearOrder D] [LinearOrder K] [LinearOrder V] [Lattice T] [OrderBot T] [DecidableLE T] [DecidableEq T] [LinearOrder (Lin T)]
    [AddCommMonoid R] [DecidableEq R] (Y : TraceKind B N D K V T R) where
  laws : BatchLaws Y.ops D R
  desc_lower : ∀ b, (Y.desc b).lower = Y.ops.lower b
  desc_upper : ∀ b, (Y.desc b).upper = Y.ops.upper b
  /-- The builder makes a batch of the updates, which its cursor presents. -/
  build_ok : ∀ us d, Consolidated us → IsAntichainList d.lower → IsAntichainList d.upper → ∃ b, Y.build us d = some b ∧ laws.Ok b ∧ Y.ops.lower b = d.lower ∧
    Y.ops.upper b = d.upper ∧ laws.since b = d.since ∧ Y.ops.len b = us.length ∧ (∀ x q, laws.acc b x q = accum us x q) ∧
    ∃ c, Y.read [b] = some c ∧ ShowsBatch c (us.map fun u => (Y.split u.1, u.2))
  empty_since : ∀ lower upper, laws.since (Y.ops.empty lower upper) = [⊥]
  /-- A cursor over several batches presents the updates of all of them. -/
  read_ok : ∀ bs, (∀ b ∈ bs, laws.Ok b) → ∃ c, Y.read bs = some c ∧ ContentsSorted c ∧
    ∀ k v q, accum (keyUpds c k) v q = (bs.map fun b => laws.acc b (Y.split.symm (k, v)) q).sum

section
variable {K V T R : Type*} [LinearOrder K] [LinearOrder V] [Lattice T] [OrderBot T] [DecidableLE T] [DecidableEq T] [LinearOrder (Lin T)] [AddCommMonoid R] [DecidableEq R]

theorem accum_map_equiv {D E : Type*} [DecidableEq D] [DecidableEq E] (f : D ≃ E) (us : Upds D T R) (e : E) (q : T) :
    accum (us.map fun u => (f u.1, u.2)) e q = accum us (f.symm e) q := by
  simp only [accum, List.map_map]
  congr 1
  apply List.map_congr_left
  rintro ⟨d, t, r⟩ -
  have : f d = e ↔ d = f.symm e := by rw [Equiv.eq_symm_apply]
  simp [this]

theorem flattenTrie_eq (t : Contents K V T R) : flattenTrie t = t.flatten.map fun u => (toLex u.1, u.2) := by
  simp [flattenTrie, Contents.flatten, List.map_flatMap, Function.comp_def]

theorem forall₂_of_map_eq {A B C : Type*} {f : A → C} {g : B → C} : ∀ {as : List A} {bs : List B}, as.map f = bs.map g → List.Forall₂ (fun a b => f a = g b) as bs
  | [], [], _ => .nil
  | [], _ :: _, h => by simp at h
  | _ :: _, [], h => by simp at h
  | a :: as, b :: bs, h => by
    simp only [List.map_cons, List.cons.injEq] at h
    exact .cons h.1 (forall₂_of_map_eq h.2)

theorem val_read (bs : List (ValBatch K V T R)) (hb : ∀ b ∈ bs, ReachableBatch b) : ∃ (c : Contents K V T R) (ts : List (Contents K V T R)), valKind.read bs = some c ∧ ContentsSorted c ∧
    c.flatten.Perm (ts.flatMap Contents.flatten) ∧ List.Forall₂ (fun b t => b.storage.readAll = some (flattenTrie t)) bs ts := by
  obtain ⟨ts, h1, h2, h3⟩ := C18_val_list_partial bs hb
  have h4 := forall₂_of_map_eq h1
  have hlen : (bs.map (·.updates)).sum = (ts.map fun t => t.flatten.length).sum := by
    clear h1 h2 h3
    induction h4 with
    | nil => rfl
    | @cons b t bs ts hbt _ ih =>
      obtain ⟨us, g1, -, g3⟩ := C09_reachable b (hb b List.mem_cons_self)
      rw [hbt] at g1
      cases g1
      rw [List.map_cons, List.map_cons, List.sum_cons, List.sum_cons, ih fun x hx => hb x (List.mem_cons_of_mem _ hx), g3, flattenTrie_eq, List.length_map]
  obtain ⟨u, g1, g2, g3⟩ := readStorage_spec h3 (fun t ht => (h2 t ht).2) (fuel := (bs.map (·.updates)).sum + 1) (by omega)
  exact ⟨u, ts, g1, g2, g3, h4⟩

/-- The types of `OrdValSpine`. -/
def valKind_laws : TraceKindLaws (valKind : TraceKind (ValBatch K V T R) _ _ K V T R) where
  laws := ValBatch.laws
  desc_lower _ := rfl
  desc_upper _ := rfl
  build_ok us d hc h1 h2 := by
    have hc' : Consolidated ([us] : Chain (K ×ₗ V) T R).flatten := by simpa using hc
    obtain ⟨b, g1, g2, g3, g4⟩ := C09_round_trip [us] d hc'
    rw [List.flatten_singleton] at g2 g3
    have hr : ReachableBatch b := .built [us] d b hc' g1
    refine ⟨b, g1, ⟨hr, by rw [g4]; exact h1, by rw [g4]; exact h2⟩, by show b.description.lower = _; rw [g4], by show b.description.upper = _; rw [g4],
      by show b.description.since = _; rw [g4], g3, fun x q => ValBatch.acc_eq g2 x q, ?_⟩
    obtain ⟨c, ts, k1, k2, k3, k4⟩ := val_read [b] (by simpa using hr)
    obtain ⟨t, rfl, hbt⟩ : ∃ t, ts = [t] ∧ b.storage.readAll = some (flattenTrie t) := by
      cases k4 with
      | cons h k4 => cases k4; exact ⟨_, rfl, h⟩
    rw [g2] at hbt
    cases hbt
    rw [List.flatMap_singleton] at k3
    have e : (flattenTrie t).map (fun u => ((valKind (T := T) (R := R)).split u.1, u.2)) = t.flatten := by
      rw [flattenTrie_eq, List.map_map]
      exact List.map_id _
    refine ⟨c, k1, k2, ?_, ?_⟩
    · intro k v q
      rw [accum_keyUpds, accum_perm k3, e]
    · intro k s hs
      obtain ⟨x, hx, hx'⟩ := mem_keyUpds hs
      rw [e]
      exact ⟨x, k3.mem_iff.1 hx, hx'⟩
  empty_since _ _ := rfl
  read_ok bs hb := by
    obtain ⟨c, ts, k1, k2, k3, k4⟩ := val_read bs fun b h => (hb b h).1
    refine ⟨c, k1, k2, fun k v q => ?_⟩
    rw [accum_keyUpds, accum_perm k3, accum_flatMap_list]
    clear k1 k2 k3 hb
    induction k4 with
    | nil => rfl
    | @cons b t bs ts hbt _ ih =>
      rw [List.map_cons, List.map_cons, List.sum_cons, List.sum_cons, ih]
      congr 1
      rw [show ValBatch.laws.acc b = ValBatch.acc b from rfl, ValBatch.acc_eq hbt, flattenTrie_eq]
      have := accum_map_equiv (toLex : K × V ≃ K ×ₗ V) t.flatten (toLex (k, v)) q
      rw [Equiv.symm_apply_apply] at this
      exact this.symm

theorem flatten_unit (t : List (K × List (T × R))) : Contents.flatten (t.map fun kv => (kv.1, [((), kv.2)]) : Contents K Unit T R) =
    (t.flatMap fun kv => kv.2.map fun u => (kv.1, u.1, u.2)).map fun u => ((u.1, ()), u.2) := by
  simp [Contents.flatten, List.map_flatMap, List.flatMap_map, Function.comp_def]

theorem key_read (bs : List (KeyBatch K T R)) (hb : ∀ b ∈ bs, ReachableKeyBatch b) : ∃ (c : Contents K Unit T R) (uss : List (Upds K T R)), keyKind.read bs = some c ∧ ContentsSorted c ∧
    c.flatten.Perm (uss.flatMap fun us => us.map fun u => ((u.1, ()), u.2)) ∧ List.Forall₂ (fun b us => b.storage.readAll = some us) bs uss := by
  obtain ⟨ts, h1, h2, h3⟩ := C18_key_list_partial bs hb
  have h4 := forall₂_of_map_eq h1
  have hlen : (bs.map (·.updates)).sum = ((ts.map fun t => (t.map fun kv => (kv.1, [((), kv.2)]) : Contents K Unit T R)).map fun t => (Contents.flatten t).length).sum := by
    clear h1 h2 h3
    induction h4 with
    | nil => rfl
    | @cons b t bs ts hbt _ ih =>
      obtain ⟨us, g1, -, g3⟩ := C09_key_reachable b (hb b List.mem_cons_self)
      rw [hbt] at g1
      cases g1
      rw [List.map_cons, List.map_cons, List.map_cons, List.sum_cons, List.sum_cons, ih fun x hx => hb x (List.mem_cons_of_mem _ hx), g3, flatten_unit, List.length_map]
  obtain ⟨u, g1, g2, g3⟩ := readStorage_spec h3 (by
    intro t ht
    obtain ⟨t', ht', rfl⟩ := List.mem_map.1 ht
    intro kv hkv
    obtain ⟨kv', hkv', rfl⟩ := List.mem_map.1 hkv
    refine ⟨by simp, ?_⟩
    intro vu hvu
    rw [List.mem_singleton.1 hvu]
    exact (h2 t' ht').2 kv' hkv') (fuel := (bs.map (·.updates)).sum + 1) (by omega)
  refine ⟨u, ts.map fun t => t.flatMap fun kv => kv.2.map fun u => (kv.1, u.1, u.2), g1, g2, ?_, ?_⟩
  · rw [List.flatMap_map] at g3 ⊢
    refine g3.trans (List.Perm.of_eq ?_)
    congr 1
    funext t
    exact flatten_unit t
  · rw [List.forall₂_map_right_iff]
    exact h4

/-- The types of `OrdKeySpine`. -/
def keyKind_laws : TraceKindLaws (keyKind : TraceKind (KeyBatch K T R) _ _ K Unit T R) where
  laws := KeyBatch.laws
  desc_lower _ := rfl
  desc_upper _ := rfl
  build_ok us d hc h1 h2 := by
    have hc' : Consolidated ([us] : Chain K T R).flatten := by simpa using hc
    obtain ⟨b, g1, g2, g3, g4⟩ := C09_key_round_trip [us] d hc'
    rw [List.flatten_singleton] at g2 g3
    have hr : ReachableKeyBatch b := .built [us] d b hc' g1
    refine ⟨b, g1, ⟨hr, by rw [g4]; exact h1, by rw [g4]; exact h2⟩, by show b.description.lower = _; rw [g4], by show b.description.upper = _; rw [g4],
      by show b.description.since = _; rw [g4], g3, fun x q => KeyBatch.acc_eq g2 x q, ?_⟩
    obtain ⟨c, ts, k1, k2, k3, k4⟩ := key_read [b] (by simpa using hr)
    obtain ⟨t, rfl, hbt⟩ : ∃ t, ts = [t] ∧ b.storage.readAll = some t := by
      cases k4 with
      | cons h k4 => cases k4; exact ⟨_, rfl, h⟩
    rw [g2] at hbt
    cases hbt
    rw [List.flatMap_singleton] at k3
    refine ⟨c, k1, k2, ?_, ?_⟩
    · intro k v q
      exact accum_keyUpds_perm k3 k v q
    · intro k s hs
      obtain ⟨x, hx, hx'⟩ := mem_keyUpds hs
      exact ⟨x, k3.mem_iff.1 hx, hx'⟩
  empty_since _ _ := rfl
  read_ok bs hb := by
    obtain ⟨c, ts, k1, k2, k3, k4⟩ := key_read bs fun b h => (hb b h).1
    refine ⟨c, k1, k2, fun k v q => ?_⟩
    rw [accum_keyUpds_flatMap k3]
    clear k1 k2 k3 hb
    induction k4 with
    | nil => rfl
    | @cons b t bs ts hbt _ ih =>
      rw [List.map_cons, List.map_cons, List.sum_cons, List.sum_cons, ih]
      congr 1
      rw [show KeyBatch.laws.acc b = KeyBatch.acc b from rfl, KeyBatch.acc_eq hbt]
      exact accum_map_equiv (Equiv.prodPUnit K).symm t (k, v) q

end
end DD
