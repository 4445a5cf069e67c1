import Verif.Proofs.Extend
import Verif.Props.LookupMap

/-!
# C46: extending prefixes with several relations computes their join
-/

namespace DD
variable {P K V T R : Type*} [DecidableEq P] [DecidableEq V] [DecidableEq T] [AddCommMonoid R] [DecidableEq R]
variable {mul : R →+ R →+ R} {n : Nat → P → T → Option Nat} {rel : Nat → P → V → T → R}

private theorem snd_zipIdx {X : Type*} (es : List X) : es.zipIdx.map Prod.snd = List.range es.length := by
  rw [List.zipIdx_map_snd, List.range_eq_range']

private theorem mem_zipIdx_snd {X : Type*} {es : List X} (j : Nat) : (∃ e ∈ es.zipIdx, e.2 = j) ↔ j < es.length := by
  rw [← List.mem_range, ← snd_zipIdx es, List.mem_map]

/-- C46: a prefix is extended, as of its time, by the values that all relations have for it; and the weight of the extension is the product of the weight of the prefix with that in one of the
relations, which has the fewest extensions for the prefix, or which, like all others, has at least 2^31. -/
theorem C46_extend (es : List (Extender P V T R)) (hne : es ≠ []) (hl : ∀ i (hi : i < es.length), ExtLaws mul es[i] (n i) (rel i)) (self : Upds P T R) (p : P) (t : T) :
    ∃ i, i < es.length ∧ (1 < es.length → ∀ j < es.length, ∀ m m', n i p t = some m → n j p t = some m' → m ≤ m' ∨ 2 ^ 31 ≤ m') ∧
      ∀ v, total (extend self es) (p, v) t = if ∀ j < es.length, rel j p v t ≠ 0 then mul (total self p t) (rel i p v t) else 0 := by
  have hl' : ∀ e ∈ es.zipIdx, ExtLaws mul e.1 (n e.2) (rel e.2) := by
    rintro ⟨e, i⟩ he
    obtain ⟨h1, h2⟩ := List.mem_zipIdx' he
    rw [h2]; exact hl i h1
  by_cases hlen : es.length = 1
  · obtain ⟨e, rfl⟩ := List.length_eq_one_iff.1 hlen
    refine ⟨0, by simp, by simp, fun v => ?_⟩
    have h0 : ExtLaws mul e (n 0) (rel 0) := hl 0 (by simp)
    show total (e.propose self) (p, v) t = _
    rw [h0.propose]
    by_cases hr : rel 0 p v t = 0
    · rw [if_neg (fun h => h 0 (by simp) hr), hr, map_zero]
    · rw [if_pos]
      intro j hj
      have : j = 0 := by simpa using hj
      subst this; exact hr
  · cases ht : tally n (es.zipIdx.map Prod.snd) p t (2 ^ 31, 0) with
    | none =>
      obtain ⟨j, hj, hnone⟩ := tally_none p t _ _ ht
      rw [snd_zipIdx, List.mem_range] at hj
      refine ⟨j, hj, fun _ _ _ m _ hm => ?_, fun v => ?_⟩
      · rw [hnone] at hm; cases hm
      · rw [if_neg (fun h => h j hj ((hl j hj).none p t hnone v)), extend_many es hl' self p v t hlen]
        apply List.sum_eq_zero
        intro m hm
        obtain ⟨e, _, rfl⟩ := List.mem_map.1 hm
        rw [if_neg]
        rw [ht]; simp
    | some ci =>
      obtain ⟨h1, h2, h3⟩ := tally_spec p t _ _ _ ht
      rw [snd_zipIdx] at h1 h3
      have hi : ci.2 < es.length := by
        rcases h3 with rfl | ⟨j, hj, h, -⟩
        · exact List.length_pos_iff.2 hne
        · rw [h]; exact List.mem_range.1 hj
      refine ⟨ci.2, hi, fun _ j hj m m' hm hm' => ?_, fun v => ?_⟩
      · obtain ⟨m'', hm'', hle⟩ := h1 j (List.mem_range.2 hj)
        rw [hm'] at hm''
        cases hm''
        rcases h3 with rfl | ⟨j', hj', h, hn⟩
        · exact Or.inr hle
        · left
          rw [h] at hm
          rw [hm] at hn
          cases hn
          exact hle
      · rw [extend_many es hl' self p v t hlen, ht]
        have hmem : (es[ci.2], ci.2) ∈ es.zipIdx := by
          rw [List.mem_zipIdx_iff_getElem?]
          simp [hi]
        have hnd : (es.zipIdx.map Prod.snd).Nodup := by rw [snd_zipIdx]; exact List.nodup_range
        -- only the nominated relation contributes
        have hsum : ∀ (l : List (Extender P V T R × Nat)) (f : Nat → R), (l.map Prod.snd).Nodup → (∀ e ∈ l, e.2 ≠ ci.2 → f e.2 = 0) → (∃ e ∈ l, e.2 = ci.2) →
            (l.map fun e => f e.2).sum = f ci.2 := by
          intro l
          induction l with
          | nil => rintro f - - ⟨e, he, -⟩; simp at he
          | cons a l ih =>
            rintro f hn hz ⟨e, he, hei⟩
            rw [List.map_cons, List.nodup_cons] at hn
            rw [List.map_cons, List.sum_cons]
            by_cases ha : a.2 = ci.2
            · rw [ha]
              have : (l.map fun e => f e.2).sum = 0 := by
                apply List.sum_eq_zero
                intro m hm
                obtain ⟨e', he', rfl⟩ := List.mem_map.1 hm
                refine hz e' (by simp [he']) fun h => hn.1 ?_
                rw [ha, ← h]
                exact List.mem_map.2 ⟨e', he', rfl⟩
              rw [this, add_zero]
            · rw [hz a (by simp) ha, zero_add]
              refine ih f hn.2 (fun e he => hz e (by simp [he])) ?_
              rcases List.mem_cons.1 he with rfl | he
              · exact absurd hei ha
              · exact ⟨e, he, hei⟩
        rw [hsum es.zipIdx (fun k => if (∀ e' ∈ es.zipIdx, e'.2 ≠ k → rel e'.2 p v t ≠ 0) ∧ (some ci).map Prod.snd = some k then mul (total self p t) (rel k p v t) else 0) hnd ?_
          ⟨_, hmem, rfl⟩]
        · by_cases hall : ∀ j < es.length, rel j p v t ≠ 0
          · rw [if_pos hall, if_pos]
            refine ⟨fun e' he' _ => hall _ ((mem_zipIdx_snd _).1 ⟨e', he', rfl⟩), rfl⟩
          · rw [if_neg hall]
            by_cases h0 : rel ci.2 p v t = 0
            · rw [h0, map_zero, ite_self]
            · rw [if_neg]
              rintro ⟨h, -⟩
              apply hall
              intro j hj
              by_cases hjc : j = ci.2
              · rw [hjc]; exact h0
              · obtain ⟨e', he', rfl⟩ := (mem_zipIdx_snd (es := es) j).2 hj
                exact h e' he' hjc
        · intro e he hne'
          rw [if_neg]
          rintro ⟨-, h⟩
          simp only [Option.map_some, Option.some.injEq] at h
          exact hne' h.symm

/-- C46 for relations that are sets: each has each extension with weight zero or one. Each prefix is extended, with its own weight, by the values that all relations have for it. -/
theorem C46_extend_sets (es : List (Extender P V T R)) (hne : es ≠ []) (hl : ∀ i (hi : i < es.length), ExtLaws mul es[i] (n i) (rel i)) (one : R) (hone : ∀ r, mul r one = r)
    (hset : ∀ i < es.length, ∀ p v t, rel i p v t = 0 ∨ rel i p v t = one) (self : Upds P T R) (p : P) (v : V) (t : T) :
    total (extend self es) (p, v) t = if ∀ j < es.length, rel j p v t = one then total self p t else 0 := by
  obtain ⟨i, hi, -, h⟩ := C46_extend es hne hl self p t
  rw [h v]
  by_cases hall : ∀ j < es.length, rel j p v t ≠ 0
  · have h1 : ∀ j < es.length, rel j p v t = one := fun j hj => (hset j hj p v t).resolve_left (hall j hj)
    rw [if_pos hall, if_pos h1, h1 i hi, hone]
  · rw [if_neg hall]
    push Not at hall
    obtain ⟨j, hj, h0⟩ := hall
    by_cases hz : (0 : R) = one
    · have : ∀ r : R, r = 0 := fun r => by rw [← hone r, ← hz, map_zero]
      rw [this (total self p t), ite_self]
    · rw [if_neg]
      intro h1
      exact hz (h0 ▸ h1 j hj)

variable [DecidableEq K] [LE T] [DecidableLE T]

/-- An indexed collection is an extender for the relation that it holds: the values of the key of the prefix, as of the time. -/
theorem C46_collection (collection : Upds (K × V) T R) (counts : Upds (K × Unit) T Int) (hcounts : CountsFor collection counts) (key_selector : P → K) :
    ExtLaws mul ((CollectionIndex.index collection counts).extendUsing key_selector fun a b => mul a b)
      (fun p t => if accum counts (key_selector p, ()) t = 0 then none else some (asUsize (accum counts (key_selector p, ()) t)))
      (fun p v t => accum collection (key_selector p, v) t) where
  propose ps p v t := C45_propose mul ps p v t
  validate xs p v t := by
    show total (lookups (fun pv : P × V => (key_selector pv.1, pv.2)) validateOut _ xs) (p, v) t = _
    rw [C45_validate]
    have : accum (CollectionIndex.index collection counts).validate_trace ((key_selector p, v), ()) t = accum collection (key_selector p, v) t := by
      unfold CollectionIndex.index accum
      simp only [List.map_map]
      congr 1
      apply List.map_congr_left
      intro u _
      simp
    rw [this]
  count index cs x t := by
    show total (lookups (fun p : P × Nat × Nat => key_selector p.1) (countOut index) counts cs) x t = _
    rw [C45_count]
    congr 1
    induction cs with
    | nil => rfl
    | cons u cs ih =>
      by_cases hc : accum counts (key_selector u.1.1, ()) u.2.1 = 0
      · rw [List.filter_cons_of_neg (by simp [hc]), ih, List.filterMap_cons]
        simp [hc]
      · rw [List.filter_cons_of_pos (by simp [hc]), List.map_cons, ih, List.filterMap_cons]
        simp [hc]
  none p t h v := by
    by_contra hv
    have := hcounts (key_selector p) t ⟨v, hv⟩
    rw [if_neg this] at h
    cases h

/-! ### Triangles -/

/-- A graph: edges by source, from some time on. -/
private def edges : Upds (Nat × Nat) Nat Int := [((0, 1), 0, 1), ((0, 2), 0, 1), ((1, 2), 0, 1), ((1, 3), 0, 1), ((1, 4), 0, 1), ((0, 3), 1, 1), ((1, 2), 2, -1)]
/-- The distinct values of each key, counted. -/
private def degrees : Upds (Nat × Unit) Nat Int := [((0, ()), 0, 2), ((1, ()), 0, 3), ((0, ()), 1, 1), ((1, ()), 2, -1)]

/-- Extending an edge `(a, b)` by the `c` with edges `(b, c)` and `(a, c)`. -/
private def extenders : List (Extender (Nat × Nat) Nat Nat Int) :=
  [(CollectionIndex.index edges degrees).extendUsing Prod.snd fun a b => AddMonoidHom.mul a b, (CollectionIndex.index edges degrees).extendUsing Prod.fst fun a b => AddMonoidHom.mul a b]

private theorem degrees_count : CountsFor edges degrees := by
  rintro k t ⟨v, hv⟩ h
  apply hv
  have hk : k = 0 ∨ k = 1 ∨ (k ≠ 0 ∧ k ≠ 1) := by omega
  rcases hk with rfl | rfl | ⟨h0, h1⟩
  · exfalso
    by_cases ht : 1 ≤ t <;> simp [accum, degrees, ht] at h
  · exfalso
    by_cases ht : 2 ≤ t <;> simp [accum, degrees, ht] at h
  · simp [accum, edges, h0.symm, h1.symm]

/-- They meet the laws. -/
example : ∀ i (hi : i < extenders.length), ExtLaws (AddMonoidHom.mul : Int →+ Int →+ Int) extenders[i]
    (fun p t => if accum degrees ((if i = 0 then p.2 else p.1), ()) t = 0 then none else some (asUsize (accum degrees ((if i = 0 then p.2 else p.1), ()) t)))
    (fun p v t => accum edges ((if i = 0 then p.2 else p.1), v) t) := by
  intro i hi
  have : i = 0 ∨ i = 1 := by simp [extenders] at hi; omega
  rcases this with rfl | rfl
  · exact C46_collection edges degrees degrees_count Prod.snd
  · exact C46_collection edges degrees degrees_count Prod.fst

set_option synthInstance.maxSize 2000 in
/-- The edge `(0, 1)` at time 0 closes a triangle with 2; at time 1 with 2 and 3; at time 2 with 3. -/
example : extend [((0, 1), 0, 1), ((0, 1), 1, 5), ((0, 1), 2, 7)] extenders = [(((0, 1), 3), 2, 7), (((0, 1), 2), 0, 1), (((0, 1), 3), 1, 5), (((0, 1), 2), 1, 5)] := by decide +kernel

set_option synthInstance.maxSize 2000 in
/-- Weights are those of the relation that proposes, and not multiplied with those of the others: here the relations have the extension twice and three times, and it is proposed twice. -/
example : extend [((0, 1), 0, 1)] [(CollectionIndex.index [((1, 5), 0, 3)] [((1, ()), 0, 1)]).extendUsing (Prod.snd : Nat × Nat → Nat) fun a b => (a * b : Int),
    (CollectionIndex.index [((0, 5), (0 : Nat), 2)] [((0, ()), 0, 1)]).extendUsing Prod.fst fun a b => a * b] = [(((0, 1), 5), 0, 2)] := by decide +kernel

end DD
