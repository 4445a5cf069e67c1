import Verif.Model.TraceCursor
import Verif.Spec.TraceCursor
import Verif.Proofs.SpineRun
import Verif.Proofs.CursorRun

/-! # Cursors over traces: lemmas -/

namespace DD
section
variable {B M T D R : Type*} [Lattice T] [OrderBot T] [DecidableLE T] [DecidableEq T] [AddCommMonoid R] {ops : BatchOps B M T}

theorem batchesThrough_fold {F : List T} (l : List B) : ∀ (st bs : List B), l.foldlM (fun storage batch =>
      if ops.len batch ≠ 0 then
        let include_lower := acLe (ops.lower batch) F
        let include_upper := acLe (ops.upper batch) F
        if include_lower ≠ include_upper ∧ ¬ acEq F (ops.lower batch) then none
        else if include_upper then some (storage ++ [batch])
        else some storage
      else some storage) st = some bs → ∀ b ∈ bs, b ∈ st ∨ b ∈ l := by
  induction l with
  | nil => intro st bs h b hb; cases h; exact Or.inl hb
  | cons a l ih =>
    intro st bs h b hb
    rw [List.foldlM_cons] at h
    obtain ⟨st', h1, h2⟩ := Option.bind_eq_some_iff.1 h
    rcases ih st' bs h2 b hb with h3 | h3
    · simp only at h1
      split_ifs at h1
      · cases h1
        rcases List.mem_append.1 h3 with h3 | h3
        · exact Or.inl h3
        · rw [List.mem_singleton] at h3; subst h3; exact Or.inr List.mem_cons_self
      · cases h1; exact Or.inl h3
      · cases h1; exact Or.inl h3
    · exact Or.inr (List.mem_cons_of_mem _ h3)

theorem batchesThrough_mem {s : Spine B M T} {F : List T} {bs : List B} (h : s.batchesThrough ops F = some bs) : ∀ b ∈ bs, b ∈ s.mapBatches := by
  intro b hb
  rw [Spine.batchesThrough] at h
  split_ifs at h
  · cases h; cases hb
  · rw [Spine.mapBatches, List.mem_append]
    rcases batchesThrough_fold _ _ _ h b hb with h1 | h1
    · exact Or.inl (List.mem_filter.1 h1).1
    · exact Or.inr h1

theorem batchesThrough_nil {s : Spine B M T} (hlog : s.logical_frontier ≠ []) :
    s.batchesThrough ops [] = some (s.mapBatches.filter fun b => ops.len b ≠ 0) := by
  have hall : ∀ G : List T, acLe G [] = true := by
    intro G
    rw [acLe_iff]
    rintro q ⟨f, hf, -⟩
    cases hf
  have hmin : ¬ lessEqual ([] : List T) ⊥ = true := by
    rw [lessEqual_iff]
    rintro ⟨f, hf, -⟩
    cases hf
  rw [Spine.batchesThrough, if_neg hmin, if_neg hlog, if_neg (by simp [hall])]
  simp only
  have : ∀ (l st : List B), l.foldlM (fun storage batch =>
      if ops.len batch ≠ 0 then
        if acLe (ops.lower batch) [] ≠ acLe (ops.upper batch) [] ∧ ¬ acEq [] (ops.lower batch) = true then none
        else if acLe (ops.upper batch) [] = true then some (storage ++ [batch])
        else some storage
      else some storage) st = some (st ++ l.filter fun b => ops.len b ≠ 0) := by
    intro l
    induction l with
    | nil => intro st; simp
    | cons a l ih =>
      intro st
      rw [List.foldlM_cons]
      by_cases h : ops.len a ≠ 0
      · rw [if_pos h, if_neg (by simp [hall]), if_pos (hall _)]
        show List.foldlM _ (st ++ [a]) l = _
        rw [ih, List.filter_cons_of_pos (by simpa using h), List.append_assoc]; rfl
      · rw [if_neg h]
        show List.foldlM _ st l = _
        rw [ih, List.filter_cons_of_neg (by simpa using h)]
  rw [this, Spine.mapBatches, List.filter_append]

end

section
variable {C S K V T R : Type*} [LinearOrder K] [LinearOrder V] [LE T] [DecidableLE T] [AddCommMonoid R]

theorem count_at_flatMap (ts : List (Contents K V T R)) (k : K) (v : V) (q : T) :
    (((ts.flatMap fun t => t.at k v).map fun x => if x.1 ≤ q then x.2 else 0).sum : R) = (ts.map fun t => Contents.count t k v q).sum := by
  induction ts with
  | nil => rfl
  | cons t ts ih => rw [List.flatMap_cons, List.map_append, List.sum_append, ih]; rfl

/-- The count of a key and value in a union. -/
theorem IsUnion.count {ts : List (Contents K V T R)} {u : Contents K V T R} (h : IsUnion ts u) (k : K) (v : V) (q : T) :
    Contents.count u k v q = (ts.map fun t => Contents.count t k v q).sum := by
  rw [Contents.count, h.upds k v, count_at_flatMap]

theorem accum_append' {D : Type*} [DecidableEq D] (us vs : Upds D T R) (d : D) (q : T) : accum (us ++ vs) d q = accum us d q + accum vs d q := by
  simp [accum]

theorem accum_at (us : List (T × R)) (k' k : K) (v' v : V) (q : T) : accum (us.map fun u => (toLex (k', v'), u.1, u.2)) (toLex (k, v)) q =
    if k' = k ∧ v' = v then (us.map fun x => if x.1 ≤ q then x.2 else 0).sum else 0 := by
  have e : (toLex (k', v') = toLex (k, v)) ↔ (k' = k ∧ v' = v) := by
    rw [toLex_inj, Prod.mk.injEq]
  induction us with
  | nil => simp [accum]
  | cons u us ih =>
    rw [List.map_cons, accum_cons, ih]
    by_cases h : k' = k ∧ v' = v
    · simp [h]
    · have : ¬ toLex (k', v') = toLex (k, v) := fun hc => h (e.1 hc)
      simp [h, this]

/-- The count of a key and value is their accumulation in the list of all updates. -/
theorem count_eq_accum (t : Contents K V T R) (k : K) (v : V) (q : T) :
    Contents.count t k v q = accum (t.flatten.map fun u => (toLex u.1, u.2)) (toLex (k, v)) q := by
  rw [Contents.count, Contents.at, Contents.flatten]
  induction t with
  | nil => rfl
  | cons kv t ih =>
    rw [List.flatMap_cons, List.flatMap_cons, List.map_append, List.sum_append, ih, List.map_append, accum_append']
    congr 1
    obtain ⟨k', vs⟩ := kv
    simp only
    induction vs with
    | nil => simp [accum]
    | cons vu vs ih' =>
      have e : ((fun u : (K × V) × T × R => (toLex u.1, u.2)) ∘ fun u : T × R => ((k', vu.1), u.1, u.2)) = fun u : T × R => (toLex (k', vu.1), u.1, u.2) := rfl
      conv_rhs => rw [List.flatMap_cons, List.map_append, accum_append', List.map_map, e, accum_at, ← ih']
      by_cases h1 : k' = k
      · by_cases h2 : vu.1 = v
        · simp [h1, h2, List.sum_append]
        · simp [h1, h2]
      · simp [h1]

end
end DD
