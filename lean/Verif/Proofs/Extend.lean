import Verif.Spec.Extend
import Verif.Proofs.HalfJoin
import Mathlib.Algebra.BigOperators.Group.List.Basic

/-! # Extending prefixes -/

namespace DD
variable {P K V T R : Type*} [DecidableEq P] [DecidableEq V] [DecidableEq T] [AddCommMonoid R] [DecidableEq R]

theorem total_filterMap_eq_meas {D X : Type*} [DecidableEq D] [DecidableEq X] (h : D → T → Option X) (us : Upds D T R) (x : X) (t : T) :
    total (us.filterMap fun u => (h u.1 u.2.1).map fun y => (y, u.2)) x t
      = meas (fun d t' => if h d t' = some x ∧ t' = t then AddMonoidHom.id R else 0) us := by
  induction us with
  | nil => rfl
  | cons u us ih =>
    rw [meas_cons, ← ih, List.filterMap_cons]
    cases hu : h u.1 u.2.1 with
    | none => simp
    | some y =>
      simp only [Option.map_some, Option.some.injEq]
      rw [total_cons]
      congr 1
      by_cases hh : y = x ∧ u.2.1 = t
      · rw [if_pos hh, if_pos hh]; rfl
      · rw [if_neg hh, if_neg hh]; rfl

theorem total_filterMap_congr {D X : Type*} [DecidableEq D] [DecidableEq X] (h : D → T → Option X) {us vs : Upds D T R} (huv : ∀ d t, total us d t = total vs d t) (x : X) (t : T) :
    total (us.filterMap fun u => (h u.1 u.2.1).map fun y => (y, u.2)) x t = total (vs.filterMap fun u => (h u.1 u.2.1).map fun y => (y, u.2)) x t := by
  rw [total_filterMap_eq_meas, total_filterMap_eq_meas]
  exact meas_congr _ huv

/-- The count and index after some extenders. -/
def tally (n : Nat → P → T → Option Nat) (l : List Nat) (p : P) (t : T) (ci : Nat × Nat) : Option (Nat × Nat) :=
  l.foldlM (fun ci j => (n j p t).map fun m => if ci.1 < m then ci else (m, j)) ci

variable {mul : R →+ R →+ R} {n : Nat → P → T → Option Nat} {rel : Nat → P → V → T → R}

theorem total_counts : ∀ (l : List (Extender P V T R × Nat)), (∀ e ∈ l, ExtLaws mul e.1 (n e.2) (rel e.2)) → ∀ (cs : Upds (P × Nat × Nat) T R) (x : P × Nat × Nat) (t : T),
    total (l.foldl (fun counts e => e.1.count e.2 counts) cs) x t
      = total (cs.filterMap fun u => ((tally n (l.map Prod.snd) u.1.1 u.2.1 u.1.2).map fun ci => (u.1.1, ci)).map fun y => (y, u.2)) x t
  | [], _, cs, x, t => by
    simp only [List.foldl_nil, List.map_nil, tally, List.foldlM_nil]
    congr 1
    have : (fun u : (P × Nat × Nat) × T × R => ((pure u.1.2 : Option (Nat × Nat)).map fun ci => (u.1.1, ci)).map fun y => (y, u.2)) = some := rfl
    rw [this, List.filterMap_some]
  | e :: l, hl, cs, x, t => by
    rw [List.foldl_cons, total_counts l (fun e' he' => hl e' (by simp [he'])) (e.1.count e.2 cs) x t]
    rw [total_filterMap_congr (fun d t' => (tally n (l.map Prod.snd) d.1 t' d.2).map fun ci => (d.1, ci)) ((hl e (by simp)).count e.2 cs) x t, List.filterMap_filterMap]
    congr 1
    apply List.filterMap_congr
    intro u _
    simp only [tally, List.map_cons, List.foldlM_cons]
    cases n e.2 u.1.1 u.2.1 with
    | none => rfl
    | some m =>
      simp only [Option.map_some, Option.bind_some, Option.bind_eq_bind]
      split_ifs <;> rfl

theorem total_part (es : List (Extender P V T R)) (hl : ∀ e ∈ es.zipIdx, ExtLaws mul e.1 (n e.2) (rel e.2)) (self : Upds P T R) (index : Nat) (p : P) (t : T) :
    total (((es.zipIdx.foldl (fun counts e => e.1.count e.2 counts) (self.map fun u => ((u.1, 2 ^ 31, 0), u.2))).filter fun u => u.1.2.2 = index).map fun u => (u.1.1, u.2)) p t
      = if ((tally n (es.zipIdx.map Prod.snd) p t (2 ^ 31, 0)).map Prod.snd) = some index then total self p t else 0 := by
  have e : ∀ cs : Upds (P × Nat × Nat) T R, ((cs.filter fun u => u.1.2.2 = index).map fun u => (u.1.1, u.2))
      = cs.filterMap fun u => ((fun (d : P × Nat × Nat) (_ : T) => if d.2.2 = index then some d.1 else none) u.1 u.2.1).map fun y => (y, u.2) := by
    intro cs
    induction cs with
    | nil => rfl
    | cons u cs ih =>
      by_cases hu : u.1.2.2 = index
      · rw [List.filter_cons_of_pos (by simp [hu]), List.map_cons, ih, List.filterMap_cons]
        simp [hu]
      · rw [List.filter_cons_of_neg (by simp [hu]), ih, List.filterMap_cons]
        simp [hu]
  rw [e, total_filterMap_congr (fun (d : P × Nat × Nat) (_ : T) => if d.2.2 = index then some d.1 else none) (total_counts es.zipIdx hl _) p t]
  rw [List.filterMap_filterMap, List.filterMap_map]
  have : ((fun u : (P × Nat × Nat) × T × R => (((tally n (es.zipIdx.map Prod.snd) u.1.1 u.2.1 u.1.2).map fun ci => (u.1.1, ci)).map fun y => (y, u.2)).bind
        fun u => (if u.1.2.2 = index then some u.1.1 else none).map fun y => (y, u.2)) ∘ fun u : P × T × R => ((u.1, 2 ^ 31, 0), u.2))
      = fun u => ((fun (d : P) (t' : T) => if ((tally n (es.zipIdx.map Prod.snd) d t' (2 ^ 31, 0)).map Prod.snd) = some index then some d else none) u.1 u.2.1).map fun y => (y, u.2) := by
    funext u
    simp only [Function.comp]
    cases tally n (es.zipIdx.map Prod.snd) u.1 u.2.1 (2 ^ 31, 0) with
    | none => simp
    | some ci =>
      simp only [Option.map_some, Option.bind_some, Option.some.injEq]
  rw [this, total_filterMap_eq_meas (fun (d : P) (t' : T) => if ((tally n (es.zipIdx.map Prod.snd) d t' (2 ^ 31, 0)).map Prod.snd) = some index then some d else none), total_eq_meas]
  by_cases hw : ((tally n (es.zipIdx.map Prod.snd) p t (2 ^ 31, 0)).map Prod.snd) = some index
  · rw [if_pos hw]
    unfold meas pick
    congr 1
    apply List.map_congr_left
    intro u _
    beta_reduce
    congr 1
    by_cases hh : u.1 = p ∧ u.2.1 = t
    · rw [if_pos hh, hh.1, hh.2, if_pos]
      exact ⟨by rw [if_pos hw], rfl⟩
    · rw [if_neg hh, if_neg]
      rintro ⟨h1, h2⟩
      split_ifs at h1 with h3
      exact hh ⟨by simpa using h1, h2⟩
  · rw [if_neg hw]
    unfold meas
    apply List.sum_eq_zero
    intro m hm
    obtain ⟨u, _, rfl⟩ := List.mem_map.1 hm
    beta_reduce
    rw [if_neg]
    · rfl
    · rintro ⟨h1, h2⟩
      split_ifs at h1 with h3
      have : u.1 = p := by simpa using h1
      rw [this, h2] at h3
      exact hw h3

theorem total_validates : ∀ (l : List (Extender P V T R × Nat)), (∀ e ∈ l, ExtLaws mul e.1 (n e.2) (rel e.2)) → ∀ (xs : Upds (P × V) T R) (p : P) (v : V) (t : T),
    total (l.foldl (fun extensions other => other.1.validate extensions) xs) (p, v) t = if ∀ e ∈ l, rel e.2 p v t ≠ 0 then total xs (p, v) t else 0
  | [], _, xs, p, v, t => by simp
  | e :: l, hl, xs, p, v, t => by
    rw [List.foldl_cons, total_validates l (fun e' he' => hl e' (by simp [he'])), (hl e (by simp)).validate]
    by_cases h1 : rel e.2 p v t = 0
    · rw [if_pos h1, ite_self, if_neg]
      intro h
      exact h e (by simp) h1
    · rw [if_neg h1]
      by_cases h2 : ∀ e ∈ l, rel e.2 p v t ≠ 0
      · rw [if_pos h2, if_pos]
        intro e' he'
        rcases List.mem_cons.1 he' with rfl | he'
        · exact h1
        · exact h2 e' he'
      · rw [if_neg h2, if_neg]
        exact fun h => h2 fun e' he' => h e' (by simp [he'])

/-- The index that remains is one with the smallest count. -/
theorem tally_spec (p : P) (t : T) : ∀ (l : List Nat) (ci : Nat × Nat) (ci' : Nat × Nat), tally n l p t ci = some ci' →
    (∀ j ∈ l, ∃ m, n j p t = some m ∧ ci'.1 ≤ m) ∧ ci'.1 ≤ ci.1 ∧ ((ci' = ci) ∨ ∃ j ∈ l, ci'.2 = j ∧ n j p t = some ci'.1)
  | [], ci, ci', h => by
    simp only [tally, List.foldlM_nil] at h
    have : ci = ci' := by simpa using h
    subst this
    exact ⟨by simp, le_refl _, Or.inl rfl⟩
  | j :: l, ci, ci', h => by
    simp only [tally, List.foldlM_cons] at h
    cases hj : n j p t with
    | none => rw [hj] at h; simp at h
    | some m =>
      rw [hj] at h
      simp only [Option.map_some, Option.bind_eq_bind, Option.bind_some] at h
      obtain ⟨h1, h2, h3⟩ := tally_spec p t l _ ci' h
      by_cases hlt : ci.1 < m
      · rw [if_pos hlt] at h2 h3
        refine ⟨?_, h2, ?_⟩
        · intro j' hj'
          rcases List.mem_cons.1 hj' with rfl | hj'
          · exact ⟨m, hj, by omega⟩
          · exact h1 j' hj'
        · rcases h3 with h3 | ⟨j', hj', h3⟩
          · exact Or.inl h3
          · exact Or.inr ⟨j', by simp [hj'], h3⟩
      · rw [if_neg hlt] at h2 h3
        refine ⟨?_, by simp only at h2; omega, ?_⟩
        · intro j' hj'
          rcases List.mem_cons.1 hj' with rfl | hj'
          · exact ⟨m, hj, h2⟩
          · exact h1 j' hj'
        · rcases h3 with h3 | ⟨j', hj', h3⟩
          · exact Or.inr ⟨j, by simp, by rw [h3], by rw [h3]; exact hj⟩
          · exact Or.inr ⟨j', by simp [hj'], h3⟩

theorem tally_none (p : P) (t : T) : ∀ (l : List Nat) (ci : Nat × Nat), tally n l p t ci = none → ∃ j ∈ l, n j p t = none
  | [], ci, h => by simp [tally] at h
  | j :: l, ci, h => by
    simp only [tally, List.foldlM_cons] at h
    cases hj : n j p t with
    | none => exact ⟨j, by simp, hj⟩
    | some m =>
      rw [hj] at h
      simp only [Option.map_some, Option.bind_eq_bind, Option.bind_some] at h
      obtain ⟨j', hj', h'⟩ := tally_none p t l _ h
      exact ⟨j', by simp [hj'], h'⟩

theorem total_flatMap_sum {D X : Type*} [DecidableEq D] (l : List X) (f : X → Upds D T R) (d : D) (t : T) : total (l.flatMap f) d t = (l.map fun x => total (f x) d t).sum := by
  induction l with
  | nil => rfl
  | cons x l ih => rw [List.flatMap_cons, total_append, ih, List.map_cons, List.sum_cons]

/-- Several relations. -/
theorem extend_many (es : List (Extender P V T R)) (hl : ∀ e ∈ es.zipIdx, ExtLaws mul e.1 (n e.2) (rel e.2)) (self : Upds P T R) (p : P) (v : V) (t : T) (hlen : es.length ≠ 1) :
    total (extend self es) (p, v) t = (es.zipIdx.map fun e =>
      if (∀ e' ∈ es.zipIdx, e'.2 ≠ e.2 → rel e'.2 p v t ≠ 0) ∧ ((tally n (es.zipIdx.map Prod.snd) p t (2 ^ 31, 0)).map Prod.snd) = some e.2
      then mul (total self p t) (rel e.2 p v t) else 0).sum := by
  have hext : extend self es = es.zipIdx.flatMap fun e =>
      (es.zipIdx.filter fun other => other.2 ≠ e.2).foldl (fun extensions other => other.1.validate extensions) (e.1.propose
        (((es.zipIdx.foldl (fun counts e => e.1.count e.2 counts) (self.map fun u => ((u.1, 2 ^ 31, 0), u.2))).filter fun u => u.1.2.2 = e.2).map fun u => (u.1.1, u.2))) := by
    unfold extend
    match es, hlen with
    | [], _ => rfl
    | _ :: _ :: _, _ => rfl
  rw [hext, total_flatMap_sum]
  congr 1
  apply List.map_congr_left
  intro e he
  rw [total_validates _ (fun e' he' => hl e' (List.mem_of_mem_filter he')), (hl e he).propose, total_part es hl self e.2 p t]
  have hcond : (∀ e' ∈ es.zipIdx.filter (fun other => other.2 ≠ e.2), rel e'.2 p v t ≠ 0) ↔ ∀ e' ∈ es.zipIdx, e'.2 ≠ e.2 → rel e'.2 p v t ≠ 0 := by
    simp only [List.mem_filter, decide_eq_true_eq, and_imp]
  by_cases h1 : ∀ e' ∈ es.zipIdx, e'.2 ≠ e.2 → rel e'.2 p v t ≠ 0
  · rw [if_pos (hcond.2 h1)]
    by_cases h2 : ((tally n (es.zipIdx.map Prod.snd) p t (2 ^ 31, 0)).map Prod.snd) = some e.2
    · rw [if_pos h2, if_pos ⟨h1, h2⟩]
    · rw [if_neg h2, if_neg fun h => h2 h.2, map_zero, AddMonoidHom.zero_apply]
  · rw [if_neg fun h => h1 (hcond.1 h), if_neg fun h => h1 h.1]

end DD
