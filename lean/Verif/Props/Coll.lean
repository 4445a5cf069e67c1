import Verif.Proofs.Dataflow
import Verif.Proofs.ReduceOp
import Verif.Spec.JoinOp
import Verif.Proofs.TimeOrd

/-!
# C49: operators compute functions of collections, time by time

The operators of `Model/Linear.lean`, which transform streams of timed updates, are related to those of `Model/Coll.lean`, which transform collections.
-/

namespace DD
variable {D D2 T K V V2 : Type*} [PartialOrder T] [DecidableLE T]

theorem upTo_map_time {E : Type*} {R R2 : Type*} (f : D × T × R → E × T × R2) (hf : ∀ u, (f u).2.1 = u.2.1) (q : T) (us : Upds D T R) : upTo q (us.map f) = (upTo q us).map f := by
  unfold upTo
  rw [List.filter_map]
  congr 1
  exact List.filter_congr fun u _ => by simp [hf]

theorem upTo_flatMap_time {E : Type*} {R R2 : Type*} (f : D × T × R → Upds E T R2) (hf : ∀ u, ∀ v ∈ f u, v.2.1 = u.2.1) (q : T) (us : Upds D T R) : upTo q (us.flatMap f) = (upTo q us).flatMap f := by
  unfold upTo
  induction us with
  | nil => rfl
  | cons u us ih =>
    rw [List.flatMap_cons, List.filter_append, ih, List.filter_cons]
    split_ifs with h
    · rw [List.flatMap_cons, List.filter_eq_self.2]
      intro v hv
      rw [hf u v hv]
      exact h
    · rw [List.filter_eq_nil_iff.2, List.nil_append]
      intro v hv
      rw [hf u v hv]
      exact h

/-- An operator that treats each update for itself and keeps its time. -/
theorem op1_of_flatMap [DecidableEq D] [DecidableEq D2] {F : Coll D → Coll D2} (f : D × T × Int → Upds D2 T Int) (hf : ∀ u, ∀ v ∈ f u, v.2.1 = u.2.1) (s : Nat → Upds D T Int)
    (hF : ∀ us : Upds D T Int, List.map (fun u => (u.1, u.2.2)) (us.flatMap f) = F (List.map (fun u => (u.1, u.2.2)) us)) (hc : ∀ c c', Coll.Same c c' → Coll.Same (F c) (F c')) :
    Op1 F s fun n => (s n).flatMap f := by
  rintro q c ⟨n, h1, h2⟩
  refine ⟨n, fun m hm => ?_, fun d => ?_⟩
  · simp only [upTo_flatMap_time f hf]
    exact (h1 m hm).flatMap_right f
  · rw [← weight_collectionAt]
    unfold collectionAt
    rw [upTo_flatMap_time f hf, hF]
    exact hc _ _ (fun d => by rw [← h2 d, ← weight_collectionAt]; rfl) d

variable [DecidableEq D] [DecidableEq D2]

/-- `map`. -/
theorem C49_map (f : D → D2) (ms : Nat → Msgs D T Int) : Op1 (Coll.map f) (fun n => (ms n).upds) fun n => ((ms n).map f).upds := by
  have e : ∀ n, ((ms n).map f).upds = (ms n).upds.flatMap fun u => [(f u.1, u.2.1, u.2.2)] := fun n => by
    rw [Msgs.map, upds_eachMsg _ _ (by simp) rfl, ← List.map_eq_flatMap]
  simp only [e]
  exact op1_of_flatMap _ (by simp) (fun n => (ms n).upds) (fun us => by simp [Coll.map, ← List.map_eq_flatMap, Function.comp_def]) (fun _ _ h => h.map f)

/-- `flat_map`. -/
theorem C49_flat_map (f : D → List D2) (ms : Nat → Msgs D T Int) : Op1 (Coll.flat_map f) (fun n => (ms n).upds) fun n => ((ms n).flat_map f).upds := by
  have e : ∀ n, ((ms n).flat_map f).upds = (ms n).upds.flatMap fun u => (f u.1).map fun x => (x, u.2.1, u.2.2) := fun n => by
    rw [Msgs.flat_map, upds_eachMsg _ _ (by simp) rfl]
  simp only [e]
  exact op1_of_flatMap _ (by simp only [List.mem_map]; rintro u v ⟨x, -, rfl⟩; rfl) (fun n => (ms n).upds)
    (fun us => by simp [Coll.flat_map, List.map_flatMap, List.flatMap_map, Function.comp_def]) (fun _ _ h => h.flat_map f)

/-- `filter`. -/
theorem C49_filter (p : D → Bool) (ms : Nat → Msgs D T Int) : Op1 (Coll.filter p) (fun n => (ms n).upds) fun n => ((ms n).filter p).upds := by
  have e : ∀ n, ((ms n).filter p).upds = (ms n).upds.flatMap fun u => if p u.1 then [u] else [] := fun n => by
    rw [Msgs.filter, upds_eachMsg _ _ (by simp) rfl]
    induction (ms n).upds with
    | nil => rfl
    | cons u us ih => rw [List.filter_cons, List.flatMap_cons, ih]; split_ifs <;> rfl
  simp only [e]
  refine op1_of_flatMap _ (fun u v hv => ?_) (fun n => (ms n).upds) (fun us => ?_) (fun _ _ h => h.filter p)
  · split_ifs at hv
    · rw [List.mem_singleton.1 hv]
    · simp at hv
  · unfold Coll.filter
    induction us with
    | nil => rfl
    | cons u us ih => rw [List.flatMap_cons, List.map_append, ih, List.map_cons, List.filter_cons]; split_ifs <;> simp_all

/-- `negate`. -/
theorem C49_negate (ms : Nat → Msgs D T Int) : Op1 Coll.negate (fun n => (ms n).upds) fun n => (ms n).negate.upds := by
  have e : ∀ n, (ms n).negate.upds = (ms n).upds.flatMap fun u => [(u.1, u.2.1, -u.2.2)] := fun n => by rw [upds_negate, ← List.map_eq_flatMap]
  simp only [e]
  exact op1_of_flatMap _ (by simp) (fun n => (ms n).upds) (fun us => by simp [Coll.negate, ← List.map_eq_flatMap, Function.comp_def]) (fun _ _ h => h.negate)

/-- `concat`, in whatever order the messages of the two are received. -/
theorem C49_concat (ms ms' out : Nat → Msgs D T Int) (h : ∀ n, (out n).Perm ((ms n).concat (ms' n))) :
    Op2 Coll.concat (fun n => (ms n).upds) (fun n => (ms' n).upds) fun n => (out n).upds := by
  rintro q c c' ⟨n, h1, h2⟩ ⟨n', h1', h2'⟩
  have hp : ∀ n, (out n).upds.Perm ((ms n).upds ++ (ms' n).upds) := fun n => by
    rw [← upds_concat]
    exact (h n).flatMap_right _
  have hs := h1.mono (le_max_left n n') (le_refl q)
  have hs' := h1'.mono (le_max_right n n') (le_refl q)
  refine ⟨max n n', fun m hm => ?_, fun d => ?_⟩
  · have e : ∀ k, (upTo q (out k).upds).Perm (upTo q (ms k).upds ++ upTo q (ms' k).upds) := fun k => by
      rw [← upTo_append]
      exact (hp k).filter _
    exact (e m).trans (((hs m hm).append (hs' m hm)).trans (e _).symm)
  · rw [Coll.weight_concat, ← h2 d, ← h2' d, accum_perm (hp _), accum_append]
    congr 1
    · exact hs.accum_eq h1 d
    · exact hs'.accum_eq h1' d

/-- `enter`. -/
theorem C49_enter (ms : Nat → Msgs D T Int) : Enters (fun n => (ms n).upds) fun n => ((ms n).enter (T2 := Nat)).upds := by
  rintro t i c ⟨n, h1, h2⟩
  refine ⟨n, fun m hm => ?_, fun d => ?_⟩
  · simp only [upds_enter]
    rw [upTo_enter, upTo_enter]
    exact (h1 m hm).map _
  · rw [C32_enter, h2 d]

omit [DecidableEq D] in
theorem upTo_enter_at (initial : D → Nat) (t : T) (i : Nat) (us : Upds D T Int) :
    upTo (t, i) (us.map fun u => (u.1, (u.2.1, initial u.1), u.2.2)) = ((upTo t us).filter fun u => initial u.1 ≤ i).map fun u => (u.1, (u.2.1, initial u.1), u.2.2) := by
  unfold upTo
  rw [List.filter_map, List.filter_filter]
  congr 1
  refine List.filter_congr fun u _ => ?_
  simp only [Function.comp_apply, Prod.mk_le_mk, Bool.decide_and]
  exact Bool.and_comm _ _

/-- `enter_at`. -/
theorem C49_enter_at (initial : D → Nat) (ms : Nat → Msgs D T Int) : EntersAt initial (fun n => (ms n).upds) fun n => ((ms n).enter_at initial).upds := by
  rintro t i c ⟨n, h1, h2⟩
  refine ⟨n, fun m hm => ?_, fun d => ?_⟩
  · have e : ∀ n, ((ms n).enter_at initial).upds = (ms n).upds.map fun u => (u.1, (u.2.1, initial u.1), u.2.2) := fun n => by
      simp only [Msgs.upds, Msgs.enter_at, List.flatMap_map, List.map_flatMap]
    simp only [e]
    rw [upTo_enter_at, upTo_enter_at]
    exact ((h1 m hm).filter _).map _
  · rw [C32_enter_at, Coll.weight_filter, h2 d]
    simp

/-- `leave`, once nothing happens after some round. -/
theorem C49_leave (ms : Nat → Msgs D (T × Nat) Int) (t : T) (i : Nat) (hi : ∀ n, ∀ u ∈ (ms n).upds, u.2.1.1 ≤ t → u.2.1.2 ≤ i) (c : Coll D)
    (h : Holds (fun n => (ms n).upds) (t, i) c) : Holds (fun n => (ms n).leave.upds) t c := leave_holds hi h

/-- What operators compute depends only on what their inputs hold. -/
theorem C49_holds_unique (s : Nat → Upds D T Int) (q : T) (c c' : Coll D) (h : Holds s q c) (h' : Holds s q c') (d : D) : weight c d = weight c' d := h.unique h' d

/-- `join_core`: what C25 and C48 state for its output, nested loops over timed updates, is, at each time, the join of the two collections. -/
theorem C49_join {T : Type*} [Lattice T] [DecidableLE T] [DecidableEq K] (result : K → V → V2 → List D) (us1 : Upds (K × V) T Int) (us2 : Upds (K × V2) T Int) (d : D) (q : T) :
    accum (nestedJoin result (fun a b => a * b) us1 us2) d q = weight (Coll.join_core result (collectionAt us1 q) (collectionAt us2 q)) d := by
  have key : ∀ (a : (K × V) × T × Int), accum (us2.flatMap fun b => if a.1.1 = b.1.1 then (result a.1.1 a.1.2 b.1.2).map fun d => (d, a.2.1 ⊔ b.2.1, a.2.2 * b.2.2) else []) d q =
      if a.2.1 ≤ q then weight ((collectionAt us2 q).flatMap fun y => if a.1.1 = y.1.1 then (result a.1.1 a.1.2 y.1.2).map fun d => (d, a.2.2 * y.2) else []) d else 0 := by
    intro a
    have one : ∀ (l : List D) (p : T) (r : Int), accum (l.map fun d => (d, p, r)) d q = if p ≤ q then weight (l.map fun d => (d, r)) d else 0 := by
      intro l p r
      induction l with
      | nil => simp
      | cons x l ih =>
        rw [List.map_cons, List.map_cons, accum_cons, weight_cons, ih]
        by_cases h : p ≤ q <;> simp [h]
    unfold collectionAt upTo
    induction us2 with
    | nil => simp
    | cons b us2 ih =>
      rw [List.flatMap_cons, accum_append, ih, List.filter_cons]
      by_cases ha : a.2.1 ≤ q
      · rw [if_pos ha, if_pos ha]
        by_cases hb : b.2.1 ≤ q
        · rw [if_pos (decide_eq_true hb), List.map_cons, List.flatMap_cons, weight_append]
          congr 1
          split_ifs
          · rw [one, if_pos (sup_le ha hb)]
          · rfl
        · rw [decide_eq_false hb, if_neg Bool.false_ne_true]
          have : accum (if a.1.1 = b.1.1 then (result a.1.1 a.1.2 b.1.2).map fun d => (d, a.2.1 ⊔ b.2.1, a.2.2 * b.2.2) else []) d q = 0 := by
            split_ifs
            · rw [one, if_neg fun h => hb (le_sup_right.trans h)]
            · rfl
          rw [this, zero_add]
      · rw [if_neg ha, if_neg ha]
        split_ifs
        · rw [one, if_neg fun h => ha (le_sup_left.trans h), zero_add]
        · simp
  unfold nestedJoin Coll.join_core
  have hcons : ∀ a us, collectionAt (a :: us : Upds (K × V) T Int) q = if a.2.1 ≤ q then (a.1, a.2.2) :: collectionAt us q else collectionAt us q := by
    intro a us
    unfold collectionAt upTo
    rw [List.filter_cons]
    by_cases h : a.2.1 ≤ q <;> simp [h]
  induction us1 with
  | nil => rfl
  | cons a us1 ih =>
    rw [List.flatMap_cons, accum_append, ih, key, hcons]
    by_cases ha : a.2.1 ≤ q
    · rw [if_pos ha, if_pos ha, List.flatMap_cons, weight_append]
    · rw [if_neg ha, if_neg ha, zero_add]

/-- `reduce`: what C27 and C28 state for its output, key by key, is that the output is, at each time, the reduction of the input collection. -/
theorem C49_reduce [DecidableEq K] [LinearOrder V] [DecidableEq V2] (f : K → List (V × Int) → List (V2 × Int)) (input : Upds (K × V) T Int) (output : Upds (K × V2) T Int) (q : T) :
    (∀ k, ReducedAt (fun l => if l = [] then [] else f k l) (ofKey input k) (ofKey output k) q) ↔
      ∀ k v, accum output (k, v) q = weight (Coll.reduce f (collectionAt input q)) (k, v) := by
  have hsnap : ∀ k, IsSnapshot (ofKey input k) q ((collectionAt input q).values k) := fun k =>
    ⟨Coll.values_pairs _ k, fun v => by rw [Coll.weight_values, weight_collectionAt, accum_ofKey]⟩
  have e : ∀ k v, weight (Coll.reduce f (collectionAt input q)) (k, v) = weight (if (collectionAt input q).values k = [] then [] else f k ((collectionAt input q).values k)) v := by
    intro k v
    rw [Coll.weight_reduce]
    split_ifs <;> rfl
  constructor
  · intro h k v
    obtain ⟨l, hl, h2⟩ := h k
    have : l = (collectionAt input q).values k := consolidatedPairs_unique hl.1 (hsnap k).1 fun v => by rw [hl.2, (hsnap k).2]
    rw [e, ← this, ← h2 v, accum_ofKey]
  · intro h k
    exact ⟨_, hsnap k, fun v => by rw [accum_ofKey, h, e]⟩

omit [PartialOrder T] [DecidableLE T] [DecidableEq D2]

/-- `semijoin`: records of the first with a key in the second. -/
theorem C49_semijoin [DecidableEq K] [DecidableEq V] (c : Coll (K × V)) (c' : Coll K) (k : K) (v : V) : weight (c.semijoin c') (k, v) = weight c (k, v) * weight c' k := Coll.weight_semijoin c c' k v

/-- `antijoin`: records of the first less those with a key in the second. -/
theorem C49_antijoin [DecidableEq K] [DecidableEq V] (c : Coll (K × V)) (c' : Coll K) (k : K) (v : V) : weight (c.antijoin c') (k, v) = weight c (k, v) * (1 - weight c' k) :=
  Coll.weight_antijoin c c' k v

/-- `distinct`: each record once. -/
theorem C49_distinct (c : Coll D) (d : D) : weight c.distinct d = if weight c d = 0 then 0 else 1 := Coll.weight_distinct c d

/-- `threshold`: the function is applied to the weight of each record that is there. -/
theorem C49_threshold (f : D → Int → Int) (c : Coll D) (d : D) : weight (c.threshold f) d = if weight c d = 0 then 0 else f d (weight c d) := Coll.weight_threshold f c d

/-- `count`: each record with its weight, once. -/
theorem C49_count (c : Coll D) (d : D) (r : Int) : weight c.count (d, r) = if r ≠ 0 ∧ weight c d = r then 1 else 0 := Coll.weight_count c d r

/-- `consolidate` changes nothing but the representation, which is then sorted, with each record once, and without zeros. -/
theorem C49_consolidate {D : Type*} [LinearOrder D] (c : Coll D) : ConsolidatedPairs c.consolidate ∧ ∀ d, weight c.consolidate d = weight c d := by
  refine ⟨?_, fun d => Coll.weight_consolidate c d⟩
  rw [Coll.consolidate_def]
  exact consolidatedPairs_consolidated _

section examples

private def exColl : Coll (Nat × Nat) := [((1, 5), 2), ((1, 4), 1), ((2, 7), 1), ((2, 7), -1), ((1, 5), -1)]

example : exColl.values 1 = [(4, 1), (5, 1)] ∧ exColl.values 2 = [] := by decide +kernel
example : exColl.reduce (fun _ s => [(s.length, 1)]) = [((1, 2), 1)] := by decide +kernel
example : Coll.join_core (fun k a b => [(k, a + b)]) exColl [((1, 10), 3)] = [((1, 15), 6), ((1, 14), 3), ((1, 15), -3)] := by decide +kernel
example : Coll.distinct [((5 : Nat), 2), (6, 1), (6, -1), (5, 1)] = [(5, 1)] := by decide +kernel
example : Coll.count [((5 : Nat), 2), (6, 1), (6, -1), (5, 1)] = [((5, 3), 1)] := by decide +kernel

/-- A stream in two messages; at time 1 it holds both. -/
private def exStream : Nat → Msgs Nat Nat Int := fun n => List.take n [(0, [(5, 0, 1)]), (1, [(5, 1, 1), (6, 1, 1)])]

example : Holds (fun n => (exStream n).upds) 1 [(5, 2), (6, 1)] := by
  have e : ∀ m, 2 ≤ m → exStream m = exStream 2 := fun m hm => by
    simp only [exStream]
    rw [List.take_of_length_le (by simpa using hm), List.take_of_length_le (by simp)]
  refine ⟨2, fun m hm => ?_, fun d => ?_⟩
  · simp only [e m hm]
    exact List.Perm.refl _
  · simp only [exStream, Msgs.upds, weight, accum]
    by_cases h5 : 5 = d <;> by_cases h6 : 6 = d <;> simp [h5, h6] <;> omega

end examples
end DD
