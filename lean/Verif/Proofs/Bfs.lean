import Verif.Model.Bfs
import Verif.Spec.Graph
import Verif.Proofs.Dataflow

/-!
# Breadth-first search computes distances
-/

namespace DD
variable {N T L K : Type*}

/-! ### Keeping the least value -/

open Classical in
/-- With `keepLeast`, a key has its least value, once. -/
theorem weight_keepLeast [DecidableEq K] [LinearOrder L] [inst : DecidableEq (K × L)] (c : Coll (K × L)) (k : K) (l : L) :
    weight (c.reduce keepLeast) (k, l) = if weight c (k, l) ≠ 0 ∧ ∀ l', weight c (k, l') ≠ 0 → l ≤ l' then 1 else 0 := by
  obtain rfl : inst = instDecidableEqProd := Subsingleton.elim _ _
  rw [Coll.weight_reduce]
  cases h : c.values k with
  | nil =>
    have hz := (Coll.values_eq_nil c k).1 h
    rw [if_pos rfl, if_neg]
    rintro ⟨h1, -⟩
    exact h1 (hz l)
  | cons x s =>
    obtain ⟨h1, h2, h3⟩ := Coll.values_head h
    rw [if_neg (by simp)]
    simp only [keepLeast, weight_cons, weight_nil, add_zero]
    by_cases e : x.1 = l
    · subst e
      rw [if_pos rfl, if_pos ⟨by rw [h1]; exact h2, h3⟩]
    · rw [if_neg e, if_neg]
      rintro ⟨h4, h5⟩
      exact e (le_antisymm (h3 l h4) (h5 x.1 (by rw [h1]; exact h2)))

theorem keepLeast_nonneg [DecidableEq K] [LinearOrder L] (c : Coll (K × L)) : (c.reduce keepLeast).Nonneg := by
  rintro ⟨k, l⟩
  rw [weight_keepLeast]
  split_ifs <;> simp

/-! ### Distances -/

theorem IsDistance.unique {E : N → N → Prop} {root : N → Prop} {x : N} {d d' : Nat} (h : IsDistance E root x d) (h' : IsDistance E root x d') : d = d' := by
  obtain ⟨⟨r, h1, h2⟩, h3⟩ := h
  obtain ⟨⟨r', h1', h2'⟩, h3'⟩ := h'
  exact le_antisymm (h3 r' d' h1' h2') (h3' r d h1 h2)

theorem exists_distance {E : N → N → Prop} {root : N → Prop} {r x : N} {l : Nat} (hr : root r) (hw : Walk E r l x) : ∃ d, IsDistance E root x d ∧ d ≤ l := by
  classical
  have hex : ∃ l, ∃ r, root r ∧ Walk E r l x := ⟨l, r, hr, hw⟩
  exact ⟨Nat.find hex, ⟨Nat.find_spec hex, fun r' d' hr' hw' => Nat.find_min' hex ⟨r', hr', hw'⟩⟩, Nat.find_min' hex ⟨r, hr, hw⟩⟩

/-- A node at a distance from the roots has a predecessor that is nearer by one. -/
theorem IsDistance.pred {E : N → N → Prop} {root : N → Prop} {x : N} {d : Nat} (h : IsDistance E root x (d + 1)) : ∃ k, IsDistance E root k d ∧ E k x := by
  obtain ⟨⟨r, h1, h2⟩, h3⟩ := h
  cases h2 with
  | snoc hw he =>
    rename_i b
    refine ⟨b, ⟨⟨r, h1, hw⟩, fun r' d' hr' hw' => ?_⟩, he⟩
    have := h3 r' (d' + 1) hr' (hw'.snoc he)
    omega

/-- Distances are at most the number of edges. -/
theorem IsDistance.le_card {E : N → N → Prop} {root : N → Prop} (S : Finset (N × N)) (hS : ∀ a b, E a b → (a, b) ∈ S) {x : N} {d : Nat} (h : IsDistance E root x d) : d ≤ S.card := by
  classical
  have hex : ∀ d x, IsDistance E root x d → ∀ j < d, ∃ e : N × N, E e.1 e.2 ∧ IsDistance E root e.2 (j + 1) := by
    intro d
    induction d with
    | zero => intro x _ j hj; omega
    | succ d ih =>
      intro x hx j hj
      obtain ⟨k, hk, he⟩ := hx.pred
      by_cases e : j = d
      · subst e
        exact ⟨(k, x), he, hx⟩
      · exact ih k hk j (by omega)
  haveI : Nonempty (N × N) := ⟨(x, x)⟩
  choose! f hf using hex d x h
  have := Finset.card_le_card_of_injOn (s := Finset.range d) (t := S) f (fun j hj => hS _ _ (hf j (by simpa using hj)).1) (by
    intro i hi j hj hij
    have h1 := (hf i (by simpa using hi)).2
    have h2 := (hf j (by simpa using hj)).2
    rw [hij] at h1
    have := h1.unique h2
    omega)
  simpa using this

/-! ### Rounds -/

section rounds
variable [LinearOrder N]

/-- The edges of a collection. -/
def edgesOf (c : Coll (N × N)) (a b : N) : Prop := 0 < weight c (a, b)

theorem edgesOf_le_card {c : Coll (N × N)} {root : N → Prop} {x : N} {d : Nat} (h : IsDistance (edgesOf c) root x d) : d ≤ c.length := by
  refine (h.le_card (List.map Prod.fst c).toFinset fun a b hab => ?_).trans ((List.toFinset_card_le _).trans (by simp))
  obtain ⟨r, hr⟩ := Coll.exists_of_weight (ne_of_gt hab)
  exact List.mem_toFinset.2 (List.mem_map.2 ⟨_, hr, rfl⟩)

/-- The collection of the nodes up to a distance. -/
def UpToDistance (edges : Coll (N × N)) (roots : Coll N) (i : Nat) (c : Coll (N × Nat)) : Prop :=
  c.Nonneg ∧ ∀ x d, 0 < weight c (x, d) ↔ IsDistance (edgesOf edges) (fun r => 0 < weight roots r) x d ∧ d ≤ i

theorem weight_nodes (roots : Coll N) (x : N) (d : Nat) : weight (roots.map fun x => (x, 0)) (x, d) = if d = 0 then weight roots x else 0 := by
  split_ifs with h
  · subst h
    exact Coll.weight_map_inj (f := fun x => (x, 0)) (fun _ _ h => congrArg Prod.fst h) roots x
  · rw [Coll.weight_map]
    have : (fun y : N => if (y, 0) = (x, d) then (1 : Int) else 0) = fun _ => 0 := by
      funext y
      rw [if_neg]
      rintro e
      exact h (congrArg Prod.snd e).symm
    rw [this]
    unfold Coll.lin
    simp

theorem bfs_step {edges : Coll (N × N)} {roots : Coll N} (he : edges.Nonneg) (hr : roots.Nonneg) (hm : edges.length + 1 < 2 ^ 32) {i : Nat} {c : Coll (N × Nat)}
    (hc : UpToDistance edges roots i c) :
    ∀ x d, (weight (bfsRound edges (roots.map fun x => (x, 0)) c) (x, d) = 1 ∧ IsDistance (edgesOf edges) (fun r => 0 < weight roots r) x d ∧ d ≤ i + 1) ∨
      (weight (bfsRound edges (roots.map fun x => (x, 0)) c) (x, d) = 0 ∧ ¬ (IsDistance (edgesOf edges) (fun r => 0 < weight roots r) x d ∧ d ≤ i + 1)) := by
  obtain ⟨hnn, hc⟩ := hc
  have hj := hnn.join_core he (fun (_ : N) l d => [(d, addU32 l 1)])
  have hn : Coll.Nonneg (roots.map fun x => (x, 0)) := hr.map _
  have hcat := hj.concat hn
  -- the candidates
  have hcand : ∀ x v, 0 < weight (Coll.concat (Coll.join_core (fun _ l d => [(d, addU32 l 1)]) c edges) (roots.map fun x => (x, 0))) (x, v) ↔
      (∃ k l, IsDistance (edgesOf edges) (fun r => 0 < weight roots r) k l ∧ l ≤ i ∧ edgesOf edges k x ∧ v = l + 1) ∨ v = 0 ∧ 0 < weight roots x := by
    intro x v
    rw [hj.concat_pos hn, hnn.join_core_pos he, weight_nodes]
    refine or_congr ⟨?_, ?_⟩ ?_
    · rintro ⟨k, l, w, h1, h2, h3⟩
      simp only [List.mem_singleton, Prod.mk.injEq] at h3
      obtain ⟨rfl, rfl⟩ := h3
      have h4 := (hc k l).1 h1
      refine ⟨k, l, h4.1, h4.2, h2, ?_⟩
      have := edgesOf_le_card h4.1
      unfold addU32
      exact Nat.mod_eq_of_lt (by omega)
    · rintro ⟨k, l, h1, h2, h3, rfl⟩
      refine ⟨k, l, x, (hc k l).2 ⟨h1, h2⟩, h3, ?_⟩
      have := edgesOf_le_card h1
      unfold addU32
      rw [Nat.mod_eq_of_lt (by omega)]
      exact List.mem_singleton.2 rfl
    · by_cases h : v = 0 <;> simp [h]
  -- candidates are lengths of walks
  have hwalk : ∀ x v, 0 < weight (Coll.concat (Coll.join_core (fun _ l d => [(d, addU32 l 1)]) c edges) (roots.map fun x => (x, 0))) (x, v) →
      v ≤ i + 1 ∧ ∃ r, 0 < weight roots r ∧ Walk (edgesOf edges) r v x := by
    intro x v hv
    rcases (hcand x v).1 hv with ⟨k, l, h1, h2, h3, rfl⟩ | ⟨rfl, h⟩
    · obtain ⟨⟨r, h4, h5⟩, -⟩ := h1
      exact ⟨by omega, r, h4, h5.snoc h3⟩
    · exact ⟨by omega, x, h, Walk.nil⟩
  -- distances are candidates
  have hdist : ∀ x d, IsDistance (edgesOf edges) (fun r => 0 < weight roots r) x d → d ≤ i + 1 →
      0 < weight (Coll.concat (Coll.join_core (fun _ l d => [(d, addU32 l 1)]) c edges) (roots.map fun x => (x, 0))) (x, d) := by
    intro x d hd hi
    rw [hcand]
    cases d with
    | zero =>
      right
      obtain ⟨⟨r, h1, h2⟩, -⟩ := hd
      cases h2
      exact ⟨rfl, h1⟩
    | succ d =>
      left
      obtain ⟨k, hk, hkx⟩ := hd.pred
      exact ⟨k, d, hk, by omega, hkx, rfl⟩
  have hpos : ∀ x v, weight (Coll.concat (Coll.join_core (fun _ l d => [(d, addU32 l 1)]) c edges) (roots.map fun x => (x, 0))) (x, v) ≠ 0 ↔
      0 < weight (Coll.concat (Coll.join_core (fun _ l d => [(d, addU32 l 1)]) c edges) (roots.map fun x => (x, 0))) (x, v) :=
    fun x v => ⟨fun h => lt_of_le_of_ne (hcat _) (Ne.symm h), fun h => ne_of_gt h⟩
  intro x d
  unfold bfsRound
  rw [weight_keepLeast]
  by_cases h : IsDistance (edgesOf edges) (fun r => 0 < weight roots r) x d ∧ d ≤ i + 1
  · left
    refine ⟨if_pos ⟨(hpos x d).2 (hdist x d h.1 h.2), fun v hv => ?_⟩, h⟩
    obtain ⟨-, r, h1, h2⟩ := hwalk x v ((hpos x v).1 hv)
    exact h.1.2 r v h1 h2
  · right
    refine ⟨if_neg ?_, h⟩
    rintro ⟨h1, h2⟩
    obtain ⟨hi, r, hr, hw⟩ := hwalk x d ((hpos x d).1 h1)
    obtain ⟨d', hd', hle⟩ := exists_distance (root := fun r => 0 < weight roots r) hr hw
    have := h2 d' ((hpos x d').2 (hdist x d' hd' (by omega)))
    obtain rfl : d = d' := by omega
    exact h ⟨hd', hi⟩

theorem bfs_round_ok {edges : Coll (N × N)} {roots : Coll N} (he : edges.Nonneg) (hr : roots.Nonneg) (hm : edges.length + 1 < 2 ^ 32) {i : Nat} {c : Coll (N × Nat)}
    (hc : UpToDistance edges roots i c) : UpToDistance edges roots (i + 1) (bfsRound edges (roots.map fun x => (x, 0)) c) := by
  have key := bfs_step he hr hm hc
  refine ⟨fun ⟨x, d⟩ => ?_, fun x d => ?_⟩
  · rcases key x d with h | h <;> rw [h.1]
    decide
  · rcases key x d with h | h
    · simp only [h.1, h.2]
      simp
    · simp only [h.1, h.2]
      simp

theorem bfs_iter_ok {edges : Coll (N × N)} {roots : Coll N} (he : edges.Nonneg) (hr : roots.Nonneg) (hm : edges.length + 1 < 2 ^ 32) (i : Nat) :
    UpToDistance edges roots i (bfsIter edges roots i) := by
  induction i with
  | zero =>
    refine ⟨hr.map _, fun x d => ?_⟩
    rw [bfsIter, weight_nodes]
    constructor
    · intro h
      split_ifs at h with hd
      · subst hd
        exact ⟨⟨⟨x, h, Walk.nil⟩, fun _ _ _ _ => Nat.zero_le _⟩, le_rfl⟩
      · omega
    · rintro ⟨⟨⟨r, h1, h2⟩, -⟩, h3⟩
      obtain rfl : d = 0 := by omega
      cases h2
      simpa using h1
  | succ i ih => exact bfs_round_ok he hr hm ih

open Classical in
/-- From round `|edges|` on, the rounds produce the distances. -/
theorem bfs_iter_final {edges : Coll (N × N)} {roots : Coll N} (he : edges.Nonneg) (hr : roots.Nonneg) (hm : edges.length + 1 < 2 ^ 32) {i : Nat} (hi : edges.length ≤ i) (x : N) (d : Nat) :
    weight (bfsIter edges roots (i + 1)) (x, d) = if IsDistance (edgesOf edges) (fun r => 0 < weight roots r) x d then 1 else 0 := by
  rcases bfs_step he hr hm (bfs_iter_ok he hr hm i) x d with h | h
  · rw [if_pos h.2.1]
    exact h.1
  · rw [if_neg]
    · exact h.1
    · intro hd
      have := edgesOf_le_card hd
      exact h.2 ⟨hd, by omega⟩

end rounds

/-! ### The dataflow -/

section flow
variable [LinearOrder N] [PartialOrder T] [DecidableLE T] [DecidableEq T] {F : BfsFlow N T} {edges : Nat → Upds (N × N) T Int} {roots : Nat → Upds N T Int}

theorem bfs_holds (h : F.Runs edges roots) {t : T} {E : Coll (N × N)} {R : Coll N} (hE : Holds edges t E) (hR : Holds roots t R) :
    ∀ i, i ≤ maxRound → Holds F.inner (t, i) (bfsIter E R i) ∧ Holds (fun n => (F.result n).upds) (t, i) (bfsIter E R (i + 1)) := by
  have hn := h.nodes t R hR
  have step : ∀ i, Holds F.inner (t, i) (bfsIter E R i) → Holds (fun n => (F.result n).upds) (t, i) (bfsIter E R (i + 1)) := fun i hi =>
    h.result _ _ (h.candidates _ _ _ (h.joined _ _ _ hi (h.edgesIn t i E hE)) (h.nodesIn t i _ hn))
  intro i
  induction i with
  | zero => exact fun _ => ⟨loop_zero h.timed h.loop hn, step 0 (loop_zero h.timed h.loop hn)⟩
  | succ i ih =>
    intro hi
    have := loop_succ h.timed h.loop hn (by omega) (ih (by omega)).2
    exact ⟨this, step _ this⟩

end flow
end DD
