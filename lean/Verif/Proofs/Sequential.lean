import Verif.Spec.Sequential
import Verif.Model.Sequential
import Verif.Proofs.PrefixSumFlow

/-!
# Sequential graph algorithms are right
-/

namespace DD
variable {N V T : Type*} [LinearOrder N] [LinearOrder V]

namespace Coll
variable {D E : Type*}

theorem lin_comm (f : D → E → Int) (c : Coll D) (e : Coll E) : lin (fun x => lin (fun y => f x y) e) c = lin (fun y => lin (fun x => f x y) c) e := by
  induction c with
  | nil => simp [lin]
  | cons x c ih =>
    rw [lin_cons, ih]
    clear ih
    induction e with
    | nil => simp [lin]
    | cons y e ih =>
      rw [lin_cons, lin_cons, lin_cons, lin_cons, ← ih]
      ring

omit [LinearOrder N] in
/-- What is sent along edges. -/
theorem weight_send [DecidableEq N] [DecidableEq D] (c : Coll (N × D)) (e : Coll (N × N)) (n : N) (v : D) :
    weight (join_map (fun _ v d => (d, v)) c e) (n, v) = lin (fun y => if y.2 = n then weight c (y.1, v) else 0) e := by
  unfold join_map
  rw [weight_join_core, lin_comm]
  congr 1
  funext y
  split_ifs with h
  · rw [weight_eq_lin]
    congr 1
    funext x
    by_cases h1 : x.1 = y.1 <;> by_cases h2 : x.2 = v <;> simp [h1, h2, h, Prod.ext_iff, List.count_nil]
  · refine (congrArg (fun g => lin g c) (funext fun x => ?_)).trans (show lin (fun _ => 0) c = 0 by simp [lin])
    by_cases h1 : x.1 = y.1 <;> simp [h1, h, Prod.ext_iff, List.count_nil]

end Coll

section rounds
variable {logic : N → List (V × Int) → V} {state : Coll (N × V)} {edges : Coll (N × N)}

theorem weight_arrived (sent : Coll (N × Option V)) (n : N) (v : V) : weight (arrived sent) (n, v) = weight sent (n, some v) := by
  unfold arrived
  rw [Coll.weight_flat_map, Coll.weight_eq_lin]
  congr 1
  funext x
  obtain ⟨m, _ | w⟩ := x
  · simp
  · by_cases h : (m, w) = (n, v)
    · obtain ⟨rfl, rfl⟩ := Prod.mk.inj h; simp
    · have : ¬ (m, some w) = (n, some v) := by simpa [Prod.ext_iff] using h
      simp [h, this, List.count_nil]

/-- What is heard along an edge. -/
def hears (state : Coll (N × V)) (new : N → V) (n : N) (v : V) (e : N × N) : Int :=
  if e.2 = n then if e.1 < n then if new e.1 = v then 1 else 0 else if n < e.1 then weight state (e.1, v) else 0 else 0

theorem weight_heard (edges : Coll (N × N)) (state : Coll (N × V)) (new : N → V) (n : N) (v : V) : weight (heard edges state new n) v = Coll.lin (hears state new n v) edges := by
  unfold heard
  induction edges with
  | nil => rfl
  | cons e es ih =>
    rw [List.flatMap_cons, weight_append, ih, Coll.lin_cons]
    congr 1
    unfold hears
    split_ifs with h1 h2 h3 h4
    · rw [weight_cons, if_pos h3, weight_nil]; ring
    · rw [weight_cons, if_neg h3, weight_nil]; ring
    · clear ih
      induction state with
      | nil => simp
      | cons s st ih =>
        rw [weight_cons, mul_add, ← ih, List.filter_cons]
        by_cases h5 : s.1.1 = e.1.1
        · rw [if_pos (by simpa using h5), List.map_cons, weight_cons]
          congr 1
          by_cases h6 : s.1.2 = v
          · rw [if_pos h6, if_pos (Prod.ext h5 h6)]
          · rw [if_neg h6, if_neg fun e => h6 (congrArg Prod.snd e), mul_zero]
        · rw [if_neg (by simpa using h5), if_neg fun e => h5 (congrArg Prod.fst e), mul_zero, zero_add]
    · simp
    · simp

/-- The new states, computed again and again from the last ones. -/
noncomputable def newStates (logic : N → List (V × Int) → V) (state : Coll (N × V)) (edges : Coll (N × N)) : Nat → N → V
  | 0, n => logic n []
  | i + 1, n => logic n (heard edges state (newStates logic state edges i) n).consolidate

/-- All that the state depends on was known before. -/
def Done (edges : Coll (N × N)) : Nat → N → Prop
  | 0, _ => False
  | i + 1, n => ∀ m, m < n → 0 < weight edges (m, n) → Done edges i m

theorem Done.succ {i : Nat} : ∀ {n : N}, Done edges i n → Done edges (i + 1) n := by
  induction i with
  | zero => exact fun h => h.elim
  | succ i ih => exact fun h m hm he => ih (h m hm he)

theorem Done.mono {i j : Nat} (hij : i ≤ j) {n : N} (h : Done edges i n) : Done edges j n := by
  induction hij with
  | refl => exact h
  | step _ ih => exact ih.succ

theorem heard_congr (hE : edges.Nonneg) {new new' : N → V} {n : N} (h : ∀ m, m < n → 0 < weight edges (m, n) → new m = new' m) (v : V) :
    weight (heard edges state new n) v = weight (heard edges state new' n) v := by
  rw [weight_heard, weight_heard]
  refine Coll.lin_congr_mul fun e => ?_
  unfold hears
  split_ifs with h1 h2 <;> try rfl
  all_goals
    by_cases he : weight edges e = 0
    · rw [he, zero_mul, zero_mul]
    · have h3 : 0 < weight edges (e.1, n) := by rw [← h1]; exact lt_of_le_of_ne (hE e) (Ne.symm he)
      have := h e.1 h2 h3
      simp_all

theorem consolidate_congr {c c' : Coll V} (h : ∀ v, weight c v = weight c' v) : c.consolidate = c'.consolidate := by
  rw [Coll.consolidate_def, Coll.consolidate_def]
  exact consolidatedPairs_unique (consolidatedPairs_consolidated _) (consolidatedPairs_consolidated _) fun v => by rw [weight_consolidated, weight_consolidated, h]

theorem newStates_done (hE : edges.Nonneg) {i : Nat} : ∀ {n : N} {j : Nat}, Done edges i n → i ≤ j → newStates logic state edges j n = newStates logic state edges i n := by
  induction i with
  | zero => exact fun h => h.elim
  | succ i ih =>
    intro n j h hj
    obtain ⟨j, rfl⟩ : ∃ j', j = j' + 1 := ⟨j - 1, by omega⟩
    simp only [newStates]
    rw [consolidate_congr (heard_congr hE fun m hm he => ih (h m hm he) (by omega))]

/-- What a round needs to know of the states. -/
def StatesRight (logic : N → List (V × Int) → V) (state : Coll (N × V)) (edges : Coll (N × N)) (i : Nat) (new : Coll (N × Option V)) : Prop :=
  new.Nonneg ∧ ∀ m n, m ≠ n → 0 < weight edges (m, n) → (0 < weight new (m, none) ↔ ¬ Done edges i m) ∧
    (Done edges i m → ∀ v, weight new (m, some v) = if newStates logic state edges i m = v then 1 else 0)

theorem weight_waiting (hE : edges.Nonneg) {i : Nat} {new : Coll (N × Option V)} (h : StatesRight logic state edges i new) (n : N) [Decidable (Done edges (i + 1) n)] :
    weight (waiting (sendForward new edges)) n = if Done edges (i + 1) n then 0 else 1 := by
  have hf : (edges.filter fun e => decide (e.1 < e.2)).Nonneg := hE.filter _
  have hs : (sendForward new edges).Nonneg := h.1.join_core hf fun _ v d => [(d, v)]
  have hsp : ∀ d ov, 0 < weight (sendForward new edges) (d, ov) ↔ ∃ k v w, 0 < weight new (k, v) ∧ 0 < weight (edges.filter fun e => decide (e.1 < e.2)) (k, w) ∧ (d, ov) ∈ [(w, v)] :=
    fun d ov => h.1.join_core_pos hf (fun _ v d => [(d, v)]) (d, ov)
  have hpos : 0 < weight (((sendForward new edges).filter fun x => x.2.isNone).map fun x => x.1) n ↔ ¬ Done edges (i + 1) n := by
    rw [(hs.filter _).map_pos]
    constructor
    · rintro ⟨⟨d, ov⟩, hd, rfl⟩ hdone
      rw [Coll.weight_filter] at hd
      split_ifs at hd with hnone
      · obtain ⟨k, v, w, h1, h2, h3⟩ := (hsp d ov).1 hd
        rw [List.mem_singleton] at h3
        obtain ⟨rfl, rfl⟩ := Prod.mk.inj h3
        rw [Coll.weight_filter] at h2
        split_ifs at h2 with h4
        · have h4 : k < d := by simpa using h4
          obtain rfl : ov = none := by simpa using hnone
          exact (h.2 k d h4.ne h2).1.1 h1 (hdone k h4 h2)
        · exact absurd h2 (lt_irrefl _)
      · exact absurd hd (lt_irrefl _)
    · intro hnd
      simp only [Done] at hnd
      push Not at hnd
      obtain ⟨m, hm, he, hd⟩ := hnd
      refine ⟨(n, none), ?_, rfl⟩
      rw [Coll.weight_filter, if_pos (by rfl)]
      refine (hsp n none).2 ⟨m, none, n, (h.2 m n hm.ne he).1.2 hd, ?_, List.mem_singleton.2 rfl⟩
      rw [Coll.weight_filter, if_pos (by simpa using hm)]
      exact he
  unfold waiting
  rw [Coll.weight_distinct]
  by_cases hd : Done edges (i + 1) n
  · rw [if_pos hd, if_pos]
    have h1 := ((hs.filter fun x => x.2.isNone).map fun x => x.1) n
    have h2 := mt hpos.1 (not_not.2 hd)
    omega
  · rw [if_neg hd, if_neg (hpos.2 hd).ne']

theorem weight_received (hE : edges.Nonneg) {i : Nat} {new : Coll (N × Option V)} (h : StatesRight logic state edges i new) {n : N} (hn : Done edges (i + 1) n) (v : V) :
    weight ((arrived (sendForward new edges)).concat (sendReverse state edges)) (n, v) = weight (heard edges state (newStates logic state edges i) n) v := by
  rw [Coll.weight_concat, weight_arrived, weight_heard, sendForward, sendReverse, Coll.weight_send, Coll.weight_send]
  rw [Coll.lin_congr_mul (c' := edges) (g' := fun y => if y.2 = n ∧ y.1 < y.2 then weight new (y.1, some v) else 0) fun y => by
      rw [Coll.weight_filter]; by_cases h1 : y.2 = n <;> by_cases h2 : y.1 < y.2 <;> simp [h1, h2],
    Coll.lin_congr_mul (c := edges.filter fun e => e.1 > e.2) (c' := edges) (g' := fun y => if y.2 = n ∧ y.2 < y.1 then weight state (y.1, v) else 0) fun y => by
      rw [Coll.weight_filter]; by_cases h1 : y.2 = n <;> by_cases h2 : y.2 < y.1 <;> simp [h1, h2]]
  have hadd : ∀ (g g' : N × N → Int) (c : Coll (N × N)), Coll.lin g c + Coll.lin g' c = Coll.lin (fun y => g y + g' y) c := by
    intro g g' c
    induction c with
    | nil => rfl
    | cons x c ih => rw [Coll.lin_cons, Coll.lin_cons, Coll.lin_cons, ← ih]; ring
  rw [hadd]
  refine Coll.lin_congr_mul fun e => ?_
  by_cases he : weight edges e = 0
  · rw [he, zero_mul, zero_mul]
  congr 1
  unfold hears
  by_cases h1 : e.2 = n
  · rw [if_pos h1]
    have h3 : 0 < weight edges (e.1, n) := by rw [← h1]; exact lt_of_le_of_ne (hE e) (Ne.symm he)
    rw [h1]
    rcases lt_trichotomy e.1 n with h2 | h2 | h2
    · rw [if_pos ⟨rfl, h2⟩, if_neg fun e => absurd e.2 h2.not_gt, if_pos h2, add_zero]
      exact (h.2 e.1 n h2.ne h3).2 (hn _ h2 h3) v
    · rw [if_neg fun e => absurd e.2 h2.not_lt, if_neg fun e => absurd e.2 h2.not_gt, if_neg h2.not_lt, if_neg h2.not_gt, add_zero]
    · rw [if_neg fun e => absurd e.2 h2.not_gt, if_pos ⟨rfl, h2⟩, if_neg h2.not_gt, if_pos h2, zero_add]
  · rw [if_neg fun e => h1 e.1, if_neg fun e => h1 e.1, if_neg h1, add_zero]

/-- The states after a round. -/
theorem weight_seqRound (hS : state.Nonneg) (hE : edges.Nonneg) (hC : Connected state edges) {i : Nat} {new : Coll (N × Option V)} (h : StatesRight logic state edges i new) (n : N) (x : Option V)
    [Decidable (Done edges (i + 1) n)] [Decidable (Addressed edges n)] :
    weight (seqRound logic state edges new) (n, x) = if Addressed edges n ∧ x = (if Done edges (i + 1) n then some (newStates logic state edges (i + 1) n) else none) then 1 else 0 := by
  unfold seqRound
  have hwait := weight_waiting hE h n
  have hmap : weight ((waiting (sendForward new edges)).map fun y => (y, (none : Option V))) (n, x) = if x = none then weight (waiting (sendForward new edges)) n else 0 := by
    split_ifs with hx
    · subst hx
      exact Coll.weight_map_inj (f := fun y : N => (y, (none : Option V))) (fun a b e => congrArg Prod.fst e) _ n
    · exact Coll.weight_map_none _ _ _ fun y e => hx (congrArg Prod.snd e).symm
  rw [Coll.weight_concat, hmap, hwait, Coll.weight_reduce]
  by_cases hd : Done edges (i + 1) n
  · have hv : ∀ v, weight (seqMessages state edges new) (n, v) = weight (heard edges state (newStates logic state edges i) n) v := fun v => by
      unfold seqMessages
      rw [Coll.weight_antijoin, hwait, if_pos hd, weight_received hE h hd]; ring
    have hvals : (seqMessages state edges new).values n = (heard edges state (newStates logic state edges i) n).consolidate := by
      rw [Coll.consolidate_def]
      exact consolidatedPairs_unique (Coll.values_pairs _ _) (consolidatedPairs_consolidated _) fun v => by rw [Coll.weight_values, weight_consolidated, hv]
    have hempty : (seqMessages state edges new).values n = [] ↔ ¬ Addressed edges n := by
      rw [Coll.values_eq_nil]
      simp only [hv, weight_heard]
      have hnn : ∀ v e, 0 ≤ hears state (newStates logic state edges i) n v e := fun v e => by
        unfold hears
        split_ifs <;> first | exact hS _ | decide
      constructor
      · rintro h0 ⟨m, hm, he⟩
        rcases lt_or_gt_of_ne hm with hlt | hlt
        · refine absurd (h0 (newStates logic state edges i m)) (ne_of_gt (((Coll.lin_pos hE (hnn _)).2).2 ⟨(m, n), he, ?_⟩))
          simp [hears, hlt]
        · obtain ⟨⟨v, hv⟩, -⟩ := hC m n hm he
          refine absurd (h0 v) (ne_of_gt (((Coll.lin_pos hE (hnn _)).2).2 ⟨(m, n), he, ?_⟩))
          simpa [hears, hlt, hlt.not_gt] using hv
      · intro ha v
        refine Coll.lin_zero fun e => ?_
        by_cases he : weight edges e = 0
        · rw [he, zero_mul]
        · have h3 : 0 < weight edges e := lt_of_le_of_ne (hE e) (Ne.symm he)
          unfold hears
          by_cases h1 : e.2 = n
          · subst h1
            have : e.1 = e.2 := by
              by_contra hne
              exact ha ⟨e.1, hne, h3⟩
            rw [if_pos rfl, if_neg this.not_lt, if_neg this.not_gt, mul_zero]
          · rw [if_neg h1, mul_zero]
    rw [if_pos hd, if_pos hd, ite_self, add_zero]
    by_cases ha : Addressed edges n
    · rw [if_neg (mt hempty.1 (not_not.2 ha)), hvals, applyLogic, weight_cons, weight_nil, add_zero]
      simp only [ha, true_and, newStates]
      exact if_congr eq_comm rfl rfl
    · rw [if_pos (hempty.2 ha), if_neg fun e => ha e.1]
  · have ha : Addressed edges n := by
      simp only [Done] at hd
      push Not at hd
      obtain ⟨m, hm, he, -⟩ := hd
      exact ⟨m, hm.ne, he⟩
    rw [if_pos, if_neg hd, if_neg hd, zero_add]
    · simp [ha]
    · refine (Coll.values_eq_nil _ _).2 fun v => ?_
      unfold seqMessages
      rw [Coll.weight_antijoin, hwait, if_neg hd, sub_self, mul_zero]

theorem statesRight_iter (logic : N → List (V × Int) → V) (hS : state.Nonneg) (hE : edges.Nonneg) (hC : Connected state edges) (i : Nat) : StatesRight logic state edges i (seqIter logic state edges i) := by
  classical
  induction i with
  | zero =>
    refine ⟨hS.map fun x => (x.1, (none : Option V)), fun m n hm he => ⟨⟨fun _ h => h, fun _ => ?_⟩, fun h => h.elim⟩⟩
    obtain ⟨⟨v, hv⟩, -⟩ := hC m n hm he
    exact (hS.map_pos (fun x => (x.1, (none : Option V))) (m, none)).2 ⟨(m, v), hv, rfl⟩
  | succ i ih =>
    refine ⟨fun ⟨n, x⟩ => ?_, fun m n hm he => ?_⟩
    · rw [seqIter, weight_seqRound hS hE hC ih]
      split_ifs <;> simp
    · have ha := (hC m n hm he).2
      simp only [seqIter, weight_seqRound hS hE hC ih, ha, true_and]
      by_cases hd : Done edges (i + 1) m <;> simp [hd, eq_comm]

/-- All states are known once there have been as many rounds as there are nodes. -/
theorem done_all {S : Finset N} (hS : ∀ e, weight edges e ≠ 0 → e.1 ∈ S) {i : Nat} (hi : S.card < i) (n : N) : Done edges i n := by
  have key : ∀ (k : Nat) (n : N), (S.filter fun m => m < n).card < k → Done edges k n := by
    intro k
    induction k with
    | zero => exact fun n h => absurd h (Nat.not_lt_zero _)
    | succ k ih =>
      intro n hn m hm he
      refine ih m (lt_of_lt_of_le (Finset.card_lt_card ?_) (Nat.lt_succ_iff.1 hn))
      refine Finset.ssubset_iff_subset_ne.2 ⟨fun x hx => ?_, fun e => ?_⟩
      · rw [Finset.mem_filter] at hx ⊢
        exact ⟨hx.1, hx.2.trans hm⟩
      · have : m ∈ S.filter fun x => x < n := Finset.mem_filter.2 ⟨hS _ he.ne', hm⟩
        rw [← e, Finset.mem_filter] at this
        exact lt_irrefl _ this.2
  exact key i n (lt_of_le_of_lt (Finset.card_filter_le _ _) hi)

theorem seqIter_stable (logic : N → List (V × Int) → V) (hS : state.Nonneg) (hE : edges.Nonneg) (hC : Connected state edges) {S : Finset N} (hN : ∀ e, weight edges e ≠ 0 → e.1 ∈ S) {i : Nat}
    (hi : S.card < i) : Coll.Same (seqIter logic state edges i) (seqIter logic state edges (S.card + 1)) := by
  classical
  rintro ⟨n, x⟩
  obtain ⟨i, rfl⟩ : ∃ i', i = i' + 1 := ⟨i - 1, by omega⟩
  rw [seqIter, seqIter, weight_seqRound hS hE hC (statesRight_iter logic hS hE hC i), weight_seqRound hS hE hC (statesRight_iter logic hS hE hC S.card),
    if_pos (done_all hN hi n), if_pos (done_all hN (Nat.lt_succ_self _) n), newStates_done hE (done_all hN (Nat.lt_succ_self _) n) (by omega)]

/-- The states in the end. -/
theorem weight_seqIter (logic : N → List (V × Int) → V) (hS : state.Nonneg) (hE : edges.Nonneg) (hC : Connected state edges) {S : Finset N} (hN : ∀ e, weight edges e ≠ 0 → e.1 ∈ S) {i : Nat}
    (hi : S.card < i) : ∃ new : N → V, (∀ n, Addressed edges n → new n = logic n (heard edges state new n).consolidate) ∧
      ∀ n x [Decidable (Addressed edges n)], weight (seqIter logic state edges i) (n, x) = if Addressed edges n ∧ x = some (new n) then 1 else 0 := by
  classical
  refine ⟨newStates logic state edges i, fun n _ => ?_, fun n x _ => ?_⟩
  · rw [← newStates_done hE (done_all hN hi n) (Nat.le_succ i)]
    simp only [newStates]
  · obtain ⟨i, rfl⟩ : ∃ i', i = i' + 1 := ⟨i - 1, by omega⟩
    rw [seqIter, weight_seqRound hS hE hC (statesRight_iter logic hS hE hC i), if_pos (done_all hN hi n)]

end rounds
end DD
