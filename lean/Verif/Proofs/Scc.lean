import Verif.Model.Scc
import Verif.Proofs.SccGraph
import Verif.Proofs.Propagate

/-!
# Strongly connected components
-/

namespace DD
variable {N T : Type*} [LinearOrder N]

namespace Coll
variable {D K V V2 : Type*}

theorem lin_join_core [DecidableEq K] (g : D → Int) (z : K → V → V2 → D) (c : Coll (K × V)) (c' : Coll (K × V2)) :
    lin g (join_core (fun k v v2 => [z k v v2]) c c') = lin (fun x => lin (fun y => if x.1 = y.1 then g (z x.1 x.2 y.2) else 0) c') c := by
  induction c with
  | nil => rfl
  | cons x c ih =>
    have : join_core (fun k v v2 => [z k v v2]) (x :: c) c' =
        (c'.flatMap fun y => if x.1.1 = y.1.1 then [z x.1.1 x.1.2 y.1.2].map fun d => (d, x.2 * y.2) else []) ++ join_core (fun k v v2 => [z k v v2]) c c' := rfl
    rw [this, lin_append, ih, lin_cons]
    congr 1
    clear this ih
    induction c' with
    | nil => simp
    | cons y c' ih =>
      rw [List.flatMap_cons, lin_append, ih, lin_cons, mul_add]
      congr 1
      split_ifs with h
      · simp; ring
      · simp

open Classical in
/-- The sum over what a key is associated with, if it is associated with at most one record, once. -/
theorem lin_functional [DecidableEq K] [DecidableEq V] {c : Coll (K × V)} {P : K → V → Prop} (hc : ∀ k v, weight c (k, v) = if P k v then 1 else 0) (hP : ∀ k v v', P k v → P k v' → v = v')
    (k : K) (g : V → Int) : lin (fun y => if k = y.1 then g y.2 else 0) c = if h : ∃ v, P k v then g h.choose else 0 := by
  have e : lin (fun y => if k = y.1 then g y.2 else 0) c = lin (fun y : K × V => g y.2) (c.filter fun y => decide (k = y.1)) := by
    clear hc
    induction c with
    | nil => rfl
    | cons y c ih =>
      have : filter (fun y => decide (k = y.1)) (y :: c) = if decide (k = y.1.1) then y :: filter (fun y => decide (k = y.1)) c else filter (fun y => decide (k = y.1)) c := by
        unfold filter
        rw [List.filter_cons]
      rw [this, lin_cons, ih]
      by_cases h : k = y.1.1 <;> simp [h]
  rw [e]
  split_ifs with h
  · have : Same (c.filter fun y => decide (k = y.1)) [((k, h.choose), 1)] := by
      rintro ⟨k', v'⟩
      rw [weight_filter, hc, weight_cons, weight_nil]
      by_cases hk : k = k'
      · subst hk
        by_cases hv : P k v'
        · rw [hP k v' _ hv h.choose_spec]
          simp [h.choose_spec]
        · have : h.choose ≠ v' := fun e => hv (e ▸ h.choose_spec)
          simp [hv, this]
      · simp [hk]
    rw [lin_congr this]
    simp
  · have : Same (c.filter fun y => decide (k = y.1)) [] := by
      rintro ⟨k', v'⟩
      rw [weight_filter, hc, weight_nil]
      by_cases hk : k = k'
      · subst hk
        rw [if_neg fun hv => h ⟨v', hv⟩]
        simp
      · simp [hk]
    rw [lin_congr this]
    rfl

end Coll

open Classical in
theorem weight_trimBy {L E : Coll (N × N)} {P : N → N → Prop} (hL : ∀ k v, weight L (k, v) = if P k v then 1 else 0) (hP : ∀ k v v', P k v → P k v' → v = v') (x y : N) :
    weight (trimBy L E) (y, x) = if ∃ l, P x l ∧ P y l then weight E (x, y) else 0 := by
  have h1 : weight (trimBy L E) (y, x) =
      Coll.lin (fun d => if d.2.1 = d.2.2 ∧ (d.1.2, d.1.1) = (y, x) then 1 else 0) (trimTargets (trimSources E L) L) := by
    unfold trimBy trimKeep
    rw [Coll.weight_map]
    generalize trimTargets (trimSources E L) L = c
    induction c with
    | nil => rfl
    | cons z c ih =>
      have : Coll.filter (fun x => decide (x.2.1 = x.2.2)) (z :: c) = if decide (z.1.2.1 = z.1.2.2) then z :: Coll.filter (fun x => decide (x.2.1 = x.2.2)) c
          else Coll.filter (fun x => decide (x.2.1 = x.2.2)) c := by
        unfold Coll.filter
        rw [List.filter_cons]
      rw [this, Coll.lin_cons, ← ih]
      by_cases h : z.1.2.1 = z.1.2.2 <;> simp [h]
  rw [h1]
  unfold trimTargets
  rw [Coll.lin_join_core (z := fun e2 (e1l1 : N × N) l2 => ((e1l1.1, e2), (e1l1.2, l2)))]
  have h2 : ∀ d : N × N × N, Coll.lin (fun y' : N × N => if d.1 = y'.1 then if d.2.2 = y'.2 ∧ (d.1, d.2.1) = (y, x) then (1 : Int) else 0 else 0) L =
      if P d.1 d.2.2 ∧ (d.1, d.2.1) = (y, x) then 1 else 0 := by
    intro d
    rw [Coll.lin_functional hL hP d.1 fun l => if d.2.2 = l ∧ (d.1, d.2.1) = (y, x) then (1 : Int) else 0]
    by_cases h : ∃ v, P d.1 v
    · rw [dif_pos h]
      refine if_congr ?_ rfl rfl
      refine and_congr_left fun _ => ⟨fun e => ?_, fun e => hP _ _ _ e h.choose_spec⟩
      rw [e]
      exact h.choose_spec
    · rw [dif_neg h, if_neg fun e => h ⟨_, e.1⟩]
  simp only [h2]
  unfold trimSources
  rw [Coll.lin_join_core (z := fun e1 e2 l1 => (e2, e1, l1))]
  have h3 : ∀ d : N × N, Coll.lin (fun y' : N × N => if d.1 = y'.1 then if P d.2 y'.2 ∧ (d.2, d.1) = (y, x) then (1 : Int) else 0 else 0) L =
      if d = (x, y) then if ∃ l, P x l ∧ P y l then 1 else 0 else 0 := by
    intro d
    rw [Coll.lin_functional hL hP d.1 fun l => if P d.2 l ∧ (d.2, d.1) = (y, x) then (1 : Int) else 0]
    by_cases hd : d = (x, y)
    · subst hd
      rw [if_pos rfl]
      by_cases h : ∃ v, P x v
      · rw [dif_pos h]
        refine if_congr ⟨fun e => ⟨_, h.choose_spec, e.1⟩, fun ⟨l, h1, h2⟩ => ⟨?_, rfl⟩⟩ rfl rfl
        rw [hP _ _ _ h.choose_spec h1]
        exact h2
      · rw [dif_neg h, if_neg fun ⟨l, e, _⟩ => h ⟨l, e⟩]
    · rw [if_neg hd]
      split_ifs with h h'
      · exact absurd (Prod.ext (congrArg Prod.snd h'.2) (congrArg Prod.fst h'.2)) hd
      · rfl
      · rfl
  simp only [h3]
  rw [Coll.weight_eq_lin]
  split_ifs with h
  · rfl
  · simp [Coll.lin]

theorem trimNodes_same {E E' : Coll (N × N)} (h : Coll.Same E E') : Coll.Same (trimNodes E) (trimNodes E') := ((h.map _).consolidate).map _

theorem trimNodes_nonneg {E : Coll (N × N)} (h : E.Nonneg) : (trimNodes E).Nonneg := ((h.map _).consolidate).map _

theorem trimNodes_pos {E : Coll (N × N)} (h : E.Nonneg) (m l : N) : 0 < weight (trimNodes E) (m, l) ↔ m = l ∧ ∃ a, edgesOf E a m := by
  unfold trimNodes
  rw [((h.map _).consolidate).map_pos]
  constructor
  · rintro ⟨d, h1, h2⟩
    rw [Coll.weight_consolidate, h.map_pos] at h1
    obtain ⟨⟨a, b⟩, h3, rfl⟩ := h1
    obtain ⟨rfl, rfl⟩ := Prod.ext_iff.1 h2
    exact ⟨rfl, a, h3⟩
  · rintro ⟨rfl, a, ha⟩
    refine ⟨toLex (m, m), ?_, rfl⟩
    rw [Coll.weight_consolidate, h.map_pos]
    exact ⟨(a, m), ha, rfl⟩

theorem labels_are {logic : N → Nat} {C E : Coll (N × N)} (hC : C.Nonneg) (hE : E.Nonneg) {S : Finset (N × N)} (hS : ∀ a b, edgesOf C a b → (a, b) ∈ S) {rounds : Nat}
    (hr : 16384 + S.card ≤ rounds) (x l : N) [Decidable (TargetLabel (edgesOf E) (edgesOf C) x l)] :
    weight (labelIter logic C (trimNodes E) rounds) (x, l) = if TargetLabel (edgesOf E) (edgesOf C) x l then 1 else 0 := by
  classical
  rw [labelIter_final hC (trimNodes_nonneg hE) hS hr]
  refine if_congr ?_ rfl rfl
  unfold TargetLabel
  simp only [trimNodes_pos hE]

open Classical in
theorem weight_trimEdges {logic : N → Nat} {C E : Coll (N × N)} (hC : C.Nonneg) (hE : E.Nonneg) {S : Finset (N × N)} (hS : ∀ a b, edgesOf C a b → (a, b) ∈ S) {rounds : Nat}
    (hr : 16384 + S.card ≤ rounds) (x y : N) : weight (trimEdges logic rounds C E) (y, x) = if KeptBy (edgesOf E) (edgesOf C) y x then weight E (x, y) else 0 := by
  unfold trimEdges
  rw [weight_trimBy (P := TargetLabel (edgesOf E) (edgesOf C)) (fun k v => labels_are hC hE hS hr k v) fun k v v' h h' => h.unique h']
  by_cases he : edgesOf E x y
  · refine if_congr ?_ rfl rfl
    exact ⟨fun h => ⟨he, h⟩, fun h => h.2⟩
  · rw [if_neg (c := KeptBy _ _ _ _) fun h => he h.1]
    have : weight E (x, y) = 0 := le_antisymm (not_lt.1 he) (hE _)
    rw [this]
    split_ifs <;> rfl

theorem trimEdges_edges {logic : N → Nat} {C E : Coll (N × N)} (hC : C.Nonneg) (hE : E.Nonneg) {S : Finset (N × N)} (hS : ∀ a b, edgesOf C a b → (a, b) ∈ S) {rounds : Nat}
    (hr : 16384 + S.card ≤ rounds) : (trimEdges logic rounds C E).Nonneg ∧ edgesOf (trimEdges logic rounds C E) = KeptBy (edgesOf E) (edgesOf C) := by
  classical
  constructor
  · rintro ⟨y, x⟩
    rw [weight_trimEdges hC hE hS hr]
    split_ifs
    exacts [hE _, le_rfl]
  · funext y x
    show (0 < weight _ _) = _
    rw [weight_trimEdges hC hE hS hr]
    split_ifs with h
    · exact propext ⟨fun _ => h, fun _ => h.1⟩
    · exact propext ⟨fun h => absurd h (lt_irrefl _), fun h' => absurd h' h⟩

/-- The reversed edges. -/
private def back (E : Coll (N × N)) : Coll (N × N) := E.map fun x => (x.2, x.1)

private theorem weight_back (E : Coll (N × N)) (a b : N) : weight (back E) (a, b) = weight E (b, a) :=
  Coll.weight_map_inj (f := fun x : N × N => (x.2, x.1)) (fun _ _ h => Prod.ext (congrArg Prod.snd h) (congrArg Prod.fst h)) E (b, a)

private theorem edges_back (E : Coll (N × N)) : edgesOf (back E) = fun a b => edgesOf E b a := by
  funext a b
  show (0 < weight _ _) = _
  rw [weight_back]
  rfl

open Classical in
theorem scc_round_edges {logic : N → Nat} {E X : Coll (N × N)} (hE : E.Nonneg) (hX : X.Nonneg) (hXE : ∀ a b, edgesOf X a b → edgesOf E a b) {rounds : Nat} (hr : 16384 + E.length ≤ rounds) :
    (sccRound logic rounds E X).Nonneg ∧ edgesOf (sccRound logic rounds E X) = KeptBy (fun a b => edgesOf E b a) (KeptBy (edgesOf E) (edgesOf X)) ∧
      ∀ a b, weight (sccRound logic rounds E X) (a, b) = if edgesOf (sccRound logic rounds E X) a b then weight E (a, b) else 0 := by
  have h1 := trimEdges_edges (logic := logic) hX hE (S := support E) (fun a b h => mem_support E a b (hXE a b h)) (le_trans (Nat.add_le_add_left (card_support E) _) hr)
  have hb : (back E).Nonneg := hE.map _
  have hS : ∀ a b, edgesOf (trimEdges logic rounds X E) a b → (a, b) ∈ support (back E) := by
    intro a b h
    rw [h1.2] at h
    exact mem_support _ _ _ (by rw [edges_back]; exact h.1)
  have hl : 16384 + (support (back E)).card ≤ rounds := le_trans (Nat.add_le_add_left ((card_support _).trans (by unfold back Coll.map; rw [List.length_map])) _) hr
  have h2 := trimEdges_edges (logic := logic) h1.1 hb hS hl
  have e : edgesOf (sccRound logic rounds E X) = KeptBy (fun a b => edgesOf E b a) (KeptBy (edgesOf E) (edgesOf X)) := by
    show edgesOf (trimEdges logic rounds (trimEdges logic rounds X E) (back E)) = _
    rw [h2.2, edges_back, h1.2]
  refine ⟨h2.1, e, fun a b => ?_⟩
  rw [e]
  show weight (trimEdges logic rounds (trimEdges logic rounds X E) (back E)) (a, b) = _
  rw [weight_trimEdges h1.1 hb hS hl, edges_back, h1.2, weight_back]

theorem sccIter_edges {logic : N → Nat} {E : Coll (N × N)} (hE : E.Nonneg) {rounds : Nat} (hr : 16384 + E.length ≤ rounds) (i : Nat) :
    (sccIter logic rounds E i).Nonneg ∧ edgesOf (sccIter logic rounds E i) = keptRounds (edgesOf E) i := by
  induction i with
  | zero => exact ⟨hE, rfl⟩
  | succ i ih =>
    have := scc_round_edges (logic := logic) hE ih.1 (fun a b h => keptRounds_sub i a b (by rw [← ih.2]; exact h)) hr
    refine ⟨this.1, ?_⟩
    show edgesOf (sccRound _ _ _ _) = _
    rw [this.2.1, ih.2]
    rfl

open Classical in
/-- After as many rounds as there are edges, what is left is the edges within components. -/
theorem sccIter_final {logic : N → Nat} {E : Coll (N × N)} (hE : E.Nonneg) {rounds : Nat} (hr : 16384 + E.length ≤ rounds) {i : Nat} (hi : E.length < i) (a b : N) :
    weight (sccIter logic rounds E i) (a, b) = if SameComponent (edgesOf E) a b then weight E (a, b) else 0 := by
  obtain ⟨j, rfl⟩ : ∃ j, i = j + 1 := ⟨i - 1, by omega⟩
  have ih := sccIter_edges (logic := logic) hE hr j
  have h := scc_round_edges (logic := logic) hE ih.1 (fun a b h => keptRounds_sub j a b (by rw [← ih.2]; exact h)) hr
  have e := (sccIter_edges (logic := logic) hE hr (j + 1)).2
  have h3 := h.2.2 a b
  have e' : edgesOf (sccRound logic rounds E (sccIter logic rounds E j)) = keptRounds (edgesOf E) (j + 1) := e
  rw [e'] at h3
  refine h3.trans ?_
  rw [keptRounds_final (support E) (mem_support E) (lt_of_le_of_lt (card_support E) hi)]
  by_cases he : edgesOf E a b
  · simp only [he, true_and]
  · have : weight E (a, b) = 0 := le_antisymm (not_lt.1 he) (hE _)
    rw [this]
    split_ifs <;> rfl

section run
variable [PartialOrder T] [DecidableLE T] [DecidableEq T]

theorem trims_holds {logic : N → Nat} {cycle edges out : Nat → Upds (N × N) T Int} (h : Trims logic cycle edges out) {q : T} {C E : Coll (N × N)} (hC : Holds cycle q C) (hE : Holds edges q E) :
    Holds out q (trimEdges logic maxRound C E) := by
  obtain ⟨nodes, labels, sources, both, h1, ⟨F, hF, rfl⟩, h2, h3, h4⟩ := h
  have hl := propagate_out hF hC (h1 q E hE)
  exact h4 _ _ (h3 _ _ _ (h2 _ _ _ hE hl) hl)

theorem scc_holds {F : SccFlow N T} {logic : N → Nat} {graph : Nat → Msgs (N × N) T Int} (h : F.Runs logic graph) {t : T} {E : Coll (N × N)} (hE : Holds (fun n => (graph n).upds) t E) :
    ∀ i, i ≤ maxRound → Holds F.inner (t, i) (sccIter logic maxRound E i) ∧ Holds (fun n => (F.result n).upds) (t, i) (sccIter logic maxRound E (i + 1)) := by
  have step : ∀ i, Holds F.inner (t, i) (sccIter logic maxRound E i) → Holds (fun n => (F.result n).upds) (t, i) (sccIter logic maxRound E (i + 1)) := by
    intro i hi
    have he := h.edgesIn t i E hE
    exact trims_holds h.trim2 (trims_holds h.trim1 hi he) (h.trans _ _ he)
  intro i
  induction i with
  | zero =>
    intro _
    have h0 := loop_zero h.timed h.loop hE
    exact ⟨h0, step 0 h0⟩
  | succ i ih =>
    intro hi
    have h1 := loop_succ h.timed h.loop hE (by omega) (ih (by omega)).2
    exact ⟨h1, step _ h1⟩

theorem scc_out {F : SccFlow N T} {logic : N → Nat} {graph : Nat → Msgs (N × N) T Int} (h : F.Runs logic graph) {t : T} {E : Coll (N × N)} (hE : Holds (fun n => (graph n).upds) t E) :
    Holds F.out t (sccIter logic maxRound E (maxRound + 1)) := leave_holds (fun n u hu _ => h.loop.rounds n u hu) (scc_holds h hE maxRound le_rfl).2

end run
end DD
