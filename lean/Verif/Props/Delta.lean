import Verif.Proofs.DeltaChain
import Verif.Props.HalfJoin
import Mathlib.Order.BoundedOrder.Basic
import Mathlib.Tactic.FinCases
import Mathlib.Algebra.Ring.Int.Defs

/-!
# C36: delta queries compute the full join
-/

namespace DD
variable {ι K D T R O : Type*}

/-! ### Differentiating and integrating -/

/-- C36: integrating a differentiated collection gives the collection back. -/
theorem C36_integrate [Neg R] (us : Upds D T R) : integrate (differentiate us) = us := by
  unfold integrate differentiate
  induction us with
  | nil => rfl
  | cons u us ih => simp only [List.map_cons, List.flatMap_cons, List.filter_append, List.map_append, ih]; rfl

/-- C36: integration keeps what happens at alt times, and only that. -/
theorem C36_integrate_total [DecidableEq D] [DecidableEq T] [AddCommMonoid R] (us : Upds D (AltNeu T) R) (d : D) (t : T) : total (integrate us) d t = total us d ⟨t, false⟩ := by
  unfold integrate
  induction us with
  | nil => rfl
  | cons u us ih =>
    obtain ⟨d', ⟨t', b⟩, r⟩ := u
    rw [total_cons]
    cases b with
    | true =>
      rw [List.filter_cons_of_neg (by simp), ih]
      simp
    | false =>
      rw [List.filter_cons_of_pos (by simp), List.map_cons, total_cons, ih]
      simp

/-- C36: a differentiated collection is its changes: at each alt time it holds just what changed then, and at each neu time it is empty. -/
theorem C36_instantaneous [DecidableEq D] [Lattice T] [DecidableEq T] [DecidableLE T] [AddCommGroup R] (us : Upds D T R) (d : D) (q : AltNeu T) :
    accum (differentiate us) d q = if q.neu then 0 else total us d q.time := by
  unfold differentiate
  simp only [List.flatMap_map]
  induction us with
  | nil => simp [accum_nil, total_nil]
  | cons u us ih =>
    rw [List.flatMap_cons, accum_append, ih, total_cons]
    obtain ⟨d', t', r⟩ := u
    obtain ⟨t, b⟩ := q
    have h1 : (⟨t', false⟩ : AltNeu T) ≤ ⟨t, b⟩ ↔ t' ≤ t := by
      rw [AltNeu.le_iff_lt, le_iff_lt_or_eq (a := t')]
      simp only [Bool.false_le, and_true]
    have h2 : (⟨t', true⟩ : AltNeu T) ≤ ⟨t, b⟩ ↔ t' < t ∨ (t' = t ∧ b = true) := by
      rw [AltNeu.le_iff_lt]
      cases b <;> simp
    have e : accum [(d', (⟨t', false⟩ : AltNeu T), r), (d', (⟨t', true⟩ : AltNeu T), -r)] d ⟨t, b⟩ = if b then 0 else if d' = d ∧ t' = t then r else 0 := by
      rw [accum_cons, accum_cons, accum_nil, add_zero]
      by_cases hd : d' = d
      · by_cases he : t' = t
        · subst he
          have k1 := h1.2 le_rfl
          cases b with
          | false =>
            have k2 : ¬ (⟨t', true⟩ : AltNeu T) ≤ ⟨t', false⟩ := by rw [h2]; simp
            simp [hd, k2]
          | true => simp [hd, k1]
        · by_cases hl : t' ≤ t
          · have k2 := h2.2 (Or.inl (lt_of_le_of_ne hl he))
            simp [hd, he, h1.2 hl, k2]
          · have k1 := mt h1.1 hl
            have k2 : ¬ (⟨t', true⟩ : AltNeu T) ≤ ⟨t, b⟩ := by
              rw [h2]
              rintro (h | h)
              · exact hl h.le
              · exact he h.1
            simp [hd, he, k1, k2]
      · simp [hd]
    rw [e]
    cases b <;> simp

/-! ### Many relations -/

section
variable [LinearOrder ι] [Fintype ι] [Nonempty ι] [DecidableEq K] [Lattice T] [OrderBot T] [DecidableEq T] [DecidableEq O]

/-- C36: for any number of relations, and paths that visit the other relations in any order by keys that are right for the query, half joins that compare strictly with earlier and weakly
with later relations, in any total order of times, give each combination of updates exactly once: at each time and for each record the outputs sum to what the query's answer is. -/
theorem C36_delta [LinearOrder (Lin T)] [CommSemiring R] (rels : ι → Upds D T R) (paths : ι → Path ι K D) (hv : VisitsOthers paths) (out : Assign ι D → List O) (hk : KeysRight paths out)
    (order : List ι) (ho : order.Nodup ∧ ∀ i, i ∈ order) (o : O) (t : T) : total (deltaQuery strictEarlier rels paths out order) o t = queryTotal rels out o t :=
  total_deltaQuery strictEarlier paths hv out hk order ho strictEarlier_one o t

/-- C36: this holds also if each path is a chain of operators, each of which sends updates that merely add up to what it owes for what it received, as half joins do (C35). -/
theorem C36_delta_chain [DecidableEq D] [LinearOrder (Lin T)] [CommSemiring R] (rels : ι → Upds D T R) (paths : ι → Path ι K D) (hv : VisitsOthers paths) (out : Assign ι D → List O)
    (hk : KeysRight paths out) (ws : ι → Upds (Assign ι D × T) T R) (hc : ∀ i, DeltaChain (strictEarlier i) rels (paths i) (changesOf i (rels i)) (ws i))
    (order : List ι) (ho : order.Nodup ∧ ∀ i, i ∈ order) (o : O) (t : T) :
    total (order.flatMap fun i => (ws i).flatMap fun u => (out u.1.1).map fun o => (o, u.1.2, u.2.2)) o t = queryTotal rels out o t := by
  rw [total_deltaChains strictEarlier paths out ws hc order o t]
  exact C36_delta rels paths hv out hk order ho o t

/-- C36: so do joins with relations at alt times for earlier and at neu times for later relations, driven by differentiated collections and integrated, provided all times are comparable. -/
theorem C36_altneu [CommRing R] (rels : ι → Upds D T R) (paths : ι → Path ι K D) (hv : VisitsOthers paths) (out : Assign ι D → List O) (hk : KeysRight paths out)
    (hcomp : ∀ i j, ∀ u ∈ rels i, ∀ v ∈ rels j, u.2.1 ≤ v.2.1 ∨ v.2.1 ≤ u.2.1)
    (order : List ι) (ho : order.Nodup ∧ ∀ i, i ∈ order) (o : O) (t : T) : total (altNeuQuery (fun i j => decide (i < j)) rels paths out order) o t = queryTotal rels out o t := by
  refine total_altNeuQuery _ paths hv out hk order ho (fun c => ?_) o t
  exact last_one (fun j => (c.upd j).2.1) fun i j => hcomp i j _ (List.getElem_mem _) _ (List.getElem_mem _)

end

/-! #### Triangles -/

/-- The triangle query `Q(a,b,c) := E1(a,b), E2(b,c), E3(a,c)`. -/
def triOut (d : Assign (Fin 3) (Nat × Nat)) : List (Nat × Nat × Nat) :=
  match d 0, d 1, d 2 with
  | some e1, some e2, some e3 => if e1.2 = e2.1 ∧ e1.1 = e3.1 ∧ e2.2 = e3.2 then [(e1.1, e1.2, e2.2)] else []
  | _, _, _ => []

/-- The record of a relation, if known. -/
def recOf (d : Assign (Fin 3) (Nat × Nat)) (i : Fin 3) : Nat × Nat := (d i).getD (0, 0)

/-- The paths of `delta_query.rs`: first look up by one column, then by both. -/
def triPaths : Fin 3 → Path (Fin 3) (Nat × Nat) (Nat × Nat)
  | 0 => [⟨1, fun d => ((recOf d 0).2, 0), fun e => (e.1, 0)⟩, ⟨2, fun d => ((recOf d 0).1, (recOf d 1).2), id⟩]
  | 1 => [⟨0, fun d => ((recOf d 1).1, 0), fun e => (e.2, 0)⟩, ⟨2, fun d => ((recOf d 0).1, (recOf d 1).2), id⟩]
  | 2 => [⟨0, fun d => ((recOf d 2).1, 0), fun e => (e.1, 0)⟩, ⟨1, fun d => ((recOf d 0).2, (recOf d 2).2), id⟩]

theorem triPaths_visits : VisitsOthers triPaths := by
  unfold VisitsOthers
  decide

theorem triPaths_keys : KeysRight triPaths triOut := by
  intro i d h
  change (if (d 0).2 = (d 1).1 ∧ (d 0).1 = (d 2).1 ∧ (d 1).2 = (d 2).2 then [((d 0).1, (d 0).2, (d 1).2)] else []) = []
  rw [if_neg]
  rintro ⟨h1, h2, h3⟩
  apply h
  fin_cases i <;> simp [KeysAgree, triPaths, recOf, Assign.only, Function.update, h1, h2, h3, Prod.ext_iff]

/-- A graph that changes; all three relations are the same. -/
def triEdges : Upds (Nat × Nat) Nat Int := [((1, 2), 0, 1), ((2, 3), 1, 1), ((1, 3), 1, 1), ((2, 3), 2, -1)]

example : deltaQuery (R := Int) strictEarlier (fun _ : Fin 3 => triEdges) triPaths triOut [2, 0, 1] = [((1, 2, 3), 1, 1), ((1, 2, 3), 2, -1)] := by decide +kernel

example : total (deltaQuery (R := Int) strictEarlier (fun _ : Fin 3 => triEdges) triPaths triOut [2, 0, 1]) (1, 2, 3) 2 = queryTotal (fun _ : Fin 3 => triEdges) triOut (1, 2, 3) 2 :=
  C36_delta _ triPaths triPaths_visits triOut triPaths_keys [2, 0, 1] (by decide) _ _

example : total (altNeuQuery (R := Int) (fun i j => decide (i < j)) (fun _ : Fin 3 => triEdges) triPaths triOut [2, 0, 1]) (1, 2, 3) 2
    = queryTotal (fun _ : Fin 3 => triEdges) triOut (1, 2, 3) 2 :=
  C36_altneu _ triPaths triPaths_visits triOut triPaths_keys (fun _ _ u _ v _ => le_total _ _) [2, 0, 1] (by decide) _ _

/-- Operators that send just what they owe form a chain. -/
theorem deltaChain_self {ι K D T R : Type*} [DecidableEq ι] [Fintype ι] [DecidableEq K] [DecidableEq D] [Lattice T] [DecidableEq T] [CommSemiring R] (comparison : ι → T → T → Bool)
    (rels : ι → Upds D T R) : ∀ (path : Path ι K D) (us : Upds (Assign ι D × T) T R), DeltaChain comparison rels path us (path.foldl (fun us l => deltaStep (comparison l.rel) rels l us) us)
  | [], _ => fun _ _ => rfl
  | l :: ls, us => ⟨deltaStep (comparison l.rel) rels l us, fun _ _ => rfl, deltaChain_self comparison rels ls _⟩

example : total ([2, 0, 1].flatMap fun i : Fin 3 => (deltaPath strictEarlier (fun _ : Fin 3 => triEdges) i (triPaths i)).flatMap fun u => (triOut u.1.1).map fun o => (o, u.1.2, u.2.2))
    (1, 2, 3) 2 = queryTotal (fun _ : Fin 3 => triEdges) triOut (1, 2, 3) 2 :=
  C36_delta_chain _ triPaths triPaths_visits triOut triPaths_keys _ (fun i => deltaChain_self _ _ _ _) [2, 0, 1] (by decide) _ _

/-- C36: with times that are not comparable, Alt/Neu times lose combinations: this one's updates are at `(1, 0)` and `(0, 1)`, and neither path gives their join at `(1, 1)`, because it
is not at or after a change at an alt time without also being at or after the same change at the neu time. -/
theorem C36_altneu_defect : ∃ rels : Fin 2 → Upds Nat (Nat × Nat) Int, ∃ paths : Fin 2 → Path (Fin 2) Nat Nat, ∃ out : Assign (Fin 2) Nat → List Nat, VisitsOthers paths ∧ KeysRight paths out ∧
    total (altNeuQuery (fun i j => decide (i < j)) rels paths out [0, 1]) 7 (1, 1) = 0 ∧ queryTotal rels out 7 (1, 1) = 1 := by
  refine ⟨fun i => if i = 0 then [(1, (1, 0), 1)] else [(1, (0, 1), 1)], fun i => if i = 0 then [⟨1, fun _ => 0, fun _ => 0⟩] else [⟨0, fun _ => 0, fun _ => 0⟩], fun _ => [7], ?_, ?_, ?_, ?_⟩
  · unfold VisitsOthers; decide
  · intro i d h
    exfalso
    apply h
    fin_cases i <;> exact ⟨rfl, trivial⟩
  · decide +kernel
  · decide +kernel

/-! ### Two collections, and the operators themselves -/

section
variable {V1 V2 R1 R2 M : Type*} [LinearOrder K] [LinearOrder V1] [LinearOrder V2] [Lattice T] [OrderBot T] [DecidableLE T] [DecidableEq T] [LinearOrder (Lin T)]
  [AddCommMonoid R1] [DecidableEq R1] [AddCommMonoid R2] [DecidableEq R2] [AddCommMonoid M] [DecidableEq O]

/-- C36: two half join operators, one with strict and one with weak comparison in the total order of times, each driven by the changes to one collection and looking up the other. However
they are scheduled, once both are complete their outputs, each at its payload time, sum to the join of the two collections. -/
theorem C36_two {logic : K → V1 → V2 → O} {mul : R1 →+ R2 →+ M} {us1 : Upds (K × V1) T R1} {us2 : Upds (K × V2) T R2} {ff1 ff2 : T → List T}
    (hf1 : HalfJoinFns (fun s t : T => decide (toLin s < toLin t)) ff1) (hf2 : HalfJoinFns (fun s t : T => decide (toLin s ≤ toLin t)) ff2)
    (acts1 : List (HalfJoinAct K V1 V2 T R1 R2)) (act1 : HalfJoinAct K V1 V2 T R1 R2) (hy1 : act1.yields = none ∧ act1.frontier2 = [])
    (hl1 : LegalHalfRun (fun s t : T => decide (toLin s < toLin t)) ff1 logic (fun a b => mul a b) us2 [⊥] HalfJoin.init (acts1 ++ [act1]))
    (hin1 : ((acts1 ++ [act1]).flatMap fun a => a.msgs.flatMap Prod.snd).Perm (proposalsOf us1))
    (acts2 : List (HalfJoinAct K V2 V1 T R2 R1)) (act2 : HalfJoinAct K V2 V1 T R2 R1) (hy2 : act2.yields = none ∧ act2.frontier2 = [])
    (hl2 : LegalHalfRun (fun s t : T => decide (toLin s ≤ toLin t)) ff2 (fun k v2 v1 => logic k v1 v2) (fun b a => mul.flip b a) us1 [⊥] HalfJoin.init (acts2 ++ [act2]))
    (hin2 : ((acts2 ++ [act2]).flatMap fun a => a.msgs.flatMap Prod.snd).Perm (proposalsOf us2)) :
    ∃ st1 outs1 st2 outs2,
      HalfJoin.init.run (fun s t : T => decide (toLin s < toLin t)) ff1 logic (fun a b => mul a b) (acts1 ++ [act1]) = some (st1, outs1) ∧
      HalfJoin.init.run (fun s t : T => decide (toLin s ≤ toLin t)) ff2 (fun k v2 v1 => logic k v1 v2) (fun b a => mul.flip b a) (acts2 ++ [act2]) = some (st2, outs2) ∧
      ∀ o t, total (atPayload (outs1.map Prod.snd) ++ atPayload (outs2.map Prod.snd)) o t
        = total (nestedJoin (fun k v1 v2 => [logic k v1 v2]) (fun a b => mul a b) us1 us2) o t := by
  obtain ⟨st1, outs1, h1, -, k1⟩ := C35_complete hf1 acts1 act1 hy1.1 hy1.2 hl1
  obtain ⟨st2, outs2, h2, -, k2⟩ := C35_complete hf2 acts2 act2 hy2.1 hy2.2 hl2
  refine ⟨st1, outs1, st2, outs2, h1, h2, fun o t => ?_⟩
  rw [total_append, ← total_two logic mul us1 us2 o t]
  congr 1
  · apply atPayload_congr
    intro x i
    rw [k1 x i]
    exact total_perm (hin1.flatMap_right _) x i
  · apply atPayload_congr
    intro x i
    rw [k2 x i]
    exact total_perm (hin2.flatMap_right _) x i

end

/-- Times that pairs of numbers cannot tell apart at or beyond a pair agree in each component, from the component of that pair on. -/
theorem sameBeyond_pair {f s t : Nat × Nat} (h : SameBeyond [f] s t) : (∀ n, f.1 ≤ n → (s.1 ≤ n ↔ t.1 ≤ n)) ∧ ∀ n, f.2 ≤ n → (s.2 ≤ n ↔ t.2 ≤ n) := by
  constructor
  · intro n hn
    have := h (n, f.2 + s.2 + t.2) ⟨f, by simp, Prod.mk_le_mk.2 ⟨hn, by omega⟩⟩
    rw [Prod.le_def, Prod.le_def] at this
    simp only at this
    constructor
    · intro hs; exact (this.1 ⟨hs, by omega⟩).1
    · intro hs; exact (this.2 ⟨hs, by omega⟩).1
  · intro n hn
    have := h (f.1 + s.1 + t.1, n) ⟨f, by simp, Prod.mk_le_mk.2 ⟨by omega, hn⟩⟩
    rw [Prod.le_def, Prod.le_def] at this
    simp only at this
    constructor
    · intro hs; exact (this.1 ⟨by omega, hs⟩).2
    · intro hs; exact (this.2 ⟨by omega, hs⟩).2

theorem lex_lt_iff (s t : Nat × Nat) : toLin s < toLin t ↔ s.1 < t.1 ∨ (s.1 = t.1 ∧ s.2 < t.2) := Prod.Lex.lt_iff
theorem lex_le_iff (s t : Nat × Nat) : toLin s ≤ toLin t ↔ s.1 < t.1 ∨ (s.1 = t.1 ∧ s.2 ≤ t.2) := Prod.Lex.le_iff

/-- The compaction frontier of `delta_query2.rs` meets the contract, for strict comparison of pairs of times in their lexicographic order, -/
theorem halfJoinFns_lex_strict : HalfJoinFns (fun s t : Nat × Nat => decide (toLin s < toLin t)) (fun h => [(h.1 - 1, h.2 - 1)]) where
  down := by
    intro s t i h1 h2
    rw [Prod.le_def] at h1
    simp only [decide_eq_true_eq, lex_lt_iff] at *
    omega
  beyond := by intro h i hi; rw [Prod.le_def] at hi; exact ⟨(h.1 - 1, h.2 - 1), by simp, Prod.mk_le_mk.2 ⟨by omega, by omega⟩⟩
  stable := by
    intro h i s t hi hst
    obtain ⟨k1, k2⟩ := sameBeyond_pair hst
    rw [Prod.le_def] at hi
    simp only [decide_eq_decide, lex_lt_iff]
    have a1 := k1 i.1 (by simp; omega)
    have a2 := k1 (i.1 - 1) (by simp; omega)
    have a3 := k2 i.2 (by simp; omega)
    have a4 := k2 (i.2 - 1) (by simp; omega)
    omega

/-- and for weak comparison. -/
theorem halfJoinFns_lex_weak : HalfJoinFns (fun s t : Nat × Nat => decide (toLin s ≤ toLin t)) (fun h => [(h.1 - 1, h.2 - 1)]) where
  down := by
    intro s t i h1 h2
    rw [Prod.le_def] at h1
    simp only [decide_eq_true_eq, lex_le_iff] at *
    omega
  beyond := by intro h i hi; rw [Prod.le_def] at hi; exact ⟨(h.1 - 1, h.2 - 1), by simp, Prod.mk_le_mk.2 ⟨by omega, by omega⟩⟩
  stable := by
    intro h i s t hi hst
    obtain ⟨k1, k2⟩ := sameBeyond_pair hst
    rw [Prod.le_def] at hi
    simp only [decide_eq_decide, lex_le_iff]
    have a1 := k1 i.1 (by simp; omega)
    have a2 := k1 (i.1 - 1) (by simp; omega)
    have a3 := k2 i.2 (by simp; omega)
    omega

/-- The collections of `delta_query2.rs`. -/
def dq1 : Upds (Nat × Nat) (Nat × Nat) Int := [((5, 6), (0, 13), 1)]
def dq2 : Upds (Nat × Nat) (Nat × Nat) Int := [((5, 7), (11, 0), 1)]

def dqAct1 : HalfJoinAct Nat Nat Nat (Nat × Nat) Int Int := ⟨[((0, 0), proposalsOf dq1)], [], [], [(5, [(7, [((11, 0), 1)])])], none, id⟩
def dqAct2 : HalfJoinAct Nat Nat Nat (Nat × Nat) Int Int := ⟨[((0, 0), proposalsOf dq2)], [], [], [(5, [(6, [((0, 13), 1)])])], none, id⟩

theorem compactionOf_self {D T R : Type*} [DecidableEq D] [LE T] [DecidableEq T] [AddCommMonoid R] (F : List T) (us : Upds D T R) : CompactionOf F us us :=
  ⟨us, List.forall₂_same.2 fun _ _ => ⟨rfl, rfl, fun _ _ => Iff.rfl⟩, fun _ _ => rfl⟩

example : ∃ st1 outs1 st2 outs2,
      HalfJoin.init.run (fun s t : Nat × Nat => decide (toLin s < toLin t)) (fun h => [(h.1 - 1, h.2 - 1)]) (fun k v1 v2 => (k, v1, v2)) (fun a b => intMul a b) [dqAct1] = some (st1, outs1) ∧
      HalfJoin.init.run (fun s t : Nat × Nat => decide (toLin s ≤ toLin t)) (fun h => [(h.1 - 1, h.2 - 1)]) (fun k v2 v1 => (k, v1, v2)) (fun b a => intMul.flip b a) [dqAct2] = some (st2, outs2) ∧
      ∀ o t, total (atPayload (outs1.map Prod.snd) ++ atPayload (outs2.map Prod.snd)) o t = total [((5, 6, 7), (11, 13), 1)] o t :=
  C36_two (us1 := dq1) (us2 := dq2) (mul := intMul) halfJoinFns_lex_strict halfJoinFns_lex_weak [] dqAct1 ⟨rfl, rfl⟩
    ⟨⟨by decide, by decide, ⟨by decide, by decide⟩, ⟨dq2, [], by simp, by simp, compactionOf_self _ _⟩, fun l => List.Perm.refl l⟩, fun _ _ _ => trivial⟩ (List.Perm.refl _)
    [] dqAct2 ⟨rfl, rfl⟩
    ⟨⟨by decide, by decide, ⟨by decide, by decide⟩, ⟨dq1, [], by simp, by simp, compactionOf_self _ _⟩, fun l => List.Perm.refl l⟩, fun _ _ _ => trivial⟩ (List.Perm.refl _)

end DD
