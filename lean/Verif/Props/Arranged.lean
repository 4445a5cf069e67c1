import Verif.Proofs.ArrangedCheck
import Verif.Proofs.JoinBuilder
import Verif.Proofs.TimeOrd
import Verif.Props.Linear
import Mathlib.Algebra.Ring.Int.Defs

/-!
# C48: from the updates an arrangement receives to what its readers see and what a join produces

The models of the `arrange` operator, of the builders, batches, mergers and cursors of `ord_neu.rs`, of the spine, and of `join` are put together here. The hypotheses speak of what
timely and the other readers of the traces guarantee, not of what one part of the system assumes about another: that batches tile, that a trace presents what was received through a
frontier, that batches seen through `map_batches` are consistent with it, is proved. Any interleaving of the activations of the operators and of merge effort is covered, and any
compaction that the join permits.
-/

namespace DD
variable {K V V1 V2 T R R1 R2 O M : Type*} [Lattice T] [OrderBot T] [DecidableLE T] [DecidableEq T] [LinearOrder (Lin T)] [LinearOrder K] [LinearOrder V] [LinearOrder V1] [LinearOrder V2]
  [LinearOrder O] [AddCommMonoid R] [DecidableEq R] [AddCommMonoid R1] [DecidableEq R1] [AddCommMonoid R2] [DecidableEq R2] [AddCommMonoid M] [DecidableEq M]

/-- C48: the trace of `arrange_by_key`. It never panics, and a cursor through the frontier of the operator presents, at any time beyond the last logical compaction, what was received
and is not beyond that frontier. -/
theorem C48_trace_by_key (cap : Nat) (hcap : 0 < cap) (effort : Nat) (es : List (ArrangedEv (K ×ₗ V) T R)) (hl : LegalArranged [⊥] [⊥] [⊥] es)
    (hn : ((arrangedInput es).length : Int) < isizeMax) :
    ∃ a, (Arranged.init effort).run valKind cap es = some a ∧
      ((arrangedCompaction ([⊥], [⊥]) es).1 ≠ [] → FrontierLe (arrangedCompaction ([⊥], [⊥]) es).2 (arrangedFrontier [⊥] es) →
        ContentsSorted (a.through valKind (arrangedFrontier [⊥] es)) ∧
        ∀ k v q, Beyond (arrangedCompaction ([⊥], [⊥]) es).1 q →
          accum (keyUpds (a.through valKind (arrangedFrontier [⊥] es)) k) v q = accum (before (arrangedInput es) (arrangedFrontier [⊥] es)) (toLex (k, v)) q) := by
  obtain ⟨a, h1, h2⟩ := arranged_trace valKind_laws hcap effort es hl hn
  refine ⟨a, h1, fun c1 c2 => ⟨(h2 c1 c2).1, fun k v q hq => ?_⟩⟩
  rw [(h2 c1 c2).2 k v q hq, accum_map_equiv]
  rfl

/-- C48: the trace of `arrange_by_self`. -/
theorem C48_trace_by_self (cap : Nat) (hcap : 0 < cap) (effort : Nat) (es : List (ArrangedEv K T R)) (hl : LegalArranged [⊥] [⊥] [⊥] es)
    (hn : ((arrangedInput es).length : Int) < isizeMax) :
    ∃ a, (Arranged.init effort).run keyKind cap es = some a ∧
      ((arrangedCompaction ([⊥], [⊥]) es).1 ≠ [] → FrontierLe (arrangedCompaction ([⊥], [⊥]) es).2 (arrangedFrontier [⊥] es) →
        ContentsSorted (a.through keyKind (arrangedFrontier [⊥] es)) ∧
        ∀ k q, Beyond (arrangedCompaction ([⊥], [⊥]) es).1 q →
          accum (keyUpds (a.through keyKind (arrangedFrontier [⊥] es)) k) () q = accum (before (arrangedInput es) (arrangedFrontier [⊥] es)) k q) := by
  obtain ⟨a, h1, h2⟩ := arranged_trace keyKind_laws hcap effort es hl hn
  refine ⟨a, h1, fun c1 c2 => ⟨(h2 c1 c2).1, fun k q hq => ?_⟩⟩
  have e := (h2 c1 c2).2 k () q hq
  rw [accum_map_equiv] at e
  convert e
  rfl

/-- C48: `arrange_by_key` on both sides and `join_core`. Nothing panics, and at every time that is complete on both inputs and has no work outstanding, what was sent accumulates to the
join of what the arrangements received, computed by nested loops over the updates. -/
theorem C48_join (cap : Nat) (hcap : 0 < cap) (preferred : Nat) (hp : 0 < preferred) (capacity : Nat → Nat) (effort1 effort2 : Nat) (result : K → V1 → V2 → List O)
    (mul : R1 →+ R2 →+ M) (budget : Int) (es : List (JoinSysEv (K ×ₗ V1) (K ×ₗ V2) T R1 R2))
    (hl1 : LegalArranged [⊥] [⊥] [⊥] (side1Events es)) (hl2 : LegalArranged [⊥] [⊥] [⊥] (side2Events es))
    (n1 : ((arrangedInput (side1Events es)).length : Int) < isizeMax) (n2 : ((arrangedInput (side2Events es)).length : Int) < isizeMax)
    (hes : ∀ s, JoinSys.init valKind (CCB.outBuilder (D := O) (M := M) preferred capacity) effort1 effort2 = some s →
      LegalJoinSys valKind valKind (CCB.outBuilder preferred capacity) (joinCoreLogic result fun a b => mul a b) cap budget ([⊥], [⊥]) s es) :
    ∃ s0 s n, JoinSys.init valKind (CCB.outBuilder preferred capacity) effort1 effort2 = some s0 ∧
      (∀ rounds, n ≤ rounds → s0.run valKind valKind (CCB.outBuilder preferred capacity) (joinCoreLogic result fun a b => mul a b) cap rounds budget es = some s) ∧
      ∀ q, ¬ Beyond (lastRest ([⊥], [⊥]) es).1 q → ¬ Beyond (lastRest ([⊥], [⊥]) es).2 q → (∀ w ∈ s.join.todo0 ++ s.join.todo1, ¬ w.1 ≤ q) →
        ∀ d, accum (s.join.sent.flatMap (·.2)) d q = accum (nestedJoin result (fun a b => mul a b)
          ((arrangedInput (side1Events es)).map fun u => (ofLex u.1, u.2)) ((arrangedInput (side2Events es)).map fun u => (ofLex u.1, u.2))) d q := by
  obtain ⟨fin1, fin2, s0, n, s, f, h1, h2, h3, h4⟩ := joinSys_run valKind_laws valKind_laws hcap (CCB.keeps (D := O) (T := T) (M := M) hp capacity) effort1 effort2 result mul budget es
    hl1 hl2 n1 n2 hes
  refine ⟨s0, s, n, h1, h2, fun q q1 q2 hq d => ?_⟩
  rw [← h4] at q1 q2
  exact h3.complete hcap q1 q2 hq d

/-- C48, in the words of the documentation of `join`: the accumulation of `(k, v1, v2)` is the product of those of `(k, v1)` and `(k, v2)`. -/
theorem C48_product (cap : Nat) (hcap : 0 < cap) (preferred : Nat) (hp : 0 < preferred) (capacity : Nat → Nat) (effort1 effort2 : Nat) [LinearOrder (K × V1 × V2)]
    (mul : R1 →+ R2 →+ M) (budget : Int) (es : List (JoinSysEv (K ×ₗ V1) (K ×ₗ V2) T R1 R2))
    (hl1 : LegalArranged [⊥] [⊥] [⊥] (side1Events es)) (hl2 : LegalArranged [⊥] [⊥] [⊥] (side2Events es))
    (n1 : ((arrangedInput (side1Events es)).length : Int) < isizeMax) (n2 : ((arrangedInput (side2Events es)).length : Int) < isizeMax)
    (hes : ∀ s, JoinSys.init valKind (CCB.outBuilder (D := K × V1 × V2) (M := M) preferred capacity) effort1 effort2 = some s →
      LegalJoinSys valKind valKind (CCB.outBuilder preferred capacity) (joinCoreLogic (fun k v1 v2 => [(k, v1, v2)]) fun a b => mul a b) cap budget ([⊥], [⊥]) s es) :
    ∃ s0 s n, JoinSys.init valKind (CCB.outBuilder preferred capacity) effort1 effort2 = some s0 ∧
      (∀ rounds, n ≤ rounds → s0.run valKind valKind (CCB.outBuilder preferred capacity) (joinCoreLogic (fun k v1 v2 => [(k, v1, v2)]) fun a b => mul a b) cap rounds budget es = some s) ∧
      ∀ q, ¬ Beyond (lastRest ([⊥], [⊥]) es).1 q → ¬ Beyond (lastRest ([⊥], [⊥]) es).2 q → (∀ w ∈ s.join.todo0 ++ s.join.todo1, ¬ w.1 ≤ q) →
        ∀ k v1 v2, accum (s.join.sent.flatMap (·.2)) (k, v1, v2) q =
          mul (accum (arrangedInput (side1Events es)) (toLex (k, v1)) q) (accum (arrangedInput (side2Events es)) (toLex (k, v2)) q) := by
  obtain ⟨s0, s, n, h1, h2, h3⟩ := C48_join cap hcap preferred hp capacity effort1 effort2 (fun k v1 v2 => [(k, v1, v2)]) mul budget es hl1 hl2 n1 n2 hes
  refine ⟨s0, s, n, h1, h2, fun q q1 q2 hq k v1 v2 => ?_⟩
  have e := accum_nestedJoin_pairs mul ((arrangedInput (side1Events es)).map fun u => (ofLex u.1, u.2)) ((arrangedInput (side2Events es)).map fun u => (ofLex u.1, u.2)) k v1 v2 q
  rw [accum_map_equiv ofLex, accum_map_equiv ofLex] at e
  refine Eq.trans ?_ e
  convert h3 q q1 q2 hq (k, v1, v2)

omit [OrderBot T] [DecidableEq T] [LinearOrder (Lin T)] [DecidableEq R] in
/-- Pairing with unit changes nothing. -/
theorem accum_unit {U : Type*} [Unique U] [DecidableEq (K × U)] (us : Upds K T R) (x : U) (k : K) (q : T) :
    accum (us.map fun u => ((u.1, x), u.2)) (k, default) q = accum us k q := by
  rw [accum, accum, List.map_map]
  congr 2
  funext u
  simp [Unique.eq_default x]

/-- C48: `join_core` of `arrange_by_key` and `arrange_by_self`. -/
theorem C48_join_by_self (cap : Nat) (hcap : 0 < cap) (preferred : Nat) (hp : 0 < preferred) (capacity : Nat → Nat) (effort1 effort2 : Nat) (result : K → V → Unit → List O)
    (mul : R1 →+ R2 →+ M) (budget : Int) (es : List (JoinSysEv (K ×ₗ V) K T R1 R2))
    (hl1 : LegalArranged [⊥] [⊥] [⊥] (side1Events es)) (hl2 : LegalArranged [⊥] [⊥] [⊥] (side2Events es))
    (n1 : ((arrangedInput (side1Events es)).length : Int) < isizeMax) (n2 : ((arrangedInput (side2Events es)).length : Int) < isizeMax)
    (hes : ∀ s, JoinSys.init valKind (CCB.outBuilder (D := O) (M := M) preferred capacity) effort1 effort2 = some s →
      LegalJoinSys valKind keyKind (CCB.outBuilder preferred capacity) (joinCoreLogic result fun a b => mul a b) cap budget ([⊥], [⊥]) s es) :
    ∃ s0 s n, JoinSys.init valKind (CCB.outBuilder preferred capacity) effort1 effort2 = some s0 ∧
      (∀ rounds, n ≤ rounds → s0.run valKind keyKind (CCB.outBuilder preferred capacity) (joinCoreLogic result fun a b => mul a b) cap rounds budget es = some s) ∧
      ∀ q, ¬ Beyond (lastRest ([⊥], [⊥]) es).1 q → ¬ Beyond (lastRest ([⊥], [⊥]) es).2 q → (∀ w ∈ s.join.todo0 ++ s.join.todo1, ¬ w.1 ≤ q) →
        ∀ d, accum (s.join.sent.flatMap (·.2)) d q = accum (nestedJoin result (fun a b => mul a b)
          ((arrangedInput (side1Events es)).map fun u => (ofLex u.1, u.2)) ((arrangedInput (side2Events es)).map fun u => ((u.1, ()), u.2))) d q := by
  obtain ⟨fin1, fin2, s0, n, s, f, h1, h2, h3, h4⟩ := joinSys_run valKind_laws keyKind_laws hcap (CCB.keeps (D := O) (T := T) (M := M) hp capacity) effort1 effort2
    result mul budget es hl1 hl2 n1 n2 hes
  refine ⟨s0, s, n, h1, h2, fun q q1 q2 hq d => ?_⟩
  rw [← h4] at q1 q2
  exact h3.complete hcap q1 q2 hq d

/-- C48: `semijoin`, by `arrange_by_key` and `arrange_by_self`: the accumulation of a record is that in the first input times that of its key in the second. -/
theorem C48_semijoin (cap : Nat) (hcap : 0 < cap) (preferred : Nat) (hp : 0 < preferred) (capacity : Nat → Nat) (effort1 effort2 : Nat) [LinearOrder (K × V)]
    (mul : R1 →+ R2 →+ M) (budget : Int) (es : List (JoinSysEv (K ×ₗ V) K T R1 R2))
    (hl1 : LegalArranged [⊥] [⊥] [⊥] (side1Events es)) (hl2 : LegalArranged [⊥] [⊥] [⊥] (side2Events es))
    (n1 : ((arrangedInput (side1Events es)).length : Int) < isizeMax) (n2 : ((arrangedInput (side2Events es)).length : Int) < isizeMax)
    (hes : ∀ s, JoinSys.init valKind (CCB.outBuilder (D := K × V) (M := M) preferred capacity) effort1 effort2 = some s →
      LegalJoinSys valKind keyKind (CCB.outBuilder preferred capacity) (joinCoreLogic (fun k v _ => [(k, v)]) fun a b => mul a b) cap budget ([⊥], [⊥]) s es) :
    ∃ s0 s n, JoinSys.init valKind (CCB.outBuilder preferred capacity) effort1 effort2 = some s0 ∧
      (∀ rounds, n ≤ rounds → s0.run valKind keyKind (CCB.outBuilder preferred capacity) (joinCoreLogic (fun k v _ => [(k, v)]) fun a b => mul a b) cap rounds budget es = some s) ∧
      ∀ q, ¬ Beyond (lastRest ([⊥], [⊥]) es).1 q → ¬ Beyond (lastRest ([⊥], [⊥]) es).2 q → (∀ w ∈ s.join.todo0 ++ s.join.todo1, ¬ w.1 ≤ q) →
        ∀ k v, accum (Msgs.upds s.join.sent) (k, v) q =
          mul (accum (arrangedInput (side1Events es)) (toLex (k, v)) q) (accum (arrangedInput (side2Events es)) k q) := by
  obtain ⟨s0, s, n, h1, h2, h3⟩ := C48_join_by_self cap hcap preferred hp capacity effort1 effort2 (fun k v _ => [(k, v)]) mul budget es hl1 hl2 n1 n2 hes
  refine ⟨s0, s, n, h1, h2, fun q q1 q2 hq k v => ?_⟩
  have e := accum_nestedJoin_semi (V2 := Unit) mul ((arrangedInput (side1Events es)).map fun u => (ofLex u.1, u.2))
    ((arrangedInput (side2Events es)).map fun u => ((u.1, ()), u.2)) k v q
  rw [accum_map_equiv ofLex, accum_unit _ ()] at e
  refine Eq.trans ?_ e
  rw [Msgs.upds]
  convert h3 q q1 q2 hq (k, v)

/-- C48: `antijoin`, which subtracts the semijoin: the messages `self` that the first arrangement receives, with the negation of what the semijoin sends, accumulate to the weight of
each record less that weight times the weight of its key in the second input. -/
theorem C48_antijoin (cap : Nat) (hcap : 0 < cap) (preferred : Nat) (hp : 0 < preferred) (capacity : Nat → Nat) (effort1 effort2 : Nat) [LinearOrder (K × V)]
    {R : Type*} [AddCommGroup R] [DecidableEq R] (mul : R →+ R2 →+ R) (budget : Int) (es : List (JoinSysEv (K ×ₗ V) K T R R2))
    (hl1 : LegalArranged [⊥] [⊥] [⊥] (side1Events es)) (hl2 : LegalArranged [⊥] [⊥] [⊥] (side2Events es))
    (n1 : ((arrangedInput (side1Events es)).length : Int) < isizeMax) (n2 : ((arrangedInput (side2Events es)).length : Int) < isizeMax)
    (hes : ∀ s, JoinSys.init valKind (CCB.outBuilder (D := K × V) (M := R) preferred capacity) effort1 effort2 = some s →
      LegalJoinSys valKind keyKind (CCB.outBuilder preferred capacity) (joinCoreLogic (fun k v _ => [(k, v)]) fun a b => mul a b) cap budget ([⊥], [⊥]) s es)
    (self : Msgs (K × V) T R) (hself : self.upds.Perm ((arrangedInput (side1Events es)).map fun u => (ofLex u.1, u.2))) :
    ∃ s0 s n, JoinSys.init valKind (CCB.outBuilder preferred capacity) effort1 effort2 = some s0 ∧
      (∀ rounds, n ≤ rounds → s0.run valKind keyKind (CCB.outBuilder preferred capacity) (joinCoreLogic (fun k v _ => [(k, v)]) fun a b => mul a b) cap rounds budget es = some s) ∧
      ∀ q, ¬ Beyond (lastRest ([⊥], [⊥]) es).1 q → ¬ Beyond (lastRest ([⊥], [⊥]) es).2 q → (∀ w ∈ s.join.todo0 ++ s.join.todo1, ¬ w.1 ≤ q) →
        ∀ k v, accum (Msgs.antijoin self s.join.sent).upds (k, v) q =
          accum self.upds (k, v) q - mul (accum self.upds (k, v) q) (accum (arrangedInput (side2Events es)) k q) := by
  obtain ⟨s0, s, n, h1, h2, h3⟩ := C48_semijoin cap hcap preferred hp capacity effort1 effort2 mul budget es hl1 hl2 n1 n2 hes
  refine ⟨s0, s, n, h1, h2, fun q q1 q2 hq k v => ?_⟩
  have e1 : accum self.upds (k, v) q = accum (arrangedInput (side1Events es)) (toLex (k, v)) q := by
    rw [accum_perm hself, accum_map_equiv ofLex]; rfl
  have h := h3 q q1 q2 hq k v
  rw [← e1] at h
  rw [Msgs.antijoin, C32_concat _ _ _ _ _ (List.Perm.refl _), C32_negate, sub_eq_add_neg]
  congr 2

/-- C48: no work stays outstanding. After any run there is a number of further activations of the join, without new batches, after which no work is left, so that the theorems above
apply at every complete time. -/
theorem C48_progress (cap : Nat) (hcap : 0 < cap) (preferred : Nat) (hp : 0 < preferred) (capacity : Nat → Nat) (effort1 effort2 : Nat) (result : K → V1 → V2 → List O)
    (mul : R1 →+ R2 →+ M) (budget : Int) (hb : 0 ≤ budget) (es : List (JoinSysEv (K ×ₗ V1) (K ×ₗ V2) T R1 R2))
    (hl1 : LegalArranged [⊥] [⊥] [⊥] (side1Events es)) (hl2 : LegalArranged [⊥] [⊥] [⊥] (side2Events es))
    (n1 : ((arrangedInput (side1Events es)).length : Int) < isizeMax) (n2 : ((arrangedInput (side2Events es)).length : Int) < isizeMax)
    (hes : ∀ s, JoinSys.init valKind (CCB.outBuilder (D := O) (M := M) preferred capacity) effort1 effort2 = some s →
      LegalJoinSys valKind valKind (CCB.outBuilder preferred capacity) (joinCoreLogic result fun a b => mul a b) cap budget ([⊥], [⊥]) s es) :
    ∃ s0, JoinSys.init valKind (CCB.outBuilder preferred capacity) effort1 effort2 = some s0 ∧
      ∃ N, ∀ idle : List (JoinSysEv (K ×ₗ V1) (K ×ₗ V2) T R1 R2), N ≤ idle.length → (∀ e ∈ idle, ∃ G1 G2, e = .rest G1 G2) →
        LegalJoinSys valKind valKind (CCB.outBuilder preferred capacity) (joinCoreLogic result fun a b => mul a b) cap budget ([⊥], [⊥]) s0 (es ++ idle) →
        ∃ s n, (∀ rounds, n ≤ rounds → s0.run valKind valKind (CCB.outBuilder preferred capacity) (joinCoreLogic result fun a b => mul a b) cap rounds budget (es ++ idle) = some s) ∧
          s.join.todo0 = [] ∧ s.join.todo1 = [] := by
  have hB := CCB.keeps (D := O) (T := T) (M := M) hp capacity
  obtain ⟨fin1, fin2, s0, n, s, f, h1, h2, h3, h4⟩ := joinSys_run valKind_laws valKind_laws hcap hB effort1 effort2 result mul budget es hl1 hl2 n1 n2 hes
  obtain ⟨N, hN⟩ := h3.progress hcap hB hb
  refine ⟨s0, h1, N, fun idle hlen hi hl => ?_⟩
  have hl' := legalJoinSys_after es hl (h2 n le_rfl)
  rw [← h4] at hl'
  obtain ⟨m, s', g1, g2⟩ := hN idle hlen hi hl'
  refine ⟨s', max n m, fun rounds hr => ?_, g2⟩
  rw [joinSys_run_append es (h2 rounds (le_trans (le_max_left _ _) hr))]
  exact g1 rounds (le_trans (le_max_right _ _) hr)

/-! ### A run that meets the hypotheses -/

section example_run

/-- An activation with these updates, all under one capability, and a frontier. -/
private def act {D : Type} (cap : ℕ × ℕ) (us : List (D × (ℕ × ℕ) × ℤ)) (frontier : List (ℕ × ℕ)) : ArrangedEv D (ℕ × ℕ) ℤ :=
  .arrange ⟨[(cap, us.map fun u => (u, false))], frontier⟩

/-- Two arrangements and a join. Times are pairs. The first arrangement sends two batches, and the join reads one before the second arrangement sends anything; both traces are compacted
as far as the join permits after its first activation, and merge; then updates that retract and extend come, at incomparable times, and at last both inputs end. -/
private def events : List (JoinSysEv (ℕ ×ₗ ℕ) (ℕ ×ₗ ℕ) (ℕ × ℕ) ℤ ℤ) :=
  [.side1 (act (0, 0) [(toLex (1, 10), (0, 0), 1), (toLex (2, 20), (0, 1), 1), (toLex (1, 10), (0, 0), 2)] [(1, 0), (0, 1)]),
   .side1 .take,
   .side2 (act (0, 0) [(toLex (1, 7), (0, 0), 1), (toLex (2, 8), (0, 0), 5)] [(1, 0), (0, 1)]),
   .side1 (act (0, 1) [(toLex (1, 11), (0, 2), 2)] [(1, 1)]),
   .side2 .take,
   .side1 .take,
   .side2 (.arrange ⟨[], [(1, 1)]⟩),
   .rest [(1, 1)] [(1, 1)],
   .side1 (.compact [(1, 1)] [(1, 1)]),
   .side1 (.exert (some 100)),
   .side2 (.compact [(1, 1)] [(1, 0), (0, 1)]),
   .side2 (act (1, 1) [(toLex (1, 7), (2, 1), 3), (toLex (2, 8), (1, 1), -5)] []),
   .side2 .take,
   .side1 (act (1, 1) [(toLex (1, 10), (1, 3), -3)] []),
   .side1 .take,
   .rest [] [],
   .rest [] []]

private abbrev Bd : OutBuilder (CCB ℕ (ℕ × ℕ) ℤ × ℕ) ℕ (ℕ × ℕ) ℤ := CCB.outBuilder 2 fun n => n % 3

/-- Outputs are numbers made of key and values. -/
private def encode (k v1 v2 : ℕ) : List ℕ := [k * 10000 + v1 * 100 + v2]

private abbrev product : ℤ →+ ℤ →+ ℤ := AddMonoidHom.mul

private abbrev logic := joinCoreLogic (T := ℕ × ℕ) encode fun a b => product a b

private abbrev Sys := JoinSys (ValBatch ℕ ℕ (ℕ × ℕ) ℤ) (ValMerger ℕ ℕ (ℕ × ℕ) ℤ) (ℕ ×ₗ ℕ) ℕ (ValBatch ℕ ℕ (ℕ × ℕ) ℤ) (ValMerger ℕ ℕ (ℕ × ℕ) ℤ) (ℕ ×ₗ ℕ) ℕ ℕ (ℕ × ℕ) ℤ ℤ
  (CCB ℕ (ℕ × ℕ) ℤ × ℕ) ℕ ℤ

private def start : Sys := (JoinSys.init valKind Bd 1 1).get (by decide +kernel)

private theorem start_eq : JoinSys.init valKind Bd 1 1 = some start := by rw [start, Option.some_get]

private theorem legal_run : LegalJoinSys valKind valKind Bd logic 2 1000 ([⊥], [⊥]) start events :=
  legalJoinSys_of_check (rounds := 50) events (by decide +kernel)

/-- The run meets the hypotheses of `C48_join`, and at all times the outputs accumulate to the join of what was received. -/
example : ∃ s0 s n, JoinSys.init valKind Bd 1 1 = some s0 ∧ (∀ rounds, n ≤ rounds → s0.run valKind valKind Bd logic 2 rounds 1000 events = some s) ∧
    ∀ q : ℕ × ℕ, (∀ w ∈ s.join.todo0 ++ s.join.todo1, ¬ w.1 ≤ q) →
      ∀ d, accum (s.join.sent.flatMap (·.2)) d q = accum (nestedJoin encode (fun a b => product a b)
          ((arrangedInput (side1Events events)).map fun u => (ofLex u.1, u.2)) ((arrangedInput (side2Events events)).map fun u => (ofLex u.1, u.2))) d q := by
  obtain ⟨s0, s, n, a, b, c⟩ := C48_join 2 (by decide) 2 (by decide) (fun n => n % 3) 1 1 encode product 1000 events (by decide +kernel) (by decide +kernel)
    (by decide +kernel) (by decide +kernel) (fun s h => by rw [start_eq, Option.some.injEq] at h; subst h; exact legal_run)
  refine ⟨s0, s, n, a, b, fun q hq d => c q ?_ ?_ hq d⟩ <;> (rintro ⟨x, hx, _⟩; simp [events, lastRest, JoinSysEv.frontiers] at hx)

set_option synthInstance.maxSize 2000 in
/-- What is sent in the run; then no work is left, and both traces are dropped. -/
example : (start.run valKind valKind Bd logic 2 50 1000 events).map (fun s => (s.join.sent, s.join.todo0.length, s.join.todo1.length, s.join.trace1.isNone, s.join.trace2.isNone))
    = some ([((0, 1), [(11107, (0, 2), 2), (22008, (0, 1), 5)]), ((0, 0), [(11007, (0, 0), 3)]), ((1, 1), [(11007, (1, 3), -3), (11007, (2, 3), -9)]),
      ((1, 1), [(11007, (2, 1), 9), (11107, (2, 2), 6)]), ((1, 1), [(22008, (1, 1), -5)])], 0, 0, true, true) := by
  decide +kernel

set_option synthInstance.maxSize 2000 in
/-- The first trace, when it is compacted to `(1, 1)` and merged: a cursor presents the updates at times at or after `(1, 1)`. -/
example : (start.run valKind valKind Bd logic 2 50 1000 (events.take 10)).map (fun s => s.side1.through valKind [(1, 1)])
    = some [(1, [(10, [((1, 1), 3)]), (11, [((1, 2), 2)])]), (2, [(20, [((1, 1), 1)])])] := by
  decide +kernel

/-- The events of the first arrangement up to there meet the hypotheses of `C48_trace_by_key`, with a logical compaction that is not trivial. -/
example : LegalArranged [⊥] [⊥] [⊥] (side1Events (events.take 10)) ∧ ((arrangedInput (side1Events (events.take 10))).length : Int) < isizeMax ∧
    arrangedCompaction ([⊥], [⊥]) (side1Events (events.take 10)) = ([(1, 1)], [(1, 1)]) ∧ arrangedFrontier [⊥] (side1Events (events.take 10)) = [(1, 1)] := by
  decide +kernel

/-- A semijoin that meets the hypotheses of `C48_semijoin` and `C48_antijoin`: a key comes with weight two, and goes. -/
private def semiEvents : List (JoinSysEv (ℕ ×ₗ ℕ) ℕ (ℕ × ℕ) ℤ ℤ) :=
  [.side1 (act (0, 0) [(toLex (1, 10), (0, 0), 1), (toLex (2, 20), (0, 1), 1)] [(1, 1)]),
   .side2 (act (0, 0) [(1, (0, 0), 2), (1, (0, 1), -1)] [(1, 1)]),
   .side1 .take, .side2 .take,
   .rest [(1, 1)] [(1, 1)],
   .side2 (act (1, 1) [(1, (1, 1), -1)] []), .side1 (.arrange ⟨[], []⟩),
   .side2 .take,
   .rest [] []]

private abbrev SemiBd : OutBuilder (CCB (ℕ ×ₗ ℕ) (ℕ × ℕ) ℤ × ℕ) (ℕ ×ₗ ℕ) (ℕ × ℕ) ℤ := CCB.outBuilder 2 fun n => n % 3

private abbrev semiLogic := joinCoreLogic (K := ℕ) (V1 := ℕ) (V2 := Unit) (T := ℕ × ℕ) (fun k v _ => [(toLex (k, v) : ℕ ×ₗ ℕ)]) fun a b => product a b

private def semiStart : JoinSys (ValBatch ℕ ℕ (ℕ × ℕ) ℤ) (ValMerger ℕ ℕ (ℕ × ℕ) ℤ) (ℕ ×ₗ ℕ) ℕ (KeyBatch ℕ (ℕ × ℕ) ℤ) (KeyMerger ℕ (ℕ × ℕ) ℤ) ℕ Unit ℕ (ℕ × ℕ) ℤ ℤ
    (CCB (ℕ ×ₗ ℕ) (ℕ × ℕ) ℤ × ℕ) (ℕ ×ₗ ℕ) ℤ :=
  (JoinSys.init valKind SemiBd 1 1).get (by decide +kernel)

example : LegalArranged [⊥] [⊥] [⊥] (side1Events semiEvents) ∧ LegalArranged [⊥] [⊥] [⊥] (side2Events semiEvents) ∧
    LegalJoinSys valKind keyKind SemiBd semiLogic 2 1000 ([⊥], [⊥]) semiStart semiEvents :=
  ⟨by decide +kernel, by decide +kernel, legalJoinSys_of_check (rounds := 50) semiEvents (by decide +kernel)⟩

set_option synthInstance.maxSize 2000 in
example : (semiStart.run valKind keyKind SemiBd semiLogic 2 50 1000 semiEvents).map (fun s => (s.join.sent, s.join.todo0.length, s.join.todo1.length))
    = some ([((0, 0), [(toLex (1, 10), (0, 0), 2), (toLex (1, 10), (0, 1), -1)]), ((1, 1), [(toLex (1, 10), (1, 1), -1)])], 0, 0) := by
  decide +kernel

end example_run

end DD
