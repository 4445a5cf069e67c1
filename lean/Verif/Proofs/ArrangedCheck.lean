import Verif.Proofs.ArrangedJoin

/-!
# Deciding that a run of two arrangements and a join is legal
-/

namespace DD
variable {B B1 B2 N N1 N2 D D1 D2 K V V1 V2 T R R1 R2 S O M : Type*}
section
variable [PartialOrder T] [DecidableLE T]

instance (F G : List T) : Decidable (FrontierLe F G) := decidable_of_iff _ (acLe_iff F G)

instance [DecidableEq T] (F : List T) : Decidable (IsAntichainList F) := by unfold IsAntichainList; infer_instance

instance LegalArranged.decide [DecidableEq T] : (F logical physical : List T) → (es : List (ArrangedEv D T R)) → Decidable (LegalArranged F logical physical es)
  | _, _, _, [] => isTrue trivial
  | F, logical, physical, .arrange act :: es =>
    have := LegalArranged.decide act.frontier logical physical es
    inferInstanceAs (Decidable (_ ∧ _))
  | F, logical, physical, .compact L P :: es =>
    have := LegalArranged.decide F L P es
    inferInstanceAs (Decidable (_ ∧ _))
  | F, logical, physical, .exert _ :: es => LegalArranged.decide F logical physical es
  | F, logical, physical, .take :: es => LegalArranged.decide F logical physical es

instance [Bot T] (trace : Option (TraceHandle T)) (logical physical : List T) : Decidable (Permits trace logical physical) := by unfold Permits; infer_instance

instance (F : List T) (a : Arranged B N D T R) (later : List (ArrangedEv D T R)) : Decidable (OutputHolds F a later) := by unfold OutputHolds; infer_instance

end

variable [LinearOrder D1] [LinearOrder D2] [LinearOrder K] [LinearOrder V1] [LinearOrder V2] [Lattice T] [OrderBot T] [DecidableLE T] [DecidableEq T] [LinearOrder (Lin T)]
  [AddCommMonoid R1] [DecidableEq R1] [AddCommMonoid R2] [DecidableEq R2] [DecidableEq O] [AddCommMonoid M]

instance LegalSysEv.decide (F : List T × List T) (s : JoinSys B1 N1 D1 V1 B2 N2 D2 V2 K T R1 R2 S O M) (later : List (JoinSysEv D1 D2 T R1 R2)) :
    (e : JoinSysEv D1 D2 T R1 R2) → Decidable (LegalSysEv F s later e)
  | .side1 (.compact _ _) => inferInstanceAs (Decidable (Permits _ _ _))
  | .side2 (.compact _ _) => inferInstanceAs (Decidable (Permits _ _ _))
  | .rest _ _ => inferInstanceAs (Decidable (_ ∧ _))
  | .side1 (.arrange _) => isTrue trivial
  | .side1 (.exert _) => isTrue trivial
  | .side1 .take => isTrue trivial
  | .side2 (.arrange _) => isTrue trivial
  | .side2 (.exert _) => isTrue trivial
  | .side2 .take => isTrue trivial

/-- Checks every event of a run. -/
def legalJoinSysCheck (Y1 : TraceKind B1 N1 D1 K V1 T R1) (Y2 : TraceKind B2 N2 D2 K V2 T R2) (OB : OutBuilder S O T M) (logic : K → V1 → V2 → T → R1 → R2 → List (O × T × M))
    (cap rounds : Nat) (budget : Int) : List T × List T → JoinSys B1 N1 D1 V1 B2 N2 D2 V2 K T R1 R2 S O M → List (JoinSysEv D1 D2 T R1 R2) → Bool
  | _, _, [] => true
  | F, s, e :: es => decide (LegalSysEv F s es e) &&
    match s.step Y1 Y2 OB logic cap rounds budget e with
    | none => false
    | some s' => legalJoinSysCheck Y1 Y2 OB logic cap rounds budget (e.frontiers F) s' es

theorem joinRun_unique {OB : OutBuilder S O T M} {logic : K → V1 → V2 → T → R1 → R2 → List (O × T × M)} {n m : Nat} {budget : Int} (es : List (JoinEv K V1 V2 T R1 R2)) :
    ∀ {st st1 st2 : JoinOp K V1 V2 T R1 R2 S O M}, st.run OB logic n budget es = some st1 → st.run OB logic m budget es = some st2 → st1 = st2 := by
  induction es with
  | nil => intro st st1 st2 h1 h2; rw [JoinOp.run] at h1 h2; rw [h1, Option.some.injEq] at h2; exact h2
  | cons e es ih =>
    intro st st1 st2 h1 h2
    rw [JoinOp.run] at h1 h2
    cases a : st.step OB logic n budget e with
    | none => rw [a] at h1; exact absurd h1 (by simp)
    | some x =>
      cases b : st.step OB logic m budget e with
      | none => rw [b] at h2; exact absurd h2 (by simp)
      | some y =>
        rw [a] at h1; rw [b] at h2
        have := joinStep_unique a b
        subst this
        exact ih h1 h2

theorem joinSysStep_unique {Y1 : TraceKind B1 N1 D1 K V1 T R1} {Y2 : TraceKind B2 N2 D2 K V2 T R2} {OB : OutBuilder S O T M} {logic : K → V1 → V2 → T → R1 → R2 → List (O × T × M)}
    {cap n m : Nat} {budget : Int} {s s1 s2 : JoinSys B1 N1 D1 V1 B2 N2 D2 V2 K T R1 R2 S O M} {e : JoinSysEv D1 D2 T R1 R2}
    (h1 : s.step Y1 Y2 OB logic cap n budget e = some s1) (h2 : s.step Y1 Y2 OB logic cap m budget e = some s2) : s1 = s2 := by
  rw [JoinSys.step] at h1 h2
  cases a : joinEvents Y1 Y2 s.side1 s.side2 e with
  | none => rw [a] at h1; exact absurd h1 (by simp)
  | some evs =>
    cases b : sidesStep Y1 Y2 cap s.side1 s.side2 e with
    | none => rw [a, b] at h1; exact absurd h1 (by simp)
    | some x =>
      rw [a, b] at h1 h2
      simp only [Option.map_eq_some_iff] at h1 h2
      obtain ⟨j1, g1, rfl⟩ := h1
      obtain ⟨j2, g2, rfl⟩ := h2
      rw [joinRun_unique _ g1 g2]

theorem legalJoinSys_of_check {Y1 : TraceKind B1 N1 D1 K V1 T R1} {Y2 : TraceKind B2 N2 D2 K V2 T R2} {OB : OutBuilder S O T M} {logic : K → V1 → V2 → T → R1 → R2 → List (O × T × M)}
    {cap rounds : Nat} {budget : Int} (es : List (JoinSysEv D1 D2 T R1 R2)) : ∀ {F : List T × List T} {s : JoinSys B1 N1 D1 V1 B2 N2 D2 V2 K T R1 R2 S O M},
    legalJoinSysCheck Y1 Y2 OB logic cap rounds budget F s es = true → LegalJoinSys Y1 Y2 OB logic cap budget F s es := by
  induction es with
  | nil => exact fun _ => trivial
  | cons e es ih =>
    intro F s h
    rw [legalJoinSysCheck, Bool.and_eq_true, decide_eq_true_iff] at h
    refine ⟨h.1, fun r s' hs => ?_⟩
    have h2 := h.2
    cases a : s.step Y1 Y2 OB logic cap rounds budget e with
    | none => rw [a] at h2; exact absurd h2 (by simp)
    | some x =>
      rw [a] at h2
      rw [joinSysStep_unique hs a]
      exact ih h2

end DD
