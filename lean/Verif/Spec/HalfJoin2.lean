import Verif.Model.HalfJoin2
import Verif.Spec.HalfJoin

/-!
# What the second half join may rely on

What it must compute is `halfMatches`, as for the first.
-/

namespace DD
variable {K V V2 T R R2 M DOut : Type*}

/-- What the caller promises about the comparison: it is by the total order on times ("roughly: strictly less, or not"). -/
structure HalfJoin2Fns [PartialOrder T] [TimeOrd T] (comparison : T → T → Bool) (frontier_func : T → List T) : Prop extends HalfJoinFns comparison frontier_func where
  /-- Whatever is before a time that compares before another also does, -/
  left : ∀ s t initial, toLin s ≤ toLin t → comparison t initial = true → comparison s initial = true
  /-- and compares before whatever is after it. -/
  right : ∀ t initial initial', toLin initial ≤ toLin initial' → comparison t initial = true → comparison t initial' = true

section
variable [LinearOrder K] [LinearOrder V] [LinearOrder V2] [Lattice T] [DecidableLE T] [DecidableEq T] [LinearOrder (Lin T)]
  [AddCommMonoid R] [DecidableEq R] [AddCommMonoid R2] [DecidableEq R2]

/-- A sequence of legal activations: each is as for the first half join, and the frontier of the second input also advances. -/
def LegalHalf2Run (comparison : T → T → Bool) (frontier_func : T → List T) (logic : K → V → V2 → DOut) (mul : R → R2 → M) (trace : Upds (K × V2) T R2) :
    List T → List T → HalfJoin2 K V T R → List (HalfJoinAct K V V2 T R R2) → Prop
  | _, _, _, [] => True
  | F1, F2, st, act :: acts => LegalHalf trace F1 st.logical act ∧ (∀ f ∈ act.frontier2, Beyond F2 f) ∧
    ∀ st' outs, st.activate comparison frontier_func logic mul act = some (st', outs) → LegalHalf2Run comparison frontier_func logic mul trace act.frontier1 act.frontier2 st' acts

end

end DD
