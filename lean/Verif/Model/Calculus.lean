import Verif.Model.Lattice
import Verif.Spec.Basic

/-!
# Model of `dogsdogsdogs/src/calculus.rs`

Collections as lists of updates; messages and capabilities are not modelled here. `to_inner` and `to_outer` (altneu.rs:63-72) wrap and unwrap a time.
-/

namespace DD
variable {D T R : Type*}

/-- `Differentiate::differentiate` (calculus.rs:40-51). -/
def differentiate [Neg R] (us : Upds D T R) : Upds D (AltNeu T) R :=
  let entered : Upds D (AltNeu T) R := us.map fun u => (u.1, ⟨u.2.1, false⟩, u.2.2)
  entered.flatMap fun u => [u, (u.1, ⟨u.2.1.time, true⟩, -u.2.2)]

/-- `Integrate::integrate` (calculus.rs:61-66). -/
def integrate (us : Upds D (AltNeu T) R) : Upds D T R :=
  (us.filter fun u => !u.2.1.neu).map fun u => (u.1, u.2.1.time, u.2.2)

end DD
