import Verif.Proofs.PointStamp

/-!
# The total orders (`Ord`) of the timestamp types

`#[derive(Ord)]` compares fields in order of declaration, and sequences lexicographically (a proper prefix is less).
-/

namespace DD

/-- `derive(Ord)` of timely's `Product` (external): `outer`, then `inner`. -/
def ProductT.ordLe {T1 T2 : Type*} [LinearOrder (Lin T1)] [LinearOrder (Lin T2)] (a b : ProductT T1 T2) : Prop :=
  toLin a.outer < toLin b.outer ∨ (toLin a.outer = toLin b.outer ∧ toLin a.inner ≤ toLin b.inner)

/-- Rust's `Ord` for pairs `(T1, T2)`: lexicographic. -/
def LexT.ordLe {T1 T2 : Type*} [LinearOrder (Lin T1)] [LinearOrder (Lin T2)] (a b : LexT T1 T2) : Prop :=
  toLin a.fst < toLin b.fst ∨ (toLin a.fst = toLin b.fst ∧ toLin a.snd ≤ toLin b.snd)

/-- `derive(Ord)` of `AltNeu` (altneu.rs:17): `time`, then `neu` (`false < true`). -/
def AltNeu.ordLe {T : Type*} [LinearOrder (Lin T)] (a b : AltNeu T) : Prop :=
  toLin a.time < toLin b.time ∨ (toLin a.time = toLin b.time ∧ a.neu ≤ b.neu)

/-- Rust's `Ord` for slices: lexicographic. -/
def vecOrdLe {T : Type*} [LinearOrder (Lin T)] : List T → List T → Prop
  | [], _ => True
  | _ :: _, [] => False
  | a :: as, b :: bs => toLin a < toLin b ∨ (toLin a = toLin b ∧ vecOrdLe as bs)

/-- `derive(Ord)` of `PointStamp` (pointstamp.rs:22): that of its vector. -/
def PointStamp.ordLe {T : Type*} [LinearOrder (Lin T)] (a b : PointStamp T) : Prop := vecOrdLe a.vector b.vector

end DD
