import Verif.Spec.Dataflow
import Mathlib.Data.Prod.Lex

/-!
# Model of `algorithms/identifiers.rs`

`hash k r` is `(k, r).hashed()`, of type `u64`. The numbers, of type `i32`, are natural numbers without overflow.
-/

namespace DD
variable {D T : Type*}

/-- The logic of the `reduce` (identifiers.rs:65-81). `input[0]` would panic for an empty `input`, but the logic is not called then. Rust orders pairs lexicographically. -/
def resolveCollisions {K : Type*} (_hash : K) (input : List ((Nat ×ₗ D) × Int)) : List ((Nat × D) × Int) :=
  match input with
  | [] => []
  | x :: losers =>
    (if 0 < (ofLex x.1).1 then [((0, (ofLex x.1).2), -x.2), (((ofLex x.1).1, (ofLex x.1).2), x.2)] else []) ++
      losers.flatMap fun y => [((0, (ofLex y.1).2), -y.2), (((ofLex y.1).1 + 1, (ofLex y.1).2), y.2)]

/-- `init.enter(scope).concat(diff).map(|pair| (pair.hashed(), pair))` (identifiers.rs:61-64). -/
def hashedProposals (hash : Nat → D → Nat) (init diff : Coll (Nat × D)) : Coll (Nat × (Nat ×ₗ D)) := (init.concat diff).map fun p => (hash p.1 p.2, toLex p)

/-- The streams of `identifiers` (identifiers.rs:39-86). -/
structure IdentifiersFlow (D T : Type*) where
  init : Nat → Upds (Nat × D) T Int
  initIn : Nat → Upds (Nat × D) (T × Nat) Int
  diff : Nat → Upds (Nat × D) (T × Nat) Int
  hashed : Nat → Upds (Nat × (Nat ×ₗ D)) (T × Nat) Int
  reduced : Nat → Msgs (Nat × (Nat × D)) (T × Nat) Int
  out : Nat → Upds (D × Nat) T Int

/-- `.map(|(_hash, pair)| pair)` (identifiers.rs:82): what the body of the loop returns. -/
def IdentifiersFlow.result (F : IdentifiersFlow D T) (n : Nat) : Msgs (Nat × D) (T × Nat) Int := (F.reduced n).map fun x => x.2

/-- How they are connected. -/
structure IdentifiersFlow.Runs [LinearOrder D] [PartialOrder T] [DecidableLE T] [DecidableEq T] (F : IdentifiersFlow D T) (hash : Nat → D → Nat) (data : Nat → Upds D T Int) : Prop where
  /-- `self.map(|record| (0, record))` (identifiers.rs:57). -/
  init : Op1 (Coll.map fun r => (0, r)) data F.init
  /-- `init.enter(scope)` (identifiers.rs:62). -/
  initIn : Enters F.init F.initIn
  /-- `empty(init.scope()).as_collection().iterate` (identifiers.rs:58-60): there are no messages of the source. -/
  loop : LoopRun (fun _ => iterateReceives []) F.result F.diff
  hashed : Op2 (hashedProposals hash) F.initIn F.diff F.hashed
  reduced : Op1 (Coll.reduce resolveCollisions) F.hashed fun n => (F.reduced n).upds
  /-- Messages are sent one after the other. -/
  grows : ∀ n, F.reduced n <+: F.reduced (n + 1)
  /-- The output of `reduce` for a time does not cancel. -/
  tidy : Tidy fun n => (F.reduced n).upds
  /-- `.concat(init).map(|pair| { let hash = pair.hashed(); (pair.1, hash) })` (identifiers.rs:84-85), of what the loop returns. -/
  out : Op2 (fun a b => (Coll.concat a b).map fun p => (p.2, hash p.1 p.2)) (fun n => (iterateReturns (F.result n)).upds) F.init F.out

/-- The changes to the proposals, by rounds (identifiers.rs:61-82). -/
def idIter [LinearOrder D] (hash : Nat → D → Nat) (c : Coll D) : Nat → Coll (Nat × D)
  | 0 => []
  | i + 1 => (Coll.reduce resolveCollisions (hashedProposals hash (c.map fun r => (0, r)) (idIter hash c i))).map fun x => x.2

end DD
