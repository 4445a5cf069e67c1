import Verif.Spec.ReduceOp
import Verif.Model.ProxyReduce

/-!
# What the proxy reduce may rely on, and what it means for its output to be right

Keys are hashes, values are identifiers; a collection of updates has pairs of both as its data.
-/

namespace DD
variable {T R1 R2 : Type*}

/-- Where each of the pieces ends in their concatenation. -/
def pieceEnds {A : Type*} (pieces : List (List A)) : List Nat := (List.range pieces.length).map fun i => (pieces.take (i + 1)).flatten.length

/-- The backend answers, for each of the keys it is asked about, what turns the present output of the key into the function of its input, when added to it; and nothing is made
from no input. -/
structure Corrects [AddCommMonoid R1] [AddCommMonoid R2] (f : Nat → List (Nat × R1) → List (Nat × R2)) (corrections : Corrections R1 R2) : Prop where
  nothing : ∀ k, f k [] = []
  answers : ∀ work : List (Nat × List (Nat × R1) × List (Nat × R2)), (work.map (·.1)).Nodup → (∀ w ∈ work, ConsolidatedPairs w.2.1 ∧ ConsolidatedPairs w.2.2) →
    ∃ pieces : List (List (Nat × R2)),
      corrections (work.map (·.1)) (pieceEnds (work.map (·.2.1))) (work.map (·.2.1)).flatten (pieceEnds (work.map (·.2.2))) (work.map (·.2.2)).flatten =
        (pieces.flatten, pieceEnds pieces) ∧
      List.Forall₂ (fun w piece => ∀ v, weight piece v + weight w.2.2 v = weight (f w.1 w.2.1) v) work pieces

/-- `p` is a pending time of key `k`. -/
def PendingAt (pending : List (Nat × List T)) (k : Nat) (p : T) : Prop := ∃ ts, (k, ts) ∈ pending ∧ p ∈ ts

/-- `s` is a time at which the output of key `k` may have to change: that of a new update, or a pending one. -/
def SeedAt (seeds : List (Nat × T)) (pending : List (Nat × List T)) (k : Nat) (s : T) : Prop := (k, s) ∈ seeds ∨ PendingAt pending k s

section
variable [Lattice T] [DecidableLE T] [DecidableEq T] [LinearOrder (Lin T)] [AddCommMonoid R1] [AddCommMonoid R2]

/-- What the backend presents when it is asked to work on the interval from `lower` to `upper`: `inputs` and `outputs` are the updates so far, `new` those of the interval. -/
structure WindowsPresent (lower upper held : List T) (inputs new : Upds (Nat × Nat) T R1) (outputs : Upds (Nat × Nat) T R2) (seeds : List (Nat × T)) (pending : List (Nat × List T))
    (windows : List (ProxyWindow T R1 R2)) : Prop where
  /-- The times of the new updates, in the order of keys. They are of the interval, and no earlier than the held times. -/
  seedsSorted : seeds.Pairwise fun a b => a.1 ≤ b.1
  seedsInside : ∀ s ∈ seeds, Beyond lower s.2 ∧ ¬ Beyond upper s.2 ∧ Beyond held s.2
  seedsAll : ∀ k v q, (∀ s, (k, s) ∈ seeds → ¬ s ≤ q) → accum new (k, v) q = 0
  /-- The windows cover the keys that have new updates or pending times, in ascending order. -/
  ascending : (windows.flatMap (·.keys)).Pairwise (· < ·)
  covered : ∀ k, k ∈ windows.flatMap (·.keys) ↔ (∃ s, (k, s) ∈ seeds) ∨ ∃ ts, (k, ts) ∈ pending
  /-- They present the input, old and new, and the output, as they are at or beyond `lower`, in the order of keys. -/
  inputSorted : ∀ w ∈ windows, w.input.Pairwise fun a b => a.1.1 ≤ b.1.1
  input : ∀ w ∈ windows, ∀ k ∈ w.keys, ∀ v q, Beyond lower q → accum w.input (k, v) q = accum (inputs ++ new) (k, v) q
  outputSorted : ∀ w ∈ windows, w.output.Pairwise fun a b => a.1.1 ≤ b.1.1
  output : ∀ w ∈ windows, ∀ k ∈ w.keys, ∀ v q, Beyond lower q → accum w.output (k, v) q = accum outputs (k, v) q

/-- Pending times are kept for each key that has some, in order, and are at or beyond both frontiers. -/
structure PendingOk (lower held : List T) (pending : List (Nat × List T)) : Prop where
  keys : (pending.map (·.1)).Nodup
  nonempty : ∀ p ∈ pending, p.2 ≠ []
  sorted : ∀ p ∈ pending, p.2.Pairwise fun a b => toLin a < toLin b
  beyond : ∀ k s, PendingAt pending k s → Beyond lower s ∧ Beyond held s

/-- The output of each key is right at the times at or beyond `lower` that are not at or beyond one of its pending times. -/
def RightUnlessPending (f : Nat → List (Nat × R1) → List (Nat × R2)) (inputs : Upds (Nat × Nat) T R1) (outputs : Upds (Nat × Nat) T R2) (lower : List T)
    (pending : List (Nat × List T)) : Prop :=
  ∀ k q, Beyond lower q → (∀ p, PendingAt pending k p → ¬ p ≤ q) → ReducedAt (f k) (ofKey inputs k) (ofKey outputs k) q

/-- For each key that has a new or pending time before `upper`: each time that is presented for the key, advanced by the meet of the key's new and pending times, is before `upper`,
or at or beyond one of them. -/
def PresentedHeeded (upper : List T) (seeds : List (Nat × T)) (pending : List (Nat × List T)) (windows : List (ProxyWindow T R1 R2)) : Prop :=
  ∀ w ∈ windows, ∀ k ∈ w.keys, ∀ x, (∃ u ∈ w.input, u.1.1 = k ∧ u.2.1 = x) ∨ (∃ u ∈ w.output, u.1.1 = k ∧ u.2.1 = x) →
    ∀ m, IsGLB {s | SeedAt seeds pending k s} m → (∃ s, SeedAt seeds pending k s ∧ ¬ Beyond upper s) → Beyond upper (x ⊔ m) → ∃ s, SeedAt seeds pending k s ∧ s ≤ x ⊔ m

end

/-- All updates the backend is told to emit. -/
def ProxyResult.emitted (r : ProxyResult T R2) : Upds (Nat × Nat) T R2 := r.emits.flatMap (·.2)

/-- A computation with bounded loops ends with a result, whatever the bound, if that is large enough. -/
def EndsWith {X : Type*} (run : Nat → Option X) (r : X) : Prop := ∃ N, ∀ fuel, N ≤ fuel → run fuel = some r

section
variable [Lattice T] [OrderBot T] [DecidableLE T] [DecidableEq T] [LinearOrder (Lin T)] [AddCommMonoid R1] [DecidableEq R1] [AddCommMonoid R2] [DecidableEq R2]

/-- What may have happened after some calls of `retire`, starting with nothing at the frontier `start`: all input, all output, the frontier up to which all has been retired,
the pending times, and the frontier that was returned. Each call is for the interval from the last frontier to some later one. The held times are at or beyond the former, and
the returned frontier is at or beyond the held times. In each call, the times presented are heeded. -/
inductive ProxyRuns (corrections : Corrections R1 R2) (start : List T) :
    Upds (Nat × Nat) T R1 → Upds (Nat × Nat) T R2 → List T → List (Nat × List T) → List T → Prop
  | none : ProxyRuns corrections start [] [] start [] []
  | retire {inputs new : Upds (Nat × Nat) T R1} {outputs : Upds (Nat × Nat) T R2} {lower upper held frontier : List T} {pending : List (Nat × List T)} {seeds : List (Nat × T)}
      {windows : List (ProxyWindow T R1 R2)} {r : ProxyResult T R2} :
      ProxyRuns corrections start inputs outputs lower pending frontier → IsAntichainList upper → FrontierLe lower upper → (∀ h ∈ held, Beyond lower h) →
      (∀ x ∈ frontier, Beyond held x) → WindowsPresent lower upper held inputs new outputs seeds pending windows → PresentedHeeded upper seeds pending windows →
      EndsWith (fun fuel => proxyRetire fuel corrections windows seeds pending lower upper held) r →
      ProxyRuns corrections start (inputs ++ new) (outputs ++ r.emitted) upper r.pending r.frontier

end

end DD
