import Verif.Model.LookupMap
import Verif.Spec.TraceCursor
import Verif.Spec.Batch

/-!
# What a lookup must compute, and what it may rely on
-/

namespace DD
variable {D K V T R R2 ROut DOut : Type*}

/-- The answers to prefixes: for each prefix, and each value that the arrangement associates, at the time of the prefix, with its key, what the output function makes of it, at that time. -/
def lookups [DecidableEq K] [DecidableEq V] [LE T] [DecidableLE T] [AddCommMonoid R2] [DecidableEq R2] (key : D → K) (output_func : D → R → V → R2 → DOut × ROut)
    (trace : Upds (K × V) T R2) (prefixes : Upds D T R) : Upds DOut T ROut :=
  prefixes.flatMap fun p => (trace.map fun u => u.1.2).dedup.flatMap fun v =>
    if accum trace (key p.1, v) p.2.1 = 0 then []
    else [((output_func p.1 p.2.2 v (accum trace (key p.1, v) p.2.1)).1, p.2.1, (output_func p.1 p.2.2 v (accum trace (key p.1, v) p.2.1)).2)]

section
variable [LinearOrder K] [LinearOrder V] [Lattice T] [DecidableLE T] [AddCommMonoid R2]

/-- An activation that the operator may see, if the frontier of its first input was `F1` and it last allowed the trace to be compacted to `logical`; `trace` are all updates that the
arrangement ever holds. Prefixes are at or after the time of their message, which is beyond the frontier. The frontier advances. The trace presents the updates that it holds so far, with
their counts at times beyond the compaction frontier, and those it does not hold yet are beyond the frontier of the second input. -/
structure LegalLookup (trace : Upds (K × V) T R2) (F1 logical : List T) (act : LookupAct D K V T R R2) : Prop where
  msgs : ∀ m ∈ act.msgs, Beyond F1 m.1 ∧ ∀ p ∈ m.2, m.1 ≤ p.2.1
  advances : ∀ f ∈ act.frontier1, Beyond F1 f
  sorted : ContentsSorted act.contents
  shows : ∃ now later, trace.Perm (now ++ later) ∧ (∀ u ∈ later, Beyond act.frontier2 u.2.1) ∧
    ∀ k v q, Beyond logical q → act.contents.count k v q = accum now (k, v) q
  order : ∀ l, (act.order l).Perm l

end

/-- A sequence of legal activations. -/
def LegalLookupRun [LinearOrder K] [LinearOrder V] [Lattice T] [DecidableLE T] [DecidableEq T] [Zero R] [DecidableEq R] [AddCommMonoid R2] [DecidableEq R2] [Zero ROut] [DecidableEq ROut]
    (key : D → K) (output_func : D → R → V → R2 → DOut × ROut) (trace : Upds (K × V) T R2) : List T → LookupMap D T R → List (LookupAct D K V T R R2) → Prop
  | _, _, [] => True
  | F1, st, act :: acts => LegalLookup trace F1 st.logical act ∧ LegalLookupRun key output_func trace act.frontier1 (st.activate key output_func act).1 acts

end DD
