import Verif.Proofs.Agent
import Mathlib.Order.Nat
import Mathlib.Order.Lattice.Nat

/-!
# Property C20: shared handles to a trace
-/

namespace DD
variable {T : Type*} [Lattice T] [DecidableLE T] [DecidableEq T]

/-- C20. After any sequence of clones, drops and compaction requests on the handles that share a trace, a time is beyond the compaction frontier applied to the trace
exactly if it is beyond the frontier of some live handle, for logical and for physical compaction. -/
theorem C20_applied (L P : List T) (hL : IsAntichainList L) (hP : IsAntichainList P) (ops : List (HandleOp T)) (q : T) :
    let s := (Handles.new L P).run ops
    (Beyond (appliedLogical L s.box.calls) q ↔ ∃ h ∈ s.handles, Beyond h.logical q) ∧
    (Beyond (appliedPhysical P s.box.calls) q ↔ ∃ h ∈ s.handles, Beyond h.physical q) :=
  ⟨((HandlesInv.new hL hP).run ops).appliedL q, ((HandlesInv.new hL hP).run ops).appliedP q⟩

/-- C20. In particular the trace is never compacted past the frontier of a live handle. -/
theorem C20_safe (L P : List T) (hL : IsAntichainList L) (hP : IsAntichainList P) (ops : List (HandleOp T)) :
    let s := (Handles.new L P).run ops
    ∀ h ∈ s.handles, FrontierLe (appliedLogical L s.box.calls) h.logical ∧ FrontierLe (appliedPhysical P s.box.calls) h.physical := by
  intro s h hh
  have hi := (HandlesInv.new hL hP).run ops
  exact ⟨fun q hq => (hi.appliedL q).2 ⟨h, hh, hq⟩, fun q hq => (hi.appliedP q).2 ⟨h, hh, hq⟩⟩

/-- C20. The trace is only ever asked to advance its compaction frontiers. -/
theorem C20_advance (L P : List T) (hL : IsAntichainList L) (hP : IsAntichainList P) (ops : List (HandleOp T)) :
    CallsAdvance L P ((Handles.new L P).run ops).box.calls := ((HandlesInv.new hL hP).run ops).calls

/-- C20. A request advances the frontier of the handle it is made on to the join of its frontier with the one requested, and affects no other handle. -/
theorem C20_request (s : Handles T) (i : Nat) (F : List T) (h : Handle T) (hi : s.handles[i]? = some h) :
    (∃ G, JoinsFrontier h.logical F G ∧ (s.step (.setLogical i F)).handles = s.handles.set i { h with logical := G }) ∧
    (∃ G, JoinsFrontier h.physical F G ∧ (s.step (.setPhysical i F)).handles = s.handles.set i { h with physical := G }) := by
  refine ⟨⟨acJoin h.logical F, ⟨isAntichain_acJoin _ _, beyond_acJoin _ _⟩, ?_⟩, ⟨acJoin h.physical F, ⟨isAntichain_acJoin _ _, beyond_acJoin _ _⟩, ?_⟩⟩
  · simp only [Handles.step, hi]
  · simp only [Handles.step, hi]

/-- C20. A clone has the frontiers of the handle it was cloned from; clones and drops leave the other handles alone. -/
theorem C20_clone_drop (s : Handles T) (i : Nat) (h : Handle T) (hi : s.handles[i]? = some h) :
    (s.step (.clone i)).handles = s.handles ++ [h] ∧ (s.step (.drop i)).handles = s.handles.eraseIdx i := by
  constructor <;> simp only [Handles.step, hi]

/-! ### Non-vacuity: two handles with incomparable frontiers over pairs of times -/

private def ops : List (HandleOp (Nat × Nat)) :=
  [.clone 0, .setLogical 0 [(2, 0)], .setLogical 1 [(0, 1)], .setPhysical 1 [(3, 3)], .clone 1, .setLogical 2 [(1, 0), (0, 4)], .drop 1]

example : IsAntichainList [((0 : Nat), (0 : Nat))] := List.pairwise_singleton _ _

/-- The frontiers of the live handles; the frontiers applied to the trace, which for logical compaction has two elements. -/
example : ((Handles.new [(0, 0)] [(0, 0)]).run ops).handles = [⟨[(2, 0)], [(0, 0)]⟩, ⟨[(1, 1), (0, 4)], [(3, 3)]⟩] := by decide +kernel
example : appliedLogical [(0, 0)] ((Handles.new [(0, 0)] [(0, 0)]).run ops).box.calls = [(2, 0), (1, 1), (0, 4)] ∧
    appliedPhysical [(0, 0)] ((Handles.new [(0, 0)] [(0, 0)]).run ops).box.calls = [(0, 0)] := by decide +kernel
/-- When the last handle is dropped all holds are gone. -/
example : appliedLogical [(0, 0)] ((Handles.new [(0, 0)] [(0, 0)]).run (ops ++ [.drop 0, .drop 0])).box.calls = [] := by decide +kernel

end DD
