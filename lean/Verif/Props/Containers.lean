import Verif.Proofs.Containers
import Verif.Proofs.TimeOrd

/-!
# Property C07: the consolidating container builder and the chunker neither lose nor invent updates
-/

namespace DD

variable {D T R : Type*} [LinearOrder D] [LinearOrder (Lin T)] [DecidableEq T] [AddCommMonoid R] [DecidableEq R]

/-- C07, builder, at every moment: no panic; what was handed out and what is retained together have the totals of what was
pushed; every container handed out is non-empty, of at most the preferred size, sorted and consolidated. -/
theorem C07_builder (preferred : Nat) (hp : 0 < preferred) (ops : List (BuilderOp D T R)) :
    ∃ b outs, CCB.init.run preferred ops = some (b, outs) ∧
      (∀ d t, total outs.flatten d t + total (b.current ++ b.outbound.flatten) d t = total (pushedBy ops) d t) ∧
      (∀ c ∈ outs, c ≠ [] ∧ c.length ≤ preferred ∧ Consolidated c) := by
  obtain ⟨b, outs, h1, h2, -, h4⟩ := CCB.run_spec preferred hp ops CCB.init (by simp [CCB.init])
  exact ⟨b, outs, h1, fun d t => by have := h2 d t; simpa [CCB.retained, CCB.init] using this, h4⟩

/-- C07, builder: calling `finish` often enough hands out everything; nothing is retained, and the containers handed out have
exactly the totals pushed. -/
theorem C07_builder_finish (preferred : Nat) (hp : 0 < preferred) (ops : List (BuilderOp D T R)) :
    ∃ n, ∀ leftovers : List (Upds D T R), n ≤ leftovers.length →
      ∃ b outs, CCB.init.run preferred (ops ++ leftovers.map .finish) = some (b, outs) ∧ b.current = [] ∧ b.outbound = [] ∧
        ∀ d t, total outs.flatten d t = total (pushedBy ops) d t := by
  obtain ⟨b1, outs1, h1, -, h3, -⟩ := CCB.run_spec preferred hp ops CCB.init (by simp [CCB.init])
  refine ⟨?n, ?_⟩
  case n => exact (match b1.flushThrough preferred 1 with | none => 0 | some b => b.outbound.length) + b1.outbound.length + 1
  intro ls hls
  cases ls with
  | nil => simp at hls
  | cons l ls =>
    obtain ⟨b2, out, g1, g2, g3, g4, g5, g6, -⟩ := CCB.finish_spec preferred hp b1 l h3
    have hlen : b2.outbound.length ≤ ls.length := by
      by_cases hc : b1.current = []
      · rw [g6 hc]; simp at hls ⊢; omega
      · obtain ⟨b', e1, -, e3, -⟩ := b1.flushThrough_spec preferred 1 hp h3
        rw [e1] at hls
        simp only [CCB.finish, if_pos (show b1.current ≠ [] from hc), e1, Option.some.injEq, Prod.mk.injEq] at g1
        rw [show b2 = (b2, out).1 from rfl, ← g1]
        have := (CCB.extract_spec preferred { b' with empty := b'.empty.take 2 } l e3).2.2.2.2.1
        rw [this]; simp at hls ⊢; omega
    obtain ⟨b3, outs3, f1, f2, f3⟩ := CCB.drain_spec preferred hp ls b2 g3 g5 hlen
    have hrun : CCB.init.run preferred (ops ++ (l :: ls).map .finish) = some (b3, outs1 ++ (out.toList ++ outs3)) := by
      rw [CCB.run_append, h1]
      simp only [Option.bind_some, List.map_cons, CCB.run, CCB.step, g1, f1, Option.map_some]
    refine ⟨b3, _, hrun, f2, f3, fun d t => ?_⟩
    obtain ⟨b4, outs4, k1, k2, -⟩ := C07_builder preferred hp (ops ++ (l :: ls).map .finish)
    rw [hrun] at k1
    simp only [Option.some.injEq, Prod.mk.injEq] at k1
    obtain ⟨rfl, rfl⟩ := k1
    have := k2 d t
    rw [f2, f3, pushedBy_append] at this
    have hz : pushedBy ((l :: ls).map (BuilderOp.finish (D := D) (T := T) (R := R))) = [] := by
      generalize l :: ls = ls'
      induction ls' with
      | nil => rfl
      | cons _ _ ih => simpa [pushedBy] using ih
    rw [hz] at this
    simpa using this

/-- C07, builder: when `finish` answers that there is nothing more, nothing is retained. -/
theorem C07_builder_finish_none (preferred : Nat) (hp : 0 < preferred) (ops : List (BuilderOp D T R)) (leftover : Upds D T R)
    (b b' : CCB D T R) (outs : List (Upds D T R)) (h : CCB.init.run preferred ops = some (b, outs))
    (hf : b.finish preferred leftover = some (b', none)) : b'.current = [] ∧ b'.outbound = [] := by
  obtain ⟨b1, outs1, h1, -, h3, -⟩ := CCB.run_spec preferred hp ops CCB.init (by simp [CCB.init])
  rw [h] at h1
  simp only [Option.some.injEq, Prod.mk.injEq] at h1
  obtain ⟨rfl, rfl⟩ := h1
  obtain ⟨b2, out, g1, -, -, -, g5, -, g7⟩ := CCB.finish_spec preferred hp b leftover h3
  rw [hf] at g1
  simp only [Option.some.injEq, Prod.mk.injEq] at g1
  obtain ⟨rfl, rfl⟩ := g1
  exact ⟨g5, g7 rfl⟩

/-- C07, chunker, at every moment. -/
theorem C07_chunker (ops : List (BuilderOp D T R)) :
    ∃ c outs, Chunker.init.run ops = some (c, outs) ∧
      (∀ d t, total outs.flatten d t + total (c.pending ++ c.ready.flatten) d t = total (pushedBy ops) d t) ∧
      (∀ o ∈ outs, o ≠ [] ∧ Consolidated o) := by
  obtain ⟨b, outs, h1, h2, -, h4⟩ := Chunker.run_spec ops Chunker.init (by simp [Chunker.init])
  exact ⟨b, outs, h1, fun d t => by have := h2 d t; simpa [Chunker.retained, Chunker.init] using this, h4⟩

/-- C07, chunker: calling `finish` often enough hands out everything. -/
theorem C07_chunker_finish (ops : List (BuilderOp D T R)) :
    ∃ n, ∀ leftovers : List (Upds D T R), n ≤ leftovers.length →
      ∃ c outs, Chunker.init.run (ops ++ leftovers.map .finish) = some (c, outs) ∧ c.pending = [] ∧ c.ready = [] ∧
        ∀ d t, total outs.flatten d t = total (pushedBy ops) d t := by
  obtain ⟨b1, outs1, h1, -, h3, -⟩ := Chunker.run_spec ops Chunker.init (by simp [Chunker.init])
  refine ⟨b1.ready.length + 2, ?_⟩
  intro ls hls
  cases ls with
  | nil => simp at hls
  | cons l ls =>
    obtain ⟨b2, out, g1, g2, g3, g4, g5, g6, -⟩ := Chunker.finish_spec b1 l h3
    have hlen : b2.ready.length ≤ ls.length := by
      have hext : ∀ c : Chunker D T R, (c.extract l).1.ready.length ≤ c.ready.length := by
        intro c; unfold Chunker.extract; cases h : c.ready with
        | nil => simp [h]
        | cons => simp
      by_cases hc : b1.pending = []
      · rw [g6 hc]; simp at hls ⊢; omega
      · simp only [Chunker.finish, if_pos (show b1.pending ≠ [] from hc), consolidateInto, consolidateUpdates_eq,
          Option.some.injEq, Prod.mk.injEq] at g1
        rw [show b2 = (b2, out).1 from rfl, ← g1]
        split_ifs
        · refine (hext _).trans ?_
          simp at hls ⊢; omega
        · refine (hext _).trans ?_
          simp at hls ⊢; omega
    obtain ⟨b3, outs3, f1, f2, f3⟩ := Chunker.drain_spec ls b2 g3 g5 hlen
    have hrun : Chunker.init.run (ops ++ (l :: ls).map .finish) = some (b3, outs1 ++ (out.toList ++ outs3)) := by
      rw [Chunker.run_append, h1]
      simp only [Option.bind_some, List.map_cons, Chunker.run, Chunker.step, g1, f1, Option.map_some]
    refine ⟨b3, _, hrun, f2, f3, fun d t => ?_⟩
    obtain ⟨b4, outs4, k1, k2, -⟩ := C07_chunker (ops ++ (l :: ls).map .finish)
    rw [hrun] at k1
    simp only [Option.some.injEq, Prod.mk.injEq] at k1
    obtain ⟨rfl, rfl⟩ := k1
    have := k2 d t
    rw [f2, f3, pushedBy_append] at this
    have hz : pushedBy ((l :: ls).map (BuilderOp.finish (D := D) (T := T) (R := R))) = [] := by
      generalize l :: ls = ls'
      induction ls' with
      | nil => rfl
      | cons _ _ ih => simpa [pushedBy] using ih
    rw [hz] at this
    simpa using this

/-- C07, chunker: when `finish` answers that there is nothing more, nothing is retained. -/
theorem C07_chunker_finish_none (ops : List (BuilderOp D T R)) (leftover : Upds D T R)
    (c c' : Chunker D T R) (outs : List (Upds D T R)) (h : Chunker.init.run ops = some (c, outs))
    (hf : c.finish leftover = some (c', none)) : c'.pending = [] ∧ c'.ready = [] := by
  obtain ⟨b1, outs1, h1, -, h3, -⟩ := Chunker.run_spec ops Chunker.init (by simp [Chunker.init])
  rw [h] at h1
  simp only [Option.some.injEq, Prod.mk.injEq] at h1
  obtain ⟨rfl, rfl⟩ := h1
  obtain ⟨b2, out, g1, -, -, -, g5, -, g7⟩ := Chunker.finish_spec c leftover h3
  rw [hf] at g1
  simp only [Option.some.injEq, Prod.mk.injEq] at g1
  obtain ⟨rfl, rfl⟩ := g1
  exact ⟨g5, g7 rfl⟩

/-- Non-vacuity: pushes that trigger a flush in the middle, an extraction whose container the caller leaves dirty, and a finish. -/
example : (CCB.init.run 1 [.push (2, 0, 1) 9, .push (1, 0, 1) 9, .push (2, 0, 1) 3, .extract [(7, 7, 7)], .push (5, 1, -1) 9,
      .finish [], .finish []] : Option (CCB Nat Nat Int × List (Upds Nat Nat Int))).map (·.2)
    = some [[(1, 0, 1)], [(2, 0, 2)], [(5, 1, -1)]] := by decide +kernel

example : (Chunker.init.run [.push (2, 0, 1) 0, .push (1, 0, 1) 0, .push (2, 0, 1) 1, .extract [(7, 7, 7)], .push (5, 1, -1) 0,
      .finish [], .finish []] : Option (Chunker Nat Nat Int × List (Upds Nat Nat Int))).map (·.2)
    = some [[(1, 0, 1), (2, 0, 2)], [(5, 1, -1)]] := by decide +kernel

end DD
