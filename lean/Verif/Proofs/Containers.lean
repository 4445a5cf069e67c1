import Verif.Model.Containers
import Verif.Proofs.Consolidation
import Mathlib.Tactic.Abel

namespace DD

variable {D T R : Type*} [LinearOrder D] [LinearOrder (Lin T)] [AddCommMonoid R] [DecidableEq R]

theorem drainLoop_spec (p : Nat) (hp : 0 < p) (fuel : Nat) : ∀ (us : Upds D T R) (empty : List (Upds D T R)),
    us.length ≤ fuel → (drainLoop p fuel us empty).2.flatten = us ∧
      ∀ c ∈ (drainLoop p fuel us empty).2, c ≠ [] ∧ c.length ≤ p ∧ c.Sublist us := by
  induction fuel with
  | zero => intro us empty h; have : us = [] := List.length_eq_zero_iff.1 (by omega); subst this; simp [drainLoop]
  | succ fuel ih =>
    intro us empty h
    cases us with
    | nil => simp [drainLoop]
    | cons u us =>
      simp only [drainLoop, List.take_zero, List.nil_append]
      obtain ⟨h1, h2⟩ := ih ((u :: us).drop p) empty.dropLast (by simp only [List.length_drop, List.length_cons] at *; omega)
      refine ⟨?_, ?_⟩
      · rw [List.flatten_cons, h1, List.take_append_drop]
      · intro c hc
        rcases List.mem_cons.1 hc with rfl | hc
        · refine ⟨?_, by simp, List.take_sublist _ _⟩
          intro e; have := congrArg List.length e; simp at this; omega
        · obtain ⟨a, b, c'⟩ := h2 c hc
          exact ⟨a, b, c'.trans (List.drop_sublist _ _)⟩

/-- What the builder holds. -/
def CCB.retained (b : CCB D T R) : Upds D T R := b.current ++ b.outbound.flatten

def GoodContainer (p : Nat) (c : Upds D T R) : Prop := c ≠ [] ∧ c.length ≤ p ∧ Consolidated c

theorem CCB.flushThrough_spec [DecidableEq T] (p m : Nat) (hp : 0 < p) (b : CCB D T R)
    (hb : ∀ c ∈ b.outbound, GoodContainer p c) :
    ∃ b', b.flushThrough p m = some b' ∧ (∀ d t, total b'.retained d t = total b.retained d t) ∧
      (∀ c ∈ b'.outbound, GoodContainer p c) ∧ (m = 1 → b'.current = []) := by
  unfold CCB.flushThrough
  rw [consolidateUpdates_eq]
  set cur := consolidatedU b.current
  set k := cur.length / m * m
  have hk : k ≤ cur.length := Nat.div_mul_le_self _ _
  obtain ⟨h1, h2⟩ := drainLoop_spec p hp k (cur.take k) b.empty (by simp)
  refine ⟨_, rfl, fun d t => ?_, ?_, ?_⟩
  · simp only [CCB.retained, List.flatten_append, h1, total_append]
    rw [← total_consolidatedU b.current d t]
    have : total cur d t = total (cur.take k) d t + total (cur.drop k) d t := by
      rw [← total_append, List.take_append_drop]
    rw [show consolidatedU b.current = cur from rfl, this]
    have h1' := congrArg (fun l => total l d t) h1
    simp only [k] at h1' ⊢
    rw [h1']
    abel
  · intro c hc
    rcases List.mem_append.1 hc with hc | hc
    · exact hb c hc
    · obtain ⟨a, b', c'⟩ := h2 c hc
      exact ⟨a, b', (consolidated_consolidatedU b.current).sublist (c'.trans (List.take_sublist _ _))⟩
  · rintro rfl
    simp [k]

theorem CCB.extract_spec [DecidableEq T] (p : Nat) (b : CCB D T R) (l : Upds D T R) (hb : ∀ c ∈ b.outbound, GoodContainer p c) :
    (∀ d t, total ((b.extract l).2.getD []) d t + total (b.extract l).1.retained d t = total b.retained d t) ∧
    (∀ c ∈ (b.extract l).1.outbound, GoodContainer p c) ∧ (∀ c ∈ (b.extract l).2, GoodContainer p c) ∧
    (b.extract l).1.current = b.current ∧ (b.extract l).1.outbound = b.outbound.tail ∧
    ((b.extract l).2 = none → b.outbound = []) := by
  unfold CCB.extract
  cases h : b.outbound with
  | nil => simp [h]
  | cons c cs =>
    rw [h] at hb
    simp only [List.mem_cons, forall_eq_or_imp] at hb
    refine ⟨fun d t => ?_, fun c hc => hb.2 c hc, ?_, rfl, rfl, by simp⟩
    · simp only [Option.getD_some, CCB.retained, h, List.flatten_cons, total_append]; abel
    · intro c' hc'; simp only [Option.mem_def, Option.some.injEq] at hc'; subst hc'; exact hb.1

theorem CCB.finish_spec [DecidableEq T] (p : Nat) (hp : 0 < p) (b : CCB D T R) (l : Upds D T R)
    (hb : ∀ c ∈ b.outbound, GoodContainer p c) :
    ∃ b' out, b.finish p l = some (b', out) ∧
      (∀ d t, total (out.getD []) d t + total b'.retained d t = total b.retained d t) ∧
      (∀ c ∈ b'.outbound, GoodContainer p c) ∧ (∀ c ∈ out, GoodContainer p c) ∧ b'.current = [] ∧
      (b.current = [] → b'.outbound = b.outbound.tail) ∧ (out = none → b'.outbound = []) := by
  unfold CCB.finish
  by_cases h : b.current ≠ []
  · rw [if_pos h]
    obtain ⟨b1, h1, h2, h3, h4⟩ := b.flushThrough_spec p 1 hp hb
    rw [h1]
    obtain ⟨e1, e2, e3, e4, e5, e6⟩ := CCB.extract_spec p { b1 with empty := b1.empty.take 2 } l h3
    refine ⟨(CCB.extract { b1 with empty := b1.empty.take 2 } l).1, (CCB.extract { b1 with empty := b1.empty.take 2 } l).2, rfl, fun d t => ?_, e2, e3, ?_, ?_, ?_⟩
    · rw [e1, ← h2]; rfl
    · rw [e4]; exact h4 rfl
    · intro hc; exact absurd hc h
    · intro hc; rw [e5, e6 hc]; rfl
  · rw [if_neg h]
    obtain ⟨e1, e2, e3, e4, e5, e6⟩ := CCB.extract_spec p b l hb
    exact ⟨(b.extract l).1, (b.extract l).2, rfl, e1, e2, e3, by rw [e4]; simpa using h, fun _ => e5, fun hc => by rw [e5, e6 hc]; rfl⟩

/-- The updates pushed by a sequence of calls. -/
def pushedBy : List (BuilderOp D T R) → Upds D T R
  | [] => []
  | .push u _ :: ops => u :: pushedBy ops
  | .extract _ :: ops => pushedBy ops
  | .finish _ :: ops => pushedBy ops

theorem pushedBy_append (a b : List (BuilderOp D T R)) : pushedBy (a ++ b) = pushedBy a ++ pushedBy b := by
  induction a with
  | nil => rfl
  | cons o a ih => cases o <;> simp [pushedBy, ih]

theorem CCB.step_spec [DecidableEq T] (p : Nat) (hp : 0 < p) (b : CCB D T R) (op : BuilderOp D T R)
    (hb : ∀ c ∈ b.outbound, GoodContainer p c) :
    ∃ b' out, b.step p op = some (b', out) ∧
      (∀ d t, total (out.getD []) d t + total b'.retained d t = total b.retained d t + total (pushedBy [op]) d t) ∧
      (∀ c ∈ b'.outbound, GoodContainer p c) ∧ (∀ c ∈ out, GoodContainer p c) := by
  cases op with
  | push u cap =>
    simp only [CCB.step, CCB.push]
    split_ifs with h
    · obtain ⟨b1, h1, h2, h3, h4⟩ := CCB.flushThrough_spec p p hp { b with current := b.current ++ [u] } hb
      rw [h1]
      refine ⟨b1, none, rfl, fun d t => ?_, h3, by simp⟩
      rw [h2]; simp only [CCB.retained, total_append, pushedBy, Option.getD_none, total_nil]; abel
    · refine ⟨_, none, rfl, fun d t => ?_, hb, by simp⟩
      simp only [CCB.retained, total_append, pushedBy, Option.getD_none, total_nil]; abel
  | extract l =>
    obtain ⟨e1, e2, e3, -⟩ := CCB.extract_spec p b l hb
    exact ⟨(b.extract l).1, (b.extract l).2, rfl, fun d t => by rw [e1]; simp [pushedBy], e2, e3⟩
  | finish l =>
    obtain ⟨b', out, h, e1, e2, e3, -⟩ := CCB.finish_spec p hp b l hb
    exact ⟨b', out, h, fun d t => by rw [e1]; simp [pushedBy], e2, e3⟩

theorem total_toList [DecidableEq T] (o : Option (Upds D T R)) (d : D) (t : T) :
    total o.toList.flatten d t = total (o.getD []) d t := by cases o <;> simp

theorem CCB.run_spec [DecidableEq T] (p : Nat) (hp : 0 < p) (ops : List (BuilderOp D T R)) : ∀ (b : CCB D T R),
    (∀ c ∈ b.outbound, GoodContainer p c) →
    ∃ b' outs, b.run p ops = some (b', outs) ∧
      (∀ d t, total outs.flatten d t + total b'.retained d t = total b.retained d t + total (pushedBy ops) d t) ∧
      (∀ c ∈ b'.outbound, GoodContainer p c) ∧ (∀ c ∈ outs, GoodContainer p c) := by
  induction ops with
  | nil => intro b hb; exact ⟨b, [], rfl, fun d t => by simp [pushedBy], hb, by simp⟩
  | cons op ops ih =>
    intro b hb
    obtain ⟨b1, out, h1, h2, h3, h4⟩ := CCB.step_spec p hp b op hb
    obtain ⟨b2, outs, g1, g2, g3, g4⟩ := ih b1 h3
    refine ⟨b2, out.toList ++ outs, by simp only [CCB.run, h1, g1], fun d t => ?_, g3, ?_⟩
    · rw [List.flatten_append, total_append, total_toList, add_assoc, g2, ← add_assoc, h2, add_assoc, ← total_append,
        ← pushedBy_append]
      rfl
    · intro c hc
      rcases List.mem_append.1 hc with hc | hc
      · exact h4 c (by simpa using hc)
      · exact g4 c hc

theorem CCB.run_append (p : Nat) (a b : List (BuilderOp D T R)) (s : CCB D T R) :
    s.run p (a ++ b) = (s.run p a).bind fun x => (x.1.run p b).map fun y => (y.1, x.2 ++ y.2) := by
  induction a generalizing s with
  | nil => simp only [List.nil_append, CCB.run, Option.bind_some, List.nil_append]; cases s.run p b <;> rfl
  | cons op a ih =>
    simp only [List.cons_append, CCB.run]
    cases s.step p op with
    | none => rfl
    | some x =>
      simp only [ih]
      cases CCB.run p x.1 a with
      | none => rfl
      | some y =>
        simp only [Option.bind_some]
        cases CCB.run p y.1 b <;> simp

theorem CCB.drain_spec [DecidableEq T] (p : Nat) (hp : 0 < p) (ls : List (Upds D T R)) : ∀ (b : CCB D T R),
    (∀ c ∈ b.outbound, GoodContainer p c) → b.current = [] → b.outbound.length ≤ ls.length →
    ∃ b' outs, b.run p (ls.map .finish) = some (b', outs) ∧ b'.current = [] ∧ b'.outbound = [] := by
  induction ls with
  | nil => intro b hb hc hl; exact ⟨b, [], rfl, hc, List.length_eq_zero_iff.1 (by simpa using hl)⟩
  | cons l ls ih =>
    intro b hb hc hl
    obtain ⟨b', out, h, e1, e2, e3, e4, e5, -⟩ := CCB.finish_spec p hp b l hb
    obtain ⟨b2, outs, g1, g2, g3⟩ := ih b' e2 e4 (by rw [e5 hc]; simp at *; omega)
    exact ⟨b2, out.toList ++ outs, by simp only [List.map_cons, CCB.run, CCB.step, h, g1], g2, g3⟩

/-! ### Chunker -/

def Chunker.retained (c : Chunker D T R) : Upds D T R := c.pending ++ c.ready.flatten

def GoodChunk (c : Upds D T R) : Prop := c ≠ [] ∧ Consolidated c

theorem Chunker.extract_spec [DecidableEq T] (b : Chunker D T R) (l : Upds D T R) (hb : ∀ c ∈ b.ready, GoodChunk c) :
    (∀ d t, total ((b.extract l).2.getD []) d t + total (b.extract l).1.retained d t = total b.retained d t) ∧
    (∀ c ∈ (b.extract l).1.ready, GoodChunk c) ∧ (∀ c ∈ (b.extract l).2, GoodChunk c) ∧
    (b.extract l).1.pending = b.pending ∧ (b.extract l).1.ready = b.ready.tail ∧
    ((b.extract l).2 = none → b.ready = []) := by
  unfold Chunker.extract
  cases h : b.ready with
  | nil => simp [h]
  | cons c cs =>
    rw [h] at hb
    simp only [List.mem_cons, forall_eq_or_imp] at hb
    refine ⟨fun d t => ?_, fun c hc => hb.2 c hc, ?_, rfl, rfl, by simp⟩
    · simp only [Option.getD_some, Chunker.retained, h, List.flatten_cons, total_append]; abel
    · intro c' hc'; simp only [Option.mem_def, Option.some.injEq] at hc'; subst hc'; exact hb.1

theorem Chunker.finish_spec [DecidableEq T] (b : Chunker D T R) (l : Upds D T R)
    (hb : ∀ c ∈ b.ready, GoodChunk c) :
    ∃ b' out, b.finish l = some (b', out) ∧
      (∀ d t, total (out.getD []) d t + total b'.retained d t = total b.retained d t) ∧
      (∀ c ∈ b'.ready, GoodChunk c) ∧ (∀ c ∈ out, GoodChunk c) ∧ b'.pending = [] ∧
      (b.pending = [] → b'.ready = b.ready.tail) ∧ (out = none → b'.ready = []) := by
  unfold Chunker.finish
  by_cases h : b.pending ≠ []
  · rw [if_pos h]
    simp only [consolidateInto, consolidateUpdates_eq]
    by_cases h' : consolidatedU b.pending ≠ []
    · simp only [if_pos h']
      obtain ⟨e1, e2, e3, e4, e5, e6⟩ := Chunker.extract_spec
        { pending := [], ready := b.ready ++ [consolidatedU b.pending], empty := [] } l
        (by intro c hc; rcases List.mem_append.1 hc with hc | hc
            · exact hb c hc
            · simp only [List.mem_singleton] at hc; subst hc; exact ⟨h', consolidated_consolidatedU _⟩)
      refine ⟨(Chunker.extract { pending := [], ready := b.ready ++ [consolidatedU b.pending], empty := [] } l).1,
        (Chunker.extract { pending := [], ready := b.ready ++ [consolidatedU b.pending], empty := [] } l).2, rfl, fun d t => ?_, e2, e3, e4, fun hc => absurd hc h, fun hc => by rw [e5, e6 hc]; rfl⟩
      rw [e1]
      simp only [Chunker.retained, List.flatten_append, total_append, List.flatten_singleton, List.nil_append, total_consolidatedU]
      abel
    · simp only [if_neg h']
      simp only [ne_eq, not_not] at h'
      obtain ⟨e1, e2, e3, e4, e5, e6⟩ := Chunker.extract_spec
        { pending := consolidatedU b.pending, ready := b.ready, empty := [] } l hb
      refine ⟨(Chunker.extract { pending := consolidatedU b.pending, ready := b.ready, empty := [] } l).1,
        (Chunker.extract { pending := consolidatedU b.pending, ready := b.ready, empty := [] } l).2, rfl, fun d t => ?_, e2, e3, by rw [e4]; exact h', fun hc => absurd hc h, fun hc => by rw [e5, e6 hc]; rfl⟩
      rw [e1]
      simp only [Chunker.retained, total_append, total_consolidatedU]
  · rw [if_neg h]
    obtain ⟨e1, e2, e3, e4, e5, e6⟩ := Chunker.extract_spec b l hb
    exact ⟨(b.extract l).1, (b.extract l).2, rfl, e1, e2, e3, by rw [e4]; simpa using h, fun _ => e5, fun hc => by rw [e5, e6 hc]; rfl⟩

theorem Chunker.step_spec [DecidableEq T] (b : Chunker D T R) (op : BuilderOp D T R)
    (hb : ∀ c ∈ b.ready, GoodChunk c) :
    ∃ b' out, b.step op = some (b', out) ∧
      (∀ d t, total (out.getD []) d t + total b'.retained d t = total b.retained d t + total (pushedBy [op]) d t) ∧
      (∀ c ∈ b'.ready, GoodChunk c) ∧ (∀ c ∈ out, GoodChunk c) := by
  cases op with
  | push u cap =>
    simp only [Chunker.step, Chunker.pushItem]
    split_ifs with h
    · simp only [consolidateInto, consolidateUpdates_eq]
      split_ifs with h'
      · refine ⟨_, none, rfl, fun d t => ?_, ?_, by simp⟩
        · simp only [Chunker.retained, List.flatten_append, total_append, List.flatten_singleton, List.nil_append,
            total_consolidatedU, pushedBy, Option.getD_none, total_nil]
          abel
        · intro c hc
          rcases List.mem_append.1 hc with hc | hc
          · exact hb c hc
          · simp only [List.mem_singleton] at hc; subst hc
            refine ⟨?_, consolidated_consolidatedU _⟩
            intro e; rw [e] at h'; simp at h'
      · refine ⟨_, none, rfl, fun d t => ?_, hb, by simp⟩
        simp only [Chunker.retained, total_append, total_consolidatedU, pushedBy, Option.getD_none, total_nil]
        abel
    · refine ⟨_, none, rfl, fun d t => ?_, hb, by simp⟩
      simp only [Chunker.retained, total_append, pushedBy, Option.getD_none, total_nil]; abel
  | extract l =>
    obtain ⟨e1, e2, e3, -⟩ := Chunker.extract_spec b l hb
    exact ⟨(b.extract l).1, (b.extract l).2, rfl, fun d t => by rw [e1]; simp [pushedBy], e2, e3⟩
  | finish l =>
    obtain ⟨b', out, h, e1, e2, e3, -⟩ := Chunker.finish_spec b l hb
    exact ⟨b', out, h, fun d t => by rw [e1]; simp [pushedBy], e2, e3⟩

theorem Chunker.run_spec [DecidableEq T] (ops : List (BuilderOp D T R)) : ∀ (b : Chunker D T R),
    (∀ c ∈ b.ready, GoodChunk c) →
    ∃ b' outs, b.run ops = some (b', outs) ∧
      (∀ d t, total outs.flatten d t + total b'.retained d t = total b.retained d t + total (pushedBy ops) d t) ∧
      (∀ c ∈ b'.ready, GoodChunk c) ∧ (∀ c ∈ outs, GoodChunk c) := by
  induction ops with
  | nil => intro b hb; exact ⟨b, [], rfl, fun d t => by simp [pushedBy], hb, by simp⟩
  | cons op ops ih =>
    intro b hb
    obtain ⟨b1, out, h1, h2, h3, h4⟩ := Chunker.step_spec b op hb
    obtain ⟨b2, outs, g1, g2, g3, g4⟩ := ih b1 h3
    refine ⟨b2, out.toList ++ outs, by simp only [Chunker.run, h1, g1], fun d t => ?_, g3, ?_⟩
    · rw [List.flatten_append, total_append, total_toList, add_assoc, g2, ← add_assoc, h2, add_assoc, ← total_append,
        ← pushedBy_append]
      rfl
    · intro c hc
      rcases List.mem_append.1 hc with hc | hc
      · exact h4 c (by simpa using hc)
      · exact g4 c hc

theorem Chunker.run_append (a b : List (BuilderOp D T R)) (s : Chunker D T R) :
    s.run (a ++ b) = (s.run a).bind fun x => (x.1.run b).map fun y => (y.1, x.2 ++ y.2) := by
  induction a generalizing s with
  | nil => simp only [List.nil_append, Chunker.run, Option.bind_some, List.nil_append]; cases s.run b <;> rfl
  | cons op a ih =>
    simp only [List.cons_append, Chunker.run]
    cases s.step op with
    | none => rfl
    | some x =>
      simp only [ih]
      cases Chunker.run x.1 a with
      | none => rfl
      | some y =>
        simp only [Option.bind_some]
        cases Chunker.run y.1 b <;> simp

theorem Chunker.drain_spec [DecidableEq T] (ls : List (Upds D T R)) : ∀ (b : Chunker D T R),
    (∀ c ∈ b.ready, GoodChunk c) → b.pending = [] → b.ready.length ≤ ls.length →
    ∃ b' outs, b.run (ls.map .finish) = some (b', outs) ∧ b'.pending = [] ∧ b'.ready = [] := by
  induction ls with
  | nil => intro b hb hc hl; exact ⟨b, [], rfl, hc, List.length_eq_zero_iff.1 (by simpa using hl)⟩
  | cons l ls ih =>
    intro b hb hc hl
    obtain ⟨b', out, h, e1, e2, e3, e4, e5, -⟩ := Chunker.finish_spec b l hb
    obtain ⟨b2, outs, g1, g2, g3⟩ := ih b' e2 e4 (by rw [e5 hc]; simp at *; omega)
    exact ⟨b2, out.toList ++ outs, by simp only [List.map_cons, Chunker.run, Chunker.step, h, g1], g2, g3⟩

end DD
