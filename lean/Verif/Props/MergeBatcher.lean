import Verif.Proofs.MergeBatcher
import Verif.Proofs.TimeOrd
import Mathlib.Order.Nat

/-!
# Property C08: sealing a batcher partitions the buffered updates exactly by time
-/

namespace DD

section
variable {D T R : Type*} [PartialOrder T] [DecidableLE T]

/-- Specification: the updates that should be buffered after a history of calls. A push adds its updates; a seal removes those
whose time is not beyond its `upper`. -/
def bufferedBy (ops : List (BatcherOp D T R)) : Upds D T R :=
  ops.foldl (fun us op => match op with
    | .push chunk => us ++ chunk
    | .seal upper => us.filter (fun u => decide (Beyond upper u.2.1))) []

/-- Specification: the frontier of the last seal, initially the minimum. -/
def lastSeal [Bot T] (ops : List (BatcherOp D T R)) : List T :=
  ops.foldl (fun f op => match op with
    | .push _ => f
    | .seal upper => upper) [⊥]

/-- Pushed chunks are as the chunker makes them (`C07_chunker`): non-empty, sorted and consolidated. -/
def GoodPushes [LT D] [LT (Lin T)] [Zero R] (ops : List (BatcherOp D T R)) : Prop :=
  ∀ op ∈ ops, ∀ chunk, op = .push chunk → chunk ≠ [] ∧ Consolidated chunk

end

section
variable {D T R : Type*} [LinearOrder D] [PartialOrder T] [DecidableLE T] [DecidableEq T] [Bot T] [LinearOrder (Lin T)]
  [AddCommMonoid R] [DecidableEq R]

theorem run_inv (cap : Nat) (hcap : 0 < cap) (ops : List (BatcherOp D T R)) (hops : GoodPushes ops) :
    BatcherOk (MergeBatcher.run cap MergeBatcher.init ops).chains ∧
    (∀ d t, total (held (MergeBatcher.run cap MergeBatcher.init ops).chains) d t = total (bufferedBy ops) d t) ∧
    (MergeBatcher.run cap MergeBatcher.init ops).lower = lastSeal ops := by
  induction ops using List.reverseRecOn with
  | nil => exact ⟨⟨by simp [MergeBatcher.run, MergeBatcher.init], by simp [MergeBatcher.run, MergeBatcher.init]⟩, fun d t => rfl, rfl⟩
  | append_singleton ops op ih =>
    obtain ⟨i1, i2, i3⟩ := ih (fun o ho => hops o (by simp [ho]))
    have hrun : MergeBatcher.run cap MergeBatcher.init (ops ++ [op]) = (match op with
      | .push chunk => (MergeBatcher.run cap MergeBatcher.init ops).push cap chunk
      | .seal upper => ((MergeBatcher.run cap MergeBatcher.init ops).seal cap upper).1) := by
      simp only [MergeBatcher.run, List.foldl_append, List.foldl_cons, List.foldl_nil]
      cases op <;> rfl
    rw [hrun]
    cases op with
    | push chunk =>
      obtain ⟨hne, hc⟩ := hops (.push chunk) (by simp) chunk rfl
      obtain ⟨k1, k2⟩ := push_ok cap hcap _ chunk i1 hne hc
      refine ⟨k1, fun d t => ?_, ?_⟩
      · rw [k2, i2]; simp [bufferedBy, List.foldl_append, total_append]
      · simp only [lastSeal, List.foldl_append, List.foldl_cons, List.foldl_nil]; exact i3
    | «seal» upper =>
      obtain ⟨k1, -, -, -, k5, -⟩ := seal_ok cap hcap _ upper i1
      refine ⟨k1, fun d t => ?_, ?_⟩
      · rw [k5, i2]
        simp only [bufferedBy, List.foldl_append, List.foldl_cons, List.foldl_nil]
        rw [total_filter _ (fun t => decide (Beyond upper t))]
        by_cases h : lessEqual upper t = true
        · rw [if_pos h, if_pos (by simpa using (lessEqual_iff _ _).1 h)]
        · rw [if_neg h, if_neg (by simpa using fun h' => h ((lessEqual_iff _ _).2 h'))]
      · simp [lastSeal, List.foldl_append, MergeBatcher.seal]

/-- C08. After any history of pushes and seals, a seal at any `upper` produces chunks that, concatenated, are sorted and
consolidated, with exactly the totals of the buffered updates whose time is not beyond `upper`; the description is contiguous with
the previous seal; and the reported frontier is the antichain of least times of what remains buffered (counting only updates that
do not cancel). -/
theorem C08_seal (cap : Nat) (hcap : 0 < cap) (ops : List (BatcherOp D T R)) (hops : GoodPushes ops) (upper : List T) :
    let b := MergeBatcher.run cap MergeBatcher.init ops
    let out := (b.seal cap upper).2.1
    let desc := (b.seal cap upper).2.2
    let b' := (b.seal cap upper).1
    Consolidated out.flatten ∧ (∀ c ∈ out, c ≠ [] ∧ c.length ≤ cap) ∧
    (∀ d t, total out.flatten d t = if Beyond upper t then 0 else total (bufferedBy ops) d t) ∧
    desc.lower = lastSeal ops ∧ desc.upper = upper ∧ desc.since = [⊥] ∧
    IsAntichainList b'.frontier ∧
    (∀ t, Beyond b'.frontier t ↔ ∃ d s, s ≤ t ∧ Beyond upper s ∧ total (bufferedBy ops) d s ≠ 0) := by
  intro b out desc b'
  obtain ⟨i1, i2, i3⟩ := run_inv cap hcap ops hops
  obtain ⟨k1, k2, k3, k4, k5, k6, k7⟩ := seal_ok cap hcap b upper i1
  refine ⟨k2, k3, fun d t => ?_, i3, rfl, rfl, k6, fun t => ?_⟩
  · refine (k4 d t).trans ?_
    rw [i2]
    simp only [lessEqual_iff]
  · refine (k7 t).trans (exists_congr fun d => exists_congr fun s => and_congr_right fun _ => ?_)
    rw [k5, i2]
    by_cases h : lessEqual upper s = true
    · rw [if_pos h]; simp [(lessEqual_iff _ _).1 h]
    · have h' : ¬ Beyond upper s := fun h' => h ((lessEqual_iff _ _).2 h')
      rw [if_neg h]; simp [h']

/-- C08: what a batcher holds after any history is exactly what should be buffered, so that nothing is lost between seals. -/
theorem C08_buffered (cap : Nat) (hcap : 0 < cap) (ops : List (BatcherOp D T R)) (hops : GoodPushes ops) :
    let b := MergeBatcher.run cap MergeBatcher.init ops
    ∀ d t, total (b.chains.map fun c => c.2.flatten).flatten d t = total (bufferedBy ops) d t :=
  (run_inv cap hcap ops hops).2.1

end

/-- Non-vacuity: two pushes with a cancellation across chunks, sealed in the middle. -/
example : GoodPushes ([.push [(1, 0, 1), (2, 5, 1)], .push [(2, 5, -1), (3, 1, 4)], .seal [1]] : List (BatcherOp Nat Nat Int)) := by
  intro op hop chunk hc
  subst hc
  simp only [List.mem_cons, List.not_mem_nil, or_false] at hop
  rcases hop with h | h | h
  · cases h; exact ⟨by simp, by unfold Consolidated; decide⟩
  · cases h; exact ⟨by simp, by unfold Consolidated; decide⟩
  · cases h

example :
    ((MergeBatcher.run 2 MergeBatcher.init [.push [(1, 0, 1), (2, 5, 1)], .push [(2, 5, -1), (3, 1, 4)]]
      : MergeBatcher Nat Nat Int).seal 2 [1]).2.1 = [[(1, 0, 1)]] := by decide +kernel

/-- Why `GoodPushes` asks for non-empty chunks: with an empty chunk in the middle of a chain the chunked merge stops early and its
output is no longer sorted. -/
theorem C08_empty_chunk_unsorted :
    (vecMerge 4 ([[(1, 0, 1)], [], [(2, 0, 1)]] : Chain Nat Nat Int) [[(3, 0, 1)]]).flatten
      = [(1, 0, 1), (3, 0, 1), (2, 0, 1)] := by decide +kernel

end DD
