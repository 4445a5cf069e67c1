import Verif.Proofs.CaptureSink
import Mathlib.Order.Lattice.Nat
import Mathlib.Order.Nat

/-!
# C33, C42: capturing a collection and decoding the capture
-/

namespace DD
variable {D T R : Type*} [Lattice T] [OrderBot T] [DecidableLE T] [DecidableEq T] [DecidableEq D] [DecidableEq R]

/-- All that the iterator yields for a sequence of messages. -/
def decode (ms : List (CaptureMsg D T R)) : List (Upds D T R × List T) := (CaptureIter.collect (ms.length + 1) (CaptureIter.new (⊥ : T)) ms).2

/-- C33. Whatever true messages about the distinct updates `U` arrive, in whatever order and how often: the outputs are intervals of time one after the other, each with updates of its
interval only, and the updates yielded altogether are exactly those of `U` not beyond the frontier last announced, each once. -/
theorem C33_exactly_once (U : Upds D T R) (hU : U.Nodup) (ms : List (CaptureMsg D T R)) (hms : ∀ m ∈ ms, m.TrueOf U) :
    OutputsTile [⊥] (decode ms) ∧
      ((decode ms).flatMap (·.1)).Perm (U.filter fun u => ¬ Beyond (lastAnnounced [⊥] (decode ms)) u.2.1) := by
  obtain ⟨-, h2, -, h4, h5⟩ := CaptureRunOk.collect hU (ms.length + 1) ms (captureNew_ok (U := U)) hms (Nat.lt_succ_self _)
  refine ⟨h4, h5.trans (List.Perm.of_eq (List.filter_congr fun u _ => ?_))⟩
  rw [h2]
  have h1 : lessEqual (CaptureIter.new (D := D) (R := R) (⊥ : T)).reported u.2.1 = true := (lessEqual_iff _ _).2 ⟨⊥, by simp [CaptureIter.new], bot_le⟩
  rw [h1, Bool.true_and, Bool.eq_iff_iff, Bool.not_eq_true', Bool.eq_false_iff, Ne, lessEqual_iff, decide_eq_true_eq]
  rfl

/-- C33. Once a capture of `U` up to `hi` arrived, the frontier announced reached `hi`. -/
theorem C33_complete (U : Upds D T R) (hU : U.Nodup) (hi : List T) (ms : List (CaptureMsg D T R)) (hms : CaptureOf U [⊥] hi ms) :
    FrontierLe hi (lastAnnounced [⊥] (decode ms)) := by
  obtain ⟨h1, h2, -, -, -⟩ := CaptureRunOk.collect hU (ms.length + 1) ms (captureNew_ok (U := U)) hms.allTrue (Nat.lt_succ_self _)
  obtain ⟨ps, hc, hp⟩ := hms.hasProgress
  have hgot : ∀ u ∈ U, u ∈ [] ++ ms.flatMap (·.upds) := by
    intro u hu
    obtain ⟨us, hm, hu⟩ := hms.hasUpdates u hu
    rw [List.nil_append, List.mem_flatMap]
    exact ⟨_, hm, hu⟩
  have hsaid : ∀ p ∈ ps, p ∈ [] ++ ms.flatMap (·.progs) := by
    intro p hx
    rw [List.nil_append, List.mem_flatMap]
    exact ⟨_, hp p hx, by simp [CaptureMsg.progs]⟩
  have := h1.complete hgot hU ps hc hsaid fun t _ => ⟨⊥, by simp, bot_le⟩
  rw [h2] at this
  exact this

/-- C33. Once a complete capture of `U` arrived, in any order and with any repetitions, each update was yielded exactly once. -/
theorem C33_all (U : Upds D T R) (hU : U.Nodup) (capture ms : List (CaptureMsg D T R)) (hc : CaptureOf U [⊥] [] capture)
    (hms : ∀ m, m ∈ ms ↔ m ∈ capture) : ((decode ms).flatMap (·.1)).Perm U := by
  have hc' : CaptureOf U [⊥] [] ms := by
    refine ⟨fun m hm => hc.allTrue m ((hms m).1 hm), fun u hu => ?_, ?_⟩
    · obtain ⟨us, h1, h2⟩ := hc.hasUpdates u hu
      exact ⟨us, (hms _).2 h1, h2⟩
    · obtain ⟨ps, h1, h2⟩ := hc.hasProgress
      exact ⟨ps, h1, fun p hp => (hms _).2 (h2 p hp)⟩
  refine (C33_exactly_once U hU ms hc'.allTrue).2.trans (List.Perm.of_eq (List.filter_eq_self.2 fun u _ => ?_))
  rw [decide_eq_true_eq]
  intro hb
  obtain ⟨f, hf, _⟩ := C33_complete U hU [] ms hc' _ hb
  simp at hf

/-- A capture of four updates over two progress statements. -/
def exampleCapture : List (CaptureMsg Nat (Nat × Nat) Int) :=
  [.updates [(7, (0, 1), 1), (8, (1, 0), 2)], .progress ⟨[(0, 0)], [(1, 0), (0, 2)], [((0, 1), 1)]⟩, .updates [(9, (1, 1), -1)],
    .progress ⟨[(1, 0), (0, 2)], [], [((1, 1), 2), ((1, 0), 1)]⟩, .updates [(7, (1, 1), -1)]]

def exampleUpdates : Upds Nat (Nat × Nat) Int := [(7, (0, 1), 1), (8, (1, 0), 2), (9, (1, 1), -1), (7, (1, 1), -1)]

/-- The example is a complete capture. -/
theorem exampleCapture_ok : CaptureOf exampleUpdates [⊥] [] exampleCapture := by
  refine ⟨?_, ?_, [⟨[(0, 0)], [(1, 0), (0, 2)], [((0, 1), 1)]⟩, ⟨[(1, 0), (0, 2)], [], [((1, 1), 2), ((1, 0), 1)]⟩], ⟨rfl, rfl, rfl⟩, by simp [exampleCapture]⟩
  swap
  · intro u hu
    simp only [exampleUpdates, List.mem_cons, List.not_mem_nil, or_false] at hu
    rcases hu with rfl | rfl | rfl | rfl
    · exact ⟨[(7, (0, 1), 1), (8, (1, 0), 2)], by simp [exampleCapture], by simp⟩
    · exact ⟨[(7, (0, 1), 1), (8, (1, 0), 2)], by simp [exampleCapture], by simp⟩
    · exact ⟨[(9, (1, 1), -1)], by simp [exampleCapture], by simp⟩
    · exact ⟨[(7, (1, 1), -1)], by simp [exampleCapture], by simp⟩
  intro m hm
  simp only [exampleCapture, List.mem_cons, List.not_mem_nil, or_false] at hm
  rcases hm with rfl | rfl | rfl | rfl | rfl
  · exact ⟨by decide, by decide⟩
  · refine ⟨fun t _ h2 => ?_, by decide⟩
    have h3 : t.1 = 0 ∧ t.2 ≤ 1 := by
      constructor
      · by_contra h
        exact h2 ⟨(1, 0), by simp, Nat.one_le_iff_ne_zero.2 h, Nat.zero_le _⟩
      · by_contra h
        exact h2 ⟨(0, 2), by simp, Nat.zero_le _, by omega⟩
    obtain ⟨t1, t2⟩ := t
    obtain ⟨h4, h5⟩ := h3
    simp only at h4 h5
    subst h4
    obtain rfl | rfl : t2 = 0 ∨ t2 = 1 := by omega
    · rfl
    · rfl
  · exact ⟨by decide, by decide⟩
  · refine ⟨fun t h1 _ => ?_, by decide⟩
    have h0 : t ≠ (0, 1) := by
      rintro rfl
      revert h1
      decide
    simp only [updatesAt, exampleUpdates, List.filter_cons, List.filter_nil]
    by_cases h3 : (1, 1) = t
    · subst h3; rfl
    · by_cases h4 : (1, 0) = t
      · subst h4; rfl
      · simp [h3, h4, h0.symm]
  · exact ⟨by decide, by decide⟩

/-- Messages in order. -/
example : decode exampleCapture =
    [([(7, (0, 1), 1)], [(1, 0), (0, 2)]), ([(8, (1, 0), 2)], [(1, 1)]), ([(9, (1, 1), -1), (7, (1, 1), -1)], [])] := by decide +kernel

/-- Messages out of order and repeated. -/
example : decode (exampleCapture.reverse ++ exampleCapture) =
    [([], [(0, 1), (1, 0)]), ([(7, (1, 1), -1), (9, (1, 1), -1), (7, (0, 1), 1), (8, (1, 0), 2)], [])] := by decide +kernel

/-- The theorem on the example. -/
example : ((decode (exampleCapture.reverse ++ exampleCapture)).flatMap (·.1)).Perm exampleUpdates :=
  C33_all exampleUpdates (by decide) exampleCapture _ exampleCapture_ok fun m => by simp

/-- Why a message must not list an update twice: the update is counted twice, the frontier passes an update not yet received, and it is lost when it arrives. The sink's documentation
(capture.rs:568-573) asks for a consolidated stream, which makes the sink's messages free of repetitions. -/
theorem C33_repetition_within_message :
    decode ([.updates [(1, 0, 1), (1, 0, 1)], .progress ⟨[0], [], [(0, 2)]⟩, .updates [(2, 0, 1)]] : List (CaptureMsg Nat Nat Int)) = [([(1, 0, 1)], [])] := by
  decide +kernel

/-! ### The sink -/

omit [Lattice T] [OrderBot T] [DecidableLE T] [DecidableEq T] [DecidableEq D] [DecidableEq R] in
/-- C42. The messages of each worker's updates are written in the order received and unchanged: what is written and what waits are the batches received. Each update is counted once. -/
theorem C42_updates (as : List (List (Upds D T R) × List Bool)) :
    let w := (UpdatesWriter.mk [] [] [] : UpdatesWriter D T R).run as
    w.written ++ w.queue = (as.flatMap (·.1)).map .updates ∧ w.sent = (as.flatMap (·.1)).flatten.map fun u => (u.2.1, 1) := by
  intro w
  obtain ⟨h1, h2⟩ := UpdatesWriter.run_spec as (UpdatesWriter.mk [] [] [] : UpdatesWriter D T R)
  exact ⟨by simpa using h1, by simpa using h2⟩

omit [Lattice T] [OrderBot T] [DecidableLE T] [DecidableEq T] [DecidableEq D] [DecidableEq R] in
/-- C42. If the writer accepts what it is offered in an activation, nothing waits afterwards. -/
theorem C42_updates_flushed (as : List (List (Upds D T R) × List Bool)) (batches : List (Upds D T R)) (polls : List Bool) (hp : ∀ b ∈ polls, b = true)
    (hl : (as.flatMap (·.1)).length + batches.length ≤ polls.length) :
    (((UpdatesWriter.mk [] [] [] : UpdatesWriter D T R).run as).activate batches (some polls)).queue = [] := by
  refine offer_all _ _ hp ?_
  have h := congrArg List.length (C42_updates as).1
  simp only [List.length_append, List.length_map] at h ⊢
  omega

omit [DecidableEq D] [DecidableEq R] in
/-- C42. The progress statements of the sink (written or waiting) are true and lead from the minimal time to the input frontier. Here `U` are all updates, and what is assumed is that
the frontier and counts that the operator sees are consistent (`LegalActs`), and that all counts arrived for times that the frontier passed. -/
theorem C42_progress (U : Upds D T R) (as : List (ProgressAct T)) (hl : LegalActs [⊥] as)
    (hc : ∀ t, ¬ Beyond ((as.getLast?.map (·.frontier)).getD [⊥]) t → countAt (as.flatMap (·.counts)) t = updatesAt U t) :
    let w := (ProgressWriter.new (⊥ : T) : ProgressWriter D T R).run as
    (∀ t, Beyond w.frontier t ↔ Beyond ((as.getLast?.map (·.frontier)).getD [⊥]) t) ∧
      ∃ ps, w.written ++ w.queue = ps.map .progress ∧ ProgressChain [⊥] ps w.frontier ∧ ∀ p ∈ ps, (CaptureMsg.progress p : CaptureMsg D T R).TrueOf U := by
  intro w
  have h1 := (progressNew_ok (D := D) (T := T) (R := R)).run_mono as hl
  refine ⟨h1.2, ?_⟩
  obtain ⟨ps, g1, g2, g3⟩ := (progressNew_ok (D := D) (T := T) (R := R)).run U as hl fun t ht => by
    rw [Int.zero_add]
    exact hc t fun hx => ht ((h1.2 t).2 hx)
  exact ⟨ps, g1, g2, g3⟩

/-- C42, what is missing: the operator offers waiting progress statements only when the frontier advances. If the writer asks to be retried when offered the last statement, it is never
offered it again, whatever the answers of the writer in any later activations, as the frontier is then empty. (Readers then never complete, and the operator keeps reporting that it is not
done.) -/
theorem C42_progress_defect :
    ∃ as : List (ProgressAct Nat), LegalActs [⊥] as ∧
      ∀ later : List (List Bool),
        let w := (ProgressWriter.new (⊥ : Nat) : ProgressWriter Nat Nat Int).run (as ++ later.map fun polls => ⟨[], [], polls⟩)
        w.frontier = [] ∧ w.written = [] ∧ w.queue.length = 1 := by
  refine ⟨[⟨[(0, 1)], [0], []⟩, ⟨[], [], [false]⟩], ⟨by decide, fun _ h => h, by simp [IsAntichainList], by decide, fun _ h => (by obtain ⟨_, h, _⟩ := h; simp at h),
    by simp [IsAntichainList], trivial⟩, fun later => ?_⟩
  simp only [List.cons_append, List.nil_append, ProgressWriter.run]
  set w := ((ProgressWriter.new (⊥ : Nat) : ProgressWriter Nat Nat Int).activate [(0, 1)] [0] (some [])).activate [] [] (some [false]) with hw
  have h0 : w.frontier = [] ∧ w.written = [] ∧ w.queue.length = 1 := ⟨rfl, rfl, rfl⟩
  clear_value w
  clear hw
  induction later generalizing w with
  | nil => exact h0
  | cons polls later ih =>
    rw [List.map_cons, ProgressWriter.run]
    apply ih
    have : w.activate [] [] (some polls) = ⟨w.frontier, w.timestamps ++ [], w.queue, w.written⟩ := by
      simp only [ProgressWriter.activate]
      rw [if_neg (by rw [h0.1]; decide)]
    rw [this]
    exact h0

/-- C42, in part: what the sinks of all workers write is a complete capture, so that its decoding yields each update exactly once, if nothing waits in the end. What is missing is that the
progress writer's queue empties once the writer accepts (see `C42_progress_defect`). -/
theorem C42_roundtrip_partial (workers : List (List (List (Upds D T R) × List Bool))) (as : List (ProgressAct T)) (hl : LegalActs [⊥] as)
    (hend : as.getLast?.map (·.frontier) = some [])
    (hc : ∀ t, countAt (as.flatMap (·.counts)) t = countAt (workers.flatMap fun r => ((UpdatesWriter.mk [] [] [] : UpdatesWriter D T R).run r).sent) t)
    (hU : (workers.flatMap fun r => (r.flatMap (·.1)).flatten).Nodup)
    (hqu : ∀ r ∈ workers, ((UpdatesWriter.mk [] [] [] : UpdatesWriter D T R).run r).queue = [])
    (hqp : ((ProgressWriter.new (⊥ : T) : ProgressWriter D T R).run as).queue = [])
    (ms : List (CaptureMsg D T R))
    (hms : ∀ m, m ∈ ms ↔ (∃ r ∈ workers, m ∈ ((UpdatesWriter.mk [] [] [] : UpdatesWriter D T R).run r).written) ∨
      m ∈ ((ProgressWriter.new (⊥ : T) : ProgressWriter D T R).run as).written) :
    ((decode ms).flatMap (·.1)).Perm (workers.flatMap fun r => (r.flatMap (·.1)).flatten) := by
  set U := workers.flatMap fun r => (r.flatMap (·.1)).flatten with hUdef
  have hcount : ∀ t, countAt (as.flatMap (·.counts)) t = updatesAt U t := by
    intro t
    rw [hc t, ← countAt_pos, hUdef]
    congr 1
    clear hms hqu hU hUdef hc
    induction workers with
    | nil => rfl
    | cons r rs ih => rw [List.flatMap_cons, List.flatMap_cons, List.map_append, (C42_updates r).2, ih]
  obtain ⟨h1, ps, h2, h3, h4⟩ := C42_progress U as hl fun t _ => hcount t
  rw [hqp, List.append_nil] at h2
  have hf : ((ProgressWriter.new (⊥ : T) : ProgressWriter D T R).run as).frontier = [] := by
    rw [hend] at h1
    rw [List.eq_nil_iff_forall_not_mem]
    intro f hf
    obtain ⟨_, hx, _⟩ := (h1 f).1 ⟨f, hf, le_refl _⟩
    simp at hx
  have hwr : ∀ r ∈ workers, ((UpdatesWriter.mk [] [] [] : UpdatesWriter D T R).run r).written = (r.flatMap (·.1)).map .updates := by
    intro r hr
    have := (C42_updates r).1
    rw [hqu r hr, List.append_nil] at this
    exact this
  have hcap : CaptureOf U [⊥] [] ms := by
    refine ⟨fun m hm => ?_, fun u hu => ?_, ps, hf ▸ h3, fun p hp => ?_⟩
    · rcases (hms m).1 hm with ⟨r, hr, hm⟩ | hm
      · rw [hwr r hr] at hm
        obtain ⟨us, hus, rfl⟩ := List.mem_map.1 hm
        have h5 : ∀ u ∈ us, u ∈ U := fun u hu => List.mem_flatMap.2 ⟨r, hr, List.mem_flatten.2 ⟨us, hus, hu⟩⟩
        refine ⟨?_, h5⟩
        have h6 := (List.nodup_flatMap.1 hU).1 r hr
        exact (List.nodup_flatten.1 h6).1 us hus
      · rw [h2] at hm
        obtain ⟨p, hp, rfl⟩ := List.mem_map.1 hm
        exact h4 p hp
    · obtain ⟨r, hr, hu⟩ := List.mem_flatMap.1 hu
      obtain ⟨us, hus, hu⟩ := List.mem_flatten.1 hu
      exact ⟨us, (hms _).2 (Or.inl ⟨r, hr, by rw [hwr r hr]; exact List.mem_map_of_mem hus⟩), hu⟩
    · exact (hms _).2 (Or.inr (by rw [h2]; exact List.mem_map_of_mem hp))
  exact C33_all U hU ms ms hcap fun _ => Iff.rfl

/-- A run of two workers, with retries. -/
def exampleWorkers : List (List (List (Upds Nat Nat Int) × List Bool)) :=
  [[([[(1, 0, 1), (2, 3, 1)]], [false]), ([[(1, 3, -1)]], [true, true])], [([[(5, 0, 1)]], [true])]]

/-- The corresponding run of the progress writer, with a retry. -/
def exampleActs : List (ProgressAct Nat) := [⟨[(0, 1), (3, 1), (3, 1)], [0], []⟩, ⟨[(0, 1)], [2], [false]⟩, ⟨[], [], [true, true]⟩]

example : ((ProgressWriter.new (⊥ : Nat) : ProgressWriter Nat Nat Int).run exampleActs).written.length = 2 := by decide +kernel

example :
    let written := (exampleWorkers.flatMap fun r => ((UpdatesWriter.mk [] [] [] : UpdatesWriter Nat Nat Int).run r).written) ++
      ((ProgressWriter.new (⊥ : Nat) : ProgressWriter Nat Nat Int).run exampleActs).written
    ((decode (written.reverse ++ written)).flatMap (·.1)).Perm [(1, 0, 1), (2, 3, 1), (1, 3, -1), (5, 0, 1)] := by
  intro written
  refine C42_roundtrip_partial exampleWorkers exampleActs ?_ rfl (fun t => rfl) (by decide +kernel) (by decide +kernel) (by decide +kernel) _ fun m => ?_
  · exact ⟨by decide, fun _ h => h, by simp [IsAntichainList], by decide, (acLe_iff _ _).1 (by decide), by simp [IsAntichainList], by decide, (acLe_iff _ _).1 (by decide),
      by simp [IsAntichainList], trivial⟩
  · rw [List.mem_append, List.mem_reverse, or_self, List.mem_append, List.mem_flatMap]

end DD
