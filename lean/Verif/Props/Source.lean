import Verif.Proofs.SourceFlow

/-!
# C59: updates read back from a capture are sent once each, and frontiers follow

`SourceReach toU toT U` are the states that the operators of `capture::source` can reach when sources yield correct messages about the updates `U`, in any order and any number of times, whatever worker
reads them, however messages between operators are divided, and in whatever order operators are activated. `toU` and `toT` are any ways to distribute updates and times among workers.
-/

namespace DD
variable {D T R : Type*} {W : Nat} [Lattice T] [OrderBot T] [DecidableLE T] [DecidableEq D] [DecidableEq T] [DecidableEq R]
  {toU : D × T × R → Fin W} {toT : T → Fin W} {U : Upds D T R} {s : SourceState W D T R}

/-- Nothing panics: capabilities can be downgraded, there is one to send changes with, and copies of updates agree. -/
theorem C59_no_panic (hU : (U.map fun u => (u.1, u.2.1)).Nodup) (h : SourceReach toU toT U s) {e : SourceEvent W D T R} (hl : e.Legal U s) : ∃ s', s.step toU toT e = some s' := by
  obtain ⟨s', h1, _⟩ := (h.inv hU).step hU hl
  exact ⟨s', h1⟩

/-- Updates are sent at most once, and none that were not captured. -/
theorem C59_once (hU : (U.map fun u => (u.1, u.2.1)).Nodup) (h : SourceReach toU toT U s) : (s.emitted.map (·.2)).Nodup ∧ ∀ u ∈ s.emitted.map (·.2), u ∈ U :=
  ⟨(h.inv hU).nodup, (h.inv hU).sub⟩

/-- Once no capability of some worker allows a time, all updates at it were sent. -/
theorem C59_complete (hU : (U.map fun u => (u.1, u.2.1)).Nodup) (h : SourceReach toU toT U s) (w : Fin W) {t : T} (ht : ¬ Beyond (s.caps w) t) {u : D × T × R} (hu : u ∈ U) (hut : u.2.1 = t) :
    u ∈ s.emitted.map (·.2) := by
  by_contra hn
  exact ht (hut ▸ (h.inv hU).held hu hn w)

/-- Capabilities only advance. -/
theorem C59_caps_advance (hU : (U.map fun u => (u.1, u.2.1)).Nodup) (h : SourceReach toU toT U s) {e : SourceEvent W D T R} {s' : SourceState W D T R} (hs : s.step toU toT e = some s')
    (w : Fin W) : FrontierLe (s.caps w) (s'.caps w) := by
  intro t ht
  have hi := h.inv hU
  cases e with
  | messages v ms =>
    rw [SourceState.step] at hs
    unfold downgradeCaps at hs
    split_ifs at hs
    have : s'.caps = setAt s.caps v (messagesFrontier (s.shared v)) := by
      cases hf : messagesFrontier (s.shared v) with
      | nil => rw [hf] at hs; simp only [Option.some.injEq] at hs; subst hs; rfl
      | cons c cs => rw [hf] at hs; simp only [Option.some.injEq] at hs; subst hs; rfl
    rw [this] at ht
    by_cases hv : w = v
    · subst hv; rw [setAt_same] at ht; exact hi.caps w t ht
    · rw [setAt_ne _ _ hv] at ht; exact ht
  | updates v F got rest =>
    rw [SourceState.step] at hs
    cases ha : updatesActivate F (s.pending v) got with
    | none => rw [ha] at hs; cases hs
    | some r => rw [ha] at hs; simp only [Option.some.injEq] at hs; subst hs; exact ht
  | progress v counts rest sts restS =>
    rw [SourceState.step] at hs
    cases ha : (s.progress v).activate counts sts with
    | none => rw [ha] at hs; cases hs
    | some r => rw [ha] at hs; simp only [Option.some.injEq] at hs; subst hs; exact ht
  | feedback v x =>
    rw [SourceState.step] at hs
    cases ha : s.toFeedback x v with
    | nil => rw [ha] at hs; simp only [Option.some.injEq] at hs; subst hs; exact ht
    | cons c cs => rw [ha] at hs; simp only [Option.some.injEq] at hs; subst hs; exact ht

/-- With totally ordered times, the capability an update is sent with allows its time. -/
theorem C59_timed (hU : (U.map fun u => (u.1, u.2.1)).Nodup) (htot : ∀ a b : T, a ≤ b ∨ b ≤ a) (h : SourceReach toU toT U s) : ∀ m ∈ s.emitted, m.1 ≤ m.2.2.1 := (h.timed hU htot).emitted

/-- Once messages of a capture up to `hi` were read and nothing is under way any more, all capabilities are at `hi` or beyond, and exactly the updates at times not beyond `hi` are among those sent, each
once. -/
theorem C59_reaches (hU : (U.map fun u => (u.1, u.2.1)).Nodup) (h : SourceReach toU toT U s) (hq : s.Quiet) {hi : List T} (hr : s.HasRead U hi) (hW : 0 < W) :
    (∀ w, FrontierLe hi (s.caps w)) ∧ ((s.emitted.map (·.2)).filter fun u => !lessEqual hi u.2.1).Perm (U.filter fun u => !lessEqual hi u.2.1) := by
  have hc := fun w => (h.inv hU).reaches hU hq hr w
  refine ⟨hc, ?_⟩
  have hn : (s.emitted.map (·.2)).Nodup := (h.inv hU).nodup
  rw [List.perm_ext_iff_of_nodup (hn.filter _) ((List.Nodup.of_map _ hU).filter _)]
  intro u
  simp only [List.mem_filter]
  constructor
  · rintro ⟨a, b⟩; exact ⟨(h.inv hU).sub u a, b⟩
  · rintro ⟨a, b⟩
    refine ⟨C59_complete hU h ⟨0, hW⟩ (t := u.2.1) ?_ a rfl, b⟩
    intro hx
    have := (lessEqual_iff _ _).2 (hc ⟨0, hW⟩ _ hx)
    rw [this] at b
    cases b

/-- From any state, operators can go on until nothing is under way, without reading further messages. -/
theorem C59_settles (hU : (U.map fun u => (u.1, u.2.1)).Nodup) (h : SourceReach toU toT U s) : ∃ s', SourceReach toU toT U s' ∧ s'.read = s.read ∧ s'.Quiet := h.settles hU

/-- Any correct messages can be read. -/
theorem C59_run_exists (hU : (U.map fun u => (u.1, u.2.1)).Nodup) (ms : List (CaptureMsg D T R)) (hms : ∀ m ∈ ms, m.Correct U) (hW : 0 < W) :
    ∃ s', SourceReach (W := W) toU toT U s' ∧ s'.read = ms ∧ s'.Quiet := by
  have hl : (SourceEvent.messages ⟨0, hW⟩ ms).Legal U (SourceState.init W D T R) := hms
  obtain ⟨s1, h1⟩ := C59_no_panic (toU := toU) (toT := toT) hU SourceReach.init hl
  have hr := SourceReach.init.step hl h1
  obtain ⟨s2, g1, g2, g3⟩ := hr.settles hU
  refine ⟨s2, g1, g2.trans ?_, g3⟩
  rw [SourceState.step] at h1
  have hf : messagesFrontier ((SourceState.init W D T R).shared ⟨0, hW⟩) = [⊥] := by
    change acExtend [] ([⊥].filter fun t => 0 < countAt [(⊥, (W : Int))] t) = [⊥]
    rw [List.filter_cons, if_pos (by simp [countAt, hW])]
    rfl
  unfold downgradeCaps at h1
  split_ifs at h1
  rw [hf] at h1
  simp only [Option.some.injEq] at h1
  subst h1
  rfl

section example_total

/-- Updates at two times. -/
def sourceExU : Upds Nat Nat Int := [(1, 0, 1), (2, 0, 1), (1, 1, -1)]

/-- A capture of them up to 2, with updates listed twice, out of order. -/
def sourceExMsgs : List (CaptureMsg Nat Nat Int) :=
  [.progress ⟨[1], [2], [(1, 1)]⟩, .updates [(1, 1, -1), (1, 0, 1)], .progress ⟨[0], [1], [(0, 2)]⟩, .updates [(2, 0, 1), (1, 0, 1), (1, 0, 1)], .progress ⟨[0], [1], [(0, 2)]⟩]

theorem sourceExMsgs_correct : ∀ m ∈ sourceExMsgs, m.Correct sourceExU := by
  have hp1 : (CaptureMsg.progress ⟨[1], [2], [(1, 1)]⟩ : CaptureMsg Nat Nat Int).Correct sourceExU := by
    refine ⟨?_, by simp [Beyond]⟩
    intro t h1 h2
    simp only [Beyond, List.mem_singleton, exists_eq_left] at h1 h2
    obtain rfl : t = 1 := by omega
    decide
  have hp0 : (CaptureMsg.progress ⟨[0], [1], [(0, 2)]⟩ : CaptureMsg Nat Nat Int).Correct sourceExU := by
    refine ⟨?_, by simp [Beyond]⟩
    intro t h1 h2
    simp only [Beyond, List.mem_singleton, exists_eq_left] at h1 h2
    obtain rfl : t = 0 := by omega
    decide
  intro m hm
  simp only [sourceExMsgs, List.mem_cons, List.not_mem_nil, or_false] at hm
  rcases hm with rfl | rfl | rfl | rfl | rfl
  · exact hp1
  · simp [CaptureMsg.Correct, sourceExU]
  · exact hp0
  · simp [CaptureMsg.Correct, sourceExU]
  · exact hp0

/-- They can be read by three workers, and lead to all updates, once each. -/
example : ∃ s : SourceState 3 Nat Nat Int, SourceReach (fun u => Fin.ofNat 3 (u.1 + u.2.1)) (fun t => Fin.ofNat 3 (t + 1)) sourceExU s ∧ s.Quiet ∧ s.HasRead sourceExU [2] ∧
    (s.emitted.map (·.2)).Perm sourceExU ∧ (∀ m ∈ s.emitted, m.1 ≤ m.2.2.1) ∧ ∀ w, FrontierLe [2] (s.caps w) := by
  obtain ⟨s, h1, h2, h3⟩ := C59_run_exists (W := 3) (toU := fun u => Fin.ofNat 3 (u.1 + u.2.1)) (toT := fun t => Fin.ofNat 3 (t + 1)) (U := sourceExU) (by decide) sourceExMsgs sourceExMsgs_correct (by decide)
  have hr : s.HasRead sourceExU [2] := by
    constructor
    · intro u hu _
      rw [h2]
      simp only [sourceExU, List.mem_cons, List.not_mem_nil, or_false] at hu
      rcases hu with rfl | rfl | rfl
      · exact ⟨[(1, 1, -1), (1, 0, 1)], by simp [sourceExMsgs], by simp⟩
      · exact ⟨[(2, 0, 1), (1, 0, 1), (1, 0, 1)], by simp [sourceExMsgs], by simp⟩
      · exact ⟨[(1, 1, -1), (1, 0, 1)], by simp [sourceExMsgs], by simp⟩
    · rw [h2]
      exact ⟨[⟨[0], [1], [(0, 2)]⟩, ⟨[1], [2], [(1, 1)]⟩], ⟨rfl, rfl, rfl⟩, by simp [sourceExMsgs]⟩
  obtain ⟨c1, c2⟩ := C59_reaches (by decide) h1 h3 hr (by decide)
  refine ⟨s, h1, h3, hr, ?_, C59_timed (by decide) (fun a b => le_total a b) h1, c1⟩
  have hs := (C59_once (by decide) h1).2
  have e1 : ((s.emitted.map (·.2)).filter fun u => !lessEqual [2] u.2.1) = s.emitted.map (·.2) := by
    rw [List.filter_eq_self]
    intro u hu
    have := hs u hu
    simp only [sourceExU, List.mem_cons, List.not_mem_nil, or_false] at this
    rcases this with rfl | rfl | rfl <;> rfl
  rw [e1] at c2
  exact c2

end example_total

section example_partial

/-- What a legal event leads to. -/
def SourceState.after (toU : D × T × R → Fin W) (toT : T → Fin W) (s : SourceState W D T R) (e : SourceEvent W D T R) : SourceState W D T R := (s.step toU toT e).getD s

theorem SourceReach.after (hU : (U.map fun u => (u.1, u.2.1)).Nodup) (h : SourceReach toU toT U s) {e : SourceEvent W D T R} (hl : e.Legal U s) : SourceReach toU toT U (s.after toU toT e) := by
  obtain ⟨s', hs⟩ := C59_no_panic hU h hl
  refine h.step hl ?_
  rw [hs, SourceState.after, hs]
  rfl

/-- Updates at two times that are not comparable. -/
def sourceExPairs : Upds Nat (Nat × Nat) Int := [(1, (0, 1), 1), (2, (1, 0), 1)]

/-- In a partial order the capability may not allow the time of an update: there is one capability for each time of the frontier, and the first one is used for all updates. The code says that this is to be
fixed (capture.rs:353-354). -/
theorem C59_timed_defect : ∃ s : SourceState 1 Nat (Nat × Nat) Int, SourceReach (fun _ => 0) (fun _ => 0) sourceExPairs s ∧ ∃ m ∈ s.emitted, ¬ m.1 ≤ m.2.2.1 := by
  have hU : (sourceExPairs.map fun u => (u.1, u.2.1)).Nodup := by decide
  have hc : (CaptureMsg.progress ⟨[(0, 0)], [(0, 1), (1, 0)], []⟩ : CaptureMsg Nat (Nat × Nat) Int).Correct sourceExPairs := by
    refine ⟨?_, by simp⟩
    rintro ⟨a, b⟩ _ h2
    simp only [Beyond, List.mem_cons, List.not_mem_nil, or_false, exists_eq_or_imp, exists_eq_left, Prod.mk_le_mk, not_or, not_and, not_le] at h2
    obtain rfl : a = 0 := by omega
    obtain rfl : b = 0 := by omega
    decide
  have h0 : SourceReach (W := 1) (fun _ => 0) (fun _ => 0) sourceExPairs (SourceState.init 1 Nat (Nat × Nat) Int) := SourceReach.init
  have h1 := h0.after hU (e := .messages 0 [.progress ⟨[(0, 0)], [(0, 1), (1, 0)], []⟩]) (by intro m hm; rw [List.mem_singleton] at hm; exact hm ▸ hc)
  have h2 := h1.after hU (e := .progress 0 [] [] [⟨[(0, 0)], [(0, 1), (1, 0)], []⟩] []) ⟨List.Perm.refl _, List.Perm.refl _⟩
  have h3 := h2.after hU (e := .feedback 0 0) trivial
  have h4 := h3.after hU (e := .messages 0 [.updates sourceExPairs]) (by intro m hm; rw [List.mem_singleton] at hm; subst hm; exact fun u hu => hu)
  have h5 := h4.after hU (e := .updates 0 [(0, 0)] (sourceExPairs.map fun u => ((0, 1), u)) [])
    ⟨by decide +kernel, fun _ _ => ⟨(0, 0), List.mem_singleton.2 rfl, Nat.zero_le _, Nat.zero_le _⟩, fun _ _ _ => ⟨(0, 0), List.mem_singleton.2 rfl, Nat.zero_le _, Nat.zero_le _⟩⟩
  refine ⟨_, h5, ((0, 1), 2, (1, 0), 1), ?_, by decide⟩
  decide +kernel

end example_partial

end DD
