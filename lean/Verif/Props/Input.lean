import Verif.Model.Input
import Mathlib.Order.Nat
import Mathlib.Data.Prod.Lex

/-!
# Property C38: input sessions
-/

namespace DD
variable {T D R : Type*} [PartialOrder T]

/-! ### Specification: what a user supplied -/

/-- The session's time after some calls. -/
def inputTime (t : T) : List (InputCall T D R) → T
  | [] => t
  | .advanceTo t' :: cs => inputTime t' cs
  | _ :: cs => inputTime t cs

/-- The updates supplied by some calls: `update` at the current time, `update_at` at the given time. -/
def inputSupplied (t : T) : List (InputCall T D R) → Upds D T R
  | [] => []
  | .update _ d r :: cs => (d, t, r) :: inputSupplied t cs
  | .updateAt _ d t' r :: cs => (d, t', r) :: inputSupplied t cs
  | .flush :: cs => inputSupplied t cs
  | .advanceTo t' :: cs => inputSupplied t' cs

/-- The documented preconditions: `update_at` and `advance_to` with times at or after the session's time. -/
def InputLegal (t : T) : List (InputCall T D R) → Prop
  | [] => True
  | .updateAt _ _ t' _ :: cs => t ≤ t' ∧ InputLegal t cs
  | .advanceTo t' :: cs => t ≤ t' ∧ InputLegal t' cs
  | _ :: cs => InputLegal t cs

/-! ### Proofs -/

variable [DecidableLE T] [DecidableLT T]

/-- What has been supplied is what was sent and what is buffered; nothing is held at or sent before its time. -/
private structure InputInv (s : InputSession T D R) (us : Upds D T R) : Prop where
  all : (s.sent.flatMap Prod.snd) ++ s.buffer = us
  le : s.handle ≤ s.time
  buf : ∀ u ∈ s.buffer, s.handle ≤ u.2.1
  msgs : ∀ m ∈ s.sent, (∀ u ∈ m.2, m.1 ≤ u.2.1) ∧ m.1 ≤ s.handle ∧ m.2 ≠ []
  order : s.sent.Pairwise fun m m' => m.1 ≤ m'.1

private theorem InputInv.send {s : InputSession T D R} {us : Upds D T R} (h : InputInv s us) :
    InputInv s.send_batch us ∧ s.send_batch.buffer = [] ∧ s.send_batch.handle = s.handle ∧ s.send_batch.time = s.time := by
  unfold InputSession.send_batch
  by_cases hb : s.buffer.isEmpty = true
  · rw [if_pos hb]
    exact ⟨h, List.isEmpty_iff.mp hb, rfl, rfl⟩
  · rw [if_neg hb]
    refine ⟨⟨?_, h.le, by simp, ?_, ?_⟩, rfl, rfl, rfl⟩
    · simp [← h.all]
    · intro m hm
      rcases List.mem_append.mp hm with hm | hm
      · exact h.msgs m hm
      · rw [List.mem_singleton] at hm
        subst hm
        exact ⟨h.buf, le_refl _, by simpa using hb⟩
    · rw [List.pairwise_append]
      refine ⟨h.order, by simp, ?_⟩
      intro m hm m' hm'
      rw [List.mem_singleton] at hm'
      subst hm'
      exact (h.msgs m hm).2.1

private theorem InputInv.push {s : InputSession T D R} {us : Upds D T R} (h : InputInv s us) (full : Bool) (u : D × T × R) (hu : s.time ≤ u.2.1) :
    InputInv (s.push full u) (us ++ [u]) ∧ (s.push full u).handle = s.handle ∧ (s.push full u).time = s.time := by
  have key : ∀ s' : InputSession T D R, InputInv s' us → s'.handle = s.handle → s'.time = s.time →
      InputInv { s' with buffer := s'.buffer ++ [u] } (us ++ [u]) := by
    intro s' h' e1 e2
    refine ⟨by rw [← h'.all]; simp, h'.le, ?_, h'.msgs, h'.order⟩
    intro x hx
    rcases List.mem_append.mp hx with hx | hx
    · exact h'.buf x hx
    · rw [List.mem_singleton] at hx
      subst hx
      have := h.le
      simp only [e1]
      exact this.trans hu
  unfold InputSession.push
  obtain ⟨g1, _, g3, g4⟩ := h.send
  simp only
  split_ifs
  · exact ⟨key s h rfl rfl, rfl, rfl⟩
  · exact ⟨key _ g1 g3 g4, g3, g4⟩
  · exact ⟨key s h rfl rfl, rfl, rfl⟩

private theorem InputInv.flush {s : InputSession T D R} {us : Upds D T R} (h : InputInv s us) :
    ∃ s', s.flush = some s' ∧ InputInv s' us ∧ s'.buffer = [] ∧ s'.time = s.time ∧ s'.handle = s.time ∧ s.sent <+: s'.sent := by
  obtain ⟨g1, g2, g3, g4⟩ := h.send
  have hpre : s.sent <+: s.send_batch.sent := by
    unfold InputSession.send_batch
    split_ifs
    · exact List.prefix_rfl
    · exact List.prefix_append _ _
  unfold InputSession.flush
  simp only
  split_ifs with hlt
  · refine ⟨{ s.send_batch with handle := s.send_batch.time }, ?_, ?_, g2, g4, g4, hpre⟩
    · rw [InputSession.handleAdvance, if_pos hlt.le]
    · refine ⟨g1.all, le_refl _, by simp [g2], ?_, g1.order⟩
      intro m hm
      exact ⟨(g1.msgs m hm).1, (g1.msgs m hm).2.1.trans hlt.le, (g1.msgs m hm).2.2⟩
  · refine ⟨_, rfl, g1, g2, g4, ?_, hpre⟩
    rcases lt_or_eq_of_le g1.le with h1 | h1
    · exact absurd h1 hlt
    · rw [h1, g4]

private theorem calls_inv (cs : List (InputCall T D R)) : ∀ (s : InputSession T D R) (us : Upds D T R), InputInv s us → InputLegal s.time cs →
    ∃ s', s.calls cs = some s' ∧ InputInv s' (us ++ inputSupplied s.time cs) ∧ s'.time = inputTime s.time cs := by
  induction cs with
  | nil => intro s us h _; exact ⟨s, rfl, by simpa [inputSupplied] using h, rfl⟩
  | cons c cs ih =>
    intro s us h hl
    cases c with
    | update full d r =>
      obtain ⟨g1, g2, g3⟩ := h.push full (d, s.time, r) (le_refl _)
      obtain ⟨s', k1, k2, k3⟩ := ih _ _ g1 (by rw [g3]; exact hl)
      refine ⟨s', k1, ?_, ?_⟩
      · rw [g3] at k2; simpa [inputSupplied] using k2
      · rw [g3] at k3; exact k3
    | updateAt full d t r =>
      obtain ⟨hle, hl⟩ := hl
      obtain ⟨g1, g2, g3⟩ := h.push full (d, t, r) hle
      obtain ⟨s', k1, k2, k3⟩ := ih _ _ g1 (by rw [g3]; exact hl)
      refine ⟨s', ?_, ?_, ?_⟩
      · rw [InputSession.calls, InputSession.call, InputSession.update_at, if_pos hle]; exact k1
      · rw [g3] at k2; simpa [inputSupplied] using k2
      · rw [g3] at k3; exact k3
    | flush =>
      obtain ⟨s1, f1, f2, f3, f4, f5, f6⟩ := h.flush
      obtain ⟨s', k1, k2, k3⟩ := ih _ _ f2 (by rw [f4]; exact hl)
      refine ⟨s', ?_, ?_, ?_⟩
      · rw [InputSession.calls, InputSession.call, f1]; exact k1
      · rw [f4] at k2; exact k2
      · rw [f4] at k3; exact k3
    | advanceTo t =>
      obtain ⟨hle, hl⟩ := hl
      have h1 : InputInv { s with time := t } us := ⟨h.all, h.le.trans hle, h.buf, h.msgs, h.order⟩
      obtain ⟨s', k1, k2, k3⟩ := ih _ _ h1 hl
      refine ⟨s', ?_, k2, k3⟩
      rw [InputSession.calls, InputSession.call, InputSession.advance_to, if_pos (h.le.trans hle), if_pos hle]; exact k1

/-- C38: every legal sequence of calls succeeds, whatever the buffer sizes. Afterwards the updates sent so far, in order, followed by the ones
buffered, are the updates supplied. Every message was sent with a capability at or before the times of its updates, message times never go back,
and the handle's capability is at or before the session's time and all undelivered updates. -/
theorem C38_calls (t : T) (cs : List (InputCall T D R)) (hl : InputLegal t cs) :
    ∃ s, (InputSession.start t).calls cs = some s ∧ s.time = inputTime t cs ∧
      (s.sent.flatMap Prod.snd) ++ s.buffer = inputSupplied t cs ∧
      (∀ m ∈ s.sent, ∀ u ∈ m.2, m.1 ≤ u.2.1) ∧ s.sent.Pairwise (fun m m' => m.1 ≤ m'.1) ∧
      (∀ m ∈ s.sent, m.1 ≤ s.handle) ∧ (∀ u ∈ s.buffer, s.handle ≤ u.2.1) ∧ s.handle ≤ s.time := by
  have h0 : InputInv (InputSession.start t : InputSession T D R) [] := ⟨rfl, le_refl _, by simp [InputSession.start], by simp [InputSession.start], by simp [InputSession.start]⟩
  obtain ⟨s, h1, h2, h3⟩ := calls_inv cs _ _ h0 hl
  exact ⟨s, h1, h3, by simpa [InputSession.start] using h2.all, fun m hm => (h2.msgs m hm).1, h2.order, fun m hm => (h2.msgs m hm).2.1, h2.buf, h2.le⟩

/-- C38: flushing, closing or dropping the session after any legal sequence of calls succeeds and delivers exactly the updates supplied, in order;
and the capability is then at the session's time. -/
theorem C38_flush (t : T) (cs : List (InputCall T D R)) (hl : InputLegal t cs) :
    ∃ s s', (InputSession.start t).calls cs = some s ∧ s.flush = some s' ∧ s'.sent.flatMap Prod.snd = inputSupplied t cs ∧
      s'.buffer = [] ∧ s'.handle = inputTime t cs ∧ (∀ m ∈ s'.sent, ∀ u ∈ m.2, m.1 ≤ u.2.1) ∧ s.sent <+: s'.sent := by
  have h0 : InputInv (InputSession.start t : InputSession T D R) [] := ⟨rfl, le_refl _, by simp [InputSession.start], by simp [InputSession.start], by simp [InputSession.start]⟩
  obtain ⟨s, h1, h2, h3⟩ := calls_inv cs _ _ h0 hl
  obtain ⟨s', f1, f2, f3, f4, f5, f6⟩ := h2.flush
  refine ⟨s, s', h1, f1, ?_, f3, by rw [f5, h3]; rfl, fun m hm => (f2.msgs m hm).1, f6⟩
  have := f2.all
  rw [f3, List.append_nil] at this
  simpa [InputSession.start] using this

/-- C38: an illegal call panics rather than delivering an update at a passed time. -/
theorem C38_illegal (t : T) (cs : List (InputCall T D R)) (s : InputSession T D R) (h : (InputSession.start t).calls cs = some s) : InputLegal t cs := by
  have : ∀ (cs : List (InputCall T D R)) (s0 s : InputSession T D R), s0.calls cs = some s → InputLegal s0.time cs := by
    have ht : ∀ s : InputSession T D R, s.send_batch.time = s.time := by
      intro s; unfold InputSession.send_batch; split_ifs <;> rfl
    have hp : ∀ (s : InputSession T D R) full u, (s.push full u).time = s.time := by
      intro s full u; unfold InputSession.push; simp only; split_ifs <;> first | rfl | exact ht s
    intro cs
    induction cs with
    | nil => intro _ _ _; trivial
    | cons c cs ih =>
      intro s0 s h
      rw [InputSession.calls] at h
      cases hc : s0.call c with
      | none => rw [hc] at h; cases h
      | some s1 =>
        rw [hc] at h
        have := ih s1 s h
        cases c with
        | update full d r => cases hc; rw [InputSession.update, hp] at this; exact this
        | updateAt full d t r =>
          rw [InputSession.call, InputSession.update_at] at hc
          split_ifs at hc with hle
          cases hc
          rw [hp] at this
          exact ⟨hle, this⟩
        | flush =>
          rw [InputSession.call, InputSession.flush] at hc
          split_ifs at hc with h1
          · rw [InputSession.handleAdvance, if_pos h1.le] at hc
            cases hc
            have e : s0.send_batch.time = s0.time := ht s0
            rw [show ({ s0.send_batch with handle := s0.send_batch.time } : InputSession T D R).time = s0.time from e] at this
            exact this
          · cases hc
            rw [ht] at this; exact this
        | advanceTo t =>
          rw [InputSession.call, InputSession.advance_to] at hc
          split_ifs at hc with h1 h2
          cases hc
          exact ⟨h2, this⟩
  exact this cs _ s h

/-- Non-vacuity of C38: a legal sequence with a full buffer, an update in the future, and a flush between. -/
example : InputLegal (T := Nat) (D := Nat) (R := Int) 0 [.update true 7 1, .updateAt false 8 5 1, .advanceTo 2, .update true 9 (-1), .flush, .update false 1 1] ∧
    (((InputSession.start 0).calls [.update true 7 1, .updateAt false 8 5 1, .advanceTo 2, .update true 9 (-1), .flush, .update false 1 1] :
      Option (InputSession Nat Nat Int)).map fun s => (s.time, s.buffer, s.handle, s.sent)) =
      some (2, [(1, 2, 1)], 2, [(0, [(7, 0, 1), (8, 5, 1)]), (0, [(9, 2, -1)])]) := by
  refine ⟨by simp [InputLegal], rfl⟩

end DD
