import Verif.Proofs.ArrangedShows

/-!
# Arrangements and a join of them
-/

namespace DD
variable {B N D K V T R : Type*} [LinearOrder D] [LinearOrder K] [LinearOrder V] [Lattice T] [OrderBot T] [DecidableLE T] [DecidableEq T] [LinearOrder (Lin T)]
    [AddCommMonoid R] [DecidableEq R] {Y : TraceKind B N D K V T R}

theorem arranged_activate_arr {cap : Nat} {a a' : Arranged B N D T R} {act : ArrAct D T R} (h : a.activate Y cap act = some a') : a.arr.activate cap act = some a'.arr := by
  unfold Arranged.activate at h
  cases h1 : a.arr.activate cap act with
  | none => rw [h1] at h; cases h
  | some arr =>
    rw [h1] at h
    simp only at h
    split at h
    · cases h
    · split at h
      · cases h
      · cases h; rfl

/-- What the rest of a run adds to an arrangement. -/
theorem arranged_run_ext {cap : Nat} : ∀ (later : List (ArrangedEv D T R)) {a fin : Arranged B N D T R}, a.run Y cap later = some fin →
    a.arr.writer.trace <+: fin.arr.writer.trace ∧ ∃ ext, fin.arr.sent = a.arr.sent ++ ext ∧
      ∀ G, (∀ c ∈ a.arr.capabilities, Beyond G c) → (∀ t ∈ later.flatMap ArrangedEv.times, Beyond G t) → (∀ x ∈ ext, Beyond G x.1) ∧ ∀ c ∈ fin.arr.capabilities, Beyond G c
  | [], a, fin, h => by
    cases h
    exact ⟨List.prefix_rfl, [], by simp, fun G h1 _ => ⟨by simp, h1⟩⟩
  | e :: later, a, fin, h => by
    rw [Arranged.run] at h
    cases h1 : a.step Y cap e with
    | none => rw [h1] at h; cases h
    | some a1 =>
      rw [h1] at h
      obtain ⟨g1, ext, g2, g3⟩ := arranged_run_ext later h
      have same : a1.arr = a.arr → e.times = [] → a.arr.writer.trace <+: fin.arr.writer.trace ∧ ∃ ext, fin.arr.sent = a.arr.sent ++ ext ∧
          ∀ G, (∀ c ∈ a.arr.capabilities, Beyond G c) → (∀ t ∈ (e :: later).flatMap ArrangedEv.times, Beyond G t) →
            (∀ x ∈ ext, Beyond G x.1) ∧ ∀ c ∈ fin.arr.capabilities, Beyond G c := by
        intro e1 e2
        rw [e1] at g1 g2 g3
        exact ⟨g1, ext, g2, fun G k1 k2 => g3 G k1 (by rw [List.flatMap_cons, e2] at k2; exact k2)⟩
      cases e with
      | arrange act =>
        obtain ⟨ns, nt, e1, e2, -, e4⟩ := activate_ext (arranged_activate_arr h1)
        have hpre : a.arr.writer.trace <+: a1.arr.writer.trace := ⟨nt, e2.symm⟩
        refine ⟨hpre.trans g1, ns ++ ext, by rw [g2, e1, List.append_assoc], ?_⟩
        intro G k1 k2
        rw [List.flatMap_cons, List.forall_mem_append] at k2
        obtain ⟨m1, m2⟩ := e4 G k1 fun m hm => k2.1 _ (List.mem_map_of_mem hm)
        obtain ⟨m3, m4⟩ := g3 G m1 k2.2
        exact ⟨fun x hx => (List.mem_append.1 hx).elim (m2 x) (m3 x), m4⟩
      | compact lg ph =>
        refine same ?_ rfl
        rw [Arranged.step, Arranged.compact] at h1
        split at h1
        · cases h1
        · cases h1; rfl
      | exert effort =>
        refine same ?_ rfl
        rw [Arranged.step, Arranged.exert] at h1
        split at h1
        · cases h1
        · cases h1; rfl
      | take =>
        refine same ?_ rfl
        rw [Arranged.step] at h1
        cases h1; rfl

/-- What is known of an arrangement: what it receives in all is `all`, and in the end its state is `fin`. -/
structure SideSt (L : TraceKindLaws Y) (cap : Nat) (all : Upds D T R) (fin : Arranged B N D T R) (lg ph : List T) (done : List (T × ArrBatch D T R)) (a : Arranged B N D T R)
    (later : List (ArrangedEv D T R)) : Prop where
  inv : ∃ recv F vs, AInv L recv F lg ph done a vs ∧ LegalArranged F lg ph later ∧ recv ++ arrangedInput later = all
  len : (all.length : Int) < isizeMax
  run : a.run Y cap later = some fin

theorem arrangedInput_cons (e : ArrangedEv D T R) (es : List (ArrangedEv D T R)) : arrangedInput (e :: es) = e.received ++ arrangedInput es := rfl

theorem arranged_take {L : TraceKindLaws Y} {recv : Upds D T R} {F lg ph : List T} {done : List (T × ArrBatch D T R)} {a : Arranged B N D T R} {vs : List B}
    (h : AInv L recv F lg ph done a vs) : ∃ done1, AInv L recv F lg ph done1 { a with queue := a.queue.tail } vs := by
  cases hq : a.queue with
  | nil =>
    refine ⟨done, ?_⟩
    have : ({ a with queue := ([] : List (T × B)).tail } : Arranged B N D T R) = a := by
      obtain ⟨x, y, z⟩ := a
      simp only at hq
      subst hq; rfl
    rw [this]; exact h
  | cons y ys =>
    obtain ⟨x, -, -, g⟩ := h.take hq
    exact ⟨done ++ [x], g⟩

/-- Any legal run succeeds. -/
theorem arranged_run_ok {L : TraceKindLaws Y} {cap : Nat} (hcap : 0 < cap) (later : List (ArrangedEv D T R)) : ∀ {recv : Upds D T R} {F lg ph : List T}
    {done : List (T × ArrBatch D T R)} {a : Arranged B N D T R} {vs : List B}, AInv L recv F lg ph done a vs → LegalArranged F lg ph later →
    ((recv ++ arrangedInput later).length : Int) < isizeMax →
    ∃ fin done' vs', a.run Y cap later = some fin ∧
      AInv L (recv ++ arrangedInput later) (arrangedFrontier F later) (arrangedCompaction (lg, ph) later).1 (arrangedCompaction (lg, ph) later).2 done' fin vs' := by
  induction later with
  | nil =>
    intro recv F lg ph done a vs h _ _
    refine ⟨a, done, vs, rfl, ?_⟩
    rw [show arrangedInput ([] : List (ArrangedEv D T R)) = [] from rfl, List.append_nil]
    exact h
  | cons e later ih =>
    intro recv F lg ph done a vs h hl hlen
    rw [arrangedInput_cons, ← List.append_assoc] at hlen ⊢
    have h0 : (recv.length : Int) < isizeMax := by
      rw [List.append_assoc, List.length_append] at hlen; omega
    have h1 : ((recv ++ e.received).length : Int) < isizeMax := by
      rw [List.length_append] at hlen; omega
    rw [Arranged.run]
    cases e with
    | arrange act =>
      obtain ⟨l1, l2, l3, l4⟩ := hl
      obtain ⟨a', vs', g1, g2, -⟩ := h.activate hcap act l1 l2 l3 h1
      obtain ⟨fin, done', vs'', k1, k2⟩ := ih g2 l4 hlen
      have g1' : a.step Y cap (.arrange act) = some a' := g1
      rw [g1']
      exact ⟨fin, done', vs'', k1, k2⟩
    | compact G P =>
      obtain ⟨l1, l2, l3⟩ := hl
      rw [show (ArrangedEv.compact G P : ArrangedEv D T R).received = [] from rfl, List.append_nil] at hlen ⊢
      obtain ⟨a', g1, g2, -⟩ := h.compact l1 l2 h0
      obtain ⟨fin, done', vs'', k1, k2⟩ := ih g2 l3 hlen
      have g1' : a.step Y cap (.compact G P) = some a' := g1
      rw [g1']
      exact ⟨fin, done', vs'', k1, k2⟩
    | exert effort =>
      rw [show (ArrangedEv.exert effort : ArrangedEv D T R).received = [] from rfl, List.append_nil] at hlen ⊢
      obtain ⟨a', g1, g2, -⟩ := h.exert effort h0
      obtain ⟨fin, done', vs'', k1, k2⟩ := ih g2 hl hlen
      have g1' : a.step Y cap (.exert effort) = some a' := g1
      rw [g1']
      exact ⟨fin, done', vs'', k1, k2⟩
    | take =>
      rw [show (ArrangedEv.take : ArrangedEv D T R).received = [] from rfl, List.append_nil] at hlen ⊢
      obtain ⟨done1, g2⟩ := arranged_take h
      obtain ⟨fin, done', vs'', k1, k2⟩ := ih g2 hl hlen
      rw [show a.step Y cap .take = some { a with queue := a.queue.tail } from rfl]
      exact ⟨fin, done', vs'', k1, k2⟩

/-- What the reader knows of an arrangement, and what is known of the permissions it gave. -/
structure SideOk (L : TraceKindLaws Y) (cap : Nat) (all : Upds D T R) (fin : Arranged B N D T R) (handle : Option (TraceHandle T)) (got ack F : List T) (a : Arranged B N D T R)
    (later : List (ArrangedEv D T R)) : Prop where
  state : ∃ lg ph done, SideSt L cap all fin lg ph done a later ∧ got = tileEnd (done.map Prod.snd) ∧
    ∀ h ∈ handle, FrontierLe lg (h.logical.getLastD [⊥]) ∧ FrontierLe ph (h.physical.getLastD [⊥])
  ack : ∃ pre, pre <+: a.arr.writer.trace ∧ ack.Perm (tileEnd pre)
  perms : ∀ h ∈ handle, h.physical ≠ [] ∧ ∀ L ∈ h.logical, L ≠ []
  holds : OutputHolds F a later

section
variable {L : TraceKindLaws Y} {cap : Nat} {all : Upds D T R} {fin : Arranged B N D T R} {handle : Option (TraceHandle T)} {got ack F : List T} {a : Arranged B N D T R}
  {later : List (ArrangedEv D T R)}

theorem SideSt.final {lg ph : List T} {done : List (T × ArrBatch D T R)} (hcap : 0 < cap) (h : SideSt L cap all fin lg ph done a later) : ∃ G, ArrInv all G fin.arr := by
  obtain ⟨recv, G, vs, h1, h2, h3⟩ := h.inv
  obtain ⟨fin', done', vs', k1, k2⟩ := arranged_run_ok hcap later h1 h2 (by rw [h3]; exact h.len)
  rw [h.run, Option.some.injEq] at k1
  subst k1
  rw [h3] at k2
  exact ⟨_, k2.arr⟩

theorem SideOk.init {effort : Nat} {es : List (ArrangedEv D T R)} (hl : LegalArranged [⊥] [⊥] [⊥] es) (hlen : ((arrangedInput es).length : Int) < isizeMax)
    (hrun : (Arranged.init effort : Arranged B N D T R).run Y cap es = some fin) :
    SideOk L cap (arrangedInput es) fin (some ⟨[], [[⊥]]⟩) [⊥] [⊥] [⊥] (Arranged.init effort) es where
  state := ⟨[⊥], [⊥], [], ⟨⟨[], [⊥], [], AInv.init L effort, hl, rfl⟩, hlen, hrun⟩, rfl, by
    rintro h hh
    cases hh
    exact ⟨fun q h => h, fun q h => h⟩⟩
  ack := ⟨[], List.nil_prefix, List.Perm.refl _⟩
  perms := by
    rintro h hh
    cases hh
    simp
  holds := ⟨by simp [Arranged.init], fun c _ => ⟨⊥, by simp, bot_le⟩, fun t _ => ⟨⊥, by simp, bot_le⟩⟩

/-- What the reader knows survives what happens in the arrangement. -/
theorem SideOk.event {e : ArrangedEv D T R} (hcap : 0 < cap) (h : SideOk L cap all fin handle got ack F a (e :: later)) (he : e ≠ .take)
    (hp : ∀ lg ph, e = .compact lg ph → Permits handle lg ph) : ∃ a', a.step Y cap e = some a' ∧ SideOk L cap all fin handle got ack F a' later := by
  obtain ⟨lg, ph, done, hs, hgot, hperm⟩ := h.state
  obtain ⟨recv, G, vs, i1, i2, i3⟩ := hs.inv
  have hrun := hs.run
  rw [Arranged.run] at hrun
  have hlenrecv : (recv.length : Int) < isizeMax := by
    have := hs.len
    rw [← i3, List.length_append] at this; omega
  cases e with
  | take => exact absurd rfl he
  | arrange act =>
    obtain ⟨l1, l2, l3, l4⟩ := i2
    obtain ⟨a', vs', g1, g2, g3, g4, g5, g6, g7⟩ := i1.activate hcap act l1 l2 l3 (by
      have := hs.len
      rw [← i3, arrangedInput_cons, ← List.append_assoc, List.length_append] at this
      simp only [ArrangedEv.received] at this
      omega)
    have g1' : a.step Y cap (.arrange act) = some a' := g1
    rw [g1'] at hrun
    refine ⟨a', g1, ⟨lg, ph, done, ⟨⟨_, _, vs', g2, l4, by rw [← i3, arrangedInput_cons, List.append_assoc]; rfl⟩, hs.len, hrun⟩, hgot, hperm⟩, ?_, h.perms, ?_⟩
    · obtain ⟨pre, k1, k2⟩ := h.ack
      exact ⟨pre, k1.trans g3, k2⟩
    · obtain ⟨o1, o2, o3⟩ := h.holds
      rw [List.flatMap_cons, List.forall_mem_append] at o3
      obtain ⟨m1, m2⟩ := g7 F o1 o2 fun m hm => o3.1 _ (List.mem_map_of_mem hm)
      exact ⟨m1, m2, o3.2⟩
  | compact lg' ph' =>
    obtain ⟨l1, l2, l3⟩ := i2
    obtain ⟨a', g1, g2, g3, g4, -⟩ := i1.compact l1 l2 hlenrecv
    have g1' : a.step Y cap (.compact lg' ph') = some a' := g1
    rw [g1'] at hrun
    refine ⟨a', g1, ⟨lg', ph', done, ⟨⟨_, _, vs, g2, l3, i3⟩, hs.len, hrun⟩, hgot, hp lg' ph' rfl⟩, by rw [g3]; exact h.ack, h.perms, ?_⟩
    obtain ⟨o1, o2, o3⟩ := h.holds
    exact ⟨by rw [g4]; exact o1, by rw [g3]; exact o2, o3⟩
  | exert effort =>
    obtain ⟨a', g1, g2, g3, g4, -⟩ := i1.exert effort hlenrecv
    have g1' : a.step Y cap (.exert effort) = some a' := g1
    rw [g1'] at hrun
    refine ⟨a', g1, ⟨lg, ph, done, ⟨⟨_, _, vs, g2, i2, i3⟩, hs.len, hrun⟩, hgot, hperm⟩, by rw [g3]; exact h.ack, h.perms, ?_⟩
    obtain ⟨o1, o2, o3⟩ := h.holds
    exact ⟨by rw [g4]; exact o1, by rw [g3]; exact o2, o3⟩

/-- There is no message to take. -/
theorem SideOk.take_nil (h : SideOk L cap all fin handle got ack F a (.take :: later)) (hq : a.queue = []) :
    SideOk L cap all fin handle got ack F { a with queue := a.queue.tail } later := by
  have e : ({ a with queue := a.queue.tail } : Arranged B N D T R) = a := by
    obtain ⟨x, y, z⟩ := a
    simp only at hq
    subst hq; rfl
  have hst : a.step Y cap .take = some a := by rw [Arranged.step, e]
  rw [e]
  obtain ⟨lg, ph, done, hs, hgot, hperm⟩ := h.state
  obtain ⟨recv, G, vs, i1, i2, i3⟩ := hs.inv
  have hrun := hs.run
  rw [Arranged.run, hst] at hrun
  exact ⟨⟨lg, ph, done, ⟨⟨_, _, vs, i1, i2, i3⟩, hs.len, hrun⟩, hgot, hperm⟩, h.ack, h.perms, h.holds⟩

/-- A message is taken. -/
theorem SideOk.take_cons (hcap : 0 < cap) (h : SideOk L cap all fin handle got ack F a (.take :: later)) {y : T × B} {ys : List (T × B)} (hq : a.queue = y :: ys) :
    ∃ c, Y.read [y.2] = some c ∧ LegalBatch (sideOf Y fin.arr.writer.trace) got F y.1 (Y.desc y.2).lower (Y.desc y.2).upper c ∧ ¬ FrontierLe (Y.desc y.2).upper [⊥] ∧ Beyond F y.1 ∧
      ∀ ack', ack' = ack ∨ ack' = (Y.desc y.2).upper → SideOk L cap all fin handle (Y.desc y.2).upper ack' F { a with queue := a.queue.tail } later := by
  obtain ⟨lg, ph, done, hs, hgot, hperm⟩ := h.state
  obtain ⟨recv, G, vs, i1, i2, i3⟩ := hs.inv
  obtain ⟨G', hfin⟩ := hs.final hcap
  obtain ⟨x, k1, k2, k3⟩ := i1.take hq
  obtain ⟨-, ext, hext, -⟩ := arranged_run_ext _ hs.run
  obtain ⟨c, m1, m2, m3, m4, -⟩ := legal_next hfin.tiles hfin.sent k1 (k2.trans ⟨ext, hext.symm⟩) F
  obtain ⟨-, -, -, -, -, pre, n1, n2, n3⟩ := legal_next i1.arr.tiles i1.arr.sent k1 k2 F
  refine ⟨c, m1, by rw [hgot]; exact m2, m3, h.holds.1 y (by rw [hq]; exact List.mem_cons_self), ?_⟩
  intro ack' hack
  have hrun := hs.run
  rw [Arranged.run, Arranged.step] at hrun
  rw [hq] at hrun ⊢
  refine ⟨⟨lg, ph, done ++ [x], ⟨⟨_, _, vs, k3, i2, i3⟩, hs.len, hrun⟩, m4, hperm⟩, ?_, h.perms, ?_⟩
  · rcases hack with rfl | rfl
    · exact h.ack
    · exact ⟨pre, n1, by rw [n3]⟩
  · obtain ⟨o1, o2, o3⟩ := h.holds
    exact ⟨fun m hm => o1 m (by rw [hq]; exact List.mem_cons_of_mem _ hm), o2, o3⟩

theorem SideOk.handle_holds (h : SideOk L cap all fin handle got ack F a later) : ∀ t ∈ handle, HandleHeld a t := by
  obtain ⟨lg, ph, done, hs, hgot, hperm⟩ := h.state
  obtain ⟨recv, G, vs, i1, i2, i3⟩ := hs.inv
  intro t ht
  obtain ⟨p1, p2⟩ := hperm t ht
  obtain ⟨p3, p4⟩ := h.perms t ht
  exact ⟨i1.logical.trans p1, i1.physical.trans p2, p3, p4⟩

/-- The trace, read through what is acknowledged. -/
theorem SideOk.shows (hcap : 0 < cap) (h : SideOk L cap all fin handle got ack F a later) :
    ∀ t ∈ handle, ShowsThrough (sideOf Y fin.arr.writer.trace) t ack (a.through Y ack) := by
  obtain ⟨lg, ph, done, hs, hgot, hperm⟩ := h.state
  obtain ⟨recv, G, vs, i1, i2, i3⟩ := hs.inv
  obtain ⟨G', hfin⟩ := hs.final hcap
  intro t ht
  exact i1.shows hfin.tiles (arranged_run_ext _ hs.run).1 (h.handle_holds t ht) h.ack

theorem mirror_beyond_left {G : List T} {ns : List (T × ArrBatch D T R)} {msgs : List (T × B)} (h : List.Forall₂ (MirrorMsg L) ns msgs)
    (hns : ∀ x ∈ msgs, Beyond G x.1) : ∀ m ∈ ns, Beyond G m.1 := by
  induction h with
  | nil => simp
  | cons hx _ ih =>
    intro m hm
    rcases List.mem_cons.1 hm with rfl | hm
    · rw [← hx.time]; exact hns _ List.mem_cons_self
    · exact ih (fun x hx => hns x (List.mem_cons_of_mem _ hx)) m hm

/-- What has not been received is beyond a frontier that timely shows. -/
theorem SideOk.unreceived (hcap : 0 < cap) (h : SideOk L cap all fin handle got ack F a later) {G : List T} (hG : OutputHolds G a later) :
    ∀ u ∈ (sideOf Y fin.arr.writer.trace).upds, Beyond got u.2.1 → Beyond G u.2.1 := by
  obtain ⟨lg, ph, done, hs, hgot, hperm⟩ := h.state
  obtain ⟨recv, G1, vs, i1, i2, i3⟩ := hs.inv
  obtain ⟨G', hfin⟩ := hs.final hcap
  obtain ⟨-, ext, hext, he⟩ := arranged_run_ext _ hs.run
  obtain ⟨rest, r1, r2⟩ := i1.queue
  have hsent := hfin.sent
  rw [hext, r1, List.append_assoc] at hsent
  rw [hgot]
  refine later_of_sent hfin.tiles hsent ?_
  intro x hx
  rcases List.mem_append.1 hx with hx | hx
  · exact mirror_beyond_left r2 hG.1 x hx
  · exact (he G hG.2.1 hG.2.2).1 x hx

theorem advanceUpper_mem : ∀ (shown : List (Description T × Bool)) (ack : List T), advanceUpper shown ack = ack ∨ ∃ d ∈ shown, advanceUpper shown ack = d.1.upper
  | [], ack => Or.inl rfl
  | d :: shown, ack => by
    have e : advanceUpper (d :: shown) ack = advanceUpper shown (if d.2 && acEq d.1.lower ack then d.1.upper else ack) := rfl
    rw [e]
    rcases advanceUpper_mem shown (if d.2 && acEq d.1.lower ack then d.1.upper else ack) with h | ⟨x, hx, h⟩
    · rw [h]
      split_ifs
      · exact Or.inr ⟨d, List.mem_cons_self, rfl⟩
      · exact Or.inl rfl
    · exact Or.inr ⟨x, List.mem_cons_of_mem _ hx, h⟩

theorem frontierLe_bot (G : List T) : FrontierLe [⊥] G := fun _ _ => ⟨⊥, by simp, bot_le⟩

theorem getLastD_cases {α : Type*} (l : List α) (d : α) : l = [] ∧ l.getLastD d = d ∨ l.getLastD d ∈ l := by
  rcases List.eq_nil_or_concat' l with e | ⟨l', x, e⟩
  · exact Or.inl ⟨e, by rw [e]; rfl⟩
  · exact Or.inr (by rw [e, List.getLastD_concat]; simp)

/-- The rest of an activation of the join. -/
theorem SideOk.rest (hcap : 0 < cap) {pre Fo G Go : List T} (h : SideOk L cap all fin handle got ack F a later)
    (hi : SideInv (sideOf Y fin.arr.writer.trace) handle pre got ack) (hlog : ∀ t ∈ handle, ∀ L ∈ t.logical, FrontierLe L Fo) (hFo : FrontierLe Fo Go) (hG : OutputHolds G a later) :
    (∀ t ∈ handle, ∀ d ∈ a.shown Y, LegalShown (sideOf Y fin.arr.writer.trace) t d) ∧
      SideOk L cap all fin (TraceHandle.maintain handle Go (ackedUpper handle (a.shown Y) ack)) got (ackedUpper handle (a.shown Y) ack) G a later := by
  obtain ⟨lg, ph, done, hs, hgot, hperm⟩ := h.state
  obtain ⟨recv, G1, vs, i1, i2, i3⟩ := hs.inv
  obtain ⟨G', hfin⟩ := hs.final hcap
  have hshown : ∀ t ∈ handle, ∀ d ∈ a.shown Y, LegalShown (sideOf Y fin.arr.writer.trace) t d := fun t ht d hd =>
    (i1.shown hfin.tiles (arranged_run_ext _ hs.run).1 (h.handle_holds t ht) d hd).1
  refine ⟨hshown, ?_⟩
  cases handle with
  | none => exact ⟨⟨lg, ph, done, hs, hgot, by simp [TraceHandle.maintain]⟩, h.ack, by simp [TraceHandle.maintain], hG⟩
  | some t =>
    obtain ⟨a1, a2⟩ := SideInv.advance (sideOf_chain hfin.tiles) (a.shown Y) hi (hshown t rfl)
    have hack : ∃ pre, pre <+: a.arr.writer.trace ∧ (advanceUpper (a.shown Y) ack).Perm (tileEnd pre) := by
      rcases advanceUpper_mem (a.shown Y) ack with e | ⟨d, hd, e⟩
      · rw [e]; exact h.ack
      · rw [e]
        exact (i1.shown hfin.tiles (arranged_run_ext _ hs.run).1 (h.handle_holds t rfl) d hd).2
    by_cases hz : Go.isEmpty = true
    · have e : TraceHandle.maintain (some t) Go (ackedUpper (some t) (a.shown Y) ack) = none := if_pos hz
      rw [e]
      exact ⟨⟨lg, ph, done, hs, hgot, by simp⟩, hack, by simp, hG⟩
    · have e : TraceHandle.maintain (some t) Go (ackedUpper (some t) (a.shown Y) ack) = some ⟨t.logical ++ [Go], t.physical ++ [advanceUpper (a.shown Y) ack]⟩ := if_neg hz
      rw [e]
      refine ⟨⟨lg, ph, done, hs, hgot, ?_⟩, hack, ?_, hG⟩
      · rintro _ ⟨⟩
        obtain ⟨p1, p2⟩ := hperm t rfl
        simp only [List.getLastD_concat]
        refine ⟨p1.trans ?_, p2.trans ?_⟩
        · rcases getLastD_cases t.logical [⊥] with ⟨-, e⟩ | hm
          · rw [e]; exact frontierLe_bot _
          · exact (hlog t rfl _ hm).trans hFo
        · rcases getLastD_cases t.physical [⊥] with ⟨-, e⟩ | hm
          · rw [e]; exact frontierLe_bot _
          · exact (hi.physical t rfl _ hm).trans a2
      · rintro _ ⟨⟩
        refine ⟨by simp, ?_⟩
        intro X hX
        rcases List.mem_append.1 hX with hX | hX
        · exact (h.perms t rfl).2 X hX
        · rw [List.mem_singleton] at hX
          rw [hX]
          intro h0
          rw [h0] at hz
          exact hz rfl

end

/-! ## The join -/

section join
variable {B1 B2 N1 N2 D1 D2 K V1 V2 T R1 R2 S O M : Type*} [LinearOrder D1] [LinearOrder D2] [LinearOrder K] [LinearOrder V1] [LinearOrder V2] [Lattice T] [OrderBot T] [DecidableLE T]
  [DecidableEq T] [LinearOrder (Lin T)] [AddCommMonoid R1] [DecidableEq R1] [AddCommMonoid R2] [DecidableEq R2] [DecidableEq O] [AddCommMonoid M]
  {Y1 : TraceKind B1 N1 D1 K V1 T R1} {Y2 : TraceKind B2 N2 D2 K V2 T R2}

theorem onBatch1_fields {OB : OutBuilder S O T M} {st st' : JoinOp K V1 V2 T R1 R2 S O M} {time : T} {lower upper : List T} {batch : Contents K V1 T R1}
    {through2 : List T → Contents K V2 T R2} (h : st.onBatch1 OB time lower upper batch through2 = some st') :
    st'.trace1 = st.trace1 ∧ st'.trace2 = st.trace2 ∧ st'.pre1 = st.pre1 ∧ st'.pre2 = st.pre2 ∧ st'.ack2 = st.ack2 ∧ (st'.ack1 = st.ack1 ∨ st'.ack1 = upper) := by
  unfold JoinOp.onBatch1 at h
  split at h
  · cases h
  · split_ifs at h <;> cases h <;> first
      | exact ⟨rfl, rfl, rfl, rfl, rfl, Or.inl rfl⟩
      | (split_ifs <;> first | exact ⟨rfl, rfl, rfl, rfl, rfl, Or.inl rfl⟩ | exact ⟨rfl, rfl, rfl, rfl, rfl, Or.inr rfl⟩)

theorem onBatch2_fields {OB : OutBuilder S O T M} {st st' : JoinOp K V1 V2 T R1 R2 S O M} {time : T} {lower upper : List T} {batch : Contents K V2 T R2}
    {through1 : List T → Contents K V1 T R1} (h : st.onBatch2 OB time lower upper batch through1 = some st') :
    st'.trace1 = st.trace1 ∧ st'.trace2 = st.trace2 ∧ st'.pre1 = st.pre1 ∧ st'.pre2 = st.pre2 ∧ st'.ack1 = st.ack1 ∧ (st'.ack2 = st.ack2 ∨ st'.ack2 = upper) := by
  unfold JoinOp.onBatch2 at h
  split at h
  · cases h
  · split_ifs at h <;> cases h <;> first
      | exact ⟨rfl, rfl, rfl, rfl, rfl, Or.inl rfl⟩
      | (split_ifs <;> first | exact ⟨rfl, rfl, rfl, rfl, rfl, Or.inl rfl⟩ | exact ⟨rfl, rfl, rfl, rfl, rfl, Or.inr rfl⟩)

theorem onRest_fields {OB : OutBuilder S O T M} {logic : K → V1 → V2 → T → R1 → R2 → List (O × T × M)} {rounds : Nat} {budget : Int} {st st' : JoinOp K V1 V2 T R1 R2 S O M}
    {shown1 shown2 : List (Description T × Bool)} {G1 G2 : List T} (h : st.onRest OB logic rounds budget shown1 shown2 G1 G2 = some st') :
    st'.pre1 = st.pre1 ∧ st'.pre2 = st.pre2 ∧ st'.ack1 = ackedUpper st.trace1 shown1 st.ack1 ∧ st'.ack2 = ackedUpper st.trace2 shown2 st.ack2 ∧
      st'.trace1 = TraceHandle.maintain st.trace1 G2 (ackedUpper st.trace1 shown1 st.ack1) ∧ st'.trace2 = TraceHandle.maintain st.trace2 G1 (ackedUpper st.trace2 shown2 st.ack2) := by
  unfold JoinOp.onRest at h
  simp only at h
  split at h
  · cases h; simp
  · cases h

/-- What holds of two arrangements and the join of them. -/
structure SysInv (L1 : TraceKindLaws Y1) (L2 : TraceKindLaws Y2) (cap : Nat) (all1 : Upds D1 T R1) (all2 : Upds D2 T R2) (fin1 : Arranged B1 N1 D1 T R1) (fin2 : Arranged B2 N2 D2 T R2)
    (OB : OutBuilder S O T M) (ok : S → Prop) (held : S → Upds O T M) (result : K → V1 → V2 → List O) (mul : R1 →+ R2 →+ M) (f : JoinFeed T)
    (s : JoinSys B1 N1 D1 V1 B2 N2 D2 V2 K T R1 R2 S O M) (es : List (JoinSysEv D1 D2 T R1 R2)) : Prop where
  join : JoinInv OB ok held result mul (sideOf Y1 fin1.arr.writer.trace) (sideOf Y2 fin2.arr.writer.trace) f s.join
  pre1 : s.join.pre1 = [⊥]
  pre2 : s.join.pre2 = [⊥]
  side1 : SideOk L1 cap all1 fin1 s.join.trace1 f.got1 s.join.ack1 f.frontier1 s.side1 (side1Events es)
  side2 : SideOk L2 cap all2 fin2 s.join.trace2 f.got2 s.join.ack2 f.frontier2 s.side2 (side2Events es)

variable {L1 : TraceKindLaws Y1} {L2 : TraceKindLaws Y2} {cap : Nat} {all1 : Upds D1 T R1} {all2 : Upds D2 T R2} {fin1 : Arranged B1 N1 D1 T R1} {fin2 : Arranged B2 N2 D2 T R2}
    {OB : OutBuilder S O T M} {ok : S → Prop} {held : S → Upds O T M} {result : K → V1 → V2 → List O} {mul : R1 →+ R2 →+ M}

theorem SideOk.chain {B N D K V R : Type*} [LinearOrder D] [LinearOrder K] [LinearOrder V] [AddCommMonoid R] [DecidableEq R] {Y : TraceKind B N D K V T R} {L : TraceKindLaws Y}
    {all : Upds D T R} {fin : Arranged B N D T R} {handle : Option (TraceHandle T)} {got ack F : List T} {a : Arranged B N D T R}
    {later : List (ArrangedEv D T R)} (hcap : 0 < cap) (h : SideOk L cap all fin handle got ack F a later) : (sideOf Y fin.arr.writer.trace).Chain := by
  obtain ⟨lg, ph, done, hs, -⟩ := h.state
  obtain ⟨G', hfin⟩ := hs.final hcap
  exact sideOf_chain hfin.tiles

/-- One event. -/
theorem SysInv.step (hcap : 0 < cap) (hB : OB.Keeps ok held) (budget : Int) {f : JoinFeed T} {s : JoinSys B1 N1 D1 V1 B2 N2 D2 V2 K T R1 R2 S O M}
    {e : JoinSysEv D1 D2 T R1 R2} {es : List (JoinSysEv D1 D2 T R1 R2)} (h : SysInv L1 L2 cap all1 all2 fin1 fin2 OB ok held result mul f s (e :: es))
    (hl : LegalSysEv (f.frontier1, f.frontier2) s es e) :
    ∃ n s' f', (∀ rounds, n ≤ rounds → s.step Y1 Y2 OB (joinCoreLogic result fun a b => mul a b) cap rounds budget e = some s') ∧
      SysInv L1 L2 cap all1 all2 fin1 fin2 OB ok held result mul f' s' es ∧ (f'.frontier1, f'.frontier2) = e.frontiers (f.frontier1, f.frontier2) := by
  have c1 := h.side1.chain hcap
  have c2 := h.side2.chain hcap
  -- Nothing for the join to do.
  have idle1 : ∀ (e1 : ArrangedEv D1 T R1), e = .side1 e1 → e1 ≠ .take → (∀ lg ph, e1 = .compact lg ph → Permits s.join.trace1 lg ph) →
      ∃ n s' f', (∀ rounds, n ≤ rounds → s.step Y1 Y2 OB (joinCoreLogic result fun a b => mul a b) cap rounds budget e = some s') ∧
      SysInv L1 L2 cap all1 all2 fin1 fin2 OB ok held result mul f' s' es ∧ (f'.frontier1, f'.frontier2) = e.frontiers (f.frontier1, f.frontier2) := by
    rintro e1 rfl h1 h2
    obtain ⟨a', g1, g2⟩ := SideOk.event hcap (show SideOk L1 cap all1 fin1 s.join.trace1 f.got1 s.join.ack1 f.frontier1 s.side1 (e1 :: side1Events es) from h.side1) h1 h2
    refine ⟨0, ⟨a', s.side2, s.join⟩, f, fun rounds _ => ?_, ⟨h.join, h.pre1, h.pre2, g2, h.side2⟩, rfl⟩
    have : joinEvents Y1 Y2 s.side1 s.side2 (.side1 e1 : JoinSysEv D1 D2 T R1 R2) = some [] := by
      cases e1 <;> first | rfl | exact absurd rfl h1
    rw [JoinSys.step, this, sidesStep, g1]
    rfl
  have idle2 : ∀ (e1 : ArrangedEv D2 T R2), e = .side2 e1 → e1 ≠ .take → (∀ lg ph, e1 = .compact lg ph → Permits s.join.trace2 lg ph) →
      ∃ n s' f', (∀ rounds, n ≤ rounds → s.step Y1 Y2 OB (joinCoreLogic result fun a b => mul a b) cap rounds budget e = some s') ∧
      SysInv L1 L2 cap all1 all2 fin1 fin2 OB ok held result mul f' s' es ∧ (f'.frontier1, f'.frontier2) = e.frontiers (f.frontier1, f.frontier2) := by
    rintro e1 rfl h1 h2
    obtain ⟨a', g1, g2⟩ := SideOk.event hcap (show SideOk L2 cap all2 fin2 s.join.trace2 f.got2 s.join.ack2 f.frontier2 s.side2 (e1 :: side2Events es) from h.side2) h1 h2
    refine ⟨0, ⟨s.side1, a', s.join⟩, f, fun rounds _ => ?_, ⟨h.join, h.pre1, h.pre2, h.side1, g2⟩, rfl⟩
    have : joinEvents Y1 Y2 s.side1 s.side2 (.side2 e1 : JoinSysEv D1 D2 T R1 R2) = some [] := by
      cases e1 <;> first | rfl | exact absurd rfl h1
    rw [JoinSys.step, this, sidesStep, g1]
    rfl
  cases e with
  | side1 e1 =>
    cases e1 with
    | arrange act => exact idle1 _ rfl (by simp) (by simp)
    | compact lg ph => exact idle1 _ rfl (by simp) (by rintro _ _ ⟨⟩; exact hl)
    | exert effort => exact idle1 _ rfl (by simp) (by simp)
    | take =>
      have h1 : SideOk L1 cap all1 fin1 s.join.trace1 f.got1 s.join.ack1 f.frontier1 s.side1 (.take :: side1Events es) := h.side1
      cases hq : s.side1.queue with
      | nil =>
        refine ⟨0, ⟨{ s.side1 with queue := s.side1.queue.tail }, s.side2, s.join⟩, f, fun rounds _ => ?_, ⟨h.join, h.pre1, h.pre2, h1.take_nil hq, h.side2⟩, rfl⟩
        have e0 : joinEvents Y1 Y2 s.side1 s.side2 (.side1 .take : JoinSysEv D1 D2 T R1 R2) = some [] := by rw [joinEvents, hq]; rfl
        rw [JoinSys.step, e0]
        rfl
      | cons y ys =>
        obtain ⟨t, b⟩ := y
        obtain ⟨c, k1, k2, k3, k4, k5⟩ := h1.take_cons hcap hq
        have e0 : joinEvents Y1 Y2 s.side1 s.side2 (.side1 .take : JoinSysEv D1 D2 T R1 R2) = some [.batch1 t (Y1.desc b).lower (Y1.desc b).upper c (s.side2.through Y2)] := by
          rw [joinEvents, hq]
          show takes1 Y1 Y2 s.side2 (some (t, b)) = _
          rw [takes1]
          rw [show Y1.read [b] = some c from k1]
        have hle : LegalEv (sideOf Y1 fin1.arr.writer.trace) (sideOf Y2 fin2.arr.writer.trace) f s.join (.batch1 t (Y1.desc b).lower (Y1.desc b).upper c (s.side2.through Y2)) :=
          ⟨k4, fun _ => ⟨k2, h.side2.shows hcap⟩⟩
        obtain ⟨st', b1, b2⟩ := onBatch1_inv hB h.join hle
        obtain ⟨d1, d2, d3, d4, d5, d6⟩ := onBatch1_fields b1
        have hf : f.next s.join (.batch1 t (Y1.desc b).lower (Y1.desc b).upper c (s.side2.through Y2)) = { f with got1 := (Y1.desc b).upper } := by
          rw [JoinFeed.next, if_neg]
          rw [h.pre1, acLe_iff]; exact k3
        rw [hf] at b2
        refine ⟨0, ⟨{ s.side1 with queue := s.side1.queue.tail }, s.side2, st'⟩, _, fun rounds _ => ?_, ⟨b2, by rw [d3, h.pre1], by rw [d4, h.pre2], ?_, ?_⟩, rfl⟩
        · rw [JoinSys.step, e0]
          show (JoinOp.run OB _ rounds budget s.join [_]).map _ = _
          rw [JoinOp.run, JoinOp.step, b1]
          rfl
        · show SideOk L1 cap all1 fin1 st'.trace1 (Y1.desc b).upper st'.ack1 f.frontier1 _ _
          rw [d1]
          exact k5 _ d6
        · show SideOk L2 cap all2 fin2 st'.trace2 f.got2 st'.ack2 f.frontier2 _ _
          rw [d2, d5]
          exact h.side2
  | side2 e1 =>
    cases e1 with
    | arrange act => exact idle2 _ rfl (by simp) (by simp)
    | compact lg ph => exact idle2 _ rfl (by simp) (by rintro _ _ ⟨⟩; exact hl)
    | exert effort => exact idle2 _ rfl (by simp) (by simp)
    | take =>
      have h1 : SideOk L2 cap all2 fin2 s.join.trace2 f.got2 s.join.ack2 f.frontier2 s.side2 (.take :: side2Events es) := h.side2
      cases hq : s.side2.queue with
      | nil =>
        refine ⟨0, ⟨s.side1, { s.side2 with queue := s.side2.queue.tail }, s.join⟩, f, fun rounds _ => ?_, ⟨h.join, h.pre1, h.pre2, h.side1, h1.take_nil hq⟩, rfl⟩
        have e0 : joinEvents Y1 Y2 s.side1 s.side2 (.side2 .take : JoinSysEv D1 D2 T R1 R2) = some [] := by rw [joinEvents, hq]; rfl
        rw [JoinSys.step, e0]
        rfl
      | cons y ys =>
        obtain ⟨t, b⟩ := y
        obtain ⟨c, k1, k2, k3, k4, k5⟩ := h1.take_cons hcap hq
        have e0 : joinEvents Y1 Y2 s.side1 s.side2 (.side2 .take : JoinSysEv D1 D2 T R1 R2) = some [.batch2 t (Y2.desc b).lower (Y2.desc b).upper c (s.side1.through Y1)] := by
          rw [joinEvents, hq]
          show takes2 Y1 Y2 s.side1 (some (t, b)) = _
          rw [takes2]
          rw [show Y2.read [b] = some c from k1]
        have hle : LegalEv (sideOf Y1 fin1.arr.writer.trace) (sideOf Y2 fin2.arr.writer.trace) f s.join (.batch2 t (Y2.desc b).lower (Y2.desc b).upper c (s.side1.through Y1)) :=
          ⟨k4, fun _ => ⟨k2, h.side1.shows hcap⟩⟩
        obtain ⟨st', b1, b2⟩ := onBatch2_inv hB h.join hle
        obtain ⟨d1, d2, d3, d4, d5, d6⟩ := onBatch2_fields b1
        have hf : f.next s.join (.batch2 t (Y2.desc b).lower (Y2.desc b).upper c (s.side1.through Y1)) = { f with got2 := (Y2.desc b).upper } := by
          rw [JoinFeed.next, if_neg]
          rw [h.pre2, acLe_iff]; exact k3
        rw [hf] at b2
        refine ⟨0, ⟨s.side1, { s.side2 with queue := s.side2.queue.tail }, st'⟩, _, fun rounds _ => ?_, ⟨b2, by rw [d3, h.pre1], by rw [d4, h.pre2], ?_, ?_⟩, rfl⟩
        · rw [JoinSys.step, e0]
          show (JoinOp.run OB _ rounds budget s.join [_]).map _ = _
          rw [JoinOp.run, JoinOp.step, b1]
          rfl
        · show SideOk L1 cap all1 fin1 st'.trace1 f.got1 st'.ack1 f.frontier1 _ _
          rw [d1, d5]
          exact h.side1
        · show SideOk L2 cap all2 fin2 st'.trace2 (Y2.desc b).upper st'.ack2 f.frontier2 _ _
          rw [d2]
          exact k5 _ d6
  | rest G1 G2 =>
    obtain ⟨l1, l2, l3, l4⟩ := hl
    have s1 : SideOk L1 cap all1 fin1 s.join.trace1 f.got1 s.join.ack1 f.frontier1 s.side1 (side1Events es) := h.side1
    have s2 : SideOk L2 cap all2 fin2 s.join.trace2 f.got2 s.join.ack2 f.frontier2 s.side2 (side2Events es) := h.side2
    obtain ⟨r1, r2⟩ := s1.rest hcap h.join.side1 (fun t ht => (h.join.logical1 t ht).2) l2 l3
    obtain ⟨r3, r4⟩ := s2.rest hcap h.join.side2 (fun t ht => (h.join.logical2 t ht).2) l1 l4
    have hle : LegalEv (sideOf Y1 fin1.arr.writer.trace) (sideOf Y2 fin2.arr.writer.trace) f s.join (.rest (s.side1.shown Y1) (s.side2.shown Y2) G1 G2) :=
      ⟨l1, l2, s1.unreceived hcap l3, s2.unreceived hcap l4, r1, r3⟩
    obtain ⟨n, st', b1, b2, -⟩ := onRest_inv hB c1 c2 h.join budget hle
    obtain ⟨d1, d2, d3, d4, d5, d6⟩ := onRest_fields (b1 n le_rfl)
    refine ⟨n, ⟨s.side1, s.side2, st'⟩, _, fun rounds hr => ?_, ⟨b2, by rw [d1, h.pre1], by rw [d2, h.pre2], ?_, ?_⟩, rfl⟩
    · rw [JoinSys.step]
      show (JoinOp.run OB _ rounds budget s.join [_]).map _ = _
      rw [JoinOp.run, JoinOp.step, b1 rounds hr]
      rfl
    · show SideOk L1 cap all1 fin1 st'.trace1 f.got1 st'.ack1 G1 _ _
      rw [d5, d3]; exact r2
    · show SideOk L2 cap all2 fin2 st'.trace2 f.got2 st'.ack2 G2 _ _
      rw [d6, d4]; exact r4

/-- A run. -/
theorem SysInv.run (hcap : 0 < cap) (hB : OB.Keeps ok held) (budget : Int) (es : List (JoinSysEv D1 D2 T R1 R2)) :
    ∀ {f : JoinFeed T} {s : JoinSys B1 N1 D1 V1 B2 N2 D2 V2 K T R1 R2 S O M}, SysInv L1 L2 cap all1 all2 fin1 fin2 OB ok held result mul f s es →
    LegalJoinSys Y1 Y2 OB (joinCoreLogic result fun a b => mul a b) cap budget (f.frontier1, f.frontier2) s es →
    ∃ n s' f', (∀ rounds, n ≤ rounds → s.run Y1 Y2 OB (joinCoreLogic result fun a b => mul a b) cap rounds budget es = some s') ∧
      SysInv L1 L2 cap all1 all2 fin1 fin2 OB ok held result mul f' s' [] ∧ (f'.frontier1, f'.frontier2) = lastRest (f.frontier1, f.frontier2) es := by
  induction es with
  | nil => exact fun h _ => ⟨0, _, _, fun _ _ => rfl, h, rfl⟩
  | cons e es ih =>
    intro f s h hl
    rw [LegalJoinSys] at hl
    obtain ⟨n, s1, f1, a1, a2, a3⟩ := h.step hcap hB budget hl.1
    have hl2 := hl.2 n s1 (a1 n le_rfl)
    rw [← a3] at hl2
    obtain ⟨m, s', f', b1, b2, b3⟩ := ih a2 hl2
    refine ⟨max n m, s', f', ?_, b2, ?_⟩
    · intro rounds hr
      rw [JoinSys.run, a1 rounds (le_trans (le_max_left _ _) hr)]
      exact b1 rounds (le_trans (le_max_right _ _) hr)
    · rw [b3, a3]
      rfl

theorem joinStart_fields {physical1 physical2 : List T} {through1 : List T → Contents K V1 T R1} {st : JoinOp K V1 V2 T R1 R2 S O M}
    (h : JoinOp.start OB physical1 physical2 [] [] through1 = some st) :
    st.ack1 = [⊥] ∧ st.ack2 = [⊥] ∧ st.pre1 = [⊥] ∧ st.pre2 = [⊥] ∧ st.trace1 = some ⟨[], [physical1]⟩ ∧ st.trace2 = some ⟨[], [physical2]⟩ ∧ st.sent = [] := by
  unfold JoinOp.start at h
  dsimp only [List.foldl_nil] at h
  split_ifs at h with c1 c2
  rw [Option.some.injEq] at h
  subst h
  exact ⟨rfl, rfl, rfl, rfl, rfl, rfl, rfl⟩

/-- Where the system starts. -/
theorem SysInv.init (hB : OB.Keeps ok held) {effort1 effort2 : Nat} {es : List (JoinSysEv D1 D2 T R1 R2)} (hl1 : LegalArranged [⊥] [⊥] [⊥] (side1Events es))
    (hl2 : LegalArranged [⊥] [⊥] [⊥] (side2Events es)) (n1 : ((arrangedInput (side1Events es)).length : Int) < isizeMax) (n2 : ((arrangedInput (side2Events es)).length : Int) < isizeMax)
    (r1 : (Arranged.init effort1 : Arranged B1 N1 D1 T R1).run Y1 cap (side1Events es) = some fin1)
    (r2 : (Arranged.init effort2 : Arranged B2 N2 D2 T R2).run Y2 cap (side2Events es) = some fin2) (hcap : 0 < cap) :
    ∃ s : JoinSys B1 N1 D1 V1 B2 N2 D2 V2 K T R1 R2 S O M, JoinSys.init Y1 OB effort1 effort2 = some s ∧
      SysInv L1 L2 cap (arrangedInput (side1Events es)) (arrangedInput (side2Events es)) fin1 fin2 OB ok held result mul ⟨[⊥], [⊥], [⊥], [⊥]⟩ s es := by
  have s1 : SideOk L1 cap (arrangedInput (side1Events es)) fin1 (some ⟨[], [[⊥]]⟩) [⊥] [⊥] [⊥] (Arranged.init effort1) (side1Events es) := SideOk.init hl1 n1 r1
  have s2 : SideOk L2 cap (arrangedInput (side2Events es)) fin2 (some ⟨[], [[⊥]]⟩) [⊥] [⊥] [⊥] (Arranged.init effort2) (side2Events es) := SideOk.init hl2 n2 r2
  have hst : LegalStart (sideOf Y1 fin1.arr.writer.trace) (sideOf Y2 fin2.arr.writer.trace) [⊥] [⊥] [] [] ((Arranged.init effort1).through Y1) :=
    { bound1 := ⟨[], List.nil_prefix, List.Perm.refl _⟩
      bound2 := ⟨[], List.nil_prefix, List.Perm.refl _⟩
      atPhysical1 := fun q h => h
      atPhysical2 := fun q h => h
      shows1 := s1.shows hcap _ rfl
      sorted2 := by simp
      shows2 := by
        intro k v q _
        have : before (sideOf Y2 fin2.arr.writer.trace).upds [⊥] = [] := by
          rw [before, List.filter_eq_nil_iff]
          intro u _
          simp [Beyond]
        simp only [List.foldl_nil, this]
        rfl }
  obtain ⟨st, g1, g2⟩ := joinStart_inv hB (result := result) (mul := mul) hst
  obtain ⟨e1, e2, e3, e4, e5, e6, e7⟩ := joinStart_fields g1
  refine ⟨⟨Arranged.init effort1, Arranged.init effort2, st⟩, by rw [JoinSys.init, g1], ?_⟩
  have hf : JoinFeed.start st = ⟨[⊥], [⊥], [⊥], [⊥]⟩ := by
    rw [JoinFeed.start, e3, e4]
  rw [hf] at g2
  exact ⟨g2, e3, e4, by rw [e5, e1]; exact s1, by rw [e6, e2]; exact s2⟩

end join

/-- What an arrangement received and has not put into its trace is beyond its capabilities. -/
theorem ArrInv.accum_trace {recv : Upds D T R} {F : List T} {s : ArrState D T R} (h : ArrInv recv F s) {G : List T} (hG : ∀ c ∈ s.capabilities, Beyond G c) {q : T} (hq : ¬ Beyond G q) (d : D) :
    accum (s.writer.trace.flatMap ArrBatch.upds) d q = accum recv d q := by
  have hz : accum (held s.batcher.chains ++ s.chunker.retained) d q = 0 := by
    have : accum (held s.batcher.chains ++ s.chunker.retained) d q = accum (consolidatedU (held s.batcher.chains ++ s.chunker.retained)) d q := (accum_consolidatedU _ _ _).symm
    rw [this, accum]
    apply List.sum_eq_zero
    intro x hx
    obtain ⟨u, hu, rfl⟩ := List.mem_map.1 hx
    have hc := consolidated_consolidatedU (held s.batcher.chains ++ s.chunker.retained)
    have hne : total (consolidatedU (held s.batcher.chains ++ s.chunker.retained)) u.1 u.2.1 ≠ 0 := by
      rw [total_of_nodup _ u hu]
      · exact hc.2 u hu
      · rw [List.Nodup, List.pairwise_map]
        refine hc.1.imp ?_
        rintro u v (h | ⟨h1, h2⟩) e
        · simp only [Prod.mk.injEq] at e
          rw [e.1] at h; exact lt_irrefl _ h
        · simp only [Prod.mk.injEq] at e
          rw [e.2] at h2; exact lt_irrefl _ h2
    rw [total_consolidatedU, total_append] at hne
    obtain ⟨c, hc1, hc2⟩ := h.pending _ _ hne
    rw [if_neg]
    rintro ⟨-, h2⟩
    exact hq (beyond_mono (hG c hc1) (hc2.trans h2))
  have h1 : accum recv d q = accum (s.writer.trace.flatMap ArrBatch.upds ++ (held s.batcher.chains ++ s.chunker.retained)) d q :=
    accum_of_total (fun d t => by rw [h.sum, total_append, total_append]) d q
  rw [h1, accum_append, hz, add_zero]

/-- What a trace presents of what its arrangement received. -/
theorem arranged_trace {B N D K V T R : Type*} [LinearOrder D] [LinearOrder K] [LinearOrder V] [Lattice T] [OrderBot T] [DecidableLE T] [DecidableEq T] [LinearOrder (Lin T)]
    [AddCommMonoid R] [DecidableEq R] {Y : TraceKind B N D K V T R} (L : TraceKindLaws Y) {cap : Nat} (hcap : 0 < cap) (effort : Nat) (es : List (ArrangedEv D T R))
    (hl : LegalArranged [⊥] [⊥] [⊥] es) (hn : ((arrangedInput es).length : Int) < isizeMax) :
    ∃ a, (Arranged.init effort).run Y cap es = some a ∧
      ((arrangedCompaction ([⊥], [⊥]) es).1 ≠ [] → FrontierLe (arrangedCompaction ([⊥], [⊥]) es).2 (arrangedFrontier [⊥] es) →
        ContentsSorted (a.through Y (arrangedFrontier [⊥] es)) ∧
        ∀ k v q, Beyond (arrangedCompaction ([⊥], [⊥]) es).1 q →
          accum (keyUpds (a.through Y (arrangedFrontier [⊥] es)) k) v q = accum ((before (arrangedInput es) (arrangedFrontier [⊥] es)).map fun u => (Y.split u.1, u.2)) (k, v) q) := by
  obtain ⟨a, done, vs, r, h⟩ := arranged_run_ok hcap es (AInv.init L effort) hl (by rw [List.nil_append]; exact hn)
  rw [List.nil_append] at h
  refine ⟨a, r, fun hne hP => ?_⟩
  generalize hF : arrangedFrontier [⊥] es = F at *
  generalize hC : arrangedCompaction ([⊥], [⊥]) es = C at *
  have hFp : F.Perm (tileEnd a.arr.writer.trace) := h.arr.upper.symm.trans h.arr.tiles.end_perm
  have hh : HandleHeld a (⟨[C.1], [C.2]⟩ : TraceHandle T) := ⟨h.logical, h.physical, by simp, by simpa using hne⟩
  have hsh := h.shows h.arr.tiles (List.prefix_refl _) hh ⟨_, List.prefix_refl _, hFp⟩ ⟨_, List.prefix_refl _, hFp⟩ (by simpa using hP)
  refine ⟨hsh.1, fun k v q hq => ?_⟩
  rw [hsh.2 k v q ⟨⊥, by simp [sideOf], bot_le⟩ (by simpa using hq)]
  have e1 : before (sideOf Y a.arr.writer.trace).upds F = splitUpds Y.split a.arr.writer.trace := by
    rw [before_congr hFp]
    have := before_tiles (a := a.arr.writer.trace) (b := []) Y.split (by rw [List.append_nil]; exact h.arr.tiles)
    rw [List.append_nil] at this
    exact this
  rw [e1, accum_splitUpds, accum_map_equiv]
  refine accum_of_total (fun d t => ?_) _ _
  have e2 := total_filter (arrangedInput es) (fun t => decide (¬ Beyond F t)) d t
  refine Eq.trans ?_ e2.symm
  rw [h.arr.sum]
  by_cases hb : Beyond F t
  · rw [if_neg (by simpa using hb)]
    by_contra hne
    obtain ⟨r, hr⟩ := total_ne_zero_mem hne
    exact h.arr.tiles.complete _ hr ((beyond_perm h.arr.upper _).2 hb)
  · rw [if_pos (by simpa using hb)]
    have hz : total (held a.arr.batcher.chains) d t + total a.arr.chunker.retained d t = 0 := by
      by_contra hne
      obtain ⟨c, hc1, hc2⟩ := h.arr.pending d t hne
      exact hb (beyond_mono (h.arr.capsF c hc1) hc2)
    rw [hz, add_zero]

section final
variable {B1 B2 N1 N2 D1 D2 K V1 V2 T R1 R2 S O M : Type*} [LinearOrder D1] [LinearOrder D2] [LinearOrder K] [LinearOrder V1] [LinearOrder V2] [Lattice T] [OrderBot T] [DecidableLE T]
  [DecidableEq T] [LinearOrder (Lin T)] [AddCommMonoid R1] [DecidableEq R1] [AddCommMonoid R2] [DecidableEq R2] [DecidableEq O] [AddCommMonoid M]
  {Y1 : TraceKind B1 N1 D1 K V1 T R1} {Y2 : TraceKind B2 N2 D2 K V2 T R2}

/-- What the reader is to receive in all, at times that are complete. -/
theorem SideOk.total {B N D K V R : Type*} [LinearOrder D] [LinearOrder K] [LinearOrder V] [AddCommMonoid R] [DecidableEq R] {Y : TraceKind B N D K V T R} {L : TraceKindLaws Y}
    {cap : Nat} {all : Upds D T R} {fin : Arranged B N D T R} {handle : Option (TraceHandle T)} {got ack F : List T} {a : Arranged B N D T R}
    (hcap : 0 < cap) (h : SideOk L cap all fin handle got ack F a []) {q : T} (hq : ¬ Beyond F q) (kv : K × V) :
    accum (sideOf Y fin.arr.writer.trace).upds kv q = accum (all.map fun u => (Y.split u.1, u.2)) kv q := by
  obtain ⟨lg, ph, done, hs, -⟩ := h.state
  obtain ⟨G', hfin⟩ := hs.final hcap
  have hr := hs.run
  rw [Arranged.run, Option.some.injEq] at hr
  subst hr
  show accum (splitUpds Y.split _) _ _ = _
  rw [accum_splitUpds, accum_map_equiv]
  exact hfin.accum_trace h.holds.2.1 hq _

/-- Two arrangements and a join of them. -/
theorem joinSys_run (L1 : TraceKindLaws Y1) (L2 : TraceKindLaws Y2) {cap : Nat} (hcap : 0 < cap) {OB : OutBuilder S O T M} {ok : S → Prop} {held : S → Upds O T M} (hB : OB.Keeps ok held)
    (effort1 effort2 : Nat) (result : K → V1 → V2 → List O) (mul : R1 →+ R2 →+ M) (budget : Int) (es : List (JoinSysEv D1 D2 T R1 R2))
    (hl1 : LegalArranged [⊥] [⊥] [⊥] (side1Events es)) (hl2 : LegalArranged [⊥] [⊥] [⊥] (side2Events es))
    (n1 : ((arrangedInput (side1Events es)).length : Int) < isizeMax) (n2 : ((arrangedInput (side2Events es)).length : Int) < isizeMax)
    (hes : ∀ s, JoinSys.init (B2 := B2) (N2 := N2) (D2 := D2) (V2 := V2) (R2 := R2) Y1 OB effort1 effort2 = some s →
      LegalJoinSys Y1 Y2 OB (joinCoreLogic result fun a b => mul a b) cap budget ([⊥], [⊥]) s es) :
    ∃ fin1 fin2 s0 n s f, JoinSys.init Y1 OB effort1 effort2 = some s0 ∧
      (∀ rounds, n ≤ rounds → s0.run Y1 Y2 OB (joinCoreLogic result fun a b => mul a b) cap rounds budget es = some s) ∧
      SysInv L1 L2 cap (arrangedInput (side1Events es)) (arrangedInput (side2Events es)) fin1 fin2 OB ok held result mul f s [] ∧
      (f.frontier1, f.frontier2) = lastRest ([⊥], [⊥]) es := by
  obtain ⟨fin1, _, _, r1, -⟩ := arranged_run_ok hcap (side1Events es) (AInv.init L1 effort1) hl1 (by rw [List.nil_append]; exact n1)
  obtain ⟨fin2, _, _, r2, -⟩ := arranged_run_ok hcap (side2Events es) (AInv.init L2 effort2) hl2 (by rw [List.nil_append]; exact n2)
  obtain ⟨s0, h0, i0⟩ := SysInv.init (L1 := L1) (L2 := L2) (result := result) (mul := mul) hB hl1 hl2 n1 n2 r1 r2 hcap
  obtain ⟨n, s, f, g1, g2, g3⟩ := i0.run hcap hB budget es (hes s0 h0)
  exact ⟨fin1, fin2, s0, n, s, f, h0, g1, g2, g3⟩

/-- What the join sends. -/
theorem SysInv.complete {L1 : TraceKindLaws Y1} {L2 : TraceKindLaws Y2} {cap : Nat} (hcap : 0 < cap) {all1 : Upds D1 T R1} {all2 : Upds D2 T R2} {fin1 : Arranged B1 N1 D1 T R1}
    {fin2 : Arranged B2 N2 D2 T R2} {OB : OutBuilder S O T M} {ok : S → Prop} {held : S → Upds O T M} {result : K → V1 → V2 → List O} {mul : R1 →+ R2 →+ M} {f : JoinFeed T}
    {s : JoinSys B1 N1 D1 V1 B2 N2 D2 V2 K T R1 R2 S O M} (h : SysInv L1 L2 cap all1 all2 fin1 fin2 OB ok held result mul f s []) {q : T}
    (n1 : ¬ Beyond f.frontier1 q) (n2 : ¬ Beyond f.frontier2 q) (hq : ∀ w ∈ s.join.todo0 ++ s.join.todo1, ¬ w.1 ≤ q) (d : O) :
    accum (s.join.sent.flatMap (·.2)) d q =
      accum (nestedJoin result (fun a b => mul a b) (all1.map fun u => (Y1.split u.1, u.2)) (all2.map fun u => (Y2.split u.1, u.2))) d q := by
  have hb : Beyond [⊥] q := ⟨⊥, by simp, bot_le⟩
  have e := h.join.complete hb hb n1 n2 hq d
  refine Eq.trans e ?_
  exact nestedJoin_congr (fun kv => h.side1.total hcap n1 kv) (fun kv => h.side2.total hcap n2 kv) d

/-- No event at the arrangements. -/
theorem sideEvents_rest {idle : List (JoinSysEv D1 D2 T R1 R2)} (h : ∀ e ∈ idle, ∃ G1 G2, e = .rest G1 G2) : side1Events idle = [] ∧ side2Events idle = [] := by
  induction idle with
  | nil => exact ⟨rfl, rfl⟩
  | cons e es ih =>
    obtain ⟨G1, G2, rfl⟩ := h _ (List.mem_cons_self ..)
    exact ih fun e he => h e (List.mem_cons_of_mem _ he)

theorem legalJoinSys_after {OB : OutBuilder S O T M} {logic : K → V1 → V2 → T → R1 → R2 → List (O × T × M)} {cap rounds : Nat} {budget : Int} {idle : List (JoinSysEv D1 D2 T R1 R2)}
    (es : List (JoinSysEv D1 D2 T R1 R2)) : ∀ {F : List T × List T} {s s' : JoinSys B1 N1 D1 V1 B2 N2 D2 V2 K T R1 R2 S O M},
    LegalJoinSys Y1 Y2 OB logic cap budget F s (es ++ idle) → s.run Y1 Y2 OB logic cap rounds budget es = some s' → LegalJoinSys Y1 Y2 OB logic cap budget (lastRest F es) s' idle := by
  induction es with
  | nil =>
    intro F s s' h hr
    rw [JoinSys.run, Option.some.injEq] at hr
    subst hr
    exact h
  | cons e es ih =>
    intro F s s' h hr
    rw [JoinSys.run] at hr
    cases hs : s.step Y1 Y2 OB logic cap rounds budget e with
    | none => rw [hs] at hr; exact absurd hr (by simp)
    | some s1 =>
      rw [hs] at hr
      exact ih (h.2 rounds s1 hs) hr

theorem joinSys_run_append {OB : OutBuilder S O T M} {logic : K → V1 → V2 → T → R1 → R2 → List (O × T × M)} {cap rounds : Nat} {budget : Int} {idle : List (JoinSysEv D1 D2 T R1 R2)}
    (es : List (JoinSysEv D1 D2 T R1 R2)) : ∀ {s s' : JoinSys B1 N1 D1 V1 B2 N2 D2 V2 K T R1 R2 S O M}, s.run Y1 Y2 OB logic cap rounds budget es = some s' →
    s.run Y1 Y2 OB logic cap rounds budget (es ++ idle) = s'.run Y1 Y2 OB logic cap rounds budget idle := by
  induction es with
  | nil =>
    intro s s' hr
    rw [JoinSys.run, Option.some.injEq] at hr
    subst hr
    rfl
  | cons e es ih =>
    intro s s' hr
    rw [JoinSys.run] at hr
    rw [List.cons_append, JoinSys.run]
    cases hs : s.step Y1 Y2 OB logic cap rounds budget e with
    | none => rw [hs] at hr; exact absurd hr (by simp)
    | some s1 =>
      rw [hs] at hr
      exact ih hr

/-- An activation of the join drains its queues. -/
theorem joinSys_rest {OB : OutBuilder S O T M} {logic : K → V1 → V2 → T → R1 → R2 → List (O × T × M)} {cap rounds : Nat} {budget : Int} {s s' : JoinSys B1 N1 D1 V1 B2 N2 D2 V2 K T R1 R2 S O M}
    {G1 G2 : List T} (h : s.step Y1 Y2 OB logic cap rounds budget (.rest G1 G2) = some s') :
    (∃ sent, drainQueue OB logic rounds budget s.join.todo0 = some (s'.join.todo0, sent)) ∧ ∃ sent, drainQueue OB logic rounds budget s.join.todo1 = some (s'.join.todo1, sent) := by
  simp only [JoinSys.step, joinEvents, sidesStep, JoinOp.run, JoinOp.step, JoinOp.onRest] at h
  cases h0 : drainQueue OB logic rounds budget s.join.todo0 with
  | none => rw [h0] at h; simp at h
  | some x =>
    cases h1 : drainQueue OB logic rounds budget s.join.todo1 with
    | none => rw [h0, h1] at h; simp at h
    | some y =>
      rw [h0, h1] at h
      simp only [Option.map_some, Option.some.injEq] at h
      subst h
      exact ⟨⟨_, rfl⟩, ⟨_, rfl⟩⟩

/-- Over idle activations, the queues become empty. -/
theorem SysInv.idle {L1 : TraceKindLaws Y1} {L2 : TraceKindLaws Y2} {cap : Nat} (hcap : 0 < cap) {all1 : Upds D1 T R1} {all2 : Upds D2 T R2} {fin1 : Arranged B1 N1 D1 T R1}
    {fin2 : Arranged B2 N2 D2 T R2} {OB : OutBuilder S O T M} {ok : S → Prop} {held : S → Upds O T M} (hB : OB.Keeps ok held) {result : K → V1 → V2 → List O} {mul : R1 →+ R2 →+ M}
    (budget : Int) (idle : List (JoinSysEv D1 D2 T R1 R2)) (hi : ∀ e ∈ idle, ∃ G1 G2, e = .rest G1 G2) : ∀ {f : JoinFeed T} {s : JoinSys B1 N1 D1 V1 B2 N2 D2 V2 K T R1 R2 S O M},
    SysInv L1 L2 cap all1 all2 fin1 fin2 OB ok held result mul f s idle →
    LegalJoinSys Y1 Y2 OB (joinCoreLogic result fun a b => mul a b) cap budget (f.frontier1, f.frontier2) s idle →
    EmptiesIn OB (joinCoreLogic result fun a b => mul a b) budget idle.length s.join.todo0 → EmptiesIn OB (joinCoreLogic result fun a b => mul a b) budget idle.length s.join.todo1 →
    ∃ n s', (∀ rounds, n ≤ rounds → s.run Y1 Y2 OB (joinCoreLogic result fun a b => mul a b) cap rounds budget idle = some s') ∧ s'.join.todo0 = [] ∧ s'.join.todo1 = [] := by
  induction idle with
  | nil => exact fun _ _ e0 e1 => ⟨0, _, fun _ _ => rfl, e0, e1⟩
  | cons e es ih =>
    intro f s h hl e0 e1
    obtain ⟨G1, G2, rfl⟩ := hi _ (List.mem_cons_self ..)
    obtain ⟨n, s1, f1, a1, a2, a3⟩ := h.step hcap hB budget hl.1
    have hl2 := hl.2 n s1 (a1 n le_rfl)
    rw [← a3] at hl2
    obtain ⟨⟨_, d0⟩, ⟨_, d1⟩⟩ := joinSys_rest (a1 n le_rfl)
    obtain ⟨m, s', b1, b2⟩ := ih (fun e he => hi e (List.mem_cons_of_mem _ he)) a2 hl2 (e0 n _ _ d0) (e1 n _ _ d1)
    refine ⟨max n m, s', ?_, b2⟩
    intro rounds hr
    rw [JoinSys.run, a1 rounds (le_trans (le_max_left _ _) hr)]
    exact b1 rounds (le_trans (le_max_right _ _) hr)

/-- The queues of the join become empty. -/
theorem SysInv.progress {L1 : TraceKindLaws Y1} {L2 : TraceKindLaws Y2} {cap : Nat} (hcap : 0 < cap) {all1 : Upds D1 T R1} {all2 : Upds D2 T R2} {fin1 : Arranged B1 N1 D1 T R1}
    {fin2 : Arranged B2 N2 D2 T R2} {OB : OutBuilder S O T M} {ok : S → Prop} {held : S → Upds O T M} (hB : OB.Keeps ok held) {result : K → V1 → V2 → List O} {mul : R1 →+ R2 →+ M}
    {budget : Int} (hb : 0 ≤ budget) {f : JoinFeed T} {s : JoinSys B1 N1 D1 V1 B2 N2 D2 V2 K T R1 R2 S O M} (h : SysInv L1 L2 cap all1 all2 fin1 fin2 OB ok held result mul f s []) :
    ∃ N, ∀ idle : List (JoinSysEv D1 D2 T R1 R2), N ≤ idle.length → (∀ e ∈ idle, ∃ G1 G2, e = .rest G1 G2) →
      LegalJoinSys Y1 Y2 OB (joinCoreLogic result fun a b => mul a b) cap budget (f.frontier1, f.frontier2) s idle →
      ∃ n s', (∀ rounds, n ≤ rounds → s.run Y1 Y2 OB (joinCoreLogic result fun a b => mul a b) cap rounds budget idle = some s') ∧ s'.join.todo0 = [] ∧ s'.join.todo1 = [] := by
  obtain ⟨W0, W1, v0, v1, -⟩ := h.join.value
  obtain ⟨N0, h0⟩ := exists_emptiesIn hB result mul hb _ s.join.todo0 W0 rfl v0
  obtain ⟨N1, h1⟩ := exists_emptiesIn hB result mul hb _ s.join.todo1 W1 rfl v1
  refine ⟨max N0 N1, fun idle hlen hr hl => ?_⟩
  obtain ⟨r1, r2⟩ := sideEvents_rest hr
  refine SysInv.idle (L1 := L1) (L2 := L2) (all1 := all1) (all2 := all2) hcap hB budget idle hr (f := f) ⟨h.join, h.pre1, h.pre2, ?_, ?_⟩ hl (h0.mono _ (by omega)) (h1.mono _ (by omega))
  · rw [r1]; exact h.side1
  · rw [r2]; exact h.side2

end final
end DD
