import Verif.Proofs.ArrangedSide
import Mathlib.Data.List.Perm.Subperm

/-!
# The invariant of an arrangement
-/

namespace DD
section count
variable {D T R : Type*} [LinearOrder D] [PartialOrder T] [OrderBot T] [DecidableLE T] [DecidableEq T] [LinearOrder (Lin T)] [AddCommMonoid R] [DecidableEq R]

theorem total_of_nodup : ∀ {us : Upds D T R}, (us.map fun u => (u.1, u.2.1)).Nodup → ∀ u ∈ us, total us u.1 u.2.1 = u.2.2
  | [], _, u, hu => by cases hu
  | a :: us, h, u, hu => by
    rw [List.map_cons, List.nodup_cons] at h
    rw [total_cons]
    rcases List.mem_cons.1 hu with rfl | hu
    · rw [if_pos ⟨rfl, rfl⟩]
      have : total us u.1 u.2.1 = 0 := by
        by_contra hne
        obtain ⟨r, hr⟩ := total_ne_zero_mem hne
        exact h.1 (List.mem_map.2 ⟨_, hr, rfl⟩)
      rw [this, add_zero]
    · rw [if_neg, zero_add, total_of_nodup h.2 u hu]
      rintro ⟨e1, e2⟩
      exact h.1 (List.mem_map.2 ⟨u, hu, by rw [e1, e2]⟩)

theorem ArrTiles.nodup {hi : List T} : ∀ {bs : List (ArrBatch D T R)} {lo : List T}, ArrTiles lo bs hi → ((bs.flatMap ArrBatch.upds).map fun u => (u.1, u.2.1)).Nodup
  | [], lo, h => by simp
  | b :: bs, lo, h => by
    obtain ⟨a1, a2, a3, a4, a5, a6, a7⟩ := h
    rw [List.flatMap_cons, List.map_append, List.nodup_append]
    refine ⟨?_, ArrTiles.nodup a7, ?_⟩
    · rw [List.Nodup, List.pairwise_map]
      refine a6.1.imp ?_
      rintro u v (h | ⟨h1, h2⟩) e
      · simp only [Prod.mk.injEq] at e
        rw [e.1] at h; exact lt_irrefl _ h
      · simp only [Prod.mk.injEq] at e
        rw [e.2] at h2; exact lt_irrefl _ h2
    · intro x hx y hy e
      obtain ⟨u, hu, rfl⟩ := List.mem_map.1 hx
      obtain ⟨v, hv, rfl⟩ := List.mem_map.1 hy
      simp only [Prod.mk.injEq] at e
      have := a7.lower v hv
      rw [← e.2] at this
      exact (a5 u hu).2 this

theorem ArrTiles.nonzero {hi : List T} : ∀ {bs : List (ArrBatch D T R)} {lo : List T}, ArrTiles lo bs hi → ∀ u ∈ bs.flatMap ArrBatch.upds, u.2.2 ≠ 0
  | [], lo, h => by simp
  | b :: bs, lo, h => by
    obtain ⟨a1, a2, a3, a4, a5, a6, a7⟩ := h
    intro u hu
    rw [List.flatMap_cons, List.mem_append] at hu
    rcases hu with hu | hu
    · exact a6.2 u hu
    · exact ArrTiles.nonzero a7 u hu

/-- There are no more updates in the trace than were received. -/
theorem ArrInv.length_le {recv : Upds D T R} {F : List T} {s : ArrState D T R} (h : ArrInv recv F s) : (s.writer.trace.flatMap ArrBatch.upds).length ≤ recv.length := by
  have h1 := h.tiles.nodup
  have h2 : (s.writer.trace.flatMap ArrBatch.upds).map (fun u => (u.1, u.2.1)) ⊆ recv.map fun u => (u.1, u.2.1) := by
    intro x hx
    obtain ⟨u, hu, rfl⟩ := List.mem_map.1 hx
    have hz : total (held s.batcher.chains) u.1 u.2.1 + total s.chunker.retained u.1 u.2.1 = 0 := by
      by_contra hne
      obtain ⟨c, hc, hcu⟩ := h.pending _ _ hne
      exact h.tiles.complete u hu ((beyond_perm h.upper _).2 (beyond_mono (h.capsF c hc) hcu))
    have h3 := h.sum u.1 u.2.1
    rw [hz, add_zero, total_of_nodup h1 u hu] at h3
    obtain ⟨r, hr⟩ := total_ne_zero_mem (by rw [h3]; exact h.tiles.nonzero u hu)
    exact List.mem_map.2 ⟨_, hr, rfl⟩
  have := (List.subperm_of_subset h1 h2).length_le
  simpa using this

end count

variable {B N D K V T R : Type*} [LinearOrder D] [LinearOrder K] [LinearOrder V] [Lattice T] [OrderBot T] [DecidableLE T] [DecidableEq T] [LinearOrder (Lin T)]
    [AddCommMonoid R] [DecidableEq R] {Y : TraceKind B N D K V T R}

/-- A batch in the trace, and the batch of the operator that it stands for. -/
structure Mirror (L : TraceKindLaws Y) (b : ArrBatch D T R) (v : B) : Prop where
  ok : L.laws.Ok v
  lower : Y.ops.lower v = b.desc.lower
  upper : Y.ops.upper v = b.desc.upper
  since : L.laws.since v = [⊥]
  len : Y.ops.len v = b.upds.length
  acc : ∀ x q, L.laws.acc v x q = accum b.upds x q

/-- A message on the stream, and the message of the operator that it stands for. -/
structure MirrorMsg (L : TraceKindLaws Y) (x : T × ArrBatch D T R) (y : T × B) : Prop where
  time : y.1 = x.1
  mirror : Mirror L x.2 y.2
  read : ∃ c, Y.read [y.2] = some c ∧ ShowsBatch c (x.2.upds.map fun u => (Y.split u.1, u.2))

theorem buildAll_spec (L : TraceKindLaws Y) : ∀ (ns : List (T × ArrBatch D T R)),
    (∀ x ∈ ns, Consolidated x.2.upds ∧ IsAntichainList x.2.desc.lower ∧ IsAntichainList x.2.desc.upper ∧ x.2.desc.since = [⊥]) →
    ∃ msgs, Arranged.buildAll Y ns = some msgs ∧ List.Forall₂ (MirrorMsg L) ns msgs
  | [], _ => ⟨[], rfl, .nil⟩
  | (c, b) :: ns, h => by
    obtain ⟨h1, h2, h3, h4⟩ := h _ List.mem_cons_self
    obtain ⟨v, g1, g2, g3, g4, g5, g6, g7, g8⟩ := L.build_ok b.upds b.desc h1 h2 h3
    obtain ⟨msgs, k1, k2⟩ := buildAll_spec L ns fun x hx => h x (List.mem_cons_of_mem _ hx)
    refine ⟨(c, v) :: msgs, by rw [Arranged.buildAll, g1, k1], .cons ⟨rfl, ⟨g2, g3, g4, by rw [g5, h4], g6, g7⟩, g8⟩ k2⟩

theorem mirror_empty (L : TraceKindLaws Y) {b : ArrBatch D T R} (h : b.upds = []) (h1 : IsAntichainList b.desc.lower) (h2 : IsAntichainList b.desc.upper)
    (h3 : FrontierLe b.desc.lower b.desc.upper) : Mirror L b (Y.ops.empty b.desc.lower b.desc.upper) := by
  have ok := L.laws.empty_ok _ _ h1 h2 h3
  refine ⟨ok, L.laws.empty_lower _ _, L.laws.empty_upper _ _, L.empty_since _ _, by rw [L.laws.empty_len, h]; rfl, fun x q => ?_⟩
  rw [L.laws.acc_of_len _ ok (L.laws.empty_len _ _), h]; rfl

theorem mirror_lens {L : TraceKindLaws Y} {bs : List (ArrBatch D T R)} {vs : List B} (h : List.Forall₂ (Mirror L) bs vs) :
    lens Y.ops vs = (bs.flatMap ArrBatch.upds).length := by
  induction h with
  | nil => rfl
  | cons h _ ih => rw [lens_cons, ih, h.len, List.flatMap_cons, List.length_append]

/-- Inserting mirrored batches that tile. -/
theorem inserts_inv {L : TraceKindLaws Y} {hi : List T} : ∀ {nt : List (ArrBatch D T R)} {ws : List B}, List.Forall₂ (Mirror L) nt ws → ∀ {s : Spine B N T} {ins : List B} {budget : Nat},
    SpineInv L.laws s ins budget → Stuck Y.ops s → ArrTiles s.upper nt hi → (lens Y.ops (ins ++ ws) : Int) < isizeMax →
    ∃ s' budget', s.run Y.ops (ws.map .insert) = some s' ∧ SpineInv L.laws s' (ins ++ ws) budget' ∧ Stuck Y.ops s' ∧ s'.logical_frontier = s.logical_frontier ∧
      s'.physical_frontier = s.physical_frontier := by
  intro nt ws h
  induction h with
  | nil => intro s ins budget h1 h2 _ _; exact ⟨s, budget, rfl, by simpa using h1, h2, rfl, rfl⟩
  | @cons b v nt ws hbv _ ih =>
    intro s ins budget h1 h2 h3 h4
    obtain ⟨a1, a2, a3, a4, a5, a6, a7⟩ := h3
    have hlen : (lens Y.ops (ins ++ [v]) : Int) < isizeMax := by
      rw [lens_append, lens_cons] at h4
      rw [lens_append, lens_cons]
      simp only [lens, List.map_nil, List.sum_nil] at h4 ⊢
      omega
    obtain ⟨s1, g1, g2, g3, g4, g5, g6⟩ := insert_inv h1 hbv.ok (by rw [hbv.lower]; exact a1.symm) (by rw [hbv.lower, hbv.upper]; exact a3) (by rw [hbv.lower, hbv.upper]; exact a2) hlen
    have e : ins ++ v :: ws = ins ++ [v] ++ ws := by simp
    rw [e] at h4 ⊢
    obtain ⟨s2, bu, k1, k2, k3, k4, k5⟩ := ih g2 g6 (by rw [g3, hbv.upper]; exact a7) h4
    refine ⟨s2, bu, ?_, k2, k3, by rw [k4, g4], by rw [k5, g5]⟩
    rw [List.map_cons, Spine.run, List.foldlM_cons]
    show (s.step Y.ops (.insert v)).bind _ = _
    rw [show s.step Y.ops (.insert v) = some s1 from g1]
    exact k1

/-- What holds of an arrangement. `done` are the messages that the reader has received, `vs` the batches inserted into the trace. -/
structure AInv (L : TraceKindLaws Y) (recv : Upds D T R) (F logical physical : List T) (done : List (T × ArrBatch D T R)) (a : Arranged B N D T R) (vs : List B) : Prop where
  arr : ArrInv recv F a.arr
  mirror : List.Forall₂ (Mirror L) a.arr.writer.trace vs
  spine : ∃ budget, SpineInv L.laws a.spine vs budget
  stuck : Stuck Y.ops a.spine
  logical : FrontierLe a.spine.logical_frontier logical
  physical : FrontierLe a.spine.physical_frontier physical
  queue : ∃ rest, a.arr.sent = done ++ rest ∧ List.Forall₂ (MirrorMsg L) rest a.queue

theorem AInv.init (L : TraceKindLaws Y) (effort : Nat) : AInv L [] [⊥] [⊥] [⊥] [] (Arranged.init effort) [] where
  arr := ArrInv.init
  mirror := .nil
  spine := ⟨0, SpineInv.init effort⟩
  stuck := by intro b hb; simp [Arranged.init, Spine.init] at hb
  logical := fun q h => h
  physical := fun q h => h
  queue := ⟨[], rfl, .nil⟩

theorem forall₂_append_left {α β : Type*} {P : α → β → Prop} : ∀ {l l' : List α} {vs : List β}, List.Forall₂ P (l ++ l') vs →
    ∃ vs1 vs2, vs = vs1 ++ vs2 ∧ List.Forall₂ P l vs1 ∧ List.Forall₂ P l' vs2
  | [], l', vs, h => ⟨[], vs, rfl, .nil, h⟩
  | x :: l, l', vs, h => by
    cases h with
    | @cons _ v _ vs h1 h2 =>
      obtain ⟨vs1, vs2, rfl, h3, h4⟩ := forall₂_append_left h2
      exact ⟨v :: vs1, vs2, rfl, .cons h1 h3, h4⟩

theorem mirror_beyond {L : TraceKindLaws Y} {G : List T} {ns : List (T × ArrBatch D T R)} {msgs : List (T × B)} (h : List.Forall₂ (MirrorMsg L) ns msgs)
    (hns : ∀ x ∈ ns, Beyond G x.1) : ∀ m ∈ msgs, Beyond G m.1 := by
  induction h with
  | nil => simp
  | cons hx _ ih =>
    intro m hm
    rcases List.mem_cons.1 hm with rfl | hm
    · rw [hx.time]; exact hns _ List.mem_cons_self
    · exact ih (fun x hx => hns x (List.mem_cons_of_mem _ hx)) m hm

theorem mirror_boundary {L : TraceKindLaws Y} {bs : List (ArrBatch D T R)} {vs : List B} (h : List.Forall₂ (Mirror L) bs vs) : Spine.boundary Y.ops vs = tileEnd bs := by
  rcases List.eq_nil_or_concat' bs with rfl | ⟨l, b, rfl⟩
  · cases h; rfl
  · obtain ⟨vs1, vs2, rfl, h1, h2⟩ := forall₂_append_left h
    cases h2 with
    | cons h2 h3 =>
      cases h3
      rw [tileEnd_snoc, Spine.boundary, List.getLast?_append]
      exact h2.upper

theorem AInv.upper {L : TraceKindLaws Y} {recv : Upds D T R} {F lg ph : List T} {done : List (T × ArrBatch D T R)} {a : Arranged B N D T R} {vs : List B}
    (h : AInv L recv F lg ph done a vs) : a.spine.upper.Perm a.arr.writer.upper := by
  obtain ⟨budget, hs⟩ := h.spine
  refine (contig_boundary hs.contig).trans ?_
  rw [mirror_boundary h.mirror]
  exact h.arr.tiles.end_perm.symm

theorem ArrTiles.bounds {hi lo : List T} {bs : List (ArrBatch D T R)} (h : ArrTiles lo bs hi) (hlo : IsAntichainList lo) :
    ∀ b ∈ bs, Consolidated b.upds ∧ IsAntichainList b.desc.lower ∧ IsAntichainList b.desc.upper ∧ FrontierLe b.desc.lower b.desc.upper := by
  induction bs generalizing lo with
  | nil => simp
  | cons x bs ih =>
    obtain ⟨a1, a2, a3, a4, a5, a6, a7⟩ := h
    intro b hb
    rcases List.mem_cons.1 hb with rfl | hb
    · exact ⟨a6, isAntichain_perm a1 hlo, a4, a2⟩
    · exact ih a7 a4 b hb

theorem AInv.lens {L : TraceKindLaws Y} {recv : Upds D T R} {F lg ph : List T} {done : List (T × ArrBatch D T R)} {a : Arranged B N D T R} {vs : List B}
    (h : AInv L recv F lg ph done a vs) : lens Y.ops vs ≤ recv.length := by
  rw [mirror_lens h.mirror]; exact h.arr.length_le

/-- An activation. -/
theorem AInv.activate {L : TraceKindLaws Y} {cap : Nat} (hcap : 0 < cap) {recv : Upds D T R} {F lg ph : List T} {done : List (T × ArrBatch D T R)} {a : Arranged B N D T R}
    {vs : List B} (h : AInv L recv F lg ph done a vs) (act : ArrAct D T R) (hm : ∀ m ∈ act.msgs, Beyond F m.1 ∧ ∀ u ∈ m.2, m.1 ≤ u.1.2.1) (hF' : IsAntichainList act.frontier)
    (hle : ∀ f ∈ act.frontier, Beyond F f) (hlen : ((recv ++ act.msgs.flatMap fun m => m.2.map Prod.fst).length : Int) < isizeMax) :
    ∃ a' vs', a.activate Y cap act = some a' ∧ AInv L (recv ++ act.msgs.flatMap fun m => m.2.map Prod.fst) act.frontier lg ph done a' vs' ∧
      a.arr.writer.trace <+: a'.arr.writer.trace ∧ a'.spine.logical_frontier = a.spine.logical_frontier ∧ a'.spine.physical_frontier = a.spine.physical_frontier ∧
      a.queue <+: a'.queue ∧
      ∀ G, (∀ m ∈ a.queue, Beyond G m.1) → (∀ c ∈ a.arr.capabilities, Beyond G c) → (∀ m ∈ act.msgs, Beyond G m.1) →
        (∀ m ∈ a'.queue, Beyond G m.1) ∧ ∀ c ∈ a'.arr.capabilities, Beyond G c := by
  obtain ⟨arr, h1, i1⟩ := h.arr.activate hcap act hm hF' hle
  obtain ⟨ns, nt, e1, e2, e3, e4⟩ := activate_ext h1
  obtain ⟨rest, q1, q2⟩ := h.queue
  have ht := i1.tiles
  rw [e2] at ht
  obtain ⟨t1, t2⟩ := ht.at
  have hb := t2.bounds ht.antichain
  have hsince : ∀ b ∈ nt, b.desc.since = [⊥] := fun b hb => i1.since b (by rw [e2]; exact List.mem_append_right _ hb)
  obtain ⟨msgs, m1, m2⟩ := buildAll_spec L ns (by
    intro x hx
    have hx' : x.2 ∈ nt := by
      rcases e3 with e3 | ⟨e3, -⟩
      · rw [e3]; exact List.mem_map_of_mem hx
      · rw [e3] at hx; cases hx
    obtain ⟨b1, b2, b3, b4⟩ := hb _ hx'
    exact ⟨b1, b2, b3, hsince _ hx'⟩)
  have hms : List.Forall₂ (Mirror L) (ns.map Prod.snd) (msgs.map Prod.snd) := by
    rw [List.forall₂_map_left_iff, List.forall₂_map_right_iff]
    exact m2.imp fun _ _ h => h.mirror
  obtain ⟨ws, hws, hwm⟩ : ∃ ws, (if msgs.isEmpty then (arr.writer.trace.drop a.arr.writer.trace.length).map fun b => Y.ops.empty b.desc.lower b.desc.upper
      else msgs.map Prod.snd) = ws ∧ List.Forall₂ (Mirror L) nt ws := by
    have edrop : arr.writer.trace.drop a.arr.writer.trace.length = nt := by rw [e2, List.drop_left]
    rw [edrop]
    rcases e3 with rfl | ⟨rfl, e3⟩
    · cases m2 with
      | nil => exact ⟨[], rfl, .nil⟩
      | cons _ _ => exact ⟨_, rfl, hms⟩
    · cases m2
      refine ⟨_, rfl, ?_⟩
      show List.Forall₂ _ nt (List.map _ nt)
      rw [List.forall₂_map_right_iff, List.forall₂_same]
      intro b hb'
      obtain ⟨b1, b2, b3, b4⟩ := hb b hb'
      exact mirror_empty L (e3 b hb') b2 b3 b4
  obtain ⟨budget, hs⟩ := h.spine
  have hmir : List.Forall₂ (Mirror L) arr.writer.trace (vs ++ ws) := by
    rw [e2]; exact List.rel_append h.mirror hwm
  have hl : (DD.lens Y.ops (vs ++ ws) : Int) < isizeMax := by
    rw [mirror_lens hmir]
    have := i1.length_le
    omega
  obtain ⟨s', bu, k1, k2, k3, k4, k5⟩ := inserts_inv hwm hs h.stuck (t2.permLeft (h.upper.trans h.arr.tiles.end_perm)) hl
  refine ⟨⟨arr, s', a.queue ++ msgs⟩, vs ++ ws, ?_, ⟨i1, hmir, ⟨bu, k2⟩, k3, by show FrontierLe s'.logical_frontier lg; rw [k4]; exact h.logical,
    by show FrontierLe s'.physical_frontier ph; rw [k5]; exact h.physical, rest ++ ns, by rw [e1, q1, List.append_assoc], List.rel_append q2 m2⟩,
    ⟨nt, e2.symm⟩, k4, k5, ⟨msgs, rfl⟩, ?_⟩
  · have edrop : arr.sent.drop a.arr.sent.length = ns := by rw [e1, List.drop_left]
    unfold Arranged.activate
    rw [h1]
    simp only
    rw [edrop, m1]
    simp only
    rw [hws, k1]
  · intro G g1 g2 g3
    obtain ⟨g4, g5⟩ := e4 G g2 g3
    refine ⟨?_, g4⟩
    intro m hm'
    rcases List.mem_append.1 hm' with hm' | hm'
    · exact g1 m hm'
    · exact mirror_beyond m2 g5 m hm'

/-- Permission to compact. -/
theorem AInv.compact {L : TraceKindLaws Y} {recv : Upds D T R} {F lg ph : List T} {done : List (T × ArrBatch D T R)} {a : Arranged B N D T R}
    {vs : List B} (h : AInv L recv F lg ph done a vs) {G P : List T} (hG : FrontierLe lg G) (hP : FrontierLe ph P) (hlen : (recv.length : Int) < isizeMax) :
    ∃ a', a.compact Y G P = some a' ∧ AInv L recv F G P done a' vs ∧ a'.arr = a.arr ∧ a'.queue = a.queue ∧ FrontierLe G a'.spine.logical_frontier := by
  obtain ⟨budget, hs⟩ := h.spine
  obtain ⟨s1, s2, s3⟩ := setLogical_inv hs (h.logical.trans hG)
  have hl : (DD.lens Y.ops vs : Int) < isizeMax := by have := h.lens; omega
  obtain ⟨s', r1, r2, r3, r4, r5, r6, r7⟩ := setPhysical_inv (F := P) s1 (show FrontierLe a.spine.physical_frontier P from h.physical.trans hP) hl
  refine ⟨{ a with spine := s' }, ?_, ⟨h.arr, h.mirror, ⟨_, r2⟩, r7, ?_, r5, h.queue⟩, rfl, rfl, ?_⟩
  · unfold Arranged.compact
    have : a.spine.run Y.ops [.setLogical G, .setPhysical P] = some s' := by
      rw [Spine.run, List.foldlM_cons]
      show (some (a.spine.setLogical G)).bind _ = _
      rw [Option.bind_some, List.foldlM_cons]
      show ((a.spine.setLogical G).setPhysical Y.ops P).bind _ = _
      rw [r1]; rfl
    rw [this]
  · show FrontierLe s'.logical_frontier G
    rw [r4]; exact s2
  · show FrontierLe G s'.logical_frontier
    rw [r4]; exact s3

/-- Effort on merges. -/
theorem AInv.exert {L : TraceKindLaws Y} {recv : Upds D T R} {F lg ph : List T} {done : List (T × ArrBatch D T R)} {a : Arranged B N D T R}
    {vs : List B} (h : AInv L recv F lg ph done a vs) (effort : Option Nat) (hlen : (recv.length : Int) < isizeMax) :
    ∃ a', a.exert Y effort = some a' ∧ AInv L recv F lg ph done a' vs ∧ a'.arr = a.arr ∧ a'.queue = a.queue ∧ a'.spine.logical_frontier = a.spine.logical_frontier ∧
      a'.spine.physical_frontier = a.spine.physical_frontier := by
  obtain ⟨budget, hs⟩ := h.spine
  have hl : (DD.lens Y.ops vs : Int) < isizeMax := by have := h.lens; omega
  obtain ⟨s', r1, r2, r3, r4, r5, r6⟩ := exert_inv hs effort hl
  refine ⟨{ a with spine := s' }, ?_, ⟨h.arr, h.mirror, ⟨_, r2⟩, ?_, ?_, ?_, h.queue⟩, rfl, rfl, r4, r5⟩
  · unfold Arranged.exert
    have : a.spine.run Y.ops [.exert effort] = some s' := by
      rw [Spine.run, List.foldlM_cons]
      show (a.spine.exert Y.ops effort).bind _ = _
      rw [r1]; rfl
    rw [this]
  · have := h.stuck
    unfold Stuck at this ⊢
    simp only
    rw [r6, r5]; exact this
  · show FrontierLe s'.logical_frontier lg
    rw [r4]; exact h.logical
  · show FrontierLe s'.physical_frontier ph
    rw [r5]; exact h.physical

/-- A message is taken. -/
theorem AInv.take {L : TraceKindLaws Y} {recv : Upds D T R} {F lg ph : List T} {done : List (T × ArrBatch D T R)} {a : Arranged B N D T R}
    {vs : List B} (h : AInv L recv F lg ph done a vs) {y : T × B} {ys : List (T × B)} (hq : a.queue = y :: ys) :
    ∃ x, MirrorMsg L x y ∧ done ++ [x] <+: a.arr.sent ∧ AInv L recv F lg ph (done ++ [x]) { a with queue := ys } vs := by
  obtain ⟨rest, q1, q2⟩ := h.queue
  rw [hq] at q2
  cases q2 with
  | @cons x _ rest _ hx q2 =>
    refine ⟨x, hx, ⟨rest, by rw [q1]; simp⟩, ⟨h.arr, h.mirror, h.spine, h.stuck, h.logical, h.physical, rest, ?_, q2⟩⟩
    show a.arr.sent = _
    rw [q1]; simp

end DD
