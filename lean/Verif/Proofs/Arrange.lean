import Verif.Spec.Arrange
import Verif.Proofs.Containers
import Verif.Proofs.MergeBatcher
import Verif.Proofs.SpineRun

/-! # Proofs about `arrange_core` -/

namespace DD
variable {D T R : Type*} [LinearOrder D] [PartialOrder T] [LinearOrder (Lin T)] [AddCommMonoid R] [DecidableEq R] [DecidableLE T] [DecidableEq T]

theorem ArrTiles.snoc {b : ArrBatch D T R} {hi : List T} : ∀ {bs : List (ArrBatch D T R)} {lo mid : List T}, ArrTiles lo bs mid →
    ArrTiles mid [b] hi → ArrTiles lo (bs ++ [b]) hi
  | [], lo, mid, h1, h2 => ⟨h1.trans h2.1, h2.2⟩
  | a :: bs, lo, mid, h1, h2 => by
    obtain ⟨a1, a2, a3, a4, a5, a6, a7⟩ := h1
    exact ⟨a1, a2, a3, a4, a5, a6, ArrTiles.snoc a7 h2⟩

theorem ArrTiles.permRight {hi hi' : List T} (h : hi.Perm hi') : ∀ {bs : List (ArrBatch D T R)} {lo : List T}, ArrTiles lo bs hi →
    ArrTiles lo bs hi'
  | [], lo, h1 => List.Perm.trans h1 h
  | a :: bs, lo, h1 => by
    obtain ⟨a1, a2, a3, a4, a5, a6, a7⟩ := h1
    exact ⟨a1, a2, a3, a4, a5, a6, ArrTiles.permRight h a7⟩

theorem ArrSent.snoc {b : ArrBatch D T R} {c : T} (h1 : Beyond b.desc.lower c) (h2 : ¬ Beyond b.desc.upper c) (h3 : ∀ u ∈ b.upds, c ≤ u.2.1) :
    ∀ {bs : List (ArrBatch D T R)} {sent : List (T × ArrBatch D T R)}, ArrSent sent bs → ArrSent (sent ++ [(c, b)]) (bs ++ [b])
  | [], sent, h => by
    simp only [ArrSent] at h; subst h
    exact Or.inl ⟨c, [], rfl, h1, h2, h3, rfl⟩
  | a :: bs, sent, h => by
    rcases h with ⟨c', rest, rfl, g1, g2, g3, g4⟩ | ⟨g1, g2⟩
    · exact Or.inl ⟨c', rest ++ [(c, b)], rfl, g1, g2, g3, ArrSent.snoc h1 h2 h3 g4⟩
    · exact Or.inr ⟨g1, ArrSent.snoc h1 h2 h3 g2⟩

theorem ArrSent.snoc_silent {b : ArrBatch D T R} (h1 : b.upds = []) :
    ∀ {bs : List (ArrBatch D T R)} {sent : List (T × ArrBatch D T R)}, ArrSent sent bs → ArrSent sent (bs ++ [b])
  | [], sent, h => by
    simp only [ArrSent] at h; subst h
    exact Or.inr ⟨h1, rfl⟩
  | a :: bs, sent, h => by
    rcases h with ⟨c', rest, rfl, g1, g2, g3, g4⟩ | ⟨g1, g2⟩
    · exact Or.inl ⟨c', rest, rfl, g1, g2, g3, ArrSent.snoc_silent h1 g4⟩
    · exact Or.inr ⟨g1, ArrSent.snoc_silent h1 g2⟩

theorem ArrTiles.le {hi : List T} : ∀ {bs : List (ArrBatch D T R)} {lo : List T}, ArrTiles lo bs hi → FrontierLe lo hi
  | [], lo, h => fun q hq => by
    obtain ⟨f, hf, hq⟩ := hq; exact ⟨f, List.Perm.subset (List.Perm.symm h) hf, hq⟩
  | a :: bs, lo, h => by
    obtain ⟨a1, a2, a3, a4, a5, a6, a7⟩ := h
    intro q hq
    obtain ⟨f, hf, hq⟩ := a2 q (ArrTiles.le a7 q hq)
    exact ⟨f, a1.symm.subset hf, hq⟩

/-- Nothing in the batches is beyond their last upper frontier. -/
theorem ArrTiles.complete {hi : List T} : ∀ {bs : List (ArrBatch D T R)} {lo : List T}, ArrTiles lo bs hi →
    ∀ u ∈ bs.flatMap ArrBatch.upds, ¬ Beyond hi u.2.1
  | [], lo, h => by simp
  | a :: bs, lo, h => by
    obtain ⟨a1, a2, a3, a4, a5, a6, a7⟩ := h
    intro u hu
    rw [List.flatMap_cons, List.mem_append] at hu
    rcases hu with hu | hu
    · exact fun hb => (a5 u hu).2 (ArrTiles.le a7 _ hb)
    · exact ArrTiles.complete a7 u hu

theorem total_ne_zero_mem {us : Upds D T R} {d : D} {t : T} (h : total us d t ≠ 0) : ∃ r, (d, t, r) ∈ us := by
  induction us with
  | nil => simp at h
  | cons u us ih =>
    rw [total_cons] at h
    by_cases hu : u.1 = d ∧ u.2.1 = t
    · exact ⟨u.2.2, by rw [← hu.1, ← hu.2]; simp⟩
    · rw [if_neg hu, zero_add] at h
      obtain ⟨r, hr⟩ := ih h
      exact ⟨r, List.mem_cons_of_mem _ hr⟩

/-- The chunker accepts any container. -/
theorem pushAll_spec : ∀ (data : List ((D × T × R) × Bool)) (c : Chunker D T R), (∀ x ∈ c.ready, GoodChunk x) →
    ∃ c', ArrState.pushAll c data = some c' ∧ (∀ x ∈ c'.ready, GoodChunk x) ∧
      ∀ d t, total c'.retained d t = total c.retained d t + total (data.map Prod.fst) d t
  | [], c, hc => ⟨c, rfl, hc, fun d t => by simp⟩
  | (u, full) :: rest, c, hc => by
    obtain ⟨c1, out, h1, h2, h3, h4⟩ := Chunker.step_spec c (.push u (if full then 1 else 0)) hc
    have hf : ((if full then 1 else 0 : Nat) != 0) = full := by cases full <;> rfl
    simp only [Chunker.step, hf] at h1
    cases hp : c.pushItem u full with
    | none => rw [hp] at h1; simp at h1
    | some c2 =>
      rw [hp] at h1
      simp only [Option.map_some, Option.some.injEq, Prod.mk.injEq] at h1
      obtain ⟨rfl, rfl⟩ := h1
      obtain ⟨c', g1, g2, g3⟩ := pushAll_spec rest c2 h3
      refine ⟨c', by simp only [ArrState.pushAll, hp, g1], g2, fun d t => ?_⟩
      have := h2 d t
      simp only [Option.getD_none, total_nil, zero_add, pushedBy, List.flatMap_cons, List.flatMap_nil, List.append_nil] at this
      rw [g3, this, List.map_cons, total_cons, total_cons, total_nil, add_zero, add_assoc]

theorem drainExtract_spec (cap : Nat) (hcap : 0 < cap) : ∀ (n : Nat) (c : Chunker D T R) (b : MergeBatcher D T R), (∀ x ∈ c.ready, GoodChunk x) →
    BatcherOk b.chains →
    (∀ x ∈ (ArrState.drainExtract cap n c b).1.ready, GoodChunk x) ∧ BatcherOk (ArrState.drainExtract cap n c b).2.chains ∧
    (ArrState.drainExtract cap n c b).2.lower = b.lower ∧
    ∀ d t, total (held (ArrState.drainExtract cap n c b).2.chains) d t + total (ArrState.drainExtract cap n c b).1.retained d t
      = total (held b.chains) d t + total c.retained d t
  | 0, c, b, hc, hb => ⟨hc, hb, rfl, fun _ _ => rfl⟩
  | n + 1, c, b, hc, hb => by
    obtain ⟨e1, e2, e3, -⟩ := Chunker.extract_spec c [] hc
    unfold ArrState.drainExtract
    generalize c.extract [] = r at e1 e2 e3
    obtain ⟨c1, out⟩ := r
    cases out with
    | none =>
      refine ⟨e2, hb, rfl, fun d t => ?_⟩
      have := e1 d t
      simp only [Option.getD_none, total_nil, zero_add] at this
      show _ + total c1.retained d t = _
      rw [this]
    | some chunk =>
      obtain ⟨g1, g2⟩ := e3 chunk rfl
      obtain ⟨p1, p2⟩ := push_ok cap hcap b chunk hb g1 g2
      obtain ⟨i1, i2, i3, i4⟩ := drainExtract_spec cap hcap n c1 (b.push cap chunk) e2 p1
      refine ⟨i1, i2, i3, fun d t => ?_⟩
      have := e1 d t
      simp only [Option.getD_some] at this
      show total (held (ArrState.drainExtract cap n c1 (b.push cap chunk)).2.chains) d t + _ = _
      rw [i4, p2, ← this, add_assoc]

theorem drainFinish_done (cap : Nat) (hcap : 0 < cap) : ∀ (n : Nat) (c : Chunker D T R) (b : MergeBatcher D T R), (∀ x ∈ c.ready, GoodChunk x) →
    BatcherOk b.chains → c.pending = [] → c.ready.length ≤ n →
    ∃ c' b', ArrState.drainFinish cap n c b = some (c', b') ∧ c'.pending = [] ∧ c'.ready = [] ∧ BatcherOk b'.chains ∧ b'.lower = b.lower ∧
      ∀ d t, total (held b'.chains) d t = total (held b.chains) d t + total c.retained d t
  | 0, c, b, hc, hb, hp, hn => by
    have : c.ready = [] := List.length_eq_zero_iff.1 (by omega)
    exact ⟨c, b, rfl, hp, this, hb, rfl, fun d t => by simp [Chunker.retained, hp, this]⟩
  | n + 1, c, b, hc, hb, hp, hn => by
    obtain ⟨c1, out, h1, e1, e2, e3, e4, e5, e6⟩ := Chunker.finish_spec c [] hc
    unfold ArrState.drainFinish
    rw [h1]
    cases out with
    | none =>
      refine ⟨c1, b, rfl, e4, e6 rfl, hb, rfl, fun d t => ?_⟩
      have := e1 d t
      simp only [Option.getD_none, total_nil, zero_add, Chunker.retained, e4, e6 rfl, List.flatten_nil, List.append_nil] at this
      rw [Chunker.retained, ← this, add_zero]
    | some chunk =>
      obtain ⟨g1, g2⟩ := e3 chunk rfl
      obtain ⟨p1, p2⟩ := push_ok cap hcap b chunk hb g1 g2
      obtain ⟨c', b', i1, i2, i3, i4, i5, i6⟩ := drainFinish_done cap hcap n c1 (b.push cap chunk) e2 p1 e4
        (by rw [e5 hp]; simp only [List.length_tail]; omega)
      refine ⟨c', b', i1, i2, i3, i4, i5, fun d t => ?_⟩
      rw [i6, p2, ← e1 d t, Option.getD_some, add_assoc]

theorem extract_length (c : Chunker D T R) (l : Upds D T R) : (c.extract l).1.ready.length ≤ c.ready.length := by
  unfold Chunker.extract
  cases h : c.ready with
  | nil => simp [h]
  | cons r rs => simp

theorem drainFinish_spec (cap : Nat) (hcap : 0 < cap) (c : Chunker D T R) (b : MergeBatcher D T R) (hc : ∀ x ∈ c.ready, GoodChunk x)
    (hb : BatcherOk b.chains) :
    ∃ c' b', ArrState.drainFinish cap (c.ready.length + 2) c b = some (c', b') ∧ c'.pending = [] ∧ c'.ready = [] ∧ BatcherOk b'.chains ∧
      b'.lower = b.lower ∧ ∀ d t, total (held b'.chains) d t = total (held b.chains) d t + total c.retained d t := by
  obtain ⟨c1, out, h1, e1, e2, e3, e4, e5, e6⟩ := Chunker.finish_spec c [] hc
  rw [ArrState.drainFinish, h1]
  cases out with
  | none =>
    refine ⟨c1, b, rfl, e4, e6 rfl, hb, rfl, fun d t => ?_⟩
    have := e1 d t
    simp only [Option.getD_none, total_nil, zero_add, Chunker.retained, e4, e6 rfl, List.flatten_nil, List.append_nil] at this
    rw [Chunker.retained, ← this, add_zero]
  | some chunk =>
    obtain ⟨g1, g2⟩ := e3 chunk rfl
    obtain ⟨p1, p2⟩ := push_ok cap hcap b chunk hb g1 g2
    have hlen : c1.ready.length ≤ c.ready.length + 1 := by
      unfold Chunker.finish at h1
      split_ifs at h1 with hp
      · simp only [consolidateInto, consolidateUpdates_eq, Option.some.injEq] at h1
        have := congrArg (fun x => x.1.ready.length) h1
        simp only at this
        rw [← this]
        refine le_trans (extract_length _ _) ?_
        split_ifs <;> simp
      · rw [e5 (by simpa using hp)]; simp only [List.length_tail]; omega
    obtain ⟨c', b', i1, i2, i3, i4, i5, i6⟩ := drainFinish_done cap hcap (c.ready.length + 1) c1 (b.push cap chunk) e2 p1 e4 hlen
    refine ⟨c', b', i1, i2, i3, i4, i5, fun d t => ?_⟩
    rw [i6, p2, ← e1 d t, Option.getD_some, add_assoc]

variable [OrderBot T]

/-- What holds of the operator's state between activations. -/
structure ArrInv (recv : Upds D T R) (F : List T) (s : ArrState D T R) : Prop where
  front : IsAntichainList F
  prev : s.prevFrontier.Perm F
  upper : s.writer.upper.Perm F
  batcher : BatcherOk s.batcher.chains
  chunker : ∀ x ∈ s.chunker.ready, GoodChunk x
  lower : s.batcher.lower = s.writer.upper
  caps : IsAntichainList s.capabilities
  capsF : ∀ c ∈ s.capabilities, Beyond F c
  pending : ∀ d t, total (held s.batcher.chains) d t + total s.chunker.retained d t ≠ 0 → Beyond s.capabilities t
  sum : ∀ d t, total recv d t = total (s.writer.trace.flatMap ArrBatch.upds) d t + (total (held s.batcher.chains) d t + total s.chunker.retained d t)
  tiles : ArrTiles [⊥] s.writer.trace s.writer.upper
  since : ∀ b ∈ s.writer.trace, b.desc.since = [⊥]
  sent : ArrSent s.sent s.writer.trace

theorem ArrInv.init : ArrInv ([] : Upds D T R) [⊥] ArrState.init where
  front := isAntichain_bot
  prev := List.Perm.refl _
  upper := List.Perm.refl _
  batcher := ⟨by simp [ArrState.init, MergeBatcher.init], by simp [ArrState.init, MergeBatcher.init]⟩
  chunker := by simp [ArrState.init, Chunker.init]
  lower := rfl
  caps := isAntichain_nil
  capsF := by simp [ArrState.init]
  pending := by intro d t h; simp [ArrState.init, MergeBatcher.init, Chunker.init, Chunker.retained, held] at h
  sum := by intro d t; simp [ArrState.init, MergeBatcher.init, Chunker.init, Chunker.retained, held, TraceWriter.new]
  tiles := List.Perm.refl _
  since := by simp [ArrState.init, TraceWriter.new]
  sent := rfl

theorem ArrInv.receive {cap : Nat} (hcap : 0 < cap) {recv : Upds D T R} {F : List T} {s : ArrState D T R} (h : ArrInv recv F s)
    (m : T × List ((D × T × R) × Bool)) (hm : Beyond F m.1 ∧ ∀ u ∈ m.2, m.1 ≤ u.1.2.1) :
    ∃ s', s.receive cap m = some s' ∧ ArrInv (recv ++ m.2.map Prod.fst) F s' := by
  obtain ⟨c, h1, h2, h3⟩ := pushAll_spec m.2 s.chunker h.chunker
  obtain ⟨e1, e2, e3, e4⟩ := drainExtract_spec cap hcap (c.ready.length + 1) c s.batcher h2 h.batcher
  have hs : s.receive cap m = some { s with
      capabilities := acInsert s.capabilities m.1
      chunker := (ArrState.drainExtract cap (c.ready.length + 1) c s.batcher).1
      batcher := (ArrState.drainExtract cap (c.ready.length + 1) c s.batcher).2 } := by
    simp only [ArrState.receive, h1]
  refine ⟨_, hs, ?_⟩
  exact {
    front := h.front
    prev := h.prev
    upper := h.upper
    batcher := e2
    chunker := e1
    lower := e3.trans h.lower
    caps := isAntichain_acInsert _ _ h.caps
    capsF := by
      intro x hx
      rcases mem_acInsert hx with hx | rfl
      · exact h.capsF x hx
      · exact hm.1
    pending := by
      intro d t hne
      simp only at hne ⊢
      rw [e4, h3, ← add_assoc] at hne
      rw [beyond_acInsert]
      by_cases hz : total (held s.batcher.chains) d t + total s.chunker.retained d t = 0
      · rw [hz, zero_add] at hne
        obtain ⟨r, hr⟩ := total_ne_zero_mem hne
        obtain ⟨u, hu, he⟩ := List.mem_map.1 hr
        right
        have := hm.2 u hu
        rw [he] at this; exact this
      · exact Or.inl (h.pending d t hz)
    sum := by
      intro d t
      simp only
      rw [total_append, h.sum, e4, h3]
      simp only [add_assoc]
    tiles := h.tiles
    since := h.since
    sent := h.sent }

theorem ArrInv.receiveAll {cap : Nat} (hcap : 0 < cap) {F : List T} : ∀ (ms : List (T × List ((D × T × R) × Bool))) {recv : Upds D T R}
    {s : ArrState D T R}, ArrInv recv F s → (∀ m ∈ ms, Beyond F m.1 ∧ ∀ u ∈ m.2, m.1 ≤ u.1.2.1) →
    ∃ s', s.receiveAll cap ms = some s' ∧ ArrInv (recv ++ ms.flatMap fun m => m.2.map Prod.fst) F s'
  | [], recv, s, h, hm => ⟨s, rfl, by simpa using h⟩
  | m :: ms, recv, s, h, hm => by
    obtain ⟨s1, h1, h2⟩ := h.receive hcap m (hm m (by simp))
    obtain ⟨s2, g1, g2⟩ := ArrInv.receiveAll hcap ms h2 (fun x hx => hm x (by simp [hx]))
    exact ⟨s2, by simp only [ArrState.receiveAll, h1, g1], by simpa using g2⟩

/-- What holds in the loop over capabilities, when `cs` remain. -/
structure ArrLoop (recv : Upds D T R) (caps0 F' cs : List T) (s : ArrState D T R) : Prop where
  upper : IsAntichainList s.writer.upper
  batcher : BatcherOk s.batcher.chains
  chunker : s.chunker.pending = [] ∧ s.chunker.ready = []
  lower : s.batcher.lower = s.writer.upper
  caps : s.capabilities = caps0
  csA : IsAntichainList cs
  csU : ∀ c ∈ cs, Beyond s.writer.upper c
  le : FrontierLe s.writer.upper F'
  pending : ∀ d t, total (held s.batcher.chains) d t ≠ 0 → Beyond s.writer.upper t ∧ Beyond caps0 t ∧ (Beyond F' t ∨ Beyond cs t)
  sum : ∀ d t, total recv d t = total (s.writer.trace.flatMap ArrBatch.upds) d t + total (held s.batcher.chains) d t
  tiles : ArrTiles [⊥] s.writer.trace s.writer.upper
  since : ∀ b ∈ s.writer.trace, b.desc.since = [⊥]
  sent : ArrSent s.sent s.writer.trace

theorem ArrLoop.retire {cap : Nat} (hcap : 0 < cap) {recv : Upds D T R} {caps0 F' cs : List T} {c : T} {s : ArrState D T R}
    (h : ArrLoop recv caps0 F' (c :: cs) s) (hF' : IsAntichainList F') :
    ∃ s', s.retire cap F' c cs = some s' ∧ ArrLoop recv caps0 F' cs s' ∧
      (Beyond F' c → s' = s) ∧
      (¬ Beyond F' c → (∀ q, Beyond s'.writer.upper q ↔ Beyond F' q ∨ Beyond cs q) ∧
        IsAntichainList s'.batcher.frontier ∧ ∀ t, Beyond s'.batcher.frontier t ↔ ∃ d s, s ≤ t ∧ total (held s'.batcher.chains) d s ≠ 0) := by
  have hac := List.pairwise_cons.1 h.csA
  by_cases hc : Beyond F' c
  · refine ⟨s, by rw [ArrState.retire, if_pos ((lessEqual_iff _ _).2 hc)], ?_, fun _ => rfl, fun hn => absurd hc hn⟩
    exact { h with
      csA := hac.2
      csU := fun x hx => h.csU x (by simp [hx])
      pending := by
        intro d t hne
        obtain ⟨a, b, e | ⟨f, hf, hft⟩⟩ := h.pending d t hne
        · exact ⟨a, b, Or.inl e⟩
        · rcases List.mem_cons.1 hf with rfl | hf
          · exact ⟨a, b, Or.inl (beyond_mono hc hft)⟩
          · exact ⟨a, b, Or.inr ⟨f, hf, hft⟩⟩ }
  · have hU : ∀ q, Beyond (acExtend (acExtend [] F') cs) q ↔ Beyond F' q ∨ Beyond cs q := by
      intro q; rw [beyond_acExtend, beyond_acExtend]; simp [Beyond]
    have hUa : IsAntichainList (acExtend (acExtend [] F') cs) := isAntichain_acExtend _ _ (isAntichain_acExtend _ _ isAntichain_nil)
    set upper := acExtend (acExtend [] F') cs with hup
    obtain ⟨s1, s2, s3, s4, s5, s6, s7⟩ := seal_ok cap hcap s.batcher upper h.batcher
    set r := s.batcher.seal cap upper with hr
    have hd : r.2.2 = ⟨s.batcher.lower, upper, [⊥]⟩ := rfl
    have hl : r.1.lower = upper := rfl
    have hcl : Beyond s.writer.upper c := h.csU c (by simp)
    have hcu : ¬ Beyond upper c := by
      rw [hU]; rintro (hb | ⟨x, hx, hxc⟩)
      · exact hc hb
      · exact (hac.1 x hx).2 hxc
    have hne : acEq s.batcher.lower upper = false := by
      rw [Bool.eq_false_iff]
      intro he
      have := perm_of_acEq he (by rw [h.lower]; exact nodup_of_isAntichain h.upper)
      rw [h.lower] at this
      exact hcu ((beyond_perm this c).1 hcl)
    have hins : s.writer.insert ⟨r.2.2, r.2.1.flatten⟩ (some c) = some
        { upper := upper, trace := s.writer.trace ++ [⟨r.2.2, r.2.1.flatten⟩]
          queues := s.writer.queues.map fun q => q ++ [.batch ⟨r.2.2, r.2.1.flatten⟩ (some c), .frontier upper] } := by
      simp only [TraceWriter.insert, hd]
      rw [if_pos (by rw [h.lower]; exact acEq_of_perm (List.Perm.refl _)), if_neg (by rw [hne]; simp)]
    have hupd : ∀ u ∈ r.2.1.flatten, ¬ Beyond upper u.2.1 ∧ total (held s.batcher.chains) u.1 u.2.1 ≠ 0 := by
      intro u hu
      have := (total_ne_zero_iff s2 u.1 u.2.1).2 ⟨u.2.2, hu⟩
      rw [s4] at this
      by_cases hb : lessEqual upper u.2.1
      · rw [if_pos hb] at this; exact absurd rfl this
      · rw [if_neg hb] at this
        exact ⟨fun hb' => hb ((lessEqual_iff _ _).2 hb'), this⟩
    refine ⟨{ s with
        batcher := r.1
        writer := { upper := upper, trace := s.writer.trace ++ [⟨r.2.2, r.2.1.flatten⟩]
                    queues := s.writer.queues.map fun q => q ++ [.batch ⟨r.2.2, r.2.1.flatten⟩ (some c), .frontier upper] }
        sent := s.sent ++ [(c, ⟨r.2.2, r.2.1.flatten⟩)] }, ?_, ?_, fun hb => absurd hb hc, fun _ => ⟨hU, s6, s7⟩⟩
    · rw [ArrState.retire, if_neg (by rw [lessEqual_iff]; exact hc)]
      simp only [← hup, ← hr, hins]
    · have hle : FrontierLe s.writer.upper upper := by
        intro q hq
        rcases (hU q).1 hq with hq | ⟨x, hx, hxq⟩
        · exact h.le q hq
        · exact beyond_mono (h.csU x (by simp [hx])) hxq
      exact {
        upper := hUa
        batcher := s1
        chunker := h.chunker
        lower := hl
        caps := h.caps
        csA := hac.2
        csU := fun x hx => (hU x).2 (Or.inr ⟨x, hx, le_refl _⟩)
        le := fun q hq => (hU q).2 (Or.inl hq)
        pending := by
          intro d t hne
          simp only at hne ⊢
          rw [s5] at hne
          by_cases hb : lessEqual upper t
          · rw [if_pos hb] at hne
            have hb' := (lessEqual_iff _ _).1 hb
            exact ⟨hb', (h.pending d t hne).2.1, (hU t).1 hb'⟩
          · rw [if_neg hb] at hne; exact absurd rfl hne
        sum := by
          intro d t
          simp only
          rw [List.flatMap_append, total_append, h.sum, s5]
          simp only [List.flatMap_cons, List.flatMap_nil, List.append_nil]
          rw [s4]
          by_cases hb : lessEqual upper t
          · rw [if_pos hb, if_pos hb, add_zero]
          · rw [if_neg hb, if_neg hb, add_zero]
        tiles := by
          refine ArrTiles.snoc h.tiles ⟨?_, ?_, ?_, hUa, ?_, s2, List.Perm.refl _⟩
          · show List.Perm _ s.batcher.lower
            rw [h.lower]
          · show FrontierLe s.batcher.lower upper
            rw [h.lower]; exact hle
          · show ¬ s.batcher.lower.Perm upper
            intro hp; rw [acEq_of_perm hp] at hne; cases hne
          · intro u hu
            obtain ⟨u1, u2⟩ := hupd u hu
            refine ⟨?_, u1⟩
            show Beyond s.batcher.lower _
            rw [h.lower]; exact (h.pending _ _ u2).1
        since := by
          intro b hb
          rcases List.mem_append.1 hb with hb | hb
          · exact h.since b hb
          · rw [List.mem_singleton.1 hb]; rfl
        sent := by
          refine ArrSent.snoc ?_ hcu ?_ h.sent
          · show Beyond s.batcher.lower c
            rw [h.lower]; exact hcl
          · intro u hu
            obtain ⟨u1, u2⟩ := hupd u hu
            rcases (h.pending _ _ u2).2.2 with hb | ⟨x, hx, hxu⟩
            · exact absurd ((hU _).2 (Or.inl hb)) u1
            · rcases List.mem_cons.1 hx with rfl | hx
              · exact hxu
              · exact absurd ((hU _).2 (Or.inr ⟨x, hx, hxu⟩)) u1 }

theorem ArrLoop.retireAll {cap : Nat} (hcap : 0 < cap) {recv : Upds D T R} {caps0 F' : List T} (hF' : IsAntichainList F') :
    ∀ (cs : List T) {s : ArrState D T R}, ArrLoop recv caps0 F' cs s →
    ∃ s', s.retireAll cap F' cs = some s' ∧ ArrLoop recv caps0 F' [] s' ∧
      ((∀ c ∈ cs, Beyond F' c) → s' = s) ∧
      ((∃ c ∈ cs, ¬ Beyond F' c) → (∀ q, Beyond s'.writer.upper q ↔ Beyond F' q) ∧
        IsAntichainList s'.batcher.frontier ∧ ∀ t, Beyond s'.batcher.frontier t ↔ ∃ d s, s ≤ t ∧ total (held s'.batcher.chains) d s ≠ 0)
  | [], s, h => ⟨s, rfl, h, fun _ => rfl, by simp⟩
  | c :: cs, s, h => by
    obtain ⟨s1, h1, h2, h3, h4⟩ := h.retire hcap hF'
    obtain ⟨s2, g1, g2, g3, g4⟩ := ArrLoop.retireAll hcap hF' cs h2
    refine ⟨s2, by simp only [ArrState.retireAll, h1, g1], g2, fun hall => ?_, fun hex => ?_⟩
    · rw [g3 fun x hx => hall x (by simp [hx]), h3 (hall c (by simp))]
    · by_cases hcs : ∃ x ∈ cs, ¬ Beyond F' x
      · exact g4 hcs
      · push Not at hcs
        rw [g3 hcs]
        have hc : ¬ Beyond F' c := by
          obtain ⟨x, hx, hxb⟩ := hex
          rcases List.mem_cons.1 hx with rfl | hx
          · exact hxb
          · exact absurd (hcs x hx) hxb
        obtain ⟨k1, k2, k3⟩ := h4 hc
        refine ⟨fun q => ?_, k2, k3⟩
        rw [k1]
        exact ⟨fun hq => hq.elim id fun ⟨x, hx, hxq⟩ => beyond_mono (hcs x hx) hxq, Or.inl⟩

omit [LinearOrder (Lin T)] [DecidableEq T] [OrderBot T] in
theorem newCaps_spec (caps : List T) : ∀ (times acc : List T), (∀ t ∈ times, Beyond caps t) →
    ArrState.newCaps caps acc times = some (acExtend acc times)
  | [], acc, _ => rfl
  | t :: times, acc, h => by
    rw [ArrState.newCaps, if_pos ((lessEqual_iff _ _).2 (h t (by simp))), newCaps_spec caps times _ fun x hx => h x (by simp [hx])]
    rfl

theorem ArrInv.activate {cap : Nat} (hcap : 0 < cap) {recv : Upds D T R} {F : List T} {s : ArrState D T R} (h : ArrInv recv F s)
    (act : ArrAct D T R) (hm : ∀ m ∈ act.msgs, Beyond F m.1 ∧ ∀ u ∈ m.2, m.1 ≤ u.1.2.1) (hF' : IsAntichainList act.frontier)
    (hle : ∀ f ∈ act.frontier, Beyond F f) :
    ∃ s', s.activate cap act = some s' ∧ ArrInv (recv ++ act.msgs.flatMap fun m => m.2.map Prod.fst) act.frontier s' := by
  obtain ⟨s1, h1, i1⟩ := h.receiveAll hcap act.msgs hm
  have hFle : FrontierLe F act.frontier := fun q ⟨f, hf, hq⟩ => beyond_mono (hle f hf) hq
  have hassert : acLe s1.prevFrontier act.frontier = true := by
    rw [acLe_iff]; intro q hq; exact (beyond_perm i1.prev q).2 (hFle q hq)
  unfold ArrState.activate
  simp only [h1, if_pos hassert]
  by_cases heq : acEq s1.prevFrontier act.frontier
  · rw [if_pos heq]
    have hp : F.Perm act.frontier := i1.prev.symm.trans (perm_of_acEq heq ((List.Perm.nodup_iff i1.prev).2 (nodup_of_isAntichain i1.front)))
    exact ⟨s1, rfl, { i1 with
      front := hF'
      prev := i1.prev.trans hp
      upper := i1.upper.trans hp
      capsF := fun c hc => (beyond_perm hp c).1 (i1.capsF c hc) }⟩
  · rw [if_neg heq]
    have hnp : ¬ F.Perm act.frontier := fun hp => heq (acEq_of_perm (i1.prev.trans hp))
    obtain ⟨c', b', d1, d2, d3, d4, d5, d6⟩ := drainFinish_spec cap hcap s1.chunker s1.batcher i1.chunker i1.batcher
    rw [d1]
    simp only
    have hret : ∀ d t, total c'.retained d t = 0 := by intro d t; simp [Chunker.retained, d2, d3]
    have hext : (acExtend [] act.frontier).Perm act.frontier :=
      perm_of_beyond_eq (isAntichain_acExtend _ _ isAntichain_nil) hF' fun t => by rw [beyond_acExtend]; simp [Beyond]
    have hupA : IsAntichainList s1.writer.upper := isAntichain_perm i1.upper.symm i1.front
    by_cases hany : s1.capabilities.any (fun c => !lessEqual act.frontier c)
    · rw [if_pos hany]
      have hloop : ArrLoop (recv ++ act.msgs.flatMap fun m => m.2.map Prod.fst) s1.capabilities act.frontier s1.capabilities
          { s1 with chunker := c', batcher := b' } := {
        upper := hupA
        batcher := d4
        chunker := ⟨d2, d3⟩
        lower := d5.trans i1.lower
        caps := rfl
        csA := i1.caps
        csU := fun c hc => (beyond_perm i1.upper c).2 (i1.capsF c hc)
        le := fun q hq => (beyond_perm i1.upper q).2 (hFle q hq)
        pending := by
          intro d t hne
          simp only at hne
          rw [d6] at hne
          have hb := i1.pending d t hne
          refine ⟨?_, hb, Or.inr hb⟩
          obtain ⟨c, hc, hct⟩ := hb
          exact (beyond_perm i1.upper t).2 (beyond_mono (i1.capsF c hc) hct)
        sum := by intro d t; simp only; rw [i1.sum, d6]
        tiles := i1.tiles
        since := i1.since
        sent := i1.sent }
      obtain ⟨s2, r1, r2, -, r4⟩ := ArrLoop.retireAll hcap hF' s1.capabilities hloop
      rw [r1]
      simp only
      obtain ⟨k1, k2, k3⟩ := r4 (by
        simp only [List.any_eq_true, Bool.not_eq_true'] at hany
        obtain ⟨c, hc, hcb⟩ := hany
        exact ⟨c, hc, fun hb => by rw [(lessEqual_iff _ _).2 hb] at hcb; cases hcb⟩)
      have hsup : ∀ t ∈ s2.batcher.frontier, ∃ d, total (held s2.batcher.chains) d t ≠ 0 := by
        intro t ht
        obtain ⟨d, q, hq, hne⟩ := (k3 t).1 ⟨t, ht, le_refl _⟩
        obtain ⟨f, hf, hfq⟩ := (k3 q).2 ⟨d, q, le_refl _, hne⟩
        have : f = t := by
          by_contra hft
          have hpw : s2.batcher.frontier.Pairwise (fun a b => ¬ a ≤ b ∧ ¬ b ≤ a) := k2
          have hh : ∀ {l : List T}, l.Pairwise (fun a b => ¬ a ≤ b ∧ ¬ b ≤ a) → ∀ a ∈ l, ∀ b ∈ l, a ≠ b → ¬ a ≤ b := by
            intro l
            induction l with
            | nil => simp
            | cons x l ih =>
              intro hl a ha b hb hab
              obtain ⟨p1, p2⟩ := List.pairwise_cons.1 hl
              rcases List.mem_cons.1 ha with rfl | ha' <;> rcases List.mem_cons.1 hb with rfl | hb'
              · exact absurd rfl hab
              · exact (p1 b hb').1
              · exact (p1 a ha').2
              · exact ih p2 a ha' b hb' hab
          exact hh hpw f hf t ht hft (hfq.trans hq)
        subst this
        exact ⟨d, by rwa [le_antisymm hfq hq]⟩
      rw [newCaps_spec s2.capabilities s2.batcher.frontier [] (by
        intro t ht
        obtain ⟨d, hd⟩ := hsup t ht
        rw [r2.caps]; exact (r2.pending d t hd).2.1)]
      have hnb : ∀ q, Beyond (acExtend [] s2.batcher.frontier) q ↔ Beyond s2.batcher.frontier q := by
        intro q; rw [beyond_acExtend]; simp [Beyond]
      have hup2 : s2.writer.upper.Perm act.frontier := perm_of_beyond_eq r2.upper hF' k1
      refine ⟨_, rfl, ?_⟩
      exact {
        front := hF'
        prev := hext
        upper := hup2
        batcher := r2.batcher
        chunker := by simp [r2.chunker.2]
        lower := r2.lower
        caps := isAntichain_acExtend _ _ isAntichain_nil
        capsF := by
          intro c hc
          rcases mem_acExtend hc with hc | hc
          · simp at hc
          · obtain ⟨d, hd⟩ := hsup c hc
            exact (k1 c).1 (r2.pending d c hd).1
        pending := by
          intro d t hne
          simp only [Chunker.retained, r2.chunker.1, r2.chunker.2, List.flatten_nil, List.append_nil, total_nil, add_zero] at hne ⊢
          rw [hnb, k3]
          exact ⟨d, t, le_refl _, hne⟩
        sum := by
          intro d t
          simp only [Chunker.retained, r2.chunker.1, r2.chunker.2, List.flatten_nil, List.append_nil, total_nil, add_zero]
          exact r2.sum d t
        tiles := r2.tiles
        since := r2.since
        sent := r2.sent }
    · rw [if_neg hany]
      have hcaps : ∀ c ∈ s1.capabilities, Beyond act.frontier c := by
        intro c hc
        by_contra hb
        apply hany
        rw [List.any_eq_true]
        refine ⟨c, hc, ?_⟩
        rw [Bool.not_eq_true', Bool.eq_false_iff]
        exact fun he => hb ((lessEqual_iff _ _).1 he)
      obtain ⟨q1, q2, q3, q4, q5, q6, q7⟩ := seal_ok cap hcap b' act.frontier d4
      have hsame : ∀ d t, total (held (b'.seal cap act.frontier).1.chains) d t = total (held b'.chains) d t := by
        intro d t
        rw [q5]
        by_cases hb : lessEqual act.frontier t
        · rw [if_pos hb]
        · rw [if_neg hb]
          by_contra hne
          rw [eq_comm, d6] at hne
          obtain ⟨c, hc, hct⟩ := i1.pending d t hne
          exact hb ((lessEqual_iff _ _).2 (beyond_mono (hcaps c hc) hct))
      have hneU : acEq s1.writer.upper act.frontier = false := by
        rw [Bool.eq_false_iff]
        intro he
        exact hnp (i1.upper.symm.trans (perm_of_acEq he (nodup_of_isAntichain hupA)))
      have hseal : s1.writer.sealTo ⊥ act.frontier = some
          { upper := act.frontier, trace := s1.writer.trace ++ [⟨⟨s1.writer.upper, act.frontier, [⊥]⟩, []⟩]
            queues := s1.writer.queues.map fun q => q ++ [.batch ⟨⟨s1.writer.upper, act.frontier, [⊥]⟩, []⟩ none, .frontier act.frontier] } := by
        unfold TraceWriter.sealTo TraceWriter.insert
        rw [hneU, if_neg (by simp), if_pos (acEq_of_perm (List.Perm.refl _)), if_neg (by simpa using hneU)]
      rw [hseal]
      refine ⟨_, rfl, ?_⟩
      exact {
        front := hF'
        prev := hext
        upper := List.Perm.refl _
        batcher := q1
        chunker := by simp [d3]
        lower := rfl
        caps := i1.caps
        capsF := hcaps
        pending := by
          intro d t hne
          simp only at hne
          rw [hret, add_zero, hsame, d6] at hne
          exact i1.pending d t hne
        sum := by
          intro d t
          simp only
          rw [hret, add_zero, hsame, d6, i1.sum]
          simp
        tiles := ArrTiles.snoc i1.tiles ⟨List.Perm.refl _, fun q hq => (beyond_perm i1.upper q).2 (hFle q hq),
          fun hp => hnp (i1.upper.symm.trans hp), hF', by simp, ⟨by simp, by simp⟩, List.Perm.refl _⟩
        since := by
          intro b hb
          rcases List.mem_append.1 hb with hb | hb
          · exact i1.since b hb
          · rw [List.mem_singleton.1 hb]
        sent := ArrSent.snoc_silent rfl i1.sent }

theorem ArrInv.run {cap : Nat} (hcap : 0 < cap) : ∀ (acts : List (ArrAct D T R)) {recv : Upds D T R} {F : List T} {s : ArrState D T R},
    ArrInv recv F s → LegalArr F acts → ∃ s', s.run cap acts = some s' ∧ ArrInv (recv ++ arrReceived acts) (arrFrontier F acts) s'
  | [], recv, F, s, h, _ => ⟨s, rfl, by simpa [arrReceived, arrFrontier] using h⟩
  | act :: acts, recv, F, s, h, hl => by
    obtain ⟨l1, l2, l3, l4⟩ := hl
    obtain ⟨s1, h1, i1⟩ := h.activate hcap act l1 l2 l3
    obtain ⟨s2, g1, g2⟩ := ArrInv.run hcap acts i1 l4
    exact ⟨s2, by simp only [ArrState.run, h1, g1], by simpa [arrReceived, arrFrontier] using g2⟩

end DD
