import Verif.Spec.Arranged
import Verif.Proofs.Arrange
import Verif.Proofs.ArrangedKind
import Verif.Proofs.JoinRun

/-!
# Arrangements: their batches, as those of the trace and as those of the stream
-/

namespace DD
section tiles
variable {D T R : Type*} [LinearOrder D] [PartialOrder T] [OrderBot T] [DecidableLE T] [DecidableEq T] [LinearOrder (Lin T)] [AddCommMonoid R] [DecidableEq R]

/-- Where the batches end. -/
def tileEnd (bs : List (ArrBatch D T R)) : List T :=
  match bs.getLast? with
  | none => [⊥]
  | some b => b.desc.upper

theorem tileEnd_snoc (bs : List (ArrBatch D T R)) (b : ArrBatch D T R) : tileEnd (bs ++ [b]) = b.desc.upper := by simp [tileEnd]

theorem ArrTiles.append {hi : List T} : ∀ {a b : List (ArrBatch D T R)} {lo : List T}, ArrTiles lo (a ++ b) hi ↔ ∃ mid, ArrTiles lo a mid ∧ ArrTiles mid b hi
  | [], b, lo => by
    constructor
    · exact fun h => ⟨lo, List.Perm.refl _, h⟩
    · rintro ⟨mid, h1, h2⟩
      cases b with
      | nil => exact List.Perm.trans h1 h2
      | cons x b =>
        obtain ⟨a1, a2⟩ := h2
        exact ⟨List.Perm.trans h1 a1, a2⟩
  | x :: a, b, lo => by
    constructor
    · rintro ⟨a1, a2, a3, a4, a5, a6, a7⟩
      obtain ⟨mid, h1, h2⟩ := ArrTiles.append.1 a7
      exact ⟨mid, ⟨a1, a2, a3, a4, a5, a6, h1⟩, h2⟩
    · rintro ⟨mid, ⟨a1, a2, a3, a4, a5, a6, h1⟩, h2⟩
      exact ⟨a1, a2, a3, a4, a5, a6, ArrTiles.append.2 ⟨mid, h1, h2⟩⟩

theorem ArrTiles.end_perm {hi : List T} {bs : List (ArrBatch D T R)} (h : ArrTiles [⊥] bs hi) : hi.Perm (tileEnd bs) := by
  rcases List.eq_nil_or_concat' bs with rfl | ⟨l, b, rfl⟩
  · exact List.Perm.symm h
  · obtain ⟨mid, -, h2⟩ := ArrTiles.append.1 h
    rw [tileEnd_snoc]
    exact List.Perm.symm h2.2.2.2.2.2.2

theorem ArrTiles.permLeft {lo lo' hi : List T} (hp : lo'.Perm lo) {bs : List (ArrBatch D T R)} (h : ArrTiles lo bs hi) : ArrTiles lo' bs hi :=
  ArrTiles.append (a := []).2 ⟨lo, hp, h⟩

theorem ArrTiles.at {hi : List T} {a b : List (ArrBatch D T R)} (h : ArrTiles [⊥] (a ++ b) hi) : ArrTiles [⊥] a (tileEnd a) ∧ ArrTiles (tileEnd a) b hi := by
  obtain ⟨mid, h1, h2⟩ := ArrTiles.append.1 h
  have hp := h1.end_perm
  exact ⟨h1.permRight hp, h2.permLeft hp.symm⟩

theorem ArrTiles.antichain {hi : List T} {a b : List (ArrBatch D T R)} (h : ArrTiles [⊥] (a ++ b) hi) : IsAntichainList (tileEnd a) := by
  rcases List.eq_nil_or_concat' a with rfl | ⟨l, x, rfl⟩
  · exact isAntichain_bot
  · rw [tileEnd_snoc]
    rw [List.append_assoc] at h
    obtain ⟨mid, -, h2⟩ := ArrTiles.append.1 h
    exact h2.2.2.2.1

theorem ArrTiles.lower {hi : List T} : ∀ {bs : List (ArrBatch D T R)} {lo : List T}, ArrTiles lo bs hi → ∀ u ∈ bs.flatMap ArrBatch.upds, Beyond lo u.2.1
  | [], lo, h => by simp
  | x :: bs, lo, h => by
    obtain ⟨a1, a2, a3, a4, a5, a6, a7⟩ := h
    intro u hu
    rw [List.flatMap_cons, List.mem_append] at hu
    rcases hu with hu | hu
    · exact (beyond_perm a1 _).2 (a5 u hu).1
    · exact (beyond_perm a1 _).2 (a2 _ (ArrTiles.lower a7 u hu))

/-- Ends of prefixes are ordered. -/
theorem ArrTiles.end_le {hi : List T} {a b c : List (ArrBatch D T R)} (h : ArrTiles [⊥] (a ++ b ++ c) hi) : FrontierLe (tileEnd a) (tileEnd (a ++ b)) :=
  ((h.at).1.at).2.le

/-- The end of the batches goes on strictly with each batch. -/
theorem ArrTiles.end_lt {hi : List T} {a b c : List (ArrBatch D T R)} (h : ArrTiles [⊥] (a ++ b ++ c) hi) (hle : FrontierLe (tileEnd (a ++ b)) (tileEnd a)) : b = [] := by
  cases b with
  | nil => rfl
  | cons x b =>
    exfalso
    obtain ⟨a1, a2, a3, a4, a5, a6, a7⟩ := (h.at).1.at.2
    have hA : IsAntichainList (tileEnd a) := by
      rw [List.append_assoc] at h; exact h.antichain
    apply a3
    refine perm_of_le_le (isAntichain_perm a1 hA) a4 a2 ?_
    exact (a7.le.trans hle).trans (frontierLe_of_perm a1)

theorem before_congr {E : Type*} {us : Upds E T R} {F G : List T} (h : F.Perm G) : before us F = before us G := by
  unfold before
  apply List.filter_congr
  intro u _
  simp [beyond_perm h u.2.1]

theorem within_congr {E : Type*} {us : Upds E T R} {F G F' G' : List T} (h : F.Perm F') (h' : G.Perm G') : within us F G = within us F' G' := by
  unfold within
  apply List.filter_congr
  intro u _
  simp [beyond_perm h u.2.1, beyond_perm h' u.2.1]

/-- The updates of batches, as keys and values. -/
def splitUpds {E : Type*} (f : D → E) (bs : List (ArrBatch D T R)) : Upds E T R := bs.flatMap fun b => b.upds.map fun u => (f u.1, u.2)

theorem splitUpds_append {E : Type*} (f : D → E) (a b : List (ArrBatch D T R)) : splitUpds f (a ++ b) = splitUpds f a ++ splitUpds f b := List.flatMap_append

theorem mem_splitUpds {E : Type*} {f : D → E} {bs : List (ArrBatch D T R)} {u : E × T × R} (h : u ∈ splitUpds f bs) : ∃ v ∈ bs.flatMap ArrBatch.upds, u = (f v.1, v.2) := by
  obtain ⟨b, hb, h⟩ := List.mem_flatMap.1 h
  obtain ⟨v, hv, rfl⟩ := List.mem_map.1 h
  exact ⟨v, List.mem_flatMap.2 ⟨b, hb, hv⟩, rfl⟩

theorem within_tiles {E : Type*} (f : D → E) {hi : List T} {a b c : List (ArrBatch D T R)} (h : ArrTiles [⊥] (a ++ b ++ c) hi) :
    within (splitUpds f (a ++ b ++ c)) (tileEnd a) (tileEnd (a ++ b)) = splitUpds f b := by
  obtain ⟨h1, h2⟩ := h.at
  obtain ⟨h3, h4⟩ := h1.at
  unfold within
  rw [splitUpds_append, splitUpds_append, List.filter_append, List.filter_append, List.filter_eq_nil_iff.2, List.filter_eq_self.2, List.filter_eq_nil_iff.2]
  · simp
  · intro u hu
    obtain ⟨v, hv, rfl⟩ := mem_splitUpds hu
    have := h2.lower v hv
    simp [this]
  · intro u hu
    obtain ⟨v, hv, rfl⟩ := mem_splitUpds hu
    have := h4.lower v hv
    have := h4.complete v hv
    simp [*]
  · intro u hu
    obtain ⟨v, hv, rfl⟩ := mem_splitUpds hu
    have := h3.complete v hv
    simp [this]

theorem before_tiles {E : Type*} (f : D → E) {hi : List T} {a b : List (ArrBatch D T R)} (h : ArrTiles [⊥] (a ++ b) hi) :
    before (splitUpds f (a ++ b)) (tileEnd a) = splitUpds f a := by
  obtain ⟨h1, h2⟩ := h.at
  unfold before
  rw [splitUpds_append, List.filter_append, List.filter_eq_self.2, List.filter_eq_nil_iff.2]
  · simp
  · intro u hu
    obtain ⟨v, hv, rfl⟩ := mem_splitUpds hu
    have := h2.lower v hv
    simp [this]
  · intro u hu
    obtain ⟨v, hv, rfl⟩ := mem_splitUpds hu
    have := h1.complete v hv
    simp [this]

end tiles

/-! ## An activation adds batches -/

section ext
variable {D T R : Type*} [LinearOrder D] [Lattice T] [OrderBot T] [DecidableLE T] [DecidableEq T] [LinearOrder (Lin T)] [AddCommMonoid R] [DecidableEq R]

theorem receiveAll_ext {cap : Nat} : ∀ (ms : List (T × List ((D × T × R) × Bool))) {s s' : ArrState D T R}, s.receiveAll cap ms = some s' →
    s'.sent = s.sent ∧ s'.writer = s.writer ∧ ∀ c ∈ s'.capabilities, c ∈ s.capabilities ∨ ∃ m ∈ ms, m.1 = c
  | [], s, s', h => by cases h; exact ⟨rfl, rfl, fun c hc => Or.inl hc⟩
  | m :: ms, s, s', h => by
    rw [ArrState.receiveAll] at h
    cases h1 : s.receive cap m with
    | none => rw [h1] at h; cases h
    | some s1 =>
      rw [h1] at h
      obtain ⟨g1, g2, g3⟩ := receiveAll_ext ms h
      unfold ArrState.receive at h1
      simp only at h1
      cases h2 : ArrState.pushAll s.chunker m.2 with
      | none => rw [h2] at h1; cases h1
      | some ch =>
        rw [h2] at h1
        cases h1
        refine ⟨g1, g2, fun c hc => ?_⟩
        rcases g3 c hc with g | ⟨m', hm', e⟩
        · rcases mem_acInsert g with g | rfl
          · exact Or.inl g
          · exact Or.inr ⟨m, List.mem_cons_self, rfl⟩
        · exact Or.inr ⟨m', List.mem_cons_of_mem _ hm', e⟩

theorem insert_trace {w w' : TraceWriter D T R} {b : ArrBatch D T R} {hint : Option T} (h : w.insert b hint = some w') : w'.trace = w.trace ++ [b] := by
  unfold TraceWriter.insert at h
  split_ifs at h
  cases h
  rfl

theorem retireAll_ext {cap : Nat} {frontier : List T} : ∀ (cs : List T) {s s' : ArrState D T R}, s.retireAll cap frontier cs = some s' →
    s'.capabilities = s.capabilities ∧ ∃ ns, s'.sent = s.sent ++ ns ∧ s'.writer.trace = s.writer.trace ++ ns.map Prod.snd ∧ ∀ x ∈ ns, x.1 ∈ cs
  | [], s, s', h => by cases h; exact ⟨rfl, [], by simp, by simp, by simp⟩
  | c :: cs, s, s', h => by
    rw [ArrState.retireAll] at h
    cases h1 : s.retire cap frontier c cs with
    | none => rw [h1] at h; cases h
    | some s1 =>
      rw [h1] at h
      obtain ⟨g1, ns, g2, g3, g4⟩ := retireAll_ext cs h
      unfold ArrState.retire at h1
      split_ifs at h1
      · cases h1
        exact ⟨g1, ns, g2, g3, fun x hx => List.mem_cons_of_mem _ (g4 x hx)⟩
      · simp only at h1
        split at h1
        · cases h1
        · rename_i w hw
          cases h1
          refine ⟨g1, _ :: ns, by rw [g2, List.append_assoc]; rfl, ?_, ?_⟩
          · rw [g3]
            show w.trace ++ _ = _
            rw [insert_trace hw, List.append_assoc]; rfl
          · intro x hx
            rcases List.mem_cons.1 hx with rfl | hx
            · exact List.mem_cons_self
            · exact List.mem_cons_of_mem _ (g4 x hx)

theorem newCaps_mem {caps : List T} : ∀ (times acc : List T) {r : List T}, ArrState.newCaps caps acc times = some r → ∀ c ∈ r, c ∈ acc ∨ Beyond caps c
  | [], acc, r, h => by cases h; exact fun c hc => Or.inl hc
  | t :: times, acc, r, h => by
    rw [ArrState.newCaps] at h
    split_ifs at h with ht
    intro c hc
    rcases newCaps_mem times _ h c hc with g | g
    · rcases mem_acInsert g with g | rfl
      · exact Or.inl g
      · exact Or.inr ((lessEqual_iff _ _).1 ht)
    · exact Or.inr g

/-- An activation adds batches to the trace and sends them, or adds an empty batch to the trace. The capabilities held afterwards, and those sent with, are not before those held and
received. -/
theorem activate_ext {cap : Nat} {s s' : ArrState D T R} {act : ArrAct D T R} (h : s.activate cap act = some s') :
    ∃ ns nt, s'.sent = s.sent ++ ns ∧ s'.writer.trace = s.writer.trace ++ nt ∧ (nt = ns.map Prod.snd ∨ ns = [] ∧ ∀ b ∈ nt, b.upds = []) ∧
      ∀ G, (∀ c ∈ s.capabilities, Beyond G c) → (∀ m ∈ act.msgs, Beyond G m.1) → (∀ c ∈ s'.capabilities, Beyond G c) ∧ ∀ x ∈ ns, Beyond G x.1 := by
  unfold ArrState.activate at h
  cases h1 : s.receiveAll cap act.msgs with
  | none => rw [h1] at h; cases h
  | some s1 =>
    rw [h1] at h
    simp only at h
    obtain ⟨e1, e2, e3⟩ := receiveAll_ext _ h1
    have e3' : ∀ G, (∀ c ∈ s.capabilities, Beyond G c) → (∀ m ∈ act.msgs, Beyond G m.1) → ∀ c ∈ s1.capabilities, Beyond G c := by
      intro G g1 g2 c hc
      rcases e3 c hc with g | ⟨m, hm, rfl⟩
      · exact g1 c g
      · exact g2 m hm
    by_cases c1 : acLe s1.prevFrontier act.frontier = true
    swap
    · rw [if_neg c1] at h; cases h
    rw [if_pos c1] at h
    by_cases c2 : acEq s1.prevFrontier act.frontier = true
    · rw [if_pos c2] at h
      cases h
      exact ⟨[], [], by simp [e1], by simp [e2], Or.inl rfl, fun G g1 g2 => ⟨e3' G g1 g2, by simp⟩⟩
    · rw [if_neg c2] at h
      cases h2 : ArrState.drainFinish cap (s1.chunker.ready.length + 2) s1.chunker s1.batcher with
      | none => rw [h2] at h; cases h
      | some p =>
        obtain ⟨ch, ba⟩ := p
        rw [h2] at h
        simp only at h
        by_cases c3 : (s1.capabilities.any fun c => !lessEqual act.frontier c) = true
        · rw [if_pos c3] at h
          split at h
          · cases h
          · rename_i s2 h3
            obtain ⟨g1, ns, g2, g3, g4⟩ := retireAll_ext _ h3
            split at h
            · cases h
            · rename_i caps h4
              cases h
              refine ⟨ns, ns.map Prod.snd, by rw [← e1]; exact g2, by rw [← e2]; exact g3, Or.inl rfl, ?_⟩
              intro G k1 k2
              have k3 := e3' G k1 k2
              refine ⟨?_, fun x hx => k3 _ (g4 x hx)⟩
              intro c hc
              rcases newCaps_mem _ _ h4 c hc with hc | ⟨f, hf, hfc⟩
              · cases hc
              · rw [g1] at hf
                exact beyond_mono (k3 f hf) hfc
        · rw [if_neg c3] at h
          split at h
          · cases h
          · rename_i w h3
            cases h
            unfold TraceWriter.sealTo at h3
            by_cases c4 : acEq s1.writer.upper act.frontier = true
            · rw [if_pos c4] at h3
              cases h3
              exact ⟨[], [], by simp [e1], by simp [e2], Or.inl rfl, fun G g1 g2 => ⟨e3' G g1 g2, by simp⟩⟩
            · rw [if_neg c4] at h3
              refine ⟨[], [⟨⟨s1.writer.upper, act.frontier, [⊥]⟩, []⟩], by simp [e1], ?_, Or.inr ⟨rfl, by simp⟩, fun G g1 g2 => ⟨e3' G g1 g2, by simp⟩⟩
              show w.trace = _
              rw [insert_trace h3, e2]

end ext
end DD
