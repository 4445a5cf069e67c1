import Verif.Proofs.JoinIter

/-!
# The queues of the `join` operator
-/

namespace DD
variable {K V V1 V2 T R R1 R2 S D M : Type*} [Lattice T] [DecidableLE T] [DecidableEq T] [LinearOrder (Lin T)] [LinearOrder K] [LinearOrder V1] [LinearOrder V2]
  [AddCommMonoid R1] [DecidableEq R1] [AddCommMonoid R2] [DecidableEq R2] [DecidableEq D] [AddCommMonoid M]

omit [DecidableEq T] [LinearOrder (Lin T)] [DecidableEq R1] [DecidableEq R2] in
/-- New work. -/
theorem prep_ok {B : OutBuilder S D T M} {ok : S → Prop} {held : S → Upds D T M} (hB : B.Keeps ok held) (result : K → V1 → V2 → List D) (mul : R1 →+ R2 →+ M)
    {c1 : Contents K V1 T R1} {c2 : Contents K V2 T R2} {fresh : JoinFresh} {meet : T} (k1 : c1.Pairwise fun x y => x.1 < y.1) (k2 : c2.Pairwise fun x y => x.1 < y.1)
    (h1 : fresh = .input0 → ∀ u ∈ contentsUpds c1, meet ≤ u.2.1) (h2 : fresh = .input1 → ∀ u ∈ contentsUpds c2, meet ≤ u.2.1) :
    IterOk B ok held result mul (DeferredIter.prep B c1 c2 fresh meet)
      fun d q => accum (nestedJoin result (fun a b => mul a b) (contentsUpds c1) (contentsUpds c2)) d q := by
  refine ⟨fun _ => hB.init.1, by simp [DeferredIter.prep], ?_, ?_, k1, k2, ?_⟩
  · intro _ u hu
    have : u ∈ held B.init := hu
    rw [hB.init.2] at this
    exact absurd this (by simp)
  · cases fresh with
    | input0 => exact Or.inr ⟨rfl, rfl, h1 rfl⟩
    | input1 => exact Or.inl ⟨rfl, rfl, h2 rfl⟩
  · intro d q
    simp [DeferredIter.prep, hB.init.2]

/-- A queue of work in a good state, which still has to yield updates that accumulate to `W`. -/
def JoinQueueOk (B : OutBuilder S D T M) (ok : S → Prop) (held : S → Upds D T M) (result : K → V1 → V2 → List D) (mul : R1 →+ R2 →+ M) :
    List (T × DeferredIter K V1 V2 T R1 R2 S D M) → (D → T → M) → Prop
  | [], W => ∀ d q, W d q = 0
  | (time, it) :: rest, W => it.meet = time ∧ ∃ W1 W2, IterOk B ok held result mul it W1 ∧ JoinQueueOk B ok held result mul rest W2 ∧ ∀ d q, W1 d q + W2 d q = W d q

omit [DecidableEq T] [LinearOrder (Lin T)] [DecidableEq R1] [DecidableEq R2] in
theorem JoinQueueOk.congr {B : OutBuilder S D T M} {ok : S → Prop} {held : S → Upds D T M} {result : K → V1 → V2 → List D} {mul : R1 →+ R2 →+ M}
    {queue : List (T × DeferredIter K V1 V2 T R1 R2 S D M)} {W W' : D → T → M} (h : JoinQueueOk B ok held result mul queue W) (e : ∀ d q, W d q = W' d q) :
    JoinQueueOk B ok held result mul queue W' := by
  have : W = W' := funext fun d => funext fun q => e d q
  rw [← this]; exact h

omit [DecidableEq T] [LinearOrder (Lin T)] [DecidableEq R1] [DecidableEq R2] in
theorem JoinQueueOk.append {B : OutBuilder S D T M} {ok : S → Prop} {held : S → Upds D T M} {result : K → V1 → V2 → List D} {mul : R1 →+ R2 →+ M} :
    ∀ {q1 q2 : List (T × DeferredIter K V1 V2 T R1 R2 S D M)} {W1 W2 : D → T → M}, JoinQueueOk B ok held result mul q1 W1 → JoinQueueOk B ok held result mul q2 W2 →
    JoinQueueOk B ok held result mul (q1 ++ q2) fun d q => W1 d q + W2 d q
  | [], q2, W1, W2, h1, h2 => h2.congr fun d q => by rw [show W1 d q = 0 from h1 d q, zero_add]
  | (time, it) :: q1, q2, W1, W2, ⟨e, X, Y, a, b, c⟩, h2 =>
    ⟨e, X, fun d q => Y d q + W2 d q, a, b.append h2, fun d q => by simp only [← c, add_assoc]⟩

omit [DecidableEq T] [LinearOrder (Lin T)] [DecidableEq R1] [DecidableEq R2] in
theorem JoinQueueOk.single {B : OutBuilder S D T M} {ok : S → Prop} {held : S → Upds D T M} {result : K → V1 → V2 → List D} {mul : R1 →+ R2 →+ M}
    {it : DeferredIter K V1 V2 T R1 R2 S D M} {W : D → T → M} (h : IterOk B ok held result mul it W) : JoinQueueOk B ok held result mul [(it.meet, it)] W :=
  ⟨rfl, W, fun _ _ => 0, h, fun _ _ => rfl, fun _ _ => add_zero _⟩

omit [DecidableEq T] [LinearOrder (Lin T)] [DecidableEq R1] [DecidableEq R2] in
/-- A queue yields nothing at times beyond none of its capabilities. -/
theorem JoinQueueOk.zero {B : OutBuilder S D T M} {ok : S → Prop} {held : S → Upds D T M} {result : K → V1 → V2 → List D} {mul : R1 →+ R2 →+ M} :
    ∀ {queue : List (T × DeferredIter K V1 V2 T R1 R2 S D M)} {W : D → T → M}, JoinQueueOk B ok held result mul queue W → ∀ (q : T), (∀ w ∈ queue, ¬ w.1 ≤ q) → ∀ d, W d q = 0
  | [], _, h, q, _, d => h d q
  | (time, it) :: rest, W, ⟨e, W1, W2, a, b, c⟩, q, hq, d => by
    rw [← c, a.zero (by rw [e]; exact hq _ (List.mem_cons_self ..)) d, b.zero q (fun w hw => hq w (List.mem_cons_of_mem _ hw)) d, add_zero]

/-- How much of a queue is left. -/
def queueLeft : List (T × DeferredIter K V1 V2 T R1 R2 S D M) → ℕ ×ₗ (ℕ ×ₗ ℕ)
  | [] => toLex (0, toLex (0, 0))
  | (_, it) :: rest => toLex (rest.length + 1, it.left)

omit [Lattice T] [DecidableLE T] [DecidableEq T] [LinearOrder (Lin T)] [LinearOrder K] [LinearOrder V1] [LinearOrder V2]
  [AddCommMonoid R1] [DecidableEq R1] [AddCommMonoid R2] [DecidableEq R2] [DecidableEq D] [AddCommMonoid M] in
theorem queueLeft_rest (x : T × DeferredIter K V1 V2 T R1 R2 S D M) (rest : List (T × DeferredIter K V1 V2 T R1 R2 S D M)) : queueLeft rest < queueLeft (x :: rest) := by
  cases rest with
  | nil => simp only [queueLeft, Prod.Lex.toLex_lt_toLex]; left; simp
  | cons y rest => simp only [queueLeft, Prod.Lex.toLex_lt_toLex]; left; simp

/-- The updates sent. -/
def sentUpds (sent : List (T × Upds D T M)) : Upds D T M := sent.flatMap (·.2)

/-- `drain`: what is sent and what is left to yield accumulate to what there was to yield. -/
theorem drainQueue_spec {B : OutBuilder S D T M} {ok : S → Prop} {held : S → Upds D T M} (hB : B.Keeps ok held) (result : K → V1 → V2 → List D)
    (mul : R1 →+ R2 →+ M) : ∀ (m : ℕ ×ₗ (ℕ ×ₗ ℕ)) (queue : List (T × DeferredIter K V1 V2 T R1 R2 S D M)) (W : D → T → M) (fuel : Int), queueLeft queue = m →
    JoinQueueOk B ok held result mul queue W →
    ∃ n queue' sent, (∀ n', n ≤ n' → drainQueue B (joinCoreLogic result fun a b => mul a b) n' fuel queue = some (queue', sent)) ∧
      (∃ W', JoinQueueOk B ok held result mul queue' W' ∧ ∀ d q, accum (sentUpds sent) d q + W' d q = W d q) ∧
      (∀ s ∈ sent, s.1 ∈ queue.map (·.1) ∧ ∀ u ∈ s.2, s.1 ≤ u.2.1) ∧ (∀ w ∈ queue', w.1 ∈ queue.map (·.1)) ∧ queueLeft queue' ≤ queueLeft queue ∧
      (0 ≤ fuel → queue ≠ [] → queueLeft queue' < queueLeft queue) := by
  intro m
  induction m using WellFoundedLT.induction with
  | ind m ih =>
    intro queue W fuel hm hq
    by_cases hf : 0 ≤ fuel
    swap
    · refine ⟨1, queue, [], ?_, ⟨W, hq, by simp [sentUpds]⟩, by simp, fun w hw => List.mem_map_of_mem hw, le_rfl, fun h => absurd h hf⟩
      intro n' hn'
      obtain ⟨k, rfl⟩ := Nat.exists_eq_add_of_le' hn'
      simp only [drainQueue]
      rw [if_neg hf]
    match queue, hq, hm with
    | [], hq, hm =>
      refine ⟨1, [], [], ?_, ⟨W, hq, by simp [sentUpds]⟩, by simp, by simp, le_rfl, by simp⟩
      intro n' hn'
      obtain ⟨k, rfl⟩ := Nat.exists_eq_add_of_le' hn'
      simp only [drainQueue]
      rw [if_pos hf]
    | (time, it) :: rest, ⟨e, W1, W2, a, b, c⟩, hm =>
      obtain ⟨it', o, n1, n2, n3, n4⟩ := iterNext_spec hB a
      cases o with
      | none =>
        have hlt := queueLeft_rest (time, it) rest
        obtain ⟨n, queue', sent, r1, ⟨W', r2, r3⟩, r4, r5, r6, r7⟩ := ih _ (hm ▸ hlt) rest W2 fuel rfl b
        refine ⟨n + 1, queue', sent, ?_, ⟨W', r2, ?_⟩, ?_, ?_, (lt_of_le_of_lt r6 hlt).le, fun _ _ => lt_of_le_of_lt r6 hlt⟩
        · intro n' hn'
          obtain ⟨k, rfl⟩ := Nat.exists_eq_add_of_le' (show 1 ≤ n' by omega)
          simp only [drainQueue]
          rw [if_pos hf, n1]
          exact r1 k (by omega)
        · intro d q
          rw [r3, ← c, n3 rfl d q, zero_add]
        · exact fun s hs => ⟨List.mem_cons_of_mem _ (r4 s hs).1, (r4 s hs).2⟩
        · exact fun w hw => List.mem_cons_of_mem _ (r5 w hw)
      | some cont =>
        obtain ⟨p1, p2, W1', p3, p4⟩ := n4 cont rfl
        have hlt : queueLeft ((time, it') :: rest) < queueLeft ((time, it) :: rest) := by
          simp only [queueLeft, Prod.Lex.toLex_lt_toLex]
          right
          exact ⟨trivial, p1⟩
        have hq' : JoinQueueOk B ok held result mul ((time, it') :: rest) fun d q => W1' d q + W2 d q := ⟨n2.trans e, W1', W2, p3, b, fun _ _ => rfl⟩
        obtain ⟨n, queue', sent, r1, ⟨W', r2, r3⟩, r4, r5, r6, r7⟩ := ih _ (hm ▸ hlt) _ _ (fuel - cont.length) rfl hq'
        refine ⟨n + 1, queue', (time, cont) :: sent, ?_, ⟨W', r2, ?_⟩, ?_, r5, (lt_of_le_of_lt r6 hlt).le, fun _ _ => lt_of_le_of_lt r6 hlt⟩
        · intro n' hn'
          obtain ⟨k, rfl⟩ := Nat.exists_eq_add_of_le' (show 1 ≤ n' by omega)
          simp only [drainQueue]
          rw [if_pos hf, n1]
          simp only
          rw [r1 k (by omega)]
        · intro d q
          have := r3 d q
          simp only [sentUpds, List.flatMap_cons, accum_append] at this ⊢
          rw [← c, ← p4, add_assoc, this, add_assoc]
        · intro s hs
          rcases List.mem_cons.1 hs with rfl | hs
          · exact ⟨by simp, by rw [← e]; exact p2⟩
          · exact r4 s hs

end DD
