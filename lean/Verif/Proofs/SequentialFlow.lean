import Verif.Proofs.Sequential
import Verif.Proofs.PrefixSumFlow
import Verif.Props.Coll

/-!
# The dataflow of sequence
-/

namespace DD
variable {N V T : Type*} [LinearOrder N] [LinearOrder V]

theorem sendForward_same {new new' : Coll (N × Option V)} {edges edges' : Coll (N × N)} (h : Coll.Same new new') (h' : Coll.Same edges edges') : Coll.Same (sendForward new edges) (sendForward new' edges') :=
  h.join_map (h'.filter _) _

theorem waiting_same {c c' : Coll (N × Option V)} (h : Coll.Same c c') : Coll.Same (waiting c) (waiting c') := ((h.filter _).map _).distinct

theorem arrived_same {c c' : Coll (N × Option V)} (h : Coll.Same c c') : Coll.Same (arrived c) (arrived c') := h.flat_map _

theorem sendReverse_same {old old' : Coll (N × V)} {edges edges' : Coll (N × N)} (h : Coll.Same old old') (h' : Coll.Same edges edges') : Coll.Same (sendReverse old edges) (sendReverse old' edges') :=
  h.join_map (h'.filter _) _

theorem seqMessages_same {state state' : Coll (N × V)} {edges edges' : Coll (N × N)} {new new' : Coll (N × Option V)} (h : Coll.Same state state') (h' : Coll.Same edges edges') (h'' : Coll.Same new new') :
    Coll.Same (seqMessages state edges new) (seqMessages state' edges' new') :=
  ((arrived_same (sendForward_same h'' h')).concat (sendReverse_same h h')).antijoin (waiting_same (sendForward_same h'' h'))

variable [PartialOrder T] [DecidableLE T] [DecidableEq T] {F : SequenceFlow N V T} {logic : N → List (V × Int) → V} {state : Nat → Upds (N × V) T Int} {edges : Nat → Upds (N × N) T Int}

theorem sequence_holds (h : F.Runs logic state edges) {t : T} {s : Coll (N × V)} {e : Coll (N × N)} (hs : Holds state t s) (he : Holds edges t e) : ∀ i, i ≤ maxRound →
    Holds F.newState (t, i) (seqIter logic s e i) ∧ Holds (fun n => (F.incomplete n).upds) (t, i) (waiting (sendForward (seqIter logic s e i) e)) ∧
    Holds (fun n => (F.reduced n).upds) (t, i) (Coll.reduce (applyLogic logic) (seqMessages s e (seqIter logic s e i))) ∧
    Holds (fun n => (F.result n).upds) (t, i) (seqIter logic s e (i + 1)) := by
  have h0 := h.start t s hs
  have step : ∀ i, Holds F.newState (t, i) (seqIter logic s e i) → Holds (fun n => (F.incomplete n).upds) (t, i) (waiting (sendForward (seqIter logic s e i) e)) ∧
      Holds (fun n => (F.reduced n).upds) (t, i) (Coll.reduce (applyLogic logic) (seqMessages s e (seqIter logic s e i))) ∧
      Holds (fun n => (F.result n).upds) (t, i) (seqIter logic s e (i + 1)) := fun i hi => by
    have ein := h.edgesIn t i _ he
    have h1 := h.sent _ _ _ hi ein
    have h2 := h.incomplete _ _ h1
    have h3 := h.received _ _ _ h1 (h.oldMessages _ _ _ (h.oldState t i _ hs) ein)
    have h4 := h.reduced _ _ (h.messages _ _ _ h3 h2)
    exact ⟨h2, h4, holds_upds_append h.result h4 (C49_map _ _ _ _ h2)⟩
  intro i
  induction i with
  | zero => exact fun _ => ⟨loop_zero h.timed h.loop h0, step 0 (loop_zero h.timed h.loop h0)⟩
  | succ i ih =>
    intro hle
    have := loop_succ h.timed h.loop h0 (by omega) (ih (by omega)).2.2.2
    exact ⟨this, step _ this⟩

variable {n0 : Nat} {t : T} {S : Finset N}

omit [DecidableEq T] in
theorem SequenceInput.nonneg (H : SequenceInput state edges n0 t S) (t' : T) (ht' : t' ≤ t) : (collectionAt (state n0) t').Nonneg := fun x => by
  rw [weight_collectionAt]
  exact H.statesNonneg t' ht' x

omit [DecidableEq T] in
theorem SequenceInput.nonneg' (H : SequenceInput state edges n0 t S) (t' : T) (ht' : t' ≤ t) : (collectionAt (edges n0) t').Nonneg := fun x => by
  rw [weight_collectionAt]
  exact H.edgesNonneg t' ht' x

omit [DecidableEq T] in
theorem SequenceInput.mem (H : SequenceInput state edges n0 t S) (t' : T) (ht' : t' ≤ t) (e : N × N) (he : weight (collectionAt (edges n0) t') e ≠ 0) : e.1 ∈ S := by
  obtain ⟨x, hx⟩ := Coll.exists_of_weight he
  obtain ⟨u, hu, e'⟩ := List.mem_map.1 hx
  have hu := List.mem_filter.1 hu
  have := H.nodes u hu.1 (le_trans (of_decide_eq_true hu.2) ht')
  rwa [show u.1 = e from congrArg Prod.fst e'] at this

theorem sequence_stops_of (h : F.Runs logic state edges) (hs : Settled state n0 t) (he : Settled edges n0 t) {m : Nat}
    (hst : ∀ t', t' ≤ t → ∀ i, m ≤ i → Coll.Same (seqIter logic (collectionAt (state n0) t') (collectionAt (edges n0) t') i) (seqIter logic (collectionAt (state n0) t') (collectionAt (edges n0) t') m)) :
    ∀ n, ∀ u ∈ (F.result n).upds, u.2.1.1 ≤ t → u.2.1.2 ≤ m := by
  have hmap : ∀ n, ((F.incomplete n).map fun x => (x, (none : Option V))).upds = (F.incomplete n).upds.map fun u => ((u.1, none), u.2.1, u.2.2) := fun n => by
    simp only [Msgs.upds, Msgs.map, Msgs.eachMsg, List.flatMap_map, List.map_flatMap]
  have hin := tidy_stops h.grows' (fun n u hu => h.loop.rounds n ((u.1, none), u.2.1, u.2.2) ((h.result n).mem_iff.2 (List.mem_append_right _ (by rw [hmap]; exact List.mem_map_of_mem hu)))) h.tidy' (t := t)
    (m := m) (X := fun t' => waiting (sendForward (seqIter logic (collectionAt (state n0) t') (collectionAt (edges n0) t') (m)) (collectionAt (edges n0) t')))
    (fun t' ht' i hi hi' => (sequence_holds h (hs.holds ht') (he.holds ht') i hi').2.1.same (waiting_same (sendForward_same (hst t' ht' i hi) (Coll.Same.refl _))))
  have hred := tidy_stops h.grows (fun n u hu => h.loop.rounds n u ((h.result n).mem_iff.2 (List.mem_append_left _ hu))) h.tidy (t := t)
    (m := m) (X := fun t' => Coll.reduce (applyLogic logic) (seqMessages (collectionAt (state n0) t') (collectionAt (edges n0) t')
      (seqIter logic (collectionAt (state n0) t') (collectionAt (edges n0) t') (m))))
    (fun t' ht' i hi hi' => (sequence_holds h (hs.holds ht') (he.holds ht') i hi').2.2.1.same ((seqMessages_same (Coll.Same.refl _) (Coll.Same.refl _) (hst t' ht' i hi)).reduce _))
  intro n u hu hle
  rcases List.mem_append.1 ((h.result n).mem_iff.1 hu) with hu | hu
  · exact hred n u hu hle
  · rw [hmap] at hu
    obtain ⟨v, hv, rfl⟩ := List.mem_map.1 hu
    exact hin n v hv hle

theorem sequence_stops (h : F.Runs logic state edges) (H : SequenceInput state edges n0 t S) : ∀ n, ∀ u ∈ (F.result n).upds, u.2.1.1 ≤ t → u.2.1.2 ≤ S.card + 1 :=
  sequence_stops_of h H.settledStates H.settledEdges fun t' ht' _ hi => seqIter_stable logic (H.nonneg t' ht') (H.nonneg' t' ht') (H.connected t' ht') (H.mem t' ht') hi

theorem sequence_out (h : F.Runs logic state edges) (H : SequenceInput state edges n0 t S) (hmax : S.card < maxRound) :
    Holds F.out t (seqIter logic (collectionAt (state n0) t) (collectionAt (edges n0) t) (S.card + 2)) :=
  leave_holds (sequence_stops h H) (sequence_holds h (H.settledStates.holds le_rfl) (H.settledEdges.holds le_rfl) (S.card + 1) hmax).2.2.2

section run
variable {ι : Type*} [OrderBot T] [DecidableEq ι]

theorem sequence_static {P : T → Prop} {κ : T → ι} (hκ : Stages P κ) (logic : N → List (V × Int) → V) {A : ι → Coll (N × V)} {E : ι → Coll (N × N)} {us : Upds (N × V) T Int} {vs : Upds (N × N) T Int}
    (hA : Represents us fun q => A (κ q)) (hE : Represents vs fun q => E (κ q)) {m : Nat} (hst : ∀ k i, m ≤ i → Coll.Same (seqIter logic (A k) (E k) i) (seqIter logic (A k) (E k) m)) (hmax : m < maxRound) :
    ∃ F : SequenceFlow N V T, F.Runs logic (fun _ => us) fun _ => vs := by
  have hκ' := hκ.rounds m
  obtain ⟨start, hstart, -⟩ := hκ.represents fun k => noStates (A k)
  obtain ⟨edgesIn, hedgesIn, -⟩ := hκ'.represents fun k => E k.1
  obtain ⟨oldState, holdState, -⟩ := hκ'.represents fun k => A k.1
  obtain ⟨sent, hsent, -⟩ := hκ'.represents fun k => sendForward (seqIter logic (A k.1) (E k.1) k.2) (E k.1)
  obtain ⟨inc, hinc, hround'⟩ := hκ'.represents_tidy fun k => waiting (sendForward (seqIter logic (A k.1) (E k.1) k.2) (E k.1))
  obtain ⟨oldMessages, holdMessages, -⟩ := hκ'.represents fun k => sendReverse (A k.1) (E k.1)
  obtain ⟨received, hreceived, -⟩ := hκ'.represents fun k => (arrived (sendForward (seqIter logic (A k.1) (E k.1) k.2) (E k.1))).concat (sendReverse (A k.1) (E k.1))
  obtain ⟨messages, hmessages, -⟩ := hκ'.represents fun k => seqMessages (A k.1) (E k.1) (seqIter logic (A k.1) (E k.1) k.2)
  obtain ⟨red, hred, hround⟩ := hκ'.represents_tidy fun k => Coll.reduce (applyLogic logic) (seqMessages (A k.1) (E k.1) (seqIter logic (A k.1) (E k.1) k.2))
  let none' : Upds (N × Option V) (T × Nat) Int := (Msgs.map (fun x : N => (x, (none : Option V))) (static (tidied inc) 0)).upds
  let res : Upds (N × Option V) (T × Nat) Int := tidied red ++ none'
  have hnone : Represents none' fun q => (waiting (sendForward (seqIter logic (A (κ q.1)) (E (κ q.1)) (min q.2 m)) (E (κ q.1)))).map fun x => (x, none) := by
    intro q d
    have h1 : Holds (fun n => (static (tidied inc) n).upds) q (waiting (sendForward (seqIter logic (A (κ q.1)) (E (κ q.1)) (min q.2 m)) (E (κ q.1)))) := by
      simp only [upds_static]
      exact hinc.holds q
    obtain ⟨n, -, h⟩ := C49_map (fun x : N => (x, (none : Option V))) _ _ _ h1
    exact h d
  have hres : Represents res fun q => seqIter logic (A (κ q.1)) (E (κ q.1)) (min q.2 m + 1) := by
    intro q d
    rw [accum_append, hred q d, hnone q d, ← Coll.weight_concat]
    rfl
  have hlt : ∀ u ∈ res, u.2.1.2 < maxRound := by
    intro u hu
    rcases List.mem_append.1 hu with hu | hu
    · exact (hround u hu).2.trans_lt hmax
    · obtain ⟨ms, hms, hu⟩ := List.mem_flatMap.1 hu
      obtain ⟨ms', hms', rfl⟩ := List.mem_map.1 hms
      obtain ⟨v, hv, rfl⟩ := List.mem_map.1 hu
      have : v ∈ (static (tidied inc) 0).upds := List.mem_flatMap.2 ⟨ms', hms', hv⟩
      rw [upds_static] at this
      exact (hround' v this).2.trans_lt hmax
  obtain ⟨recv, hrun, hrecv⟩ := static_loop hstart hres hlt
  have hrecv' : Represents recv fun q => seqIter logic (A (κ q.1)) (E (κ q.1)) (min q.2 m) := by
    refine hrecv.congr fun ⟨t, i⟩ => ?_
    cases i with
    | zero => exact Coll.Same.refl _
    | succ i =>
      show Coll.Same (seqIter logic (A (κ t)) (E (κ t)) (min i m + 1)) (seqIter logic (A (κ t)) (E (κ t)) (min (i + 1) m))
      by_cases hi : i + 1 ≤ m
      · rw [Nat.min_eq_left (by omega : i ≤ m), Nat.min_eq_left hi]
        exact Coll.Same.refl _
      · rw [Nat.min_eq_right (by omega), Nat.min_eq_right (by omega)]
        exact hst _ _ (by omega)
  refine ⟨⟨static start, fun _ => recv, fun _ => edgesIn, fun _ => oldState, fun _ => sent, static (tidied inc), fun _ => oldMessages, fun _ => received, fun _ => messages, static (tidied red), static res⟩,
    ?_, static_timed _, hrun, enters_static hE hedgesIn, enters_static hA holdState, ?_, ?_, ?_, ?_, ?_, ?_, fun n => ?_, fun _ => List.prefix_rfl, fun _ => List.prefix_rfl, tidy_static red, tidy_static inc⟩
  · simp only [upds_static]
    exact op1_static hA hstart (fun _ _ h => h.map _) fun _ => Coll.Same.refl _
  · exact op2_static hrecv' hedgesIn hsent (fun _ _ _ _ h h' => sendForward_same h h') fun _ => Coll.Same.refl _
  · simp only [upds_static]
    exact op1_static hsent hinc (fun _ _ h => waiting_same h) fun _ => Coll.Same.refl _
  · exact op2_static holdState hedgesIn holdMessages (fun _ _ _ _ h h' => sendReverse_same h h') fun _ => Coll.Same.refl _
  · exact op2_static hsent holdMessages hreceived (fun _ _ _ _ h h' => (arrived_same h).concat h') fun _ => Coll.Same.refl _
  · simp only [upds_static]
    exact op2_static hreceived hinc hmessages (fun _ _ _ _ h h' => h.antijoin h') fun _ => Coll.Same.refl _
  · simp only [upds_static]
    exact op1_static hmessages hred (fun _ _ h => h.reduce _) fun _ => Coll.Same.refl _
  · show (static res n).upds.Perm ((static (tidied red) n).upds ++ (Msgs.map (fun x : N => (x, (none : Option V))) (static (tidied inc) n)).upds)
    rw [upds_static, upds_static]
    exact List.Perm.refl _

end run
end DD
