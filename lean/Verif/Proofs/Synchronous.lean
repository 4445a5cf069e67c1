import Verif.Proofs.Dataflow

/-!
# Runs of programs, round by round

Streams that hold given collections in given rounds: for showing that what is assumed of runs can be met.
-/

namespace DD
variable {D D1 D2 T : Type*}

section
variable [DecidableEq D] [PartialOrder T] [OrderBot T]

/-- What changes one collection into another. -/
def change (a b : Coll D) : Coll D :=
  List.filter (fun x => x.2 ≠ 0) ((List.map Prod.fst (b ++ a)).dedup.map fun d => (d, weight b d - weight a d))

theorem weight_nodup (f : D → Int) (l : List D) (hl : l.Nodup) (d : D) : weight (List.filter (fun x => x.2 ≠ 0) (l.map fun d => (d, f d))) d = if d ∈ l then f d else 0 := by
  induction l with
  | nil => rfl
  | cons e l ih =>
    rw [List.nodup_cons] at hl
    rw [List.map_cons, List.filter_cons]
    by_cases h : e = d
    · subst h
      split_ifs with h1 h2 h2
      · rw [weight_cons, if_pos rfl, ih hl.2, if_neg hl.1, add_zero]
      · simp at h2
      · rw [ih hl.2, if_neg hl.1]
        by_contra hc
        exact h1 (by simpa using fun c => hc c.symm)
      · simp at h2
    · have h' : ¬ d = e := fun c => h c.symm
      simp only [List.mem_cons, h', false_or]
      split_ifs with h1 h2
      · rw [weight_cons, if_neg h, ih hl.2, if_pos h2, zero_add]
      · rw [weight_cons, if_neg h, ih hl.2, if_neg h2, zero_add]
      · rw [ih hl.2, if_pos (by assumption)]
      · rw [ih hl.2, if_neg (by assumption)]

theorem weight_change (a b : Coll D) (d : D) : weight (change a b) d = weight b d - weight a d := by
  unfold change
  rw [weight_nodup (fun d => weight b d - weight a d) _ (List.nodup_dedup _)]
  split_ifs with h
  · rfl
  · rw [List.mem_dedup] at h
    have ha : weight a d = 0 := by
      by_contra hn
      obtain ⟨r, hr⟩ := Coll.exists_of_weight hn
      exact h (List.mem_map.2 ⟨_, List.mem_append_right _ hr, rfl⟩)
    have hb : weight b d = 0 := by
      by_contra hn
      obtain ⟨r, hr⟩ := Coll.exists_of_weight hn
      exact h (List.mem_map.2 ⟨_, List.mem_append_left _ hr, rfl⟩)
    rw [ha, hb, sub_zero]

theorem mem_change {a b : Coll D} {x : D × Int} (h : x ∈ change a b) : weight (change a b) x.1 ≠ 0 := by
  rw [weight_change]
  unfold change at h
  obtain ⟨h1, h2⟩ := List.mem_filter.1 h
  obtain ⟨d, -, rfl⟩ := List.mem_map.1 h1
  simpa using h2

/-- The collection of the round before. -/
def prevRound (c : Nat → Coll D) : Nat → Coll D
  | 0 => []
  | i + 1 => c i

/-- A collection as updates at one time. -/
def stamp {S : Type*} (p : S) (c : Coll D) : Upds D S Int := List.map (fun x => (x.1, p, x.2)) c

/-- A stream with one message for each round. -/
def steps (c : Nat → Coll D) (n : Nat) : Msgs D (T × Nat) Int :=
  (List.range n).map fun i => ((⊥, i), stamp (⊥, i) (change (prevRound c i) (c i)))

/-- A stream of one message. -/
def constant (c : Coll D) (_ : Nat) : Msgs D T Int := [(⊥, stamp ⊥ c)]

theorem steps_succ (c : Nat → Coll D) (n : Nat) : (steps (T := T) c (n + 1)).upds = (steps c n).upds ++ stamp (⊥, n) (change (prevRound c n) (c n)) := by
  unfold steps Msgs.upds
  rw [List.range_succ, List.map_append, List.flatMap_append]
  simp

theorem mem_steps {c : Nat → Coll D} {n : Nat} {u : D × (T × Nat) × Int} (h : u ∈ (steps (T := T) c n).upds) :
    ∃ i, i < n ∧ u.2.1 = (⊥, i) ∧ (u.1, u.2.2) ∈ change (prevRound c i) (c i) := by
  unfold steps Msgs.upds at h
  obtain ⟨m, hm, hu⟩ := List.mem_flatMap.1 h
  obtain ⟨i, hi, rfl⟩ := List.mem_map.1 hm
  obtain ⟨x, hx, rfl⟩ := List.mem_map.1 hu
  exact ⟨i, List.mem_range.1 hi, rfl, hx⟩

theorem steps_grow (c : Nat → Coll D) (n : Nat) : steps (T := T) c n <+: steps c (n + 1) := by
  unfold steps
  rw [List.range_succ, List.map_append]
  exact List.prefix_append _ _

theorem steps_timed (c : Nat → Coll D) (n : Nat) : ∀ m ∈ steps (T := T) c n, ∀ u ∈ m.2, m.1 ≤ u.2.1 := by
  intro m hm u hu
  unfold steps at hm
  obtain ⟨i, hi, rfl⟩ := List.mem_map.1 hm
  obtain ⟨x, hx, rfl⟩ := List.mem_map.1 hu
  exact le_rfl

variable [DecidableLE T]

theorem accum_stamp (c : Coll D) (p q : T) (d : D) : accum (stamp p c) d q = if p ≤ q then weight c d else 0 := by
  induction c with
  | nil => simp [stamp]
  | cons x c ih =>
    change accum ((x.1, p, x.2) :: stamp p c) d q = _
    rw [accum_cons, ih, weight_cons]
    by_cases h : p ≤ q <;> simp [h]

theorem upTo_steps (c : Nat → Coll D) (t : T) (i k : Nat) : upTo (t, i) (steps (T := T) c (i + 1 + k)).upds = (steps c (i + 1)).upds := by
  induction k with
  | zero =>
    unfold upTo
    rw [List.filter_eq_self]
    intro u hu
    obtain ⟨j, hj, e, -⟩ := mem_steps hu
    rw [e]
    exact decide_eq_true (Prod.mk_le_mk.2 ⟨bot_le, by omega⟩)
  | succ k ih =>
    rw [← Nat.add_assoc, steps_succ, upTo_append, ih]
    unfold upTo
    rw [List.filter_eq_nil_iff.2, List.append_nil]
    intro u hu
    obtain ⟨x, -, rfl⟩ := List.mem_map.1 hu
    simp only [decide_eq_true_eq, Prod.mk_le_mk]
    omega

theorem settled_steps (c : Nat → Coll D) (t : T) (i : Nat) : Settled (fun n => (steps (T := T) c n).upds) (i + 1) (t, i) := by
  intro m hm
  obtain ⟨k, rfl⟩ : ∃ k, m = i + 1 + k := ⟨m - (i + 1), by omega⟩
  have h0 := upTo_steps c t i 0
  simp only [Nat.add_zero] at h0
  simp only [upTo_steps, h0]
  exact List.Perm.refl _

theorem accum_steps (c : Nat → Coll D) (t : T) (i : Nat) (d : D) : accum (steps (T := T) c (i + 1)).upds d (t, i) = weight (c i) d := by
  have key : ∀ n, ∀ i, n ≤ i → accum (steps (T := T) c (n + 1)).upds d (t, i) = weight (c n) d := by
    intro n
    induction n with
    | zero =>
      intro i _
      rw [steps_succ, accum_append, accum_stamp, if_pos (Prod.mk_le_mk.2 ⟨bot_le, by omega⟩), weight_change]
      simp [steps, Msgs.upds, prevRound]
    | succ n ih =>
      intro i hi
      rw [steps_succ, accum_append, ih i (by omega), accum_stamp, if_pos (Prod.mk_le_mk.2 ⟨bot_le, hi⟩), weight_change]
      simp [prevRound]
  exact key i i le_rfl

theorem holds_steps (c : Nat → Coll D) (t : T) (i : Nat) : Holds (fun n => (steps (T := T) c n).upds) (t, i) (c i) :=
  ⟨i + 1, settled_steps c t i, accum_steps c t i⟩

theorem total_stamp [DecidableEq T] (c : Coll D) (p q : T) (d : D) : total (stamp p c) d q = if p = q then weight c d else 0 := by
  induction c with
  | nil => simp [stamp]
  | cons x c ih =>
    change total ((x.1, p, x.2) :: stamp p c) d q = _
    rw [total_cons, ih, weight_cons]
    by_cases h : p = q <;> simp [h]

theorem tidy_steps [DecidableEq T] (c : Nat → Coll D) : Tidy fun n => (steps (T := T) c n).upds := by
  rintro n ⟨t, i⟩ -
  refine ⟨i + 1, settled_steps c t i, fun u hu _ => ?_⟩
  obtain ⟨j, hj, e, hx⟩ := mem_steps hu
  have key : ∀ n, total (steps (T := T) c n).upds u.1 (⊥, j) = if j < n then weight (change (prevRound c j) (c j)) u.1 else 0 := by
    intro n
    induction n with
    | zero => simp [steps, Msgs.upds]
    | succ n ih =>
      rw [steps_succ, total_append, ih, total_stamp]
      rcases Nat.lt_trichotomy j n with h | h | h
      · have : ((⊥, n) : T × Nat) ≠ (⊥, j) := by simp; omega
        simp [h, this, show j < n + 1 by omega]
      · subst h
        simp
      · have : ((⊥, n) : T × Nat) ≠ (⊥, j) := by simp; omega
        simp [this, show ¬ j < n by omega, show ¬ j < n + 1 by omega]
  change total (steps (T := T) c (i + 1)).upds u.1 u.2.1 ≠ 0
  rw [e, key, if_pos hj]
  exact mem_change hx

theorem upds_constant (c : Coll D) (n : Nat) : (constant (T := T) c n).upds = stamp ⊥ c := by simp [constant, Msgs.upds]

theorem holds_constant (c : Coll D) (t : T) : Holds (fun n => (constant (T := T) c n).upds) t c := by
  refine ⟨0, fun _ _ => List.Perm.refl _, fun d => ?_⟩
  beta_reduce
  rw [upds_constant, accum_stamp, if_pos bot_le]

theorem constant_timed (c : Coll D) (n : Nat) : ∀ m ∈ constant (T := T) c n, ∀ u ∈ m.2, m.1 ≤ u.2.1 := by
  intro m hm u hu
  rw [constant, List.mem_singleton] at hm
  subst hm
  exact bot_le

end

section ops
variable [DecidableEq D] [DecidableEq D1] [DecidableEq D2] [PartialOrder T] [DecidableLE T]

theorem op1_of_rounds {f : Coll D1 → Coll D} {s : Nat → Upds D1 (T × Nat) Int} {s' : Nat → Upds D (T × Nat) Int} {a : Nat → Coll D1} {b : Nat → Coll D}
    (hs : ∀ t i, Holds s (t, i) (a i)) (hs' : ∀ t i, Holds s' (t, i) (b i)) (hf : ∀ c c', Coll.Same c c' → Coll.Same (f c) (f c')) (h : ∀ i, Coll.Same (b i) (f (a i))) : Op1 f s s' := by
  rintro ⟨t, i⟩ c hc
  exact (hs' t i).same ((h i).trans (hf _ _ ((hs t i).unique hc)))

theorem op2_of_rounds {f : Coll D1 → Coll D2 → Coll D} {s1 : Nat → Upds D1 (T × Nat) Int} {s2 : Nat → Upds D2 (T × Nat) Int} {s' : Nat → Upds D (T × Nat) Int} {a1 : Nat → Coll D1}
    {a2 : Nat → Coll D2} {b : Nat → Coll D} (hs1 : ∀ t i, Holds s1 (t, i) (a1 i)) (hs2 : ∀ t i, Holds s2 (t, i) (a2 i)) (hs' : ∀ t i, Holds s' (t, i) (b i))
    (hf : ∀ c c' e e', Coll.Same c c' → Coll.Same e e' → Coll.Same (f c e) (f c' e')) (h : ∀ i, Coll.Same (b i) (f (a1 i) (a2 i))) : Op2 f s1 s2 s' := by
  rintro ⟨t, i⟩ c1 c2 h1 h2
  exact (hs' t i).same ((h i).trans (hf _ _ _ _ ((hs1 t i).unique h1) ((hs2 t i).unique h2)))

theorem op1_of_constant {f : Coll D1 → Coll D} {s : Nat → Upds D1 T Int} {s' : Nat → Upds D T Int} {a : Coll D1} {b : Coll D}
    (hs : ∀ t, Holds s t a) (hs' : ∀ t, Holds s' t b) (hf : ∀ c c', Coll.Same c c' → Coll.Same (f c) (f c')) (h : Coll.Same b (f a)) : Op1 f s s' := by
  rintro t c hc
  exact (hs' t).same (h.trans (hf _ _ ((hs t).unique hc)))

theorem enters_of_rounds {s : Nat → Upds D T Int} {s' : Nat → Upds D (T × Nat) Int} {a : Coll D} (hs : ∀ t, Holds s t a) (hs' : ∀ t i, Holds s' (t, i) a) : Enters s s' := by
  rintro t i c hc
  exact (hs' t i).same ((hs t).unique hc)

end ops

section loops
variable [DecidableEq D] [PartialOrder T] [OrderBot T] [DecidableLE T]

/-- A loop that runs round by round, with a source that does not change. -/
theorem steps_loop (c0 : Coll D) (r : Nat → Coll D) {M : Nat} (hM : M < maxRound) (hr : ∀ i, M ≤ i → Coll.Same (r (i + 1)) (r i)) :
    ∃ recv : Nat → Upds D (T × Nat) Int, LoopRun (fun n => iterateReceives (constant c0 n)) (steps r) recv ∧
      ∀ t i, Holds recv (t, i) (match i with | 0 => c0 | i + 1 => r i) := by
  have hround : ∀ n, ∀ u ∈ (steps (T := T) r n).upds, u.2.1.2 ≤ M := by
    intro n u hu
    obtain ⟨j, -, e, hx⟩ := mem_steps hu
    rw [e]
    show j ≤ M
    by_contra hn
    obtain ⟨k, rfl⟩ : ∃ k, j = k + 1 := ⟨j - 1, by omega⟩
    have h1 := mem_change hx
    rw [weight_change, prevRound, hr k (by omega) u.1, sub_self] at h1
    exact h1 rfl
  have hpass : Passes (fun n => iterateReceives (constant (T := T) c0 n)) (steps r) (fun n => (constant c0 n).upds)
      (fun n => ((constant (T := T) c0 n).upds.map fun u => (u.1, ((u.2.1, ⊥) : T × Nat), u.2.2)).map fun u => (u.1, u.2.1, -u.2.2)) := by
    refine ⟨fun n => ?_⟩
    have ht : ∀ m ∈ (steps (T := T) r n).concat ((constant (T := T) c0 n).enter (T2 := Nat)).negate, ∀ u ∈ m.2, m.1 ≤ u.2.1 := by
      intro m hm
      rcases List.mem_append.1 hm with hm | hm
      · exact steps_timed r n m hm
      · simp only [Msgs.negate, Msgs.eachMsg, Msgs.enter, List.mem_map] at hm
        obtain ⟨m1, ⟨m2, hm2, rfl⟩, rfl⟩ := hm
        intro u hu
        simp only [List.map_map, List.mem_map, Function.comp_apply] at hu
        obtain ⟨v, hv, rfl⟩ := hu
        exact Prod.mk_le_mk.2 ⟨constant_timed c0 n m2 hm2 v hv, le_rfl⟩
    simp only [iterateReceives, Variable.new_from, Variable.set]
    rw [upds_concat, upds_feedback _ ht, upds_results_in, upds_concat, upds_negate, upds_enter]
    rfl
  have hrun : LoopRun (fun n => iterateReceives (constant (T := T) c0 n)) (steps r) (fun n => (iterateReceives (constant (T := T) c0 n) (steps r n)).upds) := by
    refine ⟨steps_grow r, steps_timed r, fun n u hu => (hround n u hu).trans hM.le, fun n => ?_, fun n => List.Subperm.refl _, fun n => ⟨n, List.Subperm.refl _⟩⟩
    have e := hpass.eq
    beta_reduce at e
    rw [e, e, steps_succ]
    refine List.Sublist.subperm (List.Sublist.append (List.Sublist.filterMap _ (List.Sublist.append (List.sublist_append_left _ _) ?_)) ?_)
    · simp only [upds_constant]
      exact List.Sublist.refl _
    · simp only [upds_constant]
      exact List.Sublist.refl _
  refine ⟨_, hrun, fun t i => ?_⟩
  have hsrc : ∀ n, (fun n => (constant (T := T) c0 n).upds) n = (constant (T := T) c0 0).upds := fun n => by simp only [upds_constant]
  cases i with
  | zero => exact holds_zero hrun hpass (holds_constant c0 t)
  | succ i =>
    have nxt : ∀ (us : Upds D (T × Nat) Int), (∀ u ∈ us, u.2.1.2 < maxRound) → us.filterMap nextUpd = us.map fun u => (u.1, (u.2.1.1, u.2.1.2 + 1), u.2.2) := by
      intro us h
      rw [← List.filterMap_eq_map]
      refine List.filterMap_congr fun u hu => ?_
      unfold nextUpd nextRound
      rw [if_pos (h u hu)]
      rfl
    have hlt : ∀ n, ∀ u ∈ (steps (T := T) r n).upds ++ ((constant (T := T) c0 n).upds.map fun u => (u.1, ((u.2.1, ⊥) : T × Nat), u.2.2)).map fun u => (u.1, u.2.1, -u.2.2), u.2.1.2 < maxRound := by
      intro n u hu
      rcases List.mem_append.1 hu with hu | hu
      · exact lt_of_le_of_lt (hround n u hu) hM
      · obtain ⟨v, hv, rfl⟩ := List.mem_map.1 hu
        obtain ⟨w, hw, rfl⟩ := List.mem_map.1 hv
        show 0 < maxRound
        decide
    have upn : ∀ us : Upds D (T × Nat) Int, upTo (t, i + 1) (us.map fun u => (u.1, (u.2.1.1, u.2.1.2 + 1), u.2.2)) = (upTo (t, i) us).map fun u => (u.1, (u.2.1.1, u.2.1.2 + 1), u.2.2) := by
      intro us
      unfold upTo
      rw [List.filter_map]
      congr 1
      apply List.filter_congr
      intro u _
      simp only [Function.comp_apply, decide_eq_decide, Prod.le_def, Nat.add_le_add_iff_right]
    have acn : ∀ (us : Upds D (T × Nat) Int) d, accum (us.map fun u => (u.1, (u.2.1.1, u.2.1.2 + 1), u.2.2)) d (t, i + 1) = accum us d (t, i) := by
      intro us d
      induction us with
      | nil => rfl
      | cons u us ih => rw [List.map_cons, accum_cons, accum_cons, ih]; simp [Prod.le_def]
    refine ⟨i + 1, fun m hm => ?_, fun d => ?_⟩
    · have e := hpass.eq
      beta_reduce at e
      simp only [e]
      rw [nxt _ (hlt m), nxt _ (hlt (i + 1))]
      simp only [upTo_append, upn, upTo_enter, upds_constant]
      exact (((settled_steps r t i m hm).append (List.Perm.refl _)).map _).append (List.Perm.refl _)
    · have e := hpass.eq
      beta_reduce at e ⊢
      rw [e, nxt _ (hlt (i + 1)), accum_append, acn, accum_enter, accum_append, accum_steps, accum_neg, accum_enter, neg_add_cancel_right]

end loops
end DD
