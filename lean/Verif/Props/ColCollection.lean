import Verif.Proofs.ColExchange
import Verif.Proofs.TrieChunker
import Verif.Proofs.Dynamic
import Verif.Props.NavChunk

/-!
# C67: columnar collections

Containers of columnar updates carry what they should, from the builder through the operators and the exchange to the chunker.
-/

namespace DD
set_option linter.unusedSectionVars false

section
variable {K V T T' R : Type*} [LinearOrder K] [LinearOrder V] [LinearOrder (Lin T)] [LinearOrder (Lin T')] [DecidableEq T] [DecidableEq T']

/-! ### Operators that keep the shape of the trie -/

private theorem mono_consolidated [Zero R] {R' : Type*} [Zero R'] {f : T → T'} (hf : ∀ a b : T, toLin a < toLin b → toLin (f a) < toLin (f b)) {g : R → R'} (hg : ∀ r, r ≠ 0 → g r ≠ 0)
    {us : Upds (K ×ₗ V) T R} (h : Consolidated us) : Consolidated (us.map fun u => (u.1, f u.2.1, g u.2.2)) := by
  refine ⟨?_, ?_⟩
  · rw [List.pairwise_map]
    refine h.1.imp ?_
    rintro u v (h | ⟨h1, h2⟩)
    · exact Or.inl h
    · exact Or.inr ⟨h1, hf _ _ h2⟩
  · intro u hu
    obtain ⟨w, hw, rfl⟩ := List.mem_map.1 hu
    exact hg _ (h.2 w hw)

/-- C67 for `negate`: the same updates with their differences negated. -/
theorem C67_negate [AddCommGroup R] {c : RecUpd K V T R} {us : Upds (K ×ₗ V) T R} (h : c.Carries us) :
    c.negate.Carries (us.map fun u => (u.1, u.2.1, -u.2.2)) ∧ c.negate.records = c.records ∧ c.negate.consolidated = c.consolidated := by
  refine ⟨⟨?_, ?_⟩, rfl, rfl⟩
  · obtain ⟨f, h1, h2, h3⟩ := h.layout
    refine ⟨f.mapTR id fun d => -d, noEmpty_mapTR _ _ h1, ?_, ?_⟩
    · rw [layout_mapTR, RecUpd.negate, h2]; simp
    · rw [upds_mapTR, h3]; rfl
  · intro hc
    obtain ⟨h1, h2⟩ := h.canonical hc
    refine ⟨?_, mono_consolidated (f := id) (fun _ _ h => h) (fun r hr => neg_ne_zero.2 hr) h2⟩
    have := holds_mapTR id (fun d => -d) h1
    simpa [RecUpd.negate] using this

/-- C67 for `enter`, into times ordered as the outer ones are: the same updates at the inner times. -/
theorem C67_enter [AddCommMonoid R] {c : RecUpd K V T R} {us : Upds (K ×ₗ V) T R} (h : c.Carries us) (to_inner : T → T') (hf : ∀ a b : T, toLin a < toLin b → toLin (to_inner a) < toLin (to_inner b)) :
    (c.enter to_inner).Carries (us.map fun u => (u.1, to_inner u.2.1, u.2.2)) ∧ (c.enter to_inner).records = c.records ∧ (c.enter to_inner).consolidated = c.consolidated := by
  refine ⟨⟨?_, ?_⟩, rfl, rfl⟩
  · obtain ⟨f, h1, h2, h3⟩ := h.layout
    refine ⟨f.mapTR to_inner id, noEmpty_mapTR _ _ h1, ?_, ?_⟩
    · rw [layout_mapTR, RecUpd.enter, RecUpd.retime, h2]; simp
    · rw [upds_mapTR, h3]; rfl
  · intro hc
    obtain ⟨h1, h2⟩ := h.canonical hc
    refine ⟨?_, mono_consolidated hf (g := id) (fun r hr => hr) h2⟩
    have := holds_mapTR to_inner id h1
    simpa [RecUpd.enter, RecUpd.retime] using this

/-- C67 for `leave`: the updates at their outer times, consolidated. -/
theorem C67_leave [AddCommMonoid R] [DecidableEq R] {c : RecUpd K V T R} {us : Upds (K ×ₗ V) T R} (h : c.Carries us) (to_outer : T → T') :
    ∃ c' ws, c.leave to_outer = some c' ∧ c'.records = c.records ∧ c'.consolidated = true ∧ c'.Carries ws ∧
      (∀ d q, total ws d q = total (us.map fun u => (u.1, to_outer u.2.1, u.2.2)) d q) ∧ ∀ w ∈ ws, ∃ u ∈ us, u.1 = w.1 ∧ to_outer u.2.1 = w.2.1 := by
  obtain ⟨f, h1, h2, h3⟩ := h.layout
  obtain ⟨t, ws, e, k1, k2, k3⟩ := formUnsorted_forms (us.map fun u => (u.1, to_outer u.2.1, u.2.2)) c.records
  have e1 : RecUpd.retime to_outer c.updates = (f.mapTR to_outer id).layout := by rw [layout_mapTR, RecUpd.retime, h2]; simp
  refine ⟨_, ws, ?_, rfl, rfl, k1, k2, ?_⟩
  · rw [RecUpd.leave, e1, ColTrie.consolidate, iter_noEmpty (noEmpty_mapTR _ _ h1), upds_mapTR, h3]
    simp only [Option.bind_some, id]
    rw [e]; rfl
  · intro w hw
    obtain ⟨u, hu, q⟩ := k3 w hw
    obtain ⟨u', hu', rfl⟩ := List.mem_map.1 hu
    exact ⟨u', hu', q⟩

/-- C67 for `results_in`: the updates at the times the step leads to, without those it leads nowhere. -/
theorem C67_results_in [AddCommMonoid R] [DecidableEq R] {c : RecUpd K V T R} {us : Upds (K ×ₗ V) T R} (h : c.Carries us) (step : T → Option T) :
    ∃ c', c.resultsIn step = some c' ∧ c'.records = c.records ∧ c'.Carries (us.filterMap fun u => (step u.2.1).map fun t => (u.1, t, u.2.2)) := by
  obtain ⟨t, e, et⟩ : ∃ t, c.resultsIn step = some ⟨t, c.records, false⟩ ∧ t = _ := ⟨_, by rw [RecUpd.resultsIn, h.iter]; rfl, rfl⟩
  refine ⟨_, e, rfl, ?_, by intro h; simp at h⟩
  refine ⟨pushedF (us.filterMap fun u => (step u.2.1).map fun t => (u.1, t, u.2.2)), pushedF_noEmpty _, ?_, upds_pushedF _⟩
  rw [et]
  exact (resultsIn_fold step us ColTrie.empty).trans (pushed_layout _)

/-! ### The builder -/

variable [AddCommMonoid R] [DecidableEq R]

/-- C67 for the builder, as timely's sessions use it: however many updates are given, each is in exactly one of the containers sent, and each container is consolidated
and accounts for the updates it was formed from. Nothing is left in the builder. -/
theorem C67_builder (target : Nat) (items : Upds (K ×ₗ V) T R) :
    ∃ sent pieces, ColBuilder.session target .empty items = some (sent, ColBuilder.empty) ∧ List.Forall₂ RecUpd.Forms sent pieces ∧ pieces.flatten = items ∧ ∀ p ∈ pieces, p ≠ [] :=
  session_spec target items

private theorem sends_session (target : Nat) (time : T) (items : Upds (K ×ₗ V) T R) :
    ∃ out, ((ColBuilder.session target .empty items).map fun s => s.1.map fun c => (time, c)) = some out ∧ SendsAt time out items := by
  obtain ⟨sent, pieces, e, h1, h2, h3⟩ := session_spec target items
  refine ⟨sent.map fun c => (time, c), by rw [e]; rfl, ?_, pieces, ?_, h2, h3⟩
  · intro m hm; obtain ⟨c, -, rfl⟩ := List.mem_map.1 hm; rfl
  · simpa [List.map_map, Function.comp_def] using h1

/-! ### Operators -/

/-- C67 for `join_function`: what is sent was formed from what the closure returns for each update, joined with its time and multiplied by its difference. -/
theorem C67_join_function {T : Type*} [Lattice T] [LinearOrder (Lin T)] [DecidableEq T] [Mul R] (target : Nat) (logic : K → V → T → R → List ((K × V) × T × R)) {time : T} {c : RecUpd K V T R}
    {us : Upds (K ×ₗ V) T R} (h : c.Carries us) :
    ∃ out, joinFunction target logic (time, c) = some out ∧
      SendsAt time out (us.flatMap fun u => (logic (ofLex u.1).1 (ofLex u.1).2 u.2.1 u.2.2).map fun w => (toLex w.1, w.2.1 ⊔ u.2.1, w.2.2 * u.2.2)) := by
  rw [joinFunction]
  simp only [h.iter, Option.bind_some]
  exact sends_session target time _

/-- C67 for `leave_dynamic`: the capability's time and the times of all updates lose the coordinates from `level` on, and nothing stays behind in the builder kept by the operator. -/
theorem C67_leave_dynamic [PartialOrder T] [DecidableLE T] [LinearOrder (Lin (T × PS Nat))] (target level : Nat) {time : T × PS Nat} {c : RecUpd K V (T × PS Nat) R}
    {us : Upds (K ×ₗ V) (T × PS Nat) R} (h : c.Carries us) :
    ∃ out, colLeaveDynamic target level .empty (time, c) = some (out, ColBuilder.empty) ∧
      SendsAt (time.1, outerStamp level time.2) out (us.map fun u => (u.1, (u.2.1.1, outerStamp level u.2.1.2), u.2.2)) := by
  rw [colLeaveDynamic]
  simp only [dynResultsIn_leave, Option.bind_some, le_refl, if_true, h.iter]
  have hfold : ∀ (vs pushed : Upds (K ×ₗ V) (T × PS Nat) R) (b : ColBuilder K V (T × PS Nat) R), ColBInv pushed [] b →
      ∃ b', vs.foldlM (fun (b : ColBuilder K V (T × PS Nat) R) u => b.pushInto target (u.1, leaveTime level u.2.1, u.2.2)) b = some b' ∧
        ColBInv (pushed ++ vs.map fun u => (u.1, (u.2.1.1, outerStamp level u.2.1.2), u.2.2)) [] b' := by
    intro vs
    induction vs with
    | nil => intro pushed b hb; exact ⟨b, rfl, by simpa using hb⟩
    | cons u vs ih =>
      intro pushed b hb
      obtain ⟨b1, e1, g1⟩ := hb.pushInto target (u.1, leaveTime level u.2.1, u.2.2)
      obtain ⟨b2, e2, g2⟩ := ih _ b1 g1
      refine ⟨b2, by rw [List.foldlM_cons, e1]; exact e2, ?_⟩
      rw [List.append_assoc] at g2
      simpa [leaveTime_eq] using g2
  obtain ⟨b, e, g⟩ := hfold us [] .empty ⟨[], .nil, rfl, by simp⟩
  obtain ⟨sent, pieces, e', g1, g2, g3⟩ := g.finishAll (b.pending.length + 2) (by split_ifs <;> omega)
  rw [e]
  simp only [Option.bind_some]
  rw [e']
  refine ⟨_, rfl, ?_, pieces, ?_, by simpa using g2, g3⟩
  · intro m hm
    obtain ⟨c, -, rfl⟩ := List.mem_map.1 hm
    exact leaveTime_eq level time
  · simpa [List.map_map, Function.comp_def] using g1

/-! ### From batches back to containers -/

section walk
variable {C S : Type*} {ops : CursorOps C S K V T R} {s : S} {t : Contents K V T R} {Rel : C → Pos K V T R → Prop} {back : Bool}

omit [LinearOrder (Lin T)] [DecidableEq T] [AddCommMonoid R] [DecidableEq R] in
private theorem walkValid_presents (hp : Presents ops s t Rel back) (fuel : Nat) : ∀ (c : C) (p : Pos K V T R) (k : K) (vs : List (V × List (T × R))) (rest : Contents K V T R), Rel c p → p.keys = (k, vs) :: rest →
    p.vals.length < fuel → ∃ c', walkValid ops s fuel c = some (p.vals.flatMap fun v => v.2.map fun u => (toLex (k, v.1), u), c') ∧ Rel c' { p with vals := [] } := by
  induction fuel with
  | zero => intro c p _ _ _ _ _ h; omega
  | succ fuel ih =>
    intro c p k vs rest h hk hf
    have hne : p.keys ≠ [] := by rw [hk]; simp
    rw [walkValid, hp.val_valid c p h hne]
    cases hv : p.vals with
    | nil =>
      have : p.val? = none := by rw [Pos.val?, hv]; rfl
      rw [this]
      exact ⟨c, rfl, by rw [← hv]; exact h⟩
    | cons vu vs' =>
      have e0 : p.key? = some k := by rw [Pos.key?, hk]; rfl
      have e1 : p.val? = some vu.1 := by rw [Pos.val?, hv]; rfl
      have e2 : p.upds? = some vu.2 := by rw [Pos.upds?, hv]; rfl
      have hvne : p.vals ≠ [] := by rw [hv]; simp
      obtain ⟨c', g1, g2⟩ := hp.step_val c p h hne
      rw [hp.key c p h, hp.val c p h hne hvne, hp.map_times c p h hne hvne, e0, e1, e2, g1]
      simp only [Option.isSome_some, Option.bind_some, if_true]
      obtain ⟨c'', k1, k2⟩ := ih c' p.stepVal k vs rest g2 hk (by rw [Pos.stepVal]; simp only; rw [hv]; rw [hv] at hf; simpa using hf)
      rw [k1]
      refine ⟨c'', ?_, k2⟩
      simp only [Option.map_some, Option.some.injEq, Prod.mk.injEq, and_true, List.flatMap_cons, List.append_cancel_left_eq]
      rw [Pos.stepVal]; simp only; rw [hv]; rfl

omit [LinearOrder (Lin T)] [DecidableEq T] [AddCommMonoid R] [DecidableEq R] in
private theorem walkBatch_presents (hp : Presents ops s t Rel back) (fuelVals : Nat) (hfv : ∀ kv ∈ t, kv.2.length < fuelVals) (fuel : Nat) :
    ∀ (c : C) (rest : Contents K V T R), Rel c (Pos.start rest) → rest.length < fuel → walkBatch ops s fuelVals fuel c = some rest.upds := by
  induction fuel with
  | zero => intro c p _ h; omega
  | succ fuel ih =>
    intro c rest h hf
    rw [walkBatch, hp.key_valid c _ h]
    cases rest with
    | nil => rfl
    | cons kv rest =>
      have e1 : (Pos.start (kv :: rest)).key? = some kv.1 := rfl
      have hmem : kv ∈ t := (hp.inside c _ h).keys.subset List.mem_cons_self
      obtain ⟨c2, k1, k2⟩ := walkValid_presents hp fuelVals c _ kv.1 kv.2 rest h rfl (hfv kv hmem)
      obtain ⟨c3, m1, m2⟩ := hp.step_key c2 _ k2
      rw [e1]
      simp only [Option.isSome_some, Option.bind_some, if_true]
      rw [k1]
      simp only [Option.bind_some]
      rw [m1]
      simp only [Option.bind_some]
      rw [ih c3 rest m2 (by simpa using hf)]
      rfl

end walk

omit [LinearOrder (Lin T)] [DecidableEq T] [AddCommMonoid R] [DecidableEq R] in
private theorem length_contents {t : Contents K V T R} (h : NoEmpty t) : t.length ≤ t.upds.length ∧ ∀ kv ∈ t, kv.2.length ≤ t.upds.length := by
  have hv : ∀ (k : K) (vs : List (V × List (T × R))), (∀ v ∈ vs, v.2 ≠ []) → vs.length ≤ (vs.flatMap fun v => v.2.map fun u => ((toLex (k, v.1) : K ×ₗ V), u)).length := by
    intro k vs
    induction vs with
    | nil => simp
    | cons v vs ih =>
      intro hh
      have h1 := List.length_pos_iff.2 (hh v List.mem_cons_self)
      have h2 := ih fun x hx => hh x (List.mem_cons_of_mem _ hx)
      rw [List.flatMap_cons, List.length_append, List.length_map, List.length_cons]
      omega
  induction t with
  | nil => simp
  | cons kv t ih =>
    have h0 := h kv List.mem_cons_self
    obtain ⟨i1, i2⟩ := ih fun x hx => h x (List.mem_cons_of_mem _ hx)
    have h1 := hv kv.1 kv.2 h0.2
    have h2 := List.length_pos_iff.2 h0.1
    have e : Contents.upds (kv :: t) = (kv.2.flatMap fun v => v.2.map fun u => (toLex (kv.1, v.1), u)) ++ Contents.upds t := rfl
    rw [e, List.length_append]
    refine ⟨by rw [List.length_cons]; omega, ?_⟩
    intro x hx
    rcases List.mem_cons.1 hx with rfl | hx
    · omega
    · have := i2 x hx; omega

/-- C67 for `as_recorded_updates`: what is sent was formed from the updates of the batches, in order. -/
theorem C67_as_recorded_updates (target fuel : Nat) {time : T} {batches : List (BatchOf (ColTrie K V T R) T)} {Us : List (Chain (K ×ₗ V) T R)}
    (h : List.Forall₂ (fun (b : BatchOf (ColTrie K V T R) T) U => HoldsAll b.chunks U ∧ Full U ∧ Consolidated U.flatten ∧ U.flatten.length < fuel) batches Us) :
    ∃ out, asRecordedUpdates target fuel (time, batches) = some out ∧ SendsAt time out (Us.flatMap List.flatten) := by
  have key : batches.mapM (fun batch => walkBatch (BatchCursor.ops colNav) batch fuel fuel (BatchCursor.init colNav batch.chunks)) = some (Us.map List.flatten) := by
    induction h with
    | nil => rfl
    | @cons b U _ _ h1 _ ih =>
      obtain ⟨a1, a2, a3, a4⟩ := h1
      obtain ⟨g1, g2⟩ := col_all a1 a2
      rw [← g2] at a3 a4
      have hg := nav_good g1 a3
      have hu : (toContents (b.chunks.flatMap (updsOf colContents))).upds = b.chunks.flatMap fun c => (colContents c).upds := by
        have hfl := toContents_flatten (b.chunks.flatMap (updsOf colContents))
        have : ∀ t : Contents K V T R, t.upds = t.flatten.map fun u => (toLex u.1, u.2) := by
          intro t; simp only [Contents.upds, Contents.flatten, List.map_flatMap, List.map_map]; rfl
        rw [this, hfl, List.map_map]
        exact List.map_id' _
      have hle := length_contents (toContents_noEmpty (b.chunks.flatMap (updsOf colContents)))
      rw [hu] at hle
      rw [List.mapM_cons, ih, walkBatch_presents hg.sim fuel (fun kv hkv => lt_of_le_of_lt (hle.2 kv hkv) a4) fuel _ _ hg.rel (lt_of_le_of_lt hle.1 a4), hu, g2]
      rfl
  rw [asRecordedUpdates]
  simp only [key, Option.bind_some]
  rw [List.flatMap_def]
  exact sends_session target time _

/-! ### Exchange -/

omit [LinearOrder K] [LinearOrder V] [LinearOrder (Lin T)] [DecidableEq T] [AddCommMonoid R] [DecidableEq R] in
private theorem selF_forest (p : K → Bool) (cc : Contents K V T R) : selF p cc.forest = Contents.forest (cc.filter fun k => p k.1) := by
  rw [Contents.forest, Contents.forest]
  cases cc with
  | nil => rfl
  | cons k cc =>
    rw [if_neg (by simp), selF]
    simp only [List.map_cons (l := []), List.map_nil, List.filter_map, Function.comp_def]
    by_cases h : ((k :: cc).filter fun k => p k.1) = []
    · rw [h]; rfl
    · rw [if_neg (by simpa using h), List.filter_singleton]
      have : (((k :: cc).filter fun k => p k.1).map fun k => (k.1, k.2.map fun v => (v.1, v.2.map fun u => (u.1, [u.2])))).isEmpty = false := by simpa using h
      rw [this]; rfl

omit [DecidableEq T] [DecidableEq R] in
/-- C67 for the exchange: every pusher is sent the updates whose keys belong to it, in order, still flagged as they were, and nothing if there are none. If the container has
updates, and accounts for at least one record for each, what is sent accounts for the same number of records.

Missing: the records of a container without updates are lost (`C67_exchange_records_defect`), and where a container accounts for fewer records than it has updates, as those sent here can,
there may be more records after the exchange than before (`C67_exchange_twice_defect`). -/
theorem C67_exchange_partial (hash : K → Nat) {n : Nat} (hn : n ≠ 0) {c : RecUpd K V T R} {us : Upds (K ×ₗ V) T R} (h : c.Carries us) :
    ∃ out, c.partition hash n = some out ∧ out.length = n ∧
      (∀ i, i < n → ((us.filter fun u => hash (ofLex u.1).1 % n = i) = [] ∧ out[i]? = some none) ∨
        ∃ m, out[i]? = some (some m) ∧ (us.filter fun u => hash (ofLex u.1).1 % n = i) ≠ [] ∧ m.consolidated = c.consolidated ∧ m.Carries (us.filter fun u => hash (ofLex u.1).1 % n = i)) ∧
      (us ≠ [] → us.length ≤ c.records → (out.map fun m => m.elim 0 RecUpd.records).sum = c.records) := by
  obtain ⟨f, h1, h2, h3, h4⟩ : ∃ f : Forest K V T R, f.NoEmpty ∧ c.updates = f.layout ∧ f.upds = us ∧
      (c.consolidated = true → ∃ cc : Contents K V T R, ContentsSorted cc ∧ NoEmpty cc ∧ f = cc.forest) := by
    by_cases hc : c.consolidated = true
    · obtain ⟨cc, q1, q2, q3, q4⟩ := (h.canonical hc).1
      exact ⟨cc.forest, forest_noEmpty q2, q3, by rw [upds_forest, q4], fun _ => ⟨cc, q1, q2, rfl⟩⟩
    · obtain ⟨f, h1, h2, h3⟩ := h.layout
      exact ⟨f, h1, h2, h3, fun h => absurd h hc⟩
  have hb : c.updates.keys.bounds.length = f.length := by rw [h2]; simp [Forest.layout, Lists.of]
  have hr : List.replicate n (ColTrie.empty : ColTrie K V T R) = (List.range n).map fun i => (selF (fun k => hash k % n == i) ([] : Forest K V T R)).layout := by
    apply List.ext_getElem (by simp)
    intro i h1 h2
    simp [selF]; rfl
  have hg := partitionGroups_spec hash hn f []
  rw [List.nil_append, List.length_nil, ← List.range_eq_range', ← h2, ← hr, ← hb] at hg
  obtain ⟨s1, s2, s3⟩ := sendAll_spec c.consolidated ((List.range n).map fun i => (selF (fun k => hash k % n == i) f).layout)
    (c.records - ((((List.range n).map fun i => (selF (fun k => hash k % n == i) f).layout).countP fun o => !o.keys.values.isEmpty) - 1))
  have hsel : ∀ i, (selF (fun k => hash k % n == i) f).upds = us.filter fun u => hash (ofLex u.1).1 % n = i := by
    intro i
    rw [selF_upds, h3]
    exact List.filter_congr fun u _ => by simp [Bool.beq_eq_decide_eq]
  have hempty : ∀ i, (selF (fun k => hash k % n == i) f).layout.keys.values.isEmpty = (us.filter fun u => hash (ofLex u.1).1 % n = i).isEmpty := by
    intro i
    rw [keys_layout, ← hsel]
    have hne := selF_noEmpty (fun k => hash k % n == i) h1
    generalize selF (fun k => hash k % n == i) f = g at hne
    rw [Bool.eq_iff_iff, List.isEmpty_iff, List.isEmpty_iff, List.map_eq_nil_iff, Forest.upds]
    constructor
    · intro h; rw [h]; rfl
    · intro h
      by_contra hg
      obtain ⟨k, hk⟩ := List.exists_mem_of_ne_nil _ hg
      obtain ⟨v, hv⟩ := List.exists_mem_of_ne_nil _ (hne.keys k hk)
      obtain ⟨t, ht⟩ := List.exists_mem_of_ne_nil _ (hne.vals v (List.mem_flatMap.2 ⟨k, hk, hv⟩))
      obtain ⟨d, hd⟩ := List.exists_mem_of_ne_nil _ (hne.times t (List.mem_flatMap.2 ⟨v, List.mem_flatMap.2 ⟨k, hk, hv⟩, ht⟩))
      have : (toLex (k.1, v.1), t.1, d) ∈ ([] : Upds (K ×ₗ V) T R) := by
        rw [← h]
        simp only [List.mem_flatMap, List.mem_map]
        exact ⟨k, hk, v, hv, t, ht, d, hd, rfl⟩
      cases this
  refine ⟨_, by rw [RecUpd.partition, hg]; rfl, by rw [s1]; simp, ?_, ?_⟩
  · intro i hi
    obtain ⟨r, hr'⟩ := s2 i _ (by rw [List.getElem?_map, List.getElem?_range hi]; rfl)
    rw [hempty] at hr'
    by_cases hf : (us.filter fun u => hash (ofLex u.1).1 % n = i) = []
    · left
      refine ⟨hf, ?_⟩
      rw [hr', hf]; rfl
    · right
      rw [if_neg (by rwa [List.isEmpty_iff])] at hr'
      refine ⟨_, hr', hf, rfl, ⟨_, selF_noEmpty _ h1, rfl, hsel i⟩, ?_⟩
      intro hc
      obtain ⟨cc, q1, q2, q3⟩ := h4 hc
      have c2 := (h.canonical hc).2
      refine ⟨⟨cc.filter fun k => hash k.1 % n == i, ⟨q1.keys.filter _, ?_⟩, ?_, ?_, ?_⟩, c2.1.filter _, fun u hu => c2.2 u (List.mem_filter.1 hu).1⟩
      · intro kv hkv; exact q1.vals kv (List.mem_filter.1 hkv).1
      · intro kv hkv; exact q2 kv (List.mem_filter.1 hkv).1
      · simp only [q3]; rw [selF_forest]
      · rw [← h3, q3, upds_forest, Contents.upds, Contents.upds]
        apply flatMap_filter_key
        intro k _ u hu
        simp only [List.mem_flatMap, List.mem_map] at hu
        obtain ⟨v, -, w, -, rfl⟩ := hu
        simp [Bool.beq_eq_decide_eq]
        exact decide_eq_decide.2 Iff.rfl
  · intro hne hle
    simp only at s3 ⊢
    rw [s3, List.countP_map]
    have e : ((fun o : ColTrie K V T R => !o.keys.values.isEmpty) ∘ fun i => (selF (fun k => hash k % n == i) f).layout) = fun i => !(us.filter fun u => hash (ofLex u.1).1 % n = i).isEmpty := by
      funext i; simp only [Function.comp_apply]; rw [hempty]
    rw [e]
    have hle' : (List.range n).countP (fun i => !(us.filter fun u => hash (ofLex u.1).1 % n = i).isEmpty) ≤ us.length := by
      rw [List.countP_eq_length_filter, ← List.length_map (f := fun u : (K ×ₗ V) × T × R => hash (ofLex u.1).1 % n) (as := us)]
      refine ((List.nodup_range.filter _).subperm ?_).length_le
      intro i hi
      have := (List.mem_filter.1 hi).2
      simp only [Bool.not_eq_true', List.isEmpty_eq_false_iff_exists_mem] at this
      obtain ⟨u, hu⟩ := this
      obtain ⟨hu1, hu2⟩ := List.mem_filter.1 hu
      exact List.mem_map.2 ⟨u, hu1, by simpa using hu2⟩
    have hpos : 0 < (List.range n).countP (fun i => !(us.filter fun u => hash (ofLex u.1).1 % n = i).isEmpty) := by
      obtain ⟨u, hu⟩ := List.exists_mem_of_ne_nil _ hne
      rw [List.countP_pos_iff]
      refine ⟨hash (ofLex u.1).1 % n, List.mem_range.2 (Nat.mod_lt _ (Nat.pos_of_ne_zero hn)), ?_⟩
      simp only [Bool.not_eq_true', List.isEmpty_eq_false_iff_exists_mem]
      exact ⟨u, List.mem_filter.2 ⟨hu, by simp⟩⟩
    rw [if_neg (by omega)]
    omega

/-! ### The chunker -/

/-- The updates a use of the chunker gives it. -/
def TrieChunker.Op.Gives : TrieChunker.Op K V T R → Upds (K ×ₗ V) T R → Prop
  | .push c, us => c.Carries us
  | .extract, us => us = []
  | .finish, us => us = []

private theorem chunker_run {target : Nat} (ht : 0 < target) {ops : List (TrieChunker.Op K V T R)} {given : List (Upds (K ×ₗ V) T R)} (h : List.Forall₂ TrieChunker.Op.Gives ops given) :
    ∀ (pushed : Upds (K ×ₗ V) T R) (x : TrieChunker K V T R × List (ColTrie K V T R)), ChunkInv pushed x →
      ∃ x', ops.foldlM (TrieChunker.step target) x = some x' ∧ ChunkInv (pushed ++ given.flatten) x' := by
  induction h with
  | nil => intro pushed x h; exact ⟨x, rfl, by simpa using h⟩
  | @cons op us ops given h1 _ ih =>
    intro pushed x hx
    obtain ⟨x1, e1, g1⟩ := hx.step ht op us (by cases op <;> exact h1)
    obtain ⟨x2, e2, g2⟩ := ih _ x1 g1
    refine ⟨x2, by rw [List.foldlM_cons, e1]; exact e2, ?_⟩
    rw [List.flatten_cons, ← List.append_assoc]; exact g2

private theorem chunkInv_empty : ChunkInv ([] : Upds (K ×ₗ V) T R) (TrieChunker.empty, []) := ⟨[], [], [], ⟨.nil, rfl, .nil⟩, .nil, Refines.refl _⟩

/-- C67 for the chunker: whatever is pushed, and whenever chunks are taken, in the end the chunks handed out hold consolidated updates, none is empty, and together they have
the totals of everything pushed, at no other data and times. Nothing is left. -/
theorem C67_chunker {target : Nat} (ht : 0 < target) {ops : List (TrieChunker.Op K V T R)} {given : List (Upds (K ×ₗ V) T R)} (h : List.Forall₂ TrieChunker.Op.Gives ops given) :
    ∃ s outs, ops.foldlM (TrieChunker.step target) (TrieChunker.empty, []) = some (s, outs) ∧ ∀ fuel, s.ready.length + 1 < fuel →
      ∃ all pieces, s.finishAll fuel outs = some (all, TrieChunker.empty) ∧ List.Forall₂ (fun (c : ColTrie K V T R) p => c.Holds p ∧ Consolidated p ∧ p ≠ []) all pieces ∧
        (∀ d q, total pieces.flatten d q = total given.flatten d q) ∧ ∀ w ∈ pieces.flatten, ∃ u ∈ given.flatten, u.1 = w.1 ∧ u.2.1 = w.2.1 := by
  obtain ⟨x, e, g⟩ := chunker_run ht h [] _ chunkInv_empty
  refine ⟨x.1, x.2, e, fun fuel hf => ?_⟩
  obtain ⟨all, pieces, e', g1, g2⟩ := ChunkInv.finishAll (s := x.1) (out := x.2) fuel g (by split_ifs <;> omega)
  exact ⟨all, pieces, e', g1, g2.1, g2.2⟩

/-- C67, the sizes: until the chunker is told to finish, every chunk it hands out holds at least `target` updates, and it holds back fewer than twice that. -/
theorem C67_chunker_sizes {target : Nat} (ht : 0 < target) {ops : List (TrieChunker.Op K V T R)} {given : List (Upds (K ×ₗ V) T R)} (h : List.Forall₂ TrieChunker.Op.Gives ops given)
    (hf : ∀ op ∈ ops, op ≠ .finish) :
    ∃ s outs pieces, ops.foldlM (TrieChunker.step target) (TrieChunker.empty, []) = some (s, outs) ∧ List.Forall₂ (fun (c : ColTrie K V T R) p => c.Holds p ∧ target ≤ p.length) outs pieces ∧
      (s.blobs.map fun b => b.1.len).sum < 2 * target := by
  obtain ⟨x, e, bp, rp, op, g1, g2, g3⟩ := chunker_run ht h [] _ chunkInv_empty
  have hs : ∀ (ops : List (TrieChunker.Op K V T R)), (∀ op ∈ ops, op ≠ .finish) → ∀ y x : TrieChunker K V T R × List (ColTrie K V T R), Sized target y.1 → (∀ c ∈ y.2, target ≤ c.len) →
      ops.foldlM (TrieChunker.step target) y = some x → Sized target x.1 ∧ ∀ c ∈ x.2, target ≤ c.len := by
    intro ops
    induction ops with
    | nil => intro _ y x h1 h2 e; cases e; exact ⟨h1, h2⟩
    | cons op ops ih =>
      intro hop y x h1 h2 e
      rw [List.foldlM_cons] at e
      obtain ⟨z, e1, e2⟩ := Option.bind_eq_some_iff.1 e
      have hz : Sized target z.1 ∧ ∀ c ∈ z.2, target ≤ c.len := by
        cases op with
        | push c =>
          obtain ⟨s, e3, rfl⟩ := Option.map_eq_some_iff.1 e1
          exact ⟨pushInto_sized ht h1 e3, h2⟩
        | extract =>
          cases e1
          rw [TrieChunker.extract]
          cases hr : y.1.ready with
          | nil => exact ⟨h1, by simpa using h2⟩
          | cons c ready =>
            refine ⟨⟨h1.1, fun x hx => h1.2 x (by rw [hr]; exact List.mem_cons_of_mem _ hx)⟩, ?_⟩
            intro x hx
            rcases List.mem_append.1 hx with hx | hx
            · exact h2 x hx
            · simp only [Option.toList_some, List.mem_singleton] at hx; subst hx; exact h1.2 x (by rw [hr]; exact List.mem_cons_self)
        | finish => exact absurd rfl (hop _ List.mem_cons_self)
      exact ih (fun o ho => hop o (List.mem_cons_of_mem _ ho)) z x hz.1 hz.2 e2
  obtain ⟨k1, k2⟩ := hs ops hf _ _ ⟨by simp only [TrieChunker.empty]; omega, by simp [TrieChunker.empty]⟩ (by simp) e
  refine ⟨x.1, x.2, op, e, ?_, ?_⟩
  · clear g3
    revert k2
    generalize x.2 = outs at g2 ⊢
    induction g2 with
    | nil => intro _; exact .nil
    | cons q1 _ ih =>
      intro k2
      refine .cons ⟨q1.1, ?_⟩ (ih fun c hc => k2 c (List.mem_cons_of_mem _ hc))
      have := k2 _ List.mem_cons_self
      have hl := (holds_carries q1.1 q1.2.1 0 false).len
      simp only at hl
      omega
  · have hsum : (x.1.blobs.map fun b => b.1.len).sum = (bp.map List.length).sum := by
      have : ∀ (bl : List (ColTrie K V T R × Bool)) (bp : List (Upds (K ×ₗ V) T R)), List.Forall₂ TrieBlobOk bl bp → (bl.map fun b => b.1.len).sum = (bp.map List.length).sum := by
        intro bl bp hb
        induction hb with
        | nil => rfl
        | cons q1 _ ih => rw [List.map_cons, List.sum_cons, List.map_cons, List.sum_cons, ih, q1.1.len]
      exact this _ _ g1.blobs
    rw [hsum, ← g1.records]
    exact k1.1

end

/-! ### Where records go missing, or appear -/

/-- A container formed from an update and its retraction: no update remains, and it accounts for both. -/
private def exCancel : RecUpd Nat Nat Nat Int := ⟨ColTrie.empty, 2, true⟩

set_option synthInstance.maxSize 2000 in
/-- The builder makes such a container, and the exchange then sends nothing to anyone: the two records are never received. timely, which counts the records sent and those received,
then takes a message to be under way for ever, and no frontier downstream passes its time. -/
theorem C67_exchange_records_defect :
    ColBuilder.session 100 .empty [(toLex (1, 1), 0, 1), (toLex (1, 1), 0, -1)] = some ([exCancel], ColBuilder.empty) ∧
      exCancel.partition id 2 = some [none, none] ∧ exCancel.records = 2 := by decide +kernel

/-- A container of four updates, and the updates of three keys of these. -/
private def exFour : RecUpd Nat Nat Nat Int := ⟨(Contents.forest [(2, [(1, [(0, 1)])]), (3, [(1, [(0, 1)])]), (4, [(1, [(0, 1)])]), (6, [(1, [(0, 1)])])]).layout, 4, true⟩
private def exShort : RecUpd Nat Nat Nat Int := ⟨(Contents.forest [(2, [(1, [(0, 1)])]), (4, [(1, [(0, 1)])]), (6, [(1, [(0, 1)])])]).layout, 1, true⟩

set_option synthInstance.maxSize 2000 in
/-- The exchange of four updates sends three of them in a message that accounts for one record. Another exchange of this message, by another function of the key, makes this two records:
more are received than were sent. -/
theorem C67_exchange_twice_defect :
    ColBuilder.session 100 .empty [(toLex (2, 1), 0, 1), (toLex (4, 1), 0, 1), (toLex (6, 1), 0, 1), (toLex (3, 1), 0, 1)] = some ([exFour], ColBuilder.empty) ∧
      (exFour.partition (fun k => k + 1) 2).bind (fun out => out[1]?) = some (some exShort) ∧
      (exShort.partition (fun k => k / 2) 3).map (fun out => (out.map fun m => m.elim 0 RecUpd.records).sum) = some 2 ∧ exShort.records = 1 := by decide +kernel

/-! ### Non-vacuity -/

section examples

/-- A container of unsorted updates: two runs, and the key 1 in both. -/
private def exRuns : RecUpd Nat Nat Nat Int := ⟨Forest.layout [[(2, [(1, [(0, [1])])]), (5, [(1, [(0, [1])])])], [(1, [(1, [(3, [2])]), (7, [(0, [1])])]), (2, [(1, [(0, [4])])])]], 6, false⟩
private def exRunsUs : Upds (Nat ×ₗ Nat) Nat Int := [(toLex (2, 1), 0, 1), (toLex (5, 1), 0, 1), (toLex (1, 1), 3, 2), (toLex (1, 7), 0, 1), (toLex (2, 1), 0, 4)]

private theorem exRuns_carries : exRuns.Carries exRunsUs :=
  ⟨⟨_, ⟨by decide +kernel, by decide +kernel, by decide +kernel, by decide +kernel⟩, rfl, by decide +kernel⟩, by intro h; cases h⟩

private theorem exFour_carries : exFour.Carries [(toLex (2, 1), 0, 1), (toLex (3, 1), 0, 1), (toLex (4, 1), 0, 1), (toLex (6, 1), 0, 1)] :=
  holds_carries ⟨_, ⟨by decide +kernel, by decide +kernel⟩, by unfold NoEmpty; decide +kernel, rfl, by decide +kernel⟩ ⟨by decide +kernel, by decide +kernel⟩ _ _

set_option synthInstance.maxSize 2000 in
/-- What is sent to each of three workers. -/
example : ((exRuns.partition id 3).map fun out => out.map fun m => m.elim (none, 0) fun m => (m.updates.iter, m.records)) =
    some [(none, 0), (some [(toLex (1, 1), 3, 2), (toLex (1, 7), 0, 1)], 5), (some [(toLex (2, 1), 0, 1), (toLex (5, 1), 0, 1), (toLex (2, 1), 0, 4)], 1)] := by decide +kernel
example : exRunsUs ≠ [] ∧ exRunsUs.length ≤ exRuns.records := by decide +kernel

example : exRuns.negate.updates.iter = some [(toLex (2, 1), 0, -1), (toLex (5, 1), 0, -1), (toLex (1, 1), 3, -2), (toLex (1, 7), 0, -1), (toLex (2, 1), 0, -4)] := by decide +kernel
example : ((exRuns.leave fun t => t / 4).bind fun c => c.updates.iter) = some [(toLex (1, 1), 0, 2), (toLex (1, 7), 0, 1), (toLex (2, 1), 0, 5), (toLex (5, 1), 0, 1)] := by decide +kernel
example : ((exRuns.resultsIn fun t => if t = 0 then some 9 else none).bind fun c => c.updates.iter) =
    some [(toLex (2, 1), 9, 1), (toLex (5, 1), 9, 1), (toLex (1, 7), 9, 1), (toLex (2, 1), 9, 4)] := by decide +kernel
example : ((exFour.enter fun t => 2 * t + 1).updates.iter, (exFour.enter fun t => 2 * t + 1).consolidated) =
    (some [(toLex (2, 1), 1, 1), (toLex (3, 1), 1, 1), (toLex (4, 1), 1, 1), (toLex (6, 1), 1, 1)], true) := by decide +kernel
example : ∀ a b : Nat, toLin a < toLin b → toLin (2 * a + 1) < toLin (2 * b + 1) := fun a b (h : a < b) => show 2 * a + 1 < 2 * b + 1 by omega

set_option synthInstance.maxSize 2000 in
/-- A builder that seals after more than two updates. -/
example : ((ColBuilder.session 2 .empty [(toLex (2, 1), 0, 1), (toLex (1, 1), 0, 1), (toLex (2, 1), 0, 3), (toLex (7, 1), 0, 1)]).map fun (s : List (RecUpd Nat Nat Nat Int) × ColBuilder Nat Nat Nat Int) =>
    s.1.map fun c => (c.updates.iter, c.records)) = some [(some [(toLex (1, 1), 0, 1), (toLex (2, 1), 0, 4)], 3), (some [(toLex (7, 1), 0, 1)], 1)] := by decide +kernel

set_option synthInstance.maxSize 2000 in
/-- `join_function` at time 1. -/
example : ((joinFunction 100 (fun k v t d => [((v, k), t + 1, d), ((v, k), 0, 1)]) (1, exRuns)).map fun out => out.map fun m => (m.1, m.2.updates.iter)) =
    some [(1, some [(toLex (1, 1), 3, 2), (toLex (1, 1), 4, 4), (toLex (1, 2), 0, 5), (toLex (1, 2), 1, 17), (toLex (1, 5), 0, 1), (toLex (1, 5), 1, 1), (toLex (7, 1), 0, 1), (toLex (7, 1), 1, 1)])] := by
  decide +kernel

/-- A chunker for chunks of two updates: the runs, which are not consolidated, then four updates that are, then a chunk is taken. -/
private def exOps : List (TrieChunker.Op Nat Nat Nat Int) := [.push exRuns, .extract, .push exFour, .push exRuns.negate, .extract]

example : List.Forall₂ TrieChunker.Op.Gives exOps [exRunsUs, [], [(toLex (2, 1), 0, 1), (toLex (3, 1), 0, 1), (toLex (4, 1), 0, 1), (toLex (6, 1), 0, 1)], exRunsUs.map fun u => (u.1, u.2.1, -u.2.2), []] :=
  .cons exRuns_carries (.cons rfl (.cons exFour_carries (.cons (C67_negate exRuns_carries).1 (.cons rfl .nil))))

example : ∀ op ∈ exOps, op ≠ .finish := by simp [exOps]

set_option synthInstance.maxSize 2000 in
example : ((exOps.foldlM (TrieChunker.step 3) (TrieChunker.empty, [])).bind fun x => x.1.finishAll 9 x.2).map (fun r => r.1.map ColTrie.iter) =
    some [some [(toLex (2, 1), 0, 1), (toLex (3, 1), 0, 1), (toLex (4, 1), 0, 1), (toLex (6, 1), 0, 1)],
      some [(toLex (1, 1), 3, -2), (toLex (1, 7), 0, -1), (toLex (2, 1), 0, -5), (toLex (5, 1), 0, -1)],
      some [(toLex (1, 1), 3, 2), (toLex (1, 7), 0, 1), (toLex (2, 1), 0, 5), (toLex (5, 1), 0, 1)]] := by decide +kernel

/-- Back from a batch of two chunks. -/
example : List.Forall₂ (fun (b : BatchOf (ColTrie Nat Nat Nat Int) Nat) U => HoldsAll b.chunks U ∧ Full U ∧ Consolidated U.flatten ∧ U.flatten.length < 10) [exCB1] [exU1] :=
  .cons ⟨.cons exT1_holds (.cons exT2_holds .nil), by unfold Full; decide +kernel, ⟨by decide +kernel, by decide +kernel⟩, by decide +kernel⟩ .nil

set_option synthInstance.maxSize 2000 in
example : ((asRecordedUpdates 3 10 (7, [exCB1])).map fun out => out.map fun m => (m.1, m.2.updates.iter, m.2.records)) =
    some [(7, some [(toLex (1, 1), 0, 1), (toLex (1, 2), 0, 1), (toLex (1, 2), 3, 2), (toLex (1, 2), 5, 1)], 4), (7, some [(toLex (4, 1), 2, 1)], 1)] := by decide +kernel

/-- Times of a dynamic scope, ordered by the outer time and then as lists. -/
private instance : LinearOrder (Lin (Nat × PS Nat)) :=
  LinearOrder.lift' (fun p : Nat × PS Nat => toLex (p.1, p.2.1.vector)) fun p q h => Prod.ext (congrArg (fun x => (ofLex x).1) h) (Subtype.ext (PointStamp.ext (congrArg (fun x => (ofLex x).2) h)))

private def exDyn : RecUpd Nat Nat (Nat × PS Nat) Int := ⟨Forest.layout [[(1, [(1, [((0, ptStamp [2, 3]), [1]), ((0, ptStamp [2, 5]), [4])])])]], 2, true⟩

private theorem exDyn_carries : exDyn.Carries [(toLex (1, 1), (0, ptStamp [2, 3]), 1), (toLex (1, 1), (0, ptStamp [2, 5]), 4)] :=
  holds_carries ⟨[(1, [(1, [((0, ptStamp [2, 3]), 1), ((0, ptStamp [2, 5]), 4)])])], ⟨by decide +kernel, by decide +kernel⟩, by unfold NoEmpty; decide +kernel, rfl, by decide +kernel⟩
    ⟨by decide +kernel, by decide +kernel⟩ _ _

set_option synthInstance.maxSize 2000 in
/-- The two updates meet at one time, at level one. -/
example : ((colLeaveDynamic 100 2 .empty ((0, ptStamp [2, 1]), exDyn)).map fun r => r.1.map fun m => (m.1, m.2.updates.iter)) =
    some [((0, ptStamp [2]), some [(toLex (1, 1), (0, ptStamp [2]), 5)])] := by decide +kernel

end examples

end DD
