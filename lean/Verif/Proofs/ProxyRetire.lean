import Verif.Proofs.ProxyLoad

/-!
# The proxy reduce: windows, and the whole of `retire`
-/

set_option linter.unusedSectionVars false

namespace DD
variable {T R1 R2 : Type*} [Lattice T] [OrderBot T] [DecidableLE T] [DecidableEq T] [TimeOrd T] [AddCancelCommMonoid R1] [DecidableEq R1] [AddCancelCommMonoid R2] [DecidableEq R2]

/-- What is achieved for a key of a window. -/
def KeyDone (f : Nat → List (Nat × R1) → List (Nat × R2)) (upper : List T) (seeds : List (Nat × T)) (pending : List (Nat × List T)) (w : ProxyWindow T R1 R2) (pended : List T)
    (emitted : Upds (Nat × Nat) T R2) (k : Nat) : Prop :=
  ∃ (Mo : List T) (L : Upds Nat T R2), Found (f k) (ofKey w.input k) (ofKey w.output k) (seedsFor seeds k) (pendingOf pending k) upper Mo pended ∧
    (∀ v q, accum emitted (k, v) q = accum L v q) ∧ (∀ u ∈ L, u.2.1 ∈ Mo) ∧ ∀ m ∈ Mo, ReducedAt (f k) (ofKey w.input k) (ofKey w.output k ++ L) m

/-- The updates that are emitted are consolidated, and filed under a description that covers their times, with a held time before them. -/
def EmitOk (tiles : Tiles T) (es : List (Nat × Upds (Nat × Nat) T R2)) : Prop :=
  ∀ e ∈ es, Consolidated (e.2.map fun u => ((toLex u.1 : Nat ×ₗ Nat), u.2)) ∧
    ∃ (d : Description T) (h : T), tiles.descs[e.1]? = some d ∧ tiles.held[e.1]? = some h ∧ ∀ u ∈ e.2, d.Covers u.2.1 ∧ h ≤ u.2.1

variable {f : Nat → List (Nat × R1) → List (Nat × R2)} {corrections : Corrections R1 R2} {lower upper held : List T} {seeds : List (Nat × T)} {pending : List (Nat × List T)}

theorem mem_seedsFor {k : Nat} {s : T} : s ∈ seedsFor seeds k ↔ (k, s) ∈ seeds := by
  unfold seedsFor
  simp only [List.mem_map, List.mem_filter, decide_eq_true_eq]
  constructor
  · rintro ⟨⟨a, b⟩, ⟨h1, rfl⟩, rfl⟩; exact h1
  · intro h; exact ⟨(k, s), ⟨h, rfl⟩, rfl⟩

theorem window_spec (hc : Corrects f corrections) (hl : IsAntichainList lower) (hu : IsAntichainList upper) (hle : FrontierLe lower upper) (hh : ∀ h ∈ held, Beyond lower h)
    (hp : PendingOk lower held pending) (hseeds : ∀ s ∈ seeds, Beyond lower s.2 ∧ ¬ Beyond upper s.2 ∧ Beyond held s.2) (hne : held ≠ [])
    (w : ProxyWindow T R1 R2) (hin : w.input.Pairwise fun a b => a.1.1 ≤ b.1.1) (hout : w.output.Pairwise fun a b => a.1.1 ≤ b.1.1) (hkeys : w.keys.Pairwise (· < ·))
    (c : Nat) (sl : List (Nat × T)) (hsl : sl.Pairwise fun a b => a.1 ≤ b.1)
    (hsame : ∀ k, c ≤ k → (sl.filter fun u => decide (u.1 = k)) = seeds.filter fun u => decide (u.1 = k)) (hck : ∀ k ∈ w.keys, c ≤ k)
    (np : List (Nat × List T)) (hnp : ∀ p ∈ np, p.1 < c) :
    ∃ (N : Nat) (sl' : List (Nat × T)) (new : List (Nat × List T)) (es : List (Nat × Upds (Nat × Nat) T R2)) (c' : Nat),
      (∀ fuel, N ≤ fuel → proxyWindow fuel corrections pending upper held (tileDescriptions lower upper held).tileOf w sl np = some (sl', np ++ new, es)) ∧
      (sl'.Pairwise fun a b => a.1 ≤ b.1) ∧ (∀ k, c' ≤ k → (sl'.filter fun u => decide (u.1 = k)) = seeds.filter fun u => decide (u.1 = k)) ∧
      c ≤ c' ∧ (∀ k ∈ w.keys, k < c') ∧ (∀ j, c ≤ j → (∀ k ∈ w.keys, k < j) → c' ≤ j) ∧ (new.map (·.1)).Sublist w.keys ∧ (∀ p ∈ new, p.2 ≠ []) ∧
      (∀ k ∈ w.keys, KeyDone f upper seeds pending w (pendingOf new k) (es.flatMap (·.2)) k) ∧ (∀ u ∈ es.flatMap (·.2), u.1.1 ∈ w.keys) ∧
      EmitOk (tileDescriptions lower upper held) es := by
  have hdisc := fun k => discover_found (f k) (ofKey w.input k) (ofKey w.output k) (seedsFor seeds k) (pendingOf pending k) upper
    ((pendingOf_sorted hp.sorted k).imp fun h => h.le)
  choose N Mo Pe hrun hfound using hdisc
  have hmom : ∀ k, ∀ m ∈ Mo k, Beyond lower m ∧ ¬ Beyond upper m ∧ Beyond held m := by
    intro k m hm
    obtain ⟨h1, s, hs, hsm⟩ := (hfound k).mom m hm
    have : Beyond lower s ∧ Beyond held s := by
      rcases List.mem_append.1 hs with hs | hs
      · have := hseeds _ (mem_seedsFor.1 hs)
        exact ⟨this.1, this.2.2⟩
      · exact hp.beyond k s ((mem_pendingOf hp.keys).1 hs)
    exact ⟨beyond_mono this.1 hsm, h1, beyond_mono this.2 hsm⟩
  have hfiledAt : ∀ m, Beyond lower m ∧ ¬ Beyond upper m ∧ Beyond held m → ∀ j, outputIndex held m = some j →
      ∃ (i : Nat) (d : Description T) (h : T), h ≤ m ∧ (tileDescriptions lower upper held).tileOf[j]? = some (some i) ∧
        (tileDescriptions lower upper held).held[i]? = some h ∧ (tileDescriptions lower upper held).descs[i]? = some d ∧ d.Covers m := by
    rintro m ⟨h1, h2, h3⟩ j hj
    obtain ⟨k, i, d, h, a1, -, a3, a4, a5, a6, a7⟩ := C29_filed lower upper held hl hu hle hh m h1 h2 h3
    rw [a1] at hj
    have hj := Option.some.inj hj
    subst hj
    exact ⟨i, d, h, a3, a4, a5, a6, a7⟩
  obtain ⟨N0, hN0⟩ : ∃ N0, ∀ k ∈ w.keys, N k ≤ N0 := by
    generalize w.keys = ks
    induction ks with
    | nil => exact ⟨0, by simp⟩
    | cons j ks ih =>
      obtain ⟨M, hM⟩ := ih
      refine ⟨max (N j) M, fun k hk => ?_⟩
      rcases List.mem_cons.1 hk with rfl | hk
      · exact le_max_left _ _
      · exact (hM k hk).trans (le_max_right _ _)
  obtain ⟨ld, news, c', l1, l2, l3, l3a, l3b, l4, l5, l6, l7⟩ := load_keys (input := w.input) (output := w.output) (seeds := seeds) N0 pending upper Mo Pe f w.keys
    (fun k hk fuel hf => hrun k fuel ((hN0 k hk).trans hf)) c (⟨w.input, w.output, sl, [], np⟩ : ProxyLoad T R1 R2)
    ⟨hin, hout, hsl, fun _ _ => rfl, fun _ _ => rfl, hsame⟩ hkeys hck hnp
  simp only [List.nil_append] at l4 l7
  have hnodup : w.keys.Nodup := hkeys.imp fun h => h.ne
  have hflat : (held.map fun _ => ([] : Upds (Nat × Nat) T R2)).flatten = [] := by simp
  have hinv : RoundsInv f (fun k => ofKey w.input k) (fun k => ofKey w.output k) Mo held ld.states (held.map fun _ => []) := by
    refine ⟨by rw [l4, l5]; exact hnodup.filter _, by simp, ?_, by simp, ?_⟩
    · intro j us hj u hu
      rw [List.getElem?_map] at hj
      cases hh2 : held[j]? with
      | none => rw [hh2] at hj; simp at hj
      | some x => rw [hh2] at hj; simp at hj; rw [hj] at hu; simp at hu
    · intro st hst
      rw [hflat]
      exact ⟨[], l6 st (by rw [← l4]; exact hst)⟩
  obtain ⟨tiles, r1, r2, r3, r4, r5⟩ := rounds_spec hc (fun k => (hfound k).momSort) (fun k m hm => (hmom k m hm).2.2) _ ld.states _ hinv (le_refl _)
  rw [l4, l5] at r4 r5
  have hper : ∀ k ∈ w.keys, (∀ u ∈ ofKey tiles.flatten k, u.2.1 ∈ Mo k) ∧ ∀ m ∈ Mo k, ReducedAt (f k) (ofKey w.input k) (ofKey w.output k ++ ofKey tiles.flatten k) m := by
    intro k hk
    by_cases hm : (Mo k).isEmpty = true
    · have hnil := List.isEmpty_iff.1 hm
      have : ofKey tiles.flatten k = [] := by
        unfold ofKey
        rw [List.filterMap_eq_nil_iff]
        intro u hu
        have := (List.mem_filter.1 (r4 u hu)).2
        rw [if_neg]
        rintro rfl
        simp [hm] at this
      rw [this, hnil]
      simp
    · exact r5 k (List.mem_filter.2 ⟨hk, by simpa using hm⟩)
  have htime : ∀ u ∈ tiles.flatten, Beyond lower u.2.1 ∧ ¬ Beyond upper u.2.1 ∧ Beyond held u.2.1 := by
    intro u hu'
    have hk := (List.mem_filter.1 (r4 u hu')).1
    refine hmom u.1.1 _ ((hper u.1.1 hk).1 (u.1.2, u.2) ?_)
    exact List.mem_filterMap.2 ⟨u, hu', by simp⟩
  have hmemflat : ∀ (j : Nat) (us : Upds (Nat × Nat) T R2), tiles[j]? = some us → ∀ u ∈ us, u ∈ tiles.flatten := fun j us hj u hu' =>
    List.mem_flatten.2 ⟨us, List.mem_of_getElem? hj, hu'⟩
  obtain ⟨es, e1, e2, e3⟩ := emitTiles_spec (tileDescriptions lower upper held).tileOf tiles
    (by rw [r2]; exact (C29_contiguous lower upper held hl hu hle hh hne).2.2.1) (by
      intro j us hj hnone
      by_contra hne'
      obtain ⟨u, us', rfl⟩ := List.exists_cons_of_ne_nil hne'
      obtain ⟨i, d, h, -, a4, -⟩ := hfiledAt u.2.1 (htime u (hmemflat j _ hj u (by simp))) j (r3 j _ hj u (by simp))
      rw [hnone] at a4
      simp at a4)
  refine ⟨N0, ld.seeds, (w.keys.filter fun k => !(Pe k).isEmpty).map (fun k => (k, Pe k)), es, c', ?_, l2.seedSorted, l2.seedSame, l3, l3a, l3b, ?_, ?_, ?_, ?_, ?_⟩
  · intro fuel hfuel
    unfold proxyWindow
    rw [l1 fuel hfuel]
    simp only
    rw [r1]
    simp only
    rw [e1, l7]
    rfl
  · rw [List.map_map]
    have : ((fun x : Nat × List T => x.1) ∘ fun k => (k, Pe k)) = id := rfl
    rw [this, List.map_id]
    exact List.filter_sublist
  · intro p hpp
    obtain ⟨k, hk, rfl⟩ := List.mem_map.1 hpp
    simpa using (List.mem_filter.1 hk).2
  · intro k hk
    refine ⟨Mo k, ofKey tiles.flatten k, ?_, fun v q => ?_, (hper k hk).1, (hper k hk).2⟩
    · rw [pendingOf_made Pe w.keys k hk]; exact hfound k
    · rw [e2, accum_ofKey]
  · intro u hu'
    obtain ⟨e, he, hue⟩ := List.mem_flatMap.1 hu'
    obtain ⟨-, j, us, -, a2, -, a4⟩ := e3 e he
    obtain ⟨x, hx, hxu, -⟩ := a4 u hue
    rw [← hxu]
    exact (List.mem_filter.1 (r4 x (hmemflat j us a2 x hx))).1
  · intro e he
    obtain ⟨a0, j, us, a1, a2, a3, a4⟩ := e3 e he
    obtain ⟨x, us', rfl⟩ := List.exists_cons_of_ne_nil a3
    obtain ⟨i, d, h, -, b2, b3, b4, -⟩ := hfiledAt x.2.1 (htime x (hmemflat j _ a2 x (by simp))) j (r3 j _ a2 x (by simp))
    rw [a1] at b2
    have b2 := Option.some.inj (Option.some.inj b2)
    subst b2
    refine ⟨a0, d, h, b4, b3, fun u hue => ?_⟩
    obtain ⟨y, hy, -, hyu⟩ := a4 u hue
    obtain ⟨i', d', h', g1, g2, g3, g4, g5⟩ := hfiledAt y.2.1 (htime y (hmemflat j _ a2 y hy)) j (r3 j _ a2 y hy)
    rw [a1] at g2
    have g2 := Option.some.inj (Option.some.inj g2)
    subst g2
    rw [b3] at g3
    rw [b4] at g4
    have g3 := Option.some.inj g3
    have g4 := Option.some.inj g4
    subst g3 g4
    rw [← hyu]
    exact ⟨g5, g1⟩

theorem windows_spec (hc : Corrects f corrections) (hl : IsAntichainList lower) (hu : IsAntichainList upper) (hle : FrontierLe lower upper) (hh : ∀ h ∈ held, Beyond lower h)
    (hp : PendingOk lower held pending) (hseeds : ∀ s ∈ seeds, Beyond lower s.2 ∧ ¬ Beyond upper s.2 ∧ Beyond held s.2) (hne : held ≠ []) (ws : List (ProxyWindow T R1 R2)) :
    ∀ (c : Nat) (sl : List (Nat × T)) (np : List (Nat × List T)), (∀ w ∈ ws, w.input.Pairwise fun a b => a.1.1 ≤ b.1.1) → (∀ w ∈ ws, w.output.Pairwise fun a b => a.1.1 ≤ b.1.1) →
    (ws.flatMap (·.keys)).Pairwise (· < ·) → (sl.Pairwise fun a b => a.1 ≤ b.1) →
    (∀ k, c ≤ k → (sl.filter fun u => decide (u.1 = k)) = seeds.filter fun u => decide (u.1 = k)) → (∀ k ∈ ws.flatMap (·.keys), c ≤ k) → (∀ p ∈ np, p.1 < c) →
    ∃ (N : Nat) (new : List (Nat × List T)) (es : List (Nat × Upds (Nat × Nat) T R2)),
      (∀ fuel, N ≤ fuel → proxyWindows fuel corrections pending upper held (tileDescriptions lower upper held).tileOf ws sl np = some (np ++ new, es)) ∧
      (new.map (·.1)).Sublist (ws.flatMap (·.keys)) ∧ (∀ p ∈ new, p.2 ≠ []) ∧
      (∀ w ∈ ws, ∀ k ∈ w.keys, KeyDone f upper seeds pending w (pendingOf new k) (es.flatMap (·.2)) k) ∧ (∀ u ∈ es.flatMap (·.2), u.1.1 ∈ ws.flatMap (·.keys)) ∧
      EmitOk (tileDescriptions lower upper held) es := by
  induction ws with
  | nil =>
    intro c sl np _ _ _ _ _ _ _
    exact ⟨0, [], [], fun _ _ => by simp [proxyWindows], by simp, by simp, by simp, by simp, by simp [EmitOk]⟩
  | cons w ws ih =>
    intro c sl np hin hout hkeys hsl hsame hck hnp
    rw [List.flatMap_cons, List.pairwise_append] at hkeys
    obtain ⟨hk1, hk2, hk3⟩ := hkeys
    obtain ⟨N1, sl', new1, es1, c', a1, a2, a3, a4, a4a, a4b, a5, a6, a7, a8, a9⟩ := window_spec hc hl hu hle hh hp hseeds hne w (hin w (by simp)) (hout w (by simp)) hk1 c sl hsl hsame
      (fun k hk => hck k (by rw [List.flatMap_cons]; exact List.mem_append_left _ hk)) np hnp
    obtain ⟨N2, new2, es2, b1, b2, b3, b4, b5, b6⟩ := ih c' sl' (np ++ new1) (fun w hw => hin w (by simp [hw])) (fun w hw => hout w (by simp [hw])) hk2 a2 a3
      (fun k hk => a4b k (hck k (by rw [List.flatMap_cons]; exact List.mem_append_right _ hk)) fun j hj => hk3 j hj k hk) (by
        intro p hpp
        rcases List.mem_append.1 hpp with hpp | hpp
        · exact (hnp p hpp).trans_le a4
        · exact a4a _ (a5.subset (List.mem_map.2 ⟨p, hpp, rfl⟩)))
    have hzero : ∀ (es : List (Nat × Upds (Nat × Nat) T R2)) (k : Nat), (∀ u ∈ es.flatMap (·.2), u.1.1 ≠ k) → ∀ v q, accum (es.flatMap (·.2)) (k, v) q = 0 := by
      intro es k h v q
      unfold accum
      apply List.sum_eq_zero
      intro x hx
      obtain ⟨u, hu', rfl⟩ := List.mem_map.1 hx
      rw [if_neg]
      rintro ⟨e, -⟩
      exact h u hu' (by rw [e])
    refine ⟨max N1 N2, new1 ++ new2, es1 ++ es2, ?_, ?_, ?_, ?_, ?_, ?_⟩
    · intro fuel hfuel
      rw [proxyWindows, a1 fuel ((le_max_left _ _).trans hfuel)]
      simp only
      rw [b1 fuel ((le_max_right _ _).trans hfuel)]
      simp
    · rw [List.map_append, List.flatMap_cons]
      exact a5.append b2
    · intro p hpp
      rcases List.mem_append.1 hpp with hpp | hpp
      · exact a6 p hpp
      · exact b3 p hpp
    · intro w' hw' k hk
      rw [List.flatMap_append]
      rcases List.mem_cons.1 hw' with rfl | hw'
      · obtain ⟨Mo, L, d1, d2, d3, d4⟩ := a7 k hk
        refine ⟨Mo, L, ?_, fun v q => ?_, d3, d4⟩
        · rw [pendingOf_append_left]
          · exact d1
          · intro hmem
            exact (hk3 k hk k (b2.subset hmem)).ne rfl
        · rw [accum_append, hzero es2 k, add_zero, d2]
          intro u hu' e
          exact (hk3 k hk k (by rw [← e]; exact b5 u hu')).ne rfl
      · have hk' : k ∈ ws.flatMap (·.keys) := List.mem_flatMap.2 ⟨w', hw', hk⟩
        obtain ⟨Mo, L, d1, d2, d3, d4⟩ := b4 w' hw' k hk
        refine ⟨Mo, L, ?_, fun v q => ?_, d3, d4⟩
        · rw [pendingOf_append_right]
          · exact d1
          · intro hmem
            exact (hk3 k (a5.subset hmem) k hk').ne rfl
        · rw [accum_append, hzero es1 k, zero_add, d2]
          intro u hu' e
          exact (hk3 k (by rw [← e]; exact a8 u hu') k hk').ne rfl
    · intro u hu'
      rw [List.flatMap_append] at hu'
      rw [List.flatMap_cons]
      rcases List.mem_append.1 hu' with hu' | hu'
      · exact List.mem_append_left _ (a8 u hu')
      · exact List.mem_append_right _ (b5 u hu')
    · intro e he
      rcases List.mem_append.1 he with he | he
      · exact a9 e he
      · exact b6 e he

variable {inputs new : Upds (Nat × Nat) T R1} {outputs : Upds (Nat × Nat) T R2} {windows : List (ProxyWindow T R1 R2)}

theorem EndsWith.unique {X : Type*} {run : Nat → Option X} {r s : X} (h1 : EndsWith run r) (h2 : EndsWith run s) : r = s := by
  obtain ⟨N, hN⟩ := h1
  obtain ⟨M, hM⟩ := h2
  have a := hN (max N M) (le_max_left _ _)
  have b := hM (max N M) (le_max_right _ _)
  rw [a] at b
  exact Option.some.inj b

omit [Lattice T] [OrderBot T] [DecidableLE T] [DecidableEq T] [TimeOrd T] in
theorem changedKeys_nil (h : (changedKeys seeds pending).isEmpty = true) : seeds = [] ∧ pending = [] := by
  unfold changedKeys at h
  have h0 := List.isEmpty_iff.1 h
  have h1 : ∀ x, x ∉ seeds.map (·.1) ++ pending.map (·.1) := by
    intro x hx
    have : x ∈ ((seeds.map (·.1) ++ pending.map (·.1)).insertionSort (· ≤ ·)).dedup := List.mem_dedup.2 ((List.perm_insertionSort _ _).mem_iff.2 hx)
    rw [h0] at this
    simp at this
  have h2 := List.eq_nil_iff_forall_not_mem.2 h1
  simpa using h2

/-- All that is shown about a call of `retire`. -/
theorem proxyRetire_all (hc : Corrects f corrections) (hl : IsAntichainList lower) (hu : IsAntichainList upper) (hle : FrontierLe lower upper) (hh : ∀ h ∈ held, Beyond lower h)
    (hb : WindowsPresent lower upper held inputs new outputs seeds pending windows) (hp : PendingOk lower held pending) (hr : RightUnlessPending f inputs outputs lower pending) :
    ∃ r, EndsWith (fun fuel => proxyRetire fuel corrections windows seeds pending lower upper held) r ∧
      PendingOk upper r.frontier r.pending ∧ (∀ x ∈ r.frontier, Beyond held x) ∧
      (r.descs ≠ [] → DescsTile lower r.descs upper) ∧ r.held.length = r.descs.length ∧
      EmitOk ⟨r.descs, r.held, []⟩ r.emits ∧ (∀ u ∈ r.emitted, Beyond lower u.2.1 ∧ ¬ Beyond upper u.2.1) ∧
      ∀ k q, Beyond lower q → (∀ p, PendingAt r.pending k p → ¬ p ≤ q) →
        (∀ w ∈ windows, k ∈ w.keys → ∀ x, (∃ u ∈ w.input, u.1.1 = k ∧ u.2.1 = x) ∨ (∃ u ∈ w.output, u.1.1 = k ∧ u.2.1 = x) →
          ∀ m, IsGLB {s | SeedAt seeds pending k s} m → x ⊔ m ≤ q → (∃ s, SeedAt seeds pending k s ∧ ¬ Beyond upper s) → Beyond upper (x ⊔ m) → ∃ s, SeedAt seeds pending k s ∧ s ≤ x ⊔ m) →
        ReducedAt (f k) (ofKey (inputs ++ new) k) (ofKey (outputs ++ r.emitted) k) q := by
  -- where nothing changes, the output stays right
  have hstay : ∀ (emitted : Upds (Nat × Nat) T R2) (k : Nat) (q : T), Beyond lower q → (∀ s, SeedAt seeds pending k s → ¬ s ≤ q) → (∀ v, accum emitted (k, v) q = 0) →
      ReducedAt (f k) (ofKey (inputs ++ new) k) (ofKey (outputs ++ emitted) k) q := by
    intro emitted k q hq hs he
    refine reducedAt_congr (fun v => ?_) (fun v => ?_) (hr k q hq fun p hpp => hs p (Or.inr hpp))
    · rw [accum_ofKey, accum_ofKey, accum_append, hb.seedsAll k v q fun s hss => hs s (Or.inl hss), add_zero]
    · rw [accum_ofKey, accum_ofKey, accum_append, he, add_zero]
  by_cases hearly : (held.all fun t => lessEqual upper t) = true
  · have hall : ∀ t, Beyond held t → Beyond upper t := by
      rintro t ⟨h, hh1, hh2⟩
      exact beyond_mono ((lessEqual_iff _ _).1 (List.all_eq_true.1 hearly h hh1)) hh2
    have hnos : seeds = [] := by
      rw [List.eq_nil_iff_forall_not_mem]
      intro s hs
      exact (hb.seedsInside s hs).2.1 (hall _ (hb.seedsInside s hs).2.2)
    refine ⟨⟨[], [], [], pending, held⟩, ⟨0, fun fuel _ => by unfold proxyRetire; beta_reduce; rw [if_pos hearly]⟩, ⟨hp.keys, hp.nonempty, hp.sorted, fun k s hs => ?_⟩, ?_, by simp, rfl, by simp [EmitOk],
      by simp [ProxyResult.emitted], ?_⟩
    · exact ⟨hall s (hp.beyond k s hs).2, (hp.beyond k s hs).2⟩
    · intro x hx; exact ⟨x, hx, le_refl _⟩
    · intro k q hq hpq _
      refine hstay _ k q hq (fun s hs => ?_) (fun v => rfl)
      rcases hs with hs | hs
      · rw [hnos] at hs; simp at hs
      · exact hpq s hs
  by_cases hnone : (changedKeys seeds pending).isEmpty = true
  · obtain ⟨e1, e2⟩ := changedKeys_nil hnone
    refine ⟨⟨[], [], [], [], []⟩, ⟨0, fun fuel _ => by unfold proxyRetire; beta_reduce; rw [if_neg hearly, if_pos hnone]⟩, ⟨by simp, by simp, by simp, by simp [PendingAt]⟩, by simp, by simp, rfl,
      by simp [EmitOk], by simp [ProxyResult.emitted], ?_⟩
    intro k q hq _ _
    refine hstay _ k q hq (fun s hs => ?_) (fun v => rfl)
    subst e1 e2
    simp [SeedAt, PendingAt] at hs
  have hne : held ≠ [] := by rintro rfl; simp at hearly
  obtain ⟨N, np, es, h1, h2, h3, h4, h5, h6⟩ := windows_spec hc hl hu hle hh hp hb.seedsInside hne windows 0 seeds [] hb.inputSorted hb.outputSorted hb.ascending hb.seedsSorted
    (fun _ _ => rfl) (fun _ _ => Nat.zero_le _) (by simp)
  simp only [List.nil_append] at h1
  have hnodup : (np.map (·.1)).Nodup := h2.nodup (hb.ascending.imp fun h => h.ne)
  have htiles := C29_contiguous lower upper held hl hu hle hh hne
  have hseedOf : ∀ k s, s ∈ seedsFor seeds k ++ pendingOf pending k ↔ SeedAt seeds pending k s := by
    intro k s
    rw [List.mem_append, mem_seedsFor, mem_pendingOf hp.keys]
    rfl
  have hseedHeld : ∀ k s, SeedAt seeds pending k s → Beyond lower s ∧ Beyond held s := by
    rintro k s (hs | hs)
    · exact ⟨(hb.seedsInside _ hs).1, (hb.seedsInside _ hs).2.2⟩
    · exact hp.beyond k s hs
  have hnew : ∀ k p, PendingAt np k p → ∃ w ∈ windows, k ∈ w.keys ∧ p ∈ pendingOf np k := by
    rintro k p ⟨ts, ht, hpt⟩
    obtain ⟨w, hw, hk⟩ := List.mem_flatMap.1 (h2.subset (List.mem_map.2 ⟨_, ht, rfl⟩))
    exact ⟨w, hw, hk, (mem_pendingOf hnodup).2 ⟨ts, ht, hpt⟩⟩
  have hcov : ∀ e ∈ es, ∀ u ∈ e.2, Beyond lower u.2.1 ∧ ¬ Beyond upper u.2.1 := by
    intro e he u hue
    obtain ⟨-, d, h, a1, -, a3⟩ := h6 e he
    exact (C29_exactly_one lower upper held hl hu hle hh u.2.1).2 d (List.mem_of_getElem? a1) (a3 u hue).1
  refine ⟨⟨es, (tileDescriptions lower upper held).descs, (tileDescriptions lower upper held).held, np, acExtend [] (np.flatMap (·.2))⟩, ⟨N, fun fuel hf => ?_⟩, ⟨hnodup, h3, ?_, ?_⟩, ?_,
    fun _ => htiles.1, htiles.2.1, h6, ?_, ?_⟩
  · unfold proxyRetire
    beta_reduce
    rw [if_neg hearly, if_neg hnone]
    simp only
    rw [h1 fuel hf]
  · intro p hpp
    obtain ⟨w, hw, hk⟩ := List.mem_flatMap.1 (h2.subset (List.mem_map.2 ⟨_, hpp, rfl⟩))
    obtain ⟨Mo, L, d1, -⟩ := h4 w hw _ hk
    have : pendingOf np p.1 = p.2 := by
      unfold pendingOf
      cases hf : np.find? fun x => decide (x.1 = p.1) with
      | none =>
        rw [List.find?_eq_none] at hf
        exact absurd (by simp) (hf p hpp)
      | some x =>
        have hx := List.mem_of_find?_eq_some hf
        have hk : x.1 = p.1 := by simpa using List.find?_some hf
        rw [List.inj_on_of_nodup_map hnodup hx hpp hk]
        rfl
    rw [← this]
    exact d1.pendSort
  · intro k s hs
    obtain ⟨w, hw, hk, hin⟩ := hnew k s hs
    obtain ⟨Mo, L, d1, -⟩ := h4 w hw k hk
    refine ⟨(d1.pend s hin).1, (beyond_acExtend _ _ _).2 (Or.inr ⟨s, ?_, le_refl _⟩)⟩
    obtain ⟨ts, ht, hst⟩ := hs
    exact List.mem_flatMap.2 ⟨_, ht, hst⟩
  · intro x hx
    rcases mem_acExtend hx with hx | hx
    · simp at hx
    · obtain ⟨⟨k, ts⟩, ht, hxt⟩ := List.mem_flatMap.1 hx
      obtain ⟨w, hw, hk, hin⟩ := hnew k x ⟨ts, ht, hxt⟩
      obtain ⟨Mo, L, d1, -⟩ := h4 w hw k hk
      obtain ⟨-, s, hs, hsx⟩ := d1.pend x hin
      exact beyond_mono (hseedHeld k s ((hseedOf k s).1 hs)).2 hsx
  · intro u hu'
    obtain ⟨e, he, hue⟩ := List.mem_flatMap.1 hu'
    exact hcov e he u hue
  · intro k q hq hpq hheed
    show ReducedAt (f k) (ofKey (inputs ++ new) k) (ofKey (outputs ++ es.flatMap (·.2)) k) q
    by_cases hk : k ∈ windows.flatMap (·.keys)
    · obtain ⟨w, hw, hkw⟩ := List.mem_flatMap.1 hk
      obtain ⟨Mo, L, d1, d2, d3, d4⟩ := h4 w hw k hkw
      by_cases hs : ∃ s, SeedAt seeds pending k s ∧ s ≤ q
      · obtain ⟨s, hs1, hs2⟩ := hs
        have := d1.suffices' L d3 d4 q ⟨s, (hseedOf k s).2 hs1, hs2⟩ (fun p hpp => hpq p ((mem_pendingOf hnodup).1 hpp)) (by
          intro x hx m hm hxq hxu
          have hm' : IsGLB {s | SeedAt seeds pending k s} m := by
            have : {s | s ∈ seedsFor seeds k ++ pendingOf pending k} = {s | SeedAt seeds pending k s} := by ext s; exact hseedOf k s
            rw [← this]; exact hm
          obtain ⟨s, a1, a2⟩ := hheed w hw hkw x (by
            rcases List.mem_append.1 hx with hx | hx
            · left
              obtain ⟨u, hu1, rfl⟩ := List.mem_map.1 hx
              obtain ⟨y, hy, he⟩ := List.mem_filterMap.1 hu1
              split_ifs at he with hyk
              exact ⟨y, hy, hyk, by rw [← Option.some.inj he]⟩
            · right
              obtain ⟨u, hu1, rfl⟩ := List.mem_map.1 hx
              obtain ⟨y, hy, he⟩ := List.mem_filterMap.1 hu1
              split_ifs at he with hyk
              exact ⟨y, hy, hyk, by rw [← Option.some.inj he]⟩) m hm' hxq ⟨s, hs1, fun hsu => by
              rcases d1.kept s ((hseedOf k s).2 hs1) with hsm | hsp
              · exact (d1.mom s hsm).1 hsu
              · exact hpq s ((mem_pendingOf hnodup).1 hsp) hs2⟩ hxu
          exact ⟨s, (hseedOf k s).2 a1, a2⟩)
        refine reducedAt_congr (fun v => ?_) (fun v => ?_) this
        · rw [accum_ofKey, accum_ofKey, hb.input w hw k hkw v q hq]
        · rw [accum_append, accum_ofKey, accum_ofKey, accum_append, d2, hb.output w hw k hkw v q hq]
      · push Not at hs
        refine hstay _ k q hq hs fun v => ?_
        rw [d2]
        refine accum_zero_of_not_le (fun u hu' hle' => ?_) v
        obtain ⟨-, s, hs1, hs2⟩ := d1.mom _ (d3 u hu')
        exact hs s ((hseedOf k s).1 hs1) (hs2.trans hle')
    · refine hstay _ k q hq (fun s hs => ?_) fun v => ?_
      · exact absurd ((hb.covered k).2 (by
          rcases hs with hs | ⟨ts, h1, -⟩
          · exact Or.inl ⟨s, hs⟩
          · exact Or.inr ⟨ts, h1⟩)) hk
      · unfold accum
        apply List.sum_eq_zero
        intro x hx
        obtain ⟨u, hu', rfl⟩ := List.mem_map.1 hx
        rw [if_neg]
        rintro ⟨e, -⟩
        exact hk (by have := h5 u hu'; rw [e] at this; exact this)

/-! ### More fuel does not change a result -/

section
variable {V R : Type*} [LinearOrder V] [AddCommMonoid R] [DecidableEq R]

theorem discoverLoop_mono (upper : List T) (n : Nat) : ∀ (m : Nat) (st st' : DiscoverState V T R), n ≤ m → st.loop upper n = some st' → st.loop upper m = some st' := by
  induction n with
  | zero =>
    intro m st st' _ h
    rw [DiscoverState.loop] at h
    cases hn : st.nextTime with
    | none =>
      rw [hn] at h
      cases m <;> (rw [DiscoverState.loop, hn]; exact h)
    | some t => rw [hn] at h; simp at h
  | succ n ih =>
    intro m st st' hnm h
    obtain ⟨m, rfl⟩ : ∃ j, m = j + 1 := ⟨m - 1, by omega⟩
    rw [DiscoverState.loop] at h ⊢
    cases hn : st.nextTime with
    | none => rw [hn] at h; exact h
    | some t =>
      rw [hn] at h
      simp only at h ⊢
      cases hs : st.step upper t with
      | none => rw [hs] at h; simp at h
      | some st1 => rw [hs] at h; exact ih m st1 st' (by omega) h

theorem discoverTimes_mono {n m : Nat} (hnm : n ≤ m) {records : Upds V T R} {pending seedTimes outTimes upper : List T} {x : List T × List T}
    (h : discoverTimes n records pending seedTimes outTimes upper = some x) : discoverTimes m records pending seedTimes outTimes upper = some x := by
  unfold discoverTimes at h ⊢
  simp only at h ⊢
  split at h
  · simp at h
  · obtain ⟨st, h1, h2⟩ := Option.map_eq_some_iff.1 h
    rw [discoverLoop_mono upper n m _ _ hnm h1, Option.map_some, h2]

end

section
variable {Q1 Q2 : Type*} [AddCommMonoid Q1] [DecidableEq Q1] [AddCommMonoid Q2] [DecidableEq Q2]

theorem loadKey_mono {n m : Nat} (hnm : n ≤ m) {pending : List (Nat × List T)} {upper : List T} {ld ld' : ProxyLoad T Q1 Q2} {k : Nat}
    (h : ProxyLoad.key n pending upper ld k = some ld') : ProxyLoad.key m pending upper ld k = some ld' := by
  unfold ProxyLoad.key at h ⊢
  simp only at h ⊢
  cases hd : discoverTimes n (List.map (fun u => (u.1.2, u.2)) (splitRun (fun u => u.1.1) k ld.input).1) (pendingOf pending k)
      (List.map (fun x => x.2) (splitRun (fun u => u.1) k ld.seeds).1) (updTimes (List.map (fun u => (u.1.2, u.2)) (splitRun (fun u => u.1.1) k ld.output).1)) upper with
  | none => rw [hd] at h; simp at h
  | some x =>
    rw [hd] at h
    rw [discoverTimes_mono hnm hd]
    exact h

theorem loadKeys_mono {n m : Nat} (hnm : n ≤ m) {pending : List (Nat × List T)} {upper : List T} (keys : List Nat) : ∀ {ld ld' : ProxyLoad T Q1 Q2},
    keys.foldlM (ProxyLoad.key n pending upper) ld = some ld' → keys.foldlM (ProxyLoad.key m pending upper) ld = some ld' := by
  induction keys with
  | nil => intro ld ld' h; exact h
  | cons k keys ih =>
    intro ld ld' h
    rw [List.foldlM_cons] at h ⊢
    cases hk : ProxyLoad.key n pending upper ld k with
    | none => rw [hk] at h; simp at h
    | some ld1 =>
      rw [hk] at h
      rw [loadKey_mono hnm hk]
      exact ih h

theorem proxyWindow_mono {n m : Nat} (hnm : n ≤ m) {corrections : Corrections Q1 Q2} {pending : List (Nat × List T)} {upper held : List T} {tileOf : List (Option Nat)}
    {w : ProxyWindow T Q1 Q2} {seeds : List (Nat × T)} {np : List (Nat × List T)} {x : List (Nat × T) × List (Nat × List T) × List (Nat × Upds (Nat × Nat) T Q2)}
    (h : proxyWindow n corrections pending upper held tileOf w seeds np = some x) : proxyWindow m corrections pending upper held tileOf w seeds np = some x := by
  unfold proxyWindow at h ⊢
  cases hd : w.keys.foldlM (ProxyLoad.key n pending upper) ({ input := w.input, output := w.output, seeds := seeds, states := [], pending := np } : ProxyLoad T Q1 Q2) with
  | none => rw [hd] at h; simp at h
  | some ld =>
    rw [hd] at h
    rw [loadKeys_mono hnm _ hd]
    exact h

theorem proxyWindows_mono {n m : Nat} (hnm : n ≤ m) {corrections : Corrections Q1 Q2} {pending : List (Nat × List T)} {upper held : List T} {tileOf : List (Option Nat)}
    (ws : List (ProxyWindow T Q1 Q2)) : ∀ {seeds : List (Nat × T)} {np : List (Nat × List T)} {x : List (Nat × List T) × List (Nat × Upds (Nat × Nat) T Q2)},
    proxyWindows n corrections pending upper held tileOf ws seeds np = some x → proxyWindows m corrections pending upper held tileOf ws seeds np = some x := by
  induction ws with
  | nil => intro seeds np x h; exact h
  | cons w ws ih =>
    intro seeds np x h
    rw [proxyWindows] at h ⊢
    cases hd : proxyWindow n corrections pending upper held tileOf w seeds np with
    | none => rw [hd] at h; simp at h
    | some y =>
      rw [hd] at h
      rw [proxyWindow_mono hnm hd]
      simp only at h ⊢
      obtain ⟨z, h1, h2⟩ := Option.map_eq_some_iff.1 h
      rw [ih h1, Option.map_some, h2]

theorem endsWith_of_retire {n : Nat} {corrections : Corrections Q1 Q2} {windows : List (ProxyWindow T Q1 Q2)} {seeds : List (Nat × T)} {pending : List (Nat × List T)}
    {lower upper held : List T} {r : ProxyResult T Q2} (h : proxyRetire n corrections windows seeds pending lower upper held = some r) :
    EndsWith (fun fuel => proxyRetire fuel corrections windows seeds pending lower upper held) r := by
  refine ⟨n, fun m hnm => ?_⟩
  unfold proxyRetire at h ⊢
  beta_reduce
  split_ifs at h ⊢ with h1 h2
  · exact h
  · exact h
  · simp only at h ⊢
    cases hd : proxyWindows n corrections pending upper held (tileDescriptions lower upper held).tileOf windows seeds [] with
    | none => rw [hd] at h; simp at h
    | some y =>
      rw [hd] at h
      rw [proxyWindows_mono hnm _ hd]
      exact h

end

end DD
