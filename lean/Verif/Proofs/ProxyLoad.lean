import Verif.Proofs.ProxyRounds
import Verif.Props.Tile

/-!
# The proxy reduce: loading a window, and emitting its updates
-/

set_option linter.unusedSectionVars false

namespace DD

/-! ### The runs of a key -/

theorem splitRun_one {A : Type*} (hash : A → Nat) (key : Nat) {p : List A} (hs : p.Pairwise fun a b => hash a ≤ hash b) :
    (splitRun hash key p).1 = p.filter fun x => decide (hash x = key) := by
  show (p.dropWhile fun x => decide (hash x < key)).takeWhile (fun x => decide (hash x = key)) = _
  induction p with
  | nil => rfl
  | cons x p ih =>
    have hp := List.pairwise_cons.1 hs
    by_cases hx : hash x < key
    · rw [List.dropWhile_cons_of_pos (by simpa using hx), List.filter_cons_of_neg (by simpa using hx.ne)]
      exact ih hp.2
    · rw [List.dropWhile_cons_of_neg (by simpa using hx)]
      clear ih
      have hge : ∀ y ∈ x :: p, key ≤ hash y := by
        intro y hy
        rcases List.mem_cons.1 hy with rfl | hy
        · exact not_lt.1 hx
        · exact (not_lt.1 hx).trans (hp.1 y hy)
      generalize x :: p = l at hs hge
      clear hp hx x p
      induction l with
      | nil => rfl
      | cons y l ih =>
        have hp := List.pairwise_cons.1 hs
        by_cases hy : hash y = key
        · rw [List.takeWhile_cons_of_pos (by simpa using hy), List.filter_cons_of_pos (by simpa using hy), ih hp.2 fun z hz => hge z (by simp [hz])]
        · rw [List.takeWhile_cons_of_neg (by simpa using hy), List.filter_cons_of_neg (by simpa using hy), eq_comm, List.filter_eq_nil_iff]
          intro z hz
          have := hp.1 z hz
          have := hge y (by simp)
          simp only [decide_eq_true_eq]
          omega

theorem splitRun_two {A : Type*} (hash : A → Nat) (key : Nat) {p : List A} (hs : p.Pairwise fun a b => hash a ≤ hash b) :
    ((splitRun hash key p).2.Pairwise fun a b => hash a ≤ hash b) ∧
      ∀ k, key < k → ((splitRun hash key p).2.filter fun x => decide (hash x = k)) = p.filter fun x => decide (hash x = k) := by
  unfold splitRun
  refine ⟨hs.sublist ((List.dropWhile_sublist _).trans (List.dropWhile_sublist _)), fun k hk => ?_⟩
  have hdrop : ∀ (g : A → Bool) (l : List A), (∀ x, g x = true → hash x ≠ k) → ((l.dropWhile g).filter fun x => decide (hash x = k)) = l.filter fun x => decide (hash x = k) := by
    intro g l hg
    induction l with
    | nil => rfl
    | cons x l ih =>
      by_cases hx : g x = true
      · rw [List.dropWhile_cons_of_pos hx, ih, List.filter_cons_of_neg (by simpa using hg x hx)]
      · rw [List.dropWhile_cons_of_neg hx]
  rw [hdrop, hdrop]
  · intro x hx; simp at hx; omega
  · intro x hx; simp at hx; omega

theorem ofKey_eq_filter {V T R : Type*} (us : Upds (Nat × V) T R) (k : Nat) : (us.filter fun u => decide (u.1.1 = k)).map (fun u => (u.1.2, u.2)) = ofKey us k := by
  unfold ofKey
  induction us with
  | nil => rfl
  | cons u us ih =>
    by_cases h : u.1.1 = k
    · simp [h, ih]
    · simp [h, ih]

/-! ### Pending times -/

section
variable {T : Type*}

theorem pendingOf_append_left (a : List (Nat × List T)) {b : List (Nat × List T)} {k : Nat} (h : k ∉ b.map (·.1)) : pendingOf (a ++ b) k = pendingOf a k := by
  unfold pendingOf
  rw [List.find?_append]
  cases ha : a.find? fun p => decide (p.1 = k) with
  | some x => rfl
  | none =>
    rw [Option.none_or]
    have : b.find? (fun p => decide (p.1 = k)) = none := by
      rw [List.find?_eq_none]
      intro x hx he
      exact h (List.mem_map.2 ⟨x, hx, by simpa using he⟩)
    rw [this]

theorem pendingOf_append_right {a : List (Nat × List T)} (b : List (Nat × List T)) {k : Nat} (h : k ∉ a.map (·.1)) : pendingOf (a ++ b) k = pendingOf b k := by
  unfold pendingOf
  rw [List.find?_append]
  have : a.find? (fun p => decide (p.1 = k)) = none := by
    rw [List.find?_eq_none]
    intro x hx he
    exact h (List.mem_map.2 ⟨x, hx, by simpa using he⟩)
  rw [this, Option.none_or]

theorem pendingOf_not_mem {a : List (Nat × List T)} {k : Nat} (h : k ∉ a.map (·.1)) : pendingOf a k = [] := by
  have := pendingOf_append_right [] h
  rw [List.append_nil] at this
  rw [this]; rfl

theorem mem_pendingOf {pending : List (Nat × List T)} (hn : (pending.map (·.1)).Nodup) {k : Nat} {p : T} : p ∈ pendingOf pending k ↔ PendingAt pending k p := by
  unfold pendingOf PendingAt
  cases hf : pending.find? fun x => decide (x.1 = k) with
  | none =>
    simp only [Option.map_none, Option.getD_none, List.not_mem_nil, false_iff]
    rintro ⟨ts, h1, -⟩
    rw [List.find?_eq_none] at hf
    exact hf _ h1 (by simp)
  | some x =>
    have hx := List.mem_of_find?_eq_some hf
    have hk : x.1 = k := by simpa using List.find?_some hf
    simp only [Option.map_some, Option.getD_some]
    constructor
    · intro h; exact ⟨x.2, by rw [← hk]; exact hx, h⟩
    · rintro ⟨ts, h1, h2⟩
      have : x = (k, ts) := List.inj_on_of_nodup_map hn hx h1 hk
      rw [this]; exact h2

theorem pendingOf_sorted [LinearOrder (Lin T)] {pending : List (Nat × List T)} (hs : ∀ p ∈ pending, p.2.Pairwise fun a b => toLin a < toLin b) (k : Nat) :
    (pendingOf pending k).Pairwise fun a b => toLin a < toLin b := by
  unfold pendingOf
  cases hf : pending.find? fun x => decide (x.1 = k) with
  | none => simp
  | some x => exact hs x (List.mem_of_find?_eq_some hf)

/-- The new pending times of the keys, as they are inserted. -/
theorem pendingOf_made (Pe : Nat → List T) (keys : List Nat) (k : Nat) (hk : k ∈ keys) : pendingOf ((keys.filter fun k => !(Pe k).isEmpty).map fun k => (k, Pe k)) k = Pe k := by
  induction keys with
  | nil => simp at hk
  | cons j keys ih =>
    by_cases hj : (Pe j).isEmpty = true
    · rw [List.filter_cons_of_neg (by simpa using hj)]
      by_cases hjk : k ∈ keys
      · exact ih hjk
      · have : j = k := by rcases List.mem_cons.1 hk with h | h; exact h.symm; exact absurd h hjk
        subst this
        rw [pendingOf_not_mem, List.isEmpty_iff.1 hj]
        intro h
        obtain ⟨x, hx, hxk⟩ := List.mem_map.1 h
        obtain ⟨y, hy, rfl⟩ := List.mem_map.1 hx
        simp only at hxk
        subst hxk
        exact hjk (List.mem_filter.1 hy).1
    · rw [List.filter_cons_of_pos (by simpa using hj), List.map_cons]
      by_cases hjk : j = k
      · subst hjk; simp [pendingOf]
      · have := pendingOf_append_right (a := [(j, Pe j)]) ((keys.filter fun k => !(Pe k).isEmpty).map fun k => (k, Pe k)) (k := k) (by simpa using Ne.symm hjk)
        rw [List.singleton_append] at this
        rw [this]
        exact ih (by rcases List.mem_cons.1 hk with h | h; exact absurd h.symm hjk; exact h)

end

section
variable {T R1 R2 : Type*} [Lattice T] [DecidableLE T] [DecidableEq T] [TimeOrd T] [AddCommMonoid R1] [DecidableEq R1] [AddCommMonoid R2] [DecidableEq R2]

/-- The seeds of a key. -/
def seedsFor (seeds : List (Nat × T)) (k : Nat) : List T := (seeds.filter fun u => decide (u.1 = k)).map (·.2)

/-- What is left to load is right for the keys from `c` on. -/
structure LoadInv (input : Upds (Nat × Nat) T R1) (output : Upds (Nat × Nat) T R2) (seeds : List (Nat × T)) (c : Nat) (ld : ProxyLoad T R1 R2) : Prop where
  inSorted : ld.input.Pairwise fun a b => a.1.1 ≤ b.1.1
  outSorted : ld.output.Pairwise fun a b => a.1.1 ≤ b.1.1
  seedSorted : ld.seeds.Pairwise fun a b => a.1 ≤ b.1
  inSame : ∀ k, c ≤ k → (ld.input.filter fun u => decide (u.1.1 = k)) = input.filter fun u => decide (u.1.1 = k)
  outSame : ∀ k, c ≤ k → (ld.output.filter fun u => decide (u.1.1 = k)) = output.filter fun u => decide (u.1.1 = k)
  seedSame : ∀ k, c ≤ k → (ld.seeds.filter fun u => decide (u.1 = k)) = seeds.filter fun u => decide (u.1 = k)

variable {input : Upds (Nat × Nat) T R1} {output : Upds (Nat × Nat) T R2} {seeds : List (Nat × T)}

theorem load_keys (N0 : Nat) (pending : List (Nat × List T)) (upper : List T) (Mo Pe : Nat → List T) (f : Nat → List (Nat × R1) → List (Nat × R2)) (keys : List Nat)
    (hrun : ∀ k ∈ keys, ∀ fuel, N0 ≤ fuel → discoverTimes fuel (ofKey input k) (pendingOf pending k) (seedsFor seeds k) (updTimes (ofKey output k)) upper = some (Mo k, Pe k)) :
    ∀ (c : Nat) (ld : ProxyLoad T R1 R2), LoadInv input output seeds c ld → keys.Pairwise (· < ·) → (∀ k ∈ keys, c ≤ k) → (∀ p ∈ ld.pending, p.1 < c) →
      ∃ ld' news c', (∀ fuel, N0 ≤ fuel → keys.foldlM (ProxyLoad.key fuel pending upper) ld = some ld') ∧ LoadInv input output seeds c' ld' ∧ c ≤ c' ∧ (∀ k ∈ keys, k < c') ∧ (∀ j, c ≤ j → (∀ k ∈ keys, k < j) → c' ≤ j) ∧
        ld'.states = ld.states ++ news ∧ (news.map (·.key)) = keys.filter (fun k => !(Mo k).isEmpty) ∧
        (∀ st ∈ news, KeyInv (f st.key) (ofKey input st.key) (ofKey output st.key) (Mo st.key) [] st []) ∧
        ld'.pending = ld.pending ++ (keys.filter fun k => !(Pe k).isEmpty).map fun k => (k, Pe k) := by
  induction keys with
  | nil => intro c ld h _ _ _; exact ⟨ld, [], c, fun _ _ => rfl, h, le_refl _, by simp, fun j hj _ => hj, by simp, rfl, by simp, by simp⟩
  | cons k keys ih =>
    intro c ld h hs hc hp
    have hs' := List.pairwise_cons.1 hs
    have hck := hc k (by simp)
    have e1 : (splitRun (fun u => u.1.1) k ld.input).1.map (fun u => (u.1.2, u.2)) = ofKey input k := by rw [splitRun_one _ _ h.inSorted, h.inSame k hck, ofKey_eq_filter]
    have e2 : (splitRun (fun u => u.1.1) k ld.output).1.map (fun u => (u.1.2, u.2)) = ofKey output k := by rw [splitRun_one _ _ h.outSorted, h.outSame k hck, ofKey_eq_filter]
    have e3 : (splitRun (fun u => u.1) k ld.seeds).1.map (·.2) = seedsFor seeds k := by rw [splitRun_one _ _ h.seedSorted, h.seedSame k hck, seedsFor]
    have hfilt : (ld.pending.filter fun p => p.1 ≠ k) = ld.pending := by
      rw [List.filter_eq_self]
      intro p hpp
      have := hp p hpp
      simp only [ne_eq, decide_not, Bool.not_eq_eq_eq_not, Bool.not_true, decide_eq_false_iff_not]
      omega
    obtain ⟨np, hnp⟩ : ∃ np, np = if (Pe k).isEmpty then ld.pending else ld.pending ++ [(k, Pe k)] := ⟨_, rfl⟩
    have hnp2 : ∀ p ∈ np, p.1 < k + 1 := by
      intro p hpp
      rw [hnp] at hpp
      split_ifs at hpp
      · have := hp p hpp; omega
      · rcases List.mem_append.1 hpp with hpp | hpp
        · have := hp p hpp; omega
        · rw [List.mem_singleton.1 hpp]; simp
    obtain ⟨inR, hi1, hi2⟩ := replayAt_load (ofKey input k) (Mo k)
    obtain ⟨outR, ho1, ho2⟩ := replayAt_load (ofKey output k) (Mo k)
    obtain ⟨sts, hsts⟩ : ∃ sts : List (ProxyKeyState T R1 R2), sts = if (Mo k).isEmpty then [] else
      [{ key := k, moments := Mo k, meets := timesMeets (Mo k), input := inR, output := outR, produced := [] }] := ⟨_, rfl⟩
    have hstep : ∀ fuel, N0 ≤ fuel → ProxyLoad.key fuel pending upper ld k = some ⟨(splitRun (fun u => u.1.1) k ld.input).2, (splitRun (fun u => u.1.1) k ld.output).2,
        (splitRun (fun u => u.1) k ld.seeds).2, ld.states ++ sts, np⟩ := by
      intro fuel hfuel
      unfold ProxyLoad.key
      simp only [e1, e2, e3, hrun k (by simp) fuel hfuel, hfilt]
      rw [hsts, hnp]
      by_cases hm : (Mo k).isEmpty = true
      · simp [hm]
      · simp only [hm, hi1, ho1, if_false, Bool.false_eq_true]
    have hinv : LoadInv input output seeds (k + 1) ⟨(splitRun (fun u => u.1.1) k ld.input).2, (splitRun (fun u => u.1.1) k ld.output).2,
        (splitRun (fun u => u.1) k ld.seeds).2, ld.states ++ sts, np⟩ := by
      obtain ⟨a1, a2⟩ := splitRun_two (fun u : (Nat × Nat) × T × R1 => u.1.1) k h.inSorted
      obtain ⟨b1, b2⟩ := splitRun_two (fun u : (Nat × Nat) × T × R2 => u.1.1) k h.outSorted
      obtain ⟨c1, c2⟩ := splitRun_two (fun u : Nat × T => u.1) k h.seedSorted
      exact ⟨a1, b1, c1, fun j hj => (a2 j hj).trans (h.inSame j (by omega)), fun j hj => (b2 j hj).trans (h.outSame j (by omega)), fun j hj => (c2 j hj).trans (h.seedSame j (by omega))⟩
    obtain ⟨ld', news, c', h1, h2, h3, h3a, h3b, h4, h5, h6, h7⟩ := ih (fun j hj => hrun j (by simp [hj])) (k + 1) _ hinv hs'.2 (fun j hj => hs'.1 j hj) hnp2
    refine ⟨ld', sts ++ news, c', ?_, h2, by omega, ?_, ?_, ?_, ?_, ?_, ?_⟩
    · intro fuel hfuel
      rw [List.foldlM_cons, hstep fuel hfuel]
      exact h1 fuel hfuel
    · intro j hj
      rcases List.mem_cons.1 hj with rfl | hj
      · exact h3
      · exact h3a j hj
    · intro j hj hlt
      exact h3b j (hlt k (by simp)) fun i hi => hlt i (by simp [hi])
    · rw [h4]; simp
    · rw [List.map_append, h5, hsts]
      by_cases hm : (Mo k).isEmpty = true
      · rw [if_pos hm, List.filter_cons_of_neg (by simpa using hm)]; rfl
      · rw [if_neg hm, List.filter_cons_of_pos (by simpa using hm)]; rfl
    · intro st hst
      rcases List.mem_append.1 hst with hst | hst
      · rw [hsts] at hst
        split_ifs at hst
        · simp at hst
        · rw [List.mem_singleton.1 hst]
          exact ⟨rfl, rfl, hi2, ho2, ⟨fun _ _ _ => rfl, by simp⟩, by simp, by simp⟩
      · exact h6 st hst
    · rw [h7]
      simp only
      rw [hnp]
      by_cases hm : (Pe k).isEmpty = true
      · rw [if_pos hm, List.filter_cons_of_neg (by simpa using hm)]
      · rw [if_neg hm, List.filter_cons_of_pos (by simpa using hm)]; simp

theorem accum_toLex (us : Upds (Nat × Nat) T R2) (d : Nat × Nat) (q : T) : accum (us.map fun u => ((toLex u.1 : Nat ×ₗ Nat), u.2)) (toLex d) q = accum us d q := by
  unfold accum
  rw [List.map_map]
  congr 1

theorem consolidateHashed_spec (us : Upds (Nat × Nat) T R2) : ∃ us', consolidateHashed us = some us' ∧ Consolidated (us'.map fun u => ((toLex u.1 : Nat ×ₗ Nat), u.2)) ∧
    (∀ d q, accum us' d q = accum us d q) ∧ ∀ u ∈ us', ∃ w ∈ us, w.1 = u.1 ∧ w.2.1 = u.2.1 := by
  unfold consolidateHashed
  rw [consolidateUpdates_eq]
  refine ⟨_, rfl, ?_, ?_, ?_⟩
  · rw [List.map_map]
    have : ((fun u : (Nat × Nat) × T × R2 => ((toLex u.1 : Nat ×ₗ Nat), u.2)) ∘ fun u : (Nat ×ₗ Nat) × T × R2 => (ofLex u.1, u.2)) = id := by funext u; rfl
    rw [this, List.map_id]
    exact consolidated_consolidatedU _
  · intro d q
    rw [← accum_toLex, List.map_map]
    have : ((fun u : (Nat × Nat) × T × R2 => ((toLex u.1 : Nat ×ₗ Nat), u.2)) ∘ fun u : (Nat ×ₗ Nat) × T × R2 => (ofLex u.1, u.2)) = id := by funext u; rfl
    rw [this, List.map_id, accum_consolidatedU, accum_toLex]
  · intro u hu
    obtain ⟨e, he, rfl⟩ := List.mem_map.1 hu
    obtain ⟨w, hw, h1, h2⟩ := consolidatedU_mem he
    obtain ⟨x, hx, rfl⟩ := List.mem_map.1 hw
    exact ⟨x, hx, by rw [← h1]; rfl, h2⟩

theorem emitTiles_spec (tileOf : List (Option Nat)) : ∀ (tiles : List (Upds (Nat × Nat) T R2)), tileOf.length = tiles.length →
    (∀ (j : Nat) (us : Upds (Nat × Nat) T R2), tiles[j]? = some us → tileOf[j]? = some none → us = []) →
    ∃ es, emitTiles tileOf tiles = some es ∧ (∀ d q, accum (es.flatMap (·.2)) d q = accum tiles.flatten d q) ∧
      ∀ e ∈ es, Consolidated (e.2.map fun u => ((toLex u.1 : Nat ×ₗ Nat), u.2)) ∧
        ∃ (j : Nat) (us : Upds (Nat × Nat) T R2), tileOf[j]? = some (some e.1) ∧ tiles[j]? = some us ∧ us ≠ [] ∧ ∀ u ∈ e.2, ∃ w ∈ us, w.1 = u.1 ∧ w.2.1 = u.2.1 := by
  induction tileOf with
  | nil =>
    intro tiles hl _
    have : tiles = [] := List.length_eq_zero_iff.1 hl.symm
    subst this
    exact ⟨[], rfl, by simp [accum], by simp⟩
  | cons o tileOf ih =>
    intro tiles hl hno
    cases tiles with
    | nil => simp at hl
    | cons us tiles =>
      obtain ⟨es, h1, h2, h3⟩ := ih tiles (by simpa using hl) fun j us a b => hno (j + 1) us (by simpa using a) (by simpa using b)
      have h3' : ∀ e ∈ es, Consolidated (e.2.map fun u => ((toLex u.1 : Nat ×ₗ Nat), u.2)) ∧
          ∃ (j : Nat) (us' : Upds (Nat × Nat) T R2), (o :: tileOf)[j]? = some (some e.1) ∧ (us :: tiles)[j]? = some us' ∧ us' ≠ [] ∧ ∀ u ∈ e.2, ∃ w ∈ us', w.1 = u.1 ∧ w.2.1 = u.2.1 := by
        intro e he
        obtain ⟨a0, j, us', a1, a2, a3, a4⟩ := h3 e he
        exact ⟨a0, j + 1, us', by simpa using a1, by simpa using a2, a3, a4⟩
      cases o with
      | none =>
        have : us = [] := hno 0 us (by simp) (by simp)
        subst this
        exact ⟨es, by rw [emitTiles]; exact h1, by simpa using h2, h3'⟩
      | some i =>
        rw [emitTiles]
        split_ifs with hemp
        · have : us = [] := List.isEmpty_iff.1 hemp
          subst this
          exact ⟨es, h1, by simpa using h2, h3'⟩
        · obtain ⟨us', b1, b2, b3, b4⟩ := consolidateHashed_spec us
          rw [b1, h1]
          refine ⟨(i, us') :: es, rfl, fun d q => ?_, fun e he => ?_⟩
          · rw [List.flatMap_cons, accum_append, h2, List.flatten_cons, accum_append, b3]
          · rcases List.mem_cons.1 he with rfl | he
            · exact ⟨b2, 0, us, by simp, by simp, by simpa using hemp, b4⟩
            · exact h3' e he

end
end DD
