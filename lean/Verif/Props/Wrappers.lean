import Verif.Proofs.Wrappers
import Verif.Props.Cursor
import Verif.Props.Lattice

/-!
# Property C19: trace wrappers

The cursor theorems say that, whatever cursor is wrapped, the wrapped cursor shows under all valid sequences of moves the same keys and values, with
the updates transformed. They apply to cursors of batches and lists of batches by C18. The other theorems say what the transformed updates
accumulate to, and that compaction requested through the wrapper is harmless for its reader.
-/

namespace DD
variable {C S K V T T2 R : Type*} [LinearOrder K] [LinearOrder V]

/-- `ops'` shows from `c0` on what is in `t'`, under all valid sequences of moves. -/
private def ShowsAll (ops' : CursorOps C S K V T2 R) (s : S) (c0 : C) (t' : Contents K V T2 R) : Prop :=
  ∀ (ms : List (Move K V)) (p : Pos K V T2 R), Pos.run t' (Pos.start t') ms = some p → ∃ c, ops'.run s c0 ms = some c ∧ Shows ops' s c p

private theorem showsAll {ops' : CursorOps C S K V T2 R} {s : S} {c0 : C} {t : Contents K V T R} {g : K → V → List (T × R) → List (T2 × R)}
    {Rel : C → Pos K V T R → Prop} (h : Presents ops' s (t.mapUpds g) (WrapRel g Rel)) (hs : SeeksVals ops' s (WrapRel g Rel)) (h0 : Rel c0 (Pos.start t)) :
    ShowsAll ops' s c0 (t.mapUpds g) := by
  intro ms p hr
  obtain ⟨c, g1, g2⟩ := h.run ms (c := c0) ⟨_, h0, start_mapUpds.symm⟩ (fun _ _ => Or.inr hs) hr
  exact ⟨c, g1, h.shows g2⟩

/-- C19: a cursor into an entered batch shows the same keys and values, each update at the injected time. -/
theorem C19_enter_cursor (ops : CursorOps C S K V T R) (s : S) (c0 : C) (t : Contents K V T R) (Rel : C → Pos K V T R → Prop) (h : Presents ops s t Rel)
    (hs : SeeksVals ops s Rel) (h0 : Rel c0 (Pos.start t)) (to_inner : T → T2) (ms : List (Move K V)) (p : Pos K V T2 R)
    (hr : Pos.run (t.map fun kv => (kv.1, kv.2.map fun vu => (vu.1, vu.2.map fun u => (to_inner u.1, u.2))))
      (Pos.start (t.map fun kv => (kv.1, kv.2.map fun vu => (vu.1, vu.2.map fun u => (to_inner u.1, u.2))))) ms = some p) :
    ∃ c, (enterOps to_inner ops).run s c0 ms = some c ∧ Shows (enterOps to_inner ops) s c p :=
  showsAll (enterOps_presents h to_inner) (hs.wrap _ rfl) h0 ms p hr

/-- C19: a cursor into a batch entered with `enter_at` shows the same keys and values, each update at the time the user's function gives. -/
theorem C19_enter_at_cursor (ops : CursorOps C S K V T R) (s : S) (c0 : C) (t : Contents K V T R) (Rel : C → Pos K V T R → Prop) (h : Presents ops s t Rel)
    (hs : SeeksVals ops s Rel) (h0 : Rel c0 (Pos.start t)) (logic : K → V → T → T2) (ms : List (Move K V)) (p : Pos K V T2 R)
    (hr : Pos.run (t.map fun kv => (kv.1, kv.2.map fun vu => (vu.1, vu.2.map fun u => (logic kv.1 vu.1 u.1, u.2))))
      (Pos.start (t.map fun kv => (kv.1, kv.2.map fun vu => (vu.1, vu.2.map fun u => (logic kv.1 vu.1 u.1, u.2))))) ms = some p) :
    ∃ c, (enterAtOps logic ops).run s c0 ms = some c ∧ Shows (enterAtOps logic ops) s c p :=
  showsAll (enterAtOps_presents h logic) (hs.wrap _ rfl) h0 ms p hr

/-- C19: a cursor limited by frontiers shows the same keys and values, each update advanced by `since` and left out if then beyond `until`. -/
theorem C19_frontier_cursor [Lattice T] [DecidableLE T] (ops : CursorOps C S K V T R) (s : S) (c0 : C) (t : Contents K V T R) (Rel : C → Pos K V T R → Prop)
    (h : Presents ops s t Rel) (hs : SeeksVals ops s Rel) (h0 : Rel c0 (Pos.start t)) (since until_ : List T) (ms : List (Move K V)) (p : Pos K V T R)
    (hr : Pos.run (t.map fun kv => (kv.1, kv.2.map fun vu => (vu.1, (vu.2.map fun u => (advanceBy u.1 since, u.2)).filter fun u => !lessEqual until_ u.1)))
      (Pos.start (t.map fun kv => (kv.1, kv.2.map fun vu => (vu.1, (vu.2.map fun u => (advanceBy u.1 since, u.2)).filter fun u => !lessEqual until_ u.1)))) ms = some p) :
    ∃ c, (frontierOps since until_ ops).run s c0 ms = some c ∧ Shows (frontierOps since until_ ops) s c p := by
  have e : ∀ us : List (T × R), (us.map fun u => (advanceBy u.1 since, u.2)).filter (fun u => !lessEqual until_ u.1) = frontierTimes since until_ us := by
    intro us
    induction us with
    | nil => rfl
    | cons u us ih =>
      rw [List.map_cons, List.filter_cons, ih, frontierTimes, frontierTimes, List.filterMap_cons]
      cases hb : lessEqual until_ (advanceBy u.1 since) <;> simp [hb]
  simp only [e] at hr
  exact showsAll (frontierOps_presents h since until_) (hs.wrap _ rfl) h0 ms p hr

/-! ### Accumulations -/

section
variable [AddCommMonoid R]

/-- C19: an entered collection is at an inner time what it was at the outer time. The hypothesis says that `to_outer q` is the last time whose
injection is before `q`. -/
theorem C19_enter [LE T] [DecidableLE T] [LE T2] [DecidableLE T2] (to_inner : T → T2) (to_outer : T2 → T) (hgc : ∀ t q, to_inner t ≤ q ↔ t ≤ to_outer q) (t : Contents K V T R)
    (d : K × V) (q : T2) :
    accum (Contents.flatten (t.map fun kv => (kv.1, kv.2.map fun vu => (vu.1, vu.2.map fun u => (to_inner u.1, u.2))))) d q = accum t.flatten d (to_outer q) := by
  refine accum_mapUpds (fun _ _ us => us.map fun u => (to_inner u.1, u.2)) t d q (to_outer q) ?_
  intro kv _ vu _ _ _
  rw [List.map_map]
  congr 1
  apply List.map_congr_left
  intro u _
  simp [hgc]

/-- C19: compaction through the wrapper. If the wrapped trace is compacted to the frontier the wrapper passes on for `F`, that is, its contents change
from `t` to `t'` with the same accumulations beyond that frontier, then the reader sees no difference at times beyond `F`. -/
theorem C19_enter_compaction [PartialOrder T] [DecidableLE T] [PartialOrder T2] [DecidableLE T2] (to_inner : T → T2) (to_outer : T2 → T)
    (hgc : ∀ t q, to_inner t ≤ q ↔ t ≤ to_outer q) (t t' : Contents K V T R) (F : List T2)
    (hc : ∀ d q, Beyond (outerFrontier to_outer F) q → accum t'.flatten d q = accum t.flatten d q) (d : K × V) (q : T2) (hq : Beyond F q) :
    accum (Contents.flatten (t'.map fun kv => (kv.1, kv.2.map fun vu => (vu.1, vu.2.map fun u => (to_inner u.1, u.2))))) d q =
    accum (Contents.flatten (t.map fun kv => (kv.1, kv.2.map fun vu => (vu.1, vu.2.map fun u => (to_inner u.1, u.2))))) d q := by
  rw [C19_enter to_inner to_outer hgc, C19_enter to_inner to_outer hgc]
  apply hc
  rw [outerFrontier, beyond_acExtend]
  right
  obtain ⟨f, hf, hfq⟩ := hq
  exact ⟨to_outer f, List.mem_map_of_mem hf, (hgc _ _).mp (((hgc _ _).mpr (le_refl _)).trans hfq)⟩

/-- C19: the frontiers of an entered batch, and the compaction frontiers the wrapper reports: what is beyond them is what is, in the outer scope, beyond the
original frontiers. They are antichains. -/
theorem C19_enter_frontiers [PartialOrder T] [DecidableLE T] [PartialOrder T2] [DecidableLE T2] (to_inner : T → T2) (to_outer : T2 → T)
    (hgc : ∀ t q, to_inner t ≤ q ↔ t ≤ to_outer q) (D : Description T) (F : List T) (q : T2) :
    (Beyond (innerFrontier to_inner F) q ↔ Beyond F (to_outer q)) ∧
    (Beyond (enterDescription to_inner D).lower q ↔ Beyond D.lower (to_outer q)) ∧ (Beyond (enterDescription to_inner D).upper q ↔ Beyond D.upper (to_outer q)) ∧
    (Beyond (enterDescription to_inner D).since q ↔ Beyond D.since (to_outer q)) ∧
    IsAntichainList (innerFrontier to_inner F) ∧ IsAntichainList (enterDescription to_inner D).lower ∧
    IsAntichainList (enterDescription to_inner D).upper ∧ IsAntichainList (enterDescription to_inner D).since := by
  have h : ∀ G : List T, Beyond (acExtend [] (G.map to_inner)) q ↔ Beyond G (to_outer q) := by
    intro G
    rw [beyond_acExtend]
    constructor
    · rintro (⟨f, hf, _⟩ | ⟨f, hf, hfq⟩)
      · cases hf
      · rw [List.mem_map] at hf
        obtain ⟨g, hg, rfl⟩ := hf
        exact ⟨g, hg, (hgc _ _).mp hfq⟩
    · rintro ⟨f, hf, hfq⟩
      exact Or.inr ⟨_, List.mem_map_of_mem hf, (hgc _ _).mpr hfq⟩
  have h0 : IsAntichainList ([] : List T2) := List.Pairwise.nil
  exact ⟨h F, h D.lower, h D.upper, h D.since, isAntichain_acExtend _ _ h0, isAntichain_acExtend _ _ h0, isAntichain_acExtend _ _ h0, isAntichain_acExtend _ _ h0⟩

/-- C19: asking an entered trace for its batches through an entered frontier asks the wrapped trace for its batches through the frontier: the
frontier passed on is the frontier itself, up to order. -/
theorem C19_enter_batches_through [PartialOrder T] [DecidableLE T] [PartialOrder T2] [DecidableLE T2] (to_inner : T → T2) (to_outer : T2 → T)
    (hgc : ∀ t q, to_inner t ≤ q ↔ t ≤ to_outer q) (hid : ∀ t, to_outer (to_inner t) = t) (F : List T) (hF : IsAntichainList F) :
    (outerFrontier to_outer (innerFrontier to_inner F)).Perm F := by
  have h0 : IsAntichainList ([] : List T) := List.Pairwise.nil
  refine perm_of_beyond_eq (isAntichain_acExtend _ _ h0) hF fun q => ?_
  rw [outerFrontier, beyond_acExtend]
  have hmono : ∀ a b : T2, a ≤ b → to_outer a ≤ to_outer b := fun a b hab => (hgc _ _).mp (((hgc _ _).mpr (le_refl _)).trans hab)
  constructor
  · rintro (⟨f, hf, _⟩ | ⟨f, hf, hfq⟩)
    · cases hf
    · rw [List.mem_map] at hf
      obtain ⟨g, hg, rfl⟩ := hf
      have : Beyond (innerFrontier to_inner F) g := ⟨g, hg, le_refl _⟩
      have := ((C19_enter_frontiers to_inner to_outer hgc ⟨[], [], []⟩ F g).1).mp this
      exact beyond_mono this hfq
  · intro hq
    right
    have : Beyond (innerFrontier to_inner F) (to_inner q) := ((C19_enter_frontiers to_inner to_outer hgc ⟨[], [], []⟩ F (to_inner q)).1).mpr (by rw [hid]; exact hq)
    obtain ⟨f, hf, hfq⟩ := this
    exact ⟨to_outer f, List.mem_map_of_mem hf, by have := hmono _ _ hfq; rwa [hid] at this⟩

/-- C19: a collection entered with `enter_at` is at `q` the part of the collection that the user's function takes to times before `q`. -/
theorem C19_enter_at [LE T2] [DecidableLE T2] (logic : K → V → T → T2) (t : Contents K V T R) (d : K × V) (q : T2) :
    accum (Contents.flatten (t.map fun kv => (kv.1, kv.2.map fun vu => (vu.1, vu.2.map fun u => (logic kv.1 vu.1 u.1, u.2))))) d q =
    (t.flatten.map fun u => if u.1 = d ∧ logic d.1 d.2 u.2.1 ≤ q then u.2.2 else 0).sum := by
  simp only [Contents.flatten, List.flatMap_map, accum, List.map_flatMap, List.map_map, Function.comp_def]
  congr 1
  apply List.flatMap_congr
  intro kv _
  apply List.flatMap_congr
  intro vu _
  apply List.map_congr_left
  intro u _
  by_cases h : (kv.1, vu.1) = d
  · subst h; simp
  · simp [h]

/-- C19: compaction through an `enter_at` wrapper, for a function that is invertible: for each reader time `q` there is either no time taken before
`q`, or a last one, and `prior` of any frontier element before `q` is before the latter. -/
theorem C19_enter_at_compaction [PartialOrder T] [DecidableLE T] [PartialOrder T2] [DecidableLE T2] (logic : K → V → T → T2) (prior : T2 → T) (inv : K → V → T2 → Option T)
    (hinv : ∀ k v t q, logic k v t ≤ q ↔ ∃ p, inv k v q = some p ∧ t ≤ p) (hprior : ∀ k v f q p, f ≤ q → inv k v q = some p → prior f ≤ p)
    (t t' : Contents K V T R) (F : List T2) (hc : ∀ d q, Beyond (outerFrontier prior F) q → accum t'.flatten d q = accum t.flatten d q) (d : K × V) (q : T2) (hq : Beyond F q) :
    accum (Contents.flatten (t'.map fun kv => (kv.1, kv.2.map fun vu => (vu.1, vu.2.map fun u => (logic kv.1 vu.1 u.1, u.2))))) d q =
    accum (Contents.flatten (t.map fun kv => (kv.1, kv.2.map fun vu => (vu.1, vu.2.map fun u => (logic kv.1 vu.1 u.1, u.2))))) d q := by
  rw [C19_enter_at, C19_enter_at]
  cases hi : inv d.1 d.2 q with
  | none =>
    have hn : ∀ x, ¬ logic d.1 d.2 x ≤ q := by
      intro x hx
      obtain ⟨p, hp, _⟩ := (hinv d.1 d.2 x q).mp hx
      rw [hi] at hp; cases hp
    simp [hn]
  | some p =>
    have he : ∀ x, logic d.1 d.2 x ≤ q ↔ x ≤ p := by
      intro x
      rw [hinv, hi]; simp
    simp only [he]
    refine hc d p ?_
    rw [outerFrontier, beyond_acExtend]
    obtain ⟨f, hf, hfq⟩ := hq
    exact Or.inr ⟨_, List.mem_map_of_mem hf, hprior _ _ _ _ _ hfq hi⟩

/-- C19: a trace limited by frontiers accumulates as the original at times beyond `since` and not beyond `until`. -/
theorem C19_frontier [Lattice T] [DecidableLE T] (since until_ : List T) (t : Contents K V T R) (d : K × V) (q : T) (hs : Beyond since q) (hu : ¬ Beyond until_ q) :
    accum (Contents.flatten (t.map fun kv => (kv.1, kv.2.map fun vu => (vu.1, frontierTimes since until_ vu.2)))) d q = accum t.flatten d q := by
  refine accum_mapUpds (fun _ _ us => frontierTimes since until_ us) t d q q ?_
  intro kv _ vu _ _ _
  generalize vu.2 = us
  induction us with
  | nil => rfl
  | cons u us ih =>
    rw [frontierTimes, List.filterMap_cons, List.map_cons, List.sum_cons, ← ih]
    have hle := advanceBy_le_iff u.1 q since hs
    cases hb : lessEqual until_ (advanceBy u.1 since) with
    | true =>
      rw [lessEqual_iff] at hb
      have : ¬ u.1 ≤ q := fun h => hu (beyond_mono hb (hle.mpr h))
      simp [hb, (lessEqual_iff _ _).mpr hb, this, frontierTimes]
    | false =>
      simp [hb, hle, frontierTimes]

/-- C19: nothing in a trace limited by frontiers is at a time beyond `until`, and everything in it is an update of the trace, no earlier. -/
theorem C19_frontier_times [Lattice T] [DecidableLE T] (since until_ : List T) (us : List (T × R)) (u : T × R) (h : u ∈ frontierTimes since until_ us) :
    ¬ Beyond until_ u.1 ∧ ∃ v ∈ us, u.2 = v.2 ∧ v.1 ≤ u.1 := by
  simp only [frontierTimes, List.mem_filterMap] at h
  obtain ⟨v, hv, he⟩ := h
  by_cases hb : lessEqual until_ (advanceBy v.1 since) = true
  · simp [hb] at he
  · simp [hb] at he
    subst he
    exact ⟨fun hbe => hb ((lessEqual_iff _ _).mpr hbe), v, hv, rfl, le_advanceBy _ _⟩

end

/-! ### Non-vacuity -/

/-- The injection into an iterative scope meets the hypothesis of `C19_enter`. -/
example (t : Nat) (q : Nat × Nat) : (t, (0 : Nat)) ≤ q ↔ t ≤ q.1 := by simp [Prod.le_def]

/-- A user function and inverse that meet the hypotheses of `C19_enter_at_compaction`: each key enters at the iteration given by the key. -/
example : (∀ (k v t : Nat) (q : Nat × Nat), (t, k) ≤ q ↔ ∃ p, (if k ≤ q.2 then some q.1 else none) = some p ∧ t ≤ p) ∧
    ∀ (k : Nat) (f q : Nat × Nat) (p : Nat), f ≤ q → (if k ≤ q.2 then some q.1 else none) = some p → f.1 ≤ p := by
  constructor
  · intro k v t q
    by_cases h : k ≤ q.2
    · simp [Prod.le_def, h]
    · simp [Prod.le_def, h]
  · intro k f q p hfq h
    by_cases hk : k ≤ q.2
    · simp [hk] at h; subst h; exact hfq.1
    · simp [hk] at h

/-- `C19_frontier` at time 2, since 1 and until 4: an early update is advanced, a late one left out. -/
example : Beyond [1] 2 ∧ ¬ Beyond [4] 2 ∧ frontierTimes (R := Int) [1] [4] [(0, 1), (2, 5), (4, 7)] = [(1, 1), (2, 5)] := by
  refine ⟨⟨1, by simp, by decide⟩, by simp [Beyond], by decide +kernel⟩

/-- A batch whose cursor meets the hypotheses of the cursor theorems. -/
example : ∃ b, shareA = some b ∧ ReachableBatch b ∧
    ((enterOps (fun t : Nat => (t, (0 : Nat))) ValCursor.ops).map_times b.storage ValCursor.init) = some [((0, 0), 1)] := by
  obtain ⟨a, ha⟩ : ∃ a, shareA = some a := by
    cases h : shareA with
    | some a => exact ⟨a, rfl⟩
    | none => exact absurd h (by decide +kernel)
  refine ⟨a, ha, .built _ _ a ⟨by decide +kernel, by decide +kernel⟩ ha, ?_⟩
  have : (shareA.bind fun a => ((enterOps (fun t : Nat => (t, (0 : Nat))) ValCursor.ops).map_times a.storage ValCursor.init)) = some [((0, 0), 1)] := by decide +kernel
  simpa [ha] using this

end DD
