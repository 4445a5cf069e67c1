import Verif.Proofs.Spine
import Mathlib.Data.List.Chain

namespace DD
open MergeState

variable {B M T D R : Type*} [LE T] [DecidableLE T] [DecidableEq T] [AddCommMonoid R] {ops : BatchOps B M T} (L : BatchLaws ops D R)

/-- An upper bound on the work remaining in a layer. -/
def Debt (G : List T) (r : Int) : MergeState B M → Prop
  | .inProgress b1 b2 m => ∃ F c, FrontierLe F G ∧ L.MOk F b1 b2 m c ∧ ((ops.len b1 : Int) + ops.len b2) ≤ c + r
  | _ => True

def HandOk (i : Nat) (h : Option B) : Prop := ∀ b ∈ h.toList, L.Ok b ∧ ops.len b ≤ 2 ^ i

/-- Layer `i` is well-formed. -/
def LayerOk (G : List T) (i : Nat) : MergeState B M → Prop
  | .vacant => True
  | .single h => HandOk L i h
  | .inProgress b1 b2 m => (L.Ok b1 ∧ ops.len b1 ≤ 2 ^ i) ∧ (L.Ok b2 ∧ ops.len b2 ≤ 2 ^ i) ∧ ∃ F c, FrontierLe F G ∧ L.MOk F b1 b2 m c
  | .complete h => HandOk L (i + 1) h

variable {L}

theorem HandOk.mono {i j : Nat} {h : Option B} (hh : HandOk L i h) (hij : i ≤ j) : HandOk L j h := fun b hb =>
  ⟨(hh b hb).1, (hh b hb).2.trans (Nat.pow_le_pow_right (by omega) hij)⟩

theorem handOk_none (i : Nat) : HandOk L i none := fun b hb => by simp at hb

theorem Debt.mono {G : List T} {r r' : Int} {s : MergeState B M} (h : Debt L G r s) (hr : r ≤ r') : Debt L G r' s := by
  cases s with
  | inProgress b1 b2 m => obtain ⟨F, c, h1, h2, h3⟩ := h; exact ⟨F, c, h1, h2, by omega⟩
  | _ => trivial

theorem Debt.monoG {G G' : List T} (hG : FrontierLe G G') {r : Int} {s : MergeState B M} (h : Debt L G r s) : Debt L G' r s := by
  cases s with
  | inProgress b1 b2 m => obtain ⟨F, c, h1, h2, h3⟩ := h; exact ⟨F, c, fun q hq => h1 q (hG q hq), h2, h3⟩
  | _ => trivial

/-- Work that remains is not negative. -/
theorem Debt.nonneg {G : List T} {r : Int} {s : MergeState B M} (h : Debt L G r s) (hd : s.is_double = true) (hc : s.is_complete = false) :
    0 ≤ r := by
  cases s with
  | inProgress b1 b2 m => obtain ⟨F, c, h1, h2, h3⟩ := h; have := L.spent_le _ _ _ _ _ h2; omega
  | vacant => simp [is_double] at hd
  | single _ => simp [is_double] at hd
  | complete _ => simp [is_complete] at hc

theorem LayerOk.monoG {G G' : List T} (hG : FrontierLe G G') {i : Nat} {s : MergeState B M} (h : LayerOk L G i s) : LayerOk L G' i s := by
  cases s with
  | inProgress b1 b2 m => obtain ⟨g1, g2, F, c, h1, h2⟩ := h; exact ⟨g1, g2, F, c, fun q hq => h1 q (hG q hq), h2⟩
  | vacant => trivial
  | single _ => exact h
  | complete _ => exact h

/-- Layers bound their own work by their capacity. -/
theorem LayerOk.debt {G : List T} {i : Nat} {s : MergeState B M} (h : LayerOk L G i s) : Debt L G (2 ^ (i + 1) : Nat) s := by
  cases s with
  | inProgress b1 b2 m =>
    obtain ⟨g1, g2, F, c, h1, h2⟩ := h
    refine ⟨F, c, h1, h2, ?_⟩
    have e : 2 ^ (i + 1) = 2 * 2 ^ i := by ring
    have := g1.2; have := g2.2; omega
  | _ => trivial

theorem frontierLe_refl (G : List T) : FrontierLe G G := fun _ h => h

theorem adjacent_handed {f : Nat → MergeState B M} {n i : Nat} (hi : i < n) {h : Option B} (ha : Adjacent ops (handed f n i h)) :
    Adjacent ops (batches (f i) ++ h.toList) := by
  rw [handed, chainFrom_succ f hi] at ha
  unfold Adjacent at *
  rw [List.append_assoc, List.append_assoc, List.isChain_append] at ha
  have := ha.2.1
  rw [← List.append_assoc, List.isChain_append] at this
  exact this.1

theorem insertAt_spec {G : List T} {ms : List (MergeState B M)} {h : Option B} {i n : Nat} (hn : i < n)
    (hs : LayerOk L G i (lay ms i)) (hd : (lay ms i).is_double = false) (hh : HandOk L i h) (ha : Adjacent ops (handed (lay ms) n i h)) :
    ∃ ms' s', insertAt ops G ms h i = some ms' ∧ lay ms' = Function.update (lay ms) i s' ∧ ms'.length = max ms.length (i + 1) ∧
      batches s' = batches (lay ms i) ++ h.toList ∧ LayerOk L G i s' ∧ wt s' = wt (lay ms i) + 1 ∧ s'.is_vacant = false ∧
      (s'.is_single = true → s' = .single h) := by
  have hlen : i < (extendTo ms i).length := by rw [length_extendTo]; omega
  have hget : (extendTo ms i)[i]? = some (lay ms i) := by rw [getElem?_lay hlen, lay_extendTo]
  have ha' := adjacent_handed hn ha
  unfold insertAt
  simp only [hget]
  have hset : ∀ s', lay ((extendTo ms i).set i s') = Function.update (lay ms) i s' := fun s' => by rw [lay_set hlen, lay_extendTo]
  have hl : ∀ s', ((extendTo ms i).set i s').length = max ms.length (i + 1) := fun s' => by rw [List.length_set, length_extendTo]
  cases hlay : lay ms i with
  | vacant =>
    refine ⟨_, .single h, rfl, hset _, hl _, ?_, hh, rfl, rfl, fun _ => rfl⟩
    cases h <;> rfl
  | single old =>
    rw [hlay] at hs ha'
    cases old with
    | none =>
      have hc : LayerOk L G i (.complete h : MergeState B M) := HandOk.mono hh (by omega)
      cases h with
      | none => exact ⟨_, .complete none, rfl, hset _, hl _, rfl, hc, rfl, rfl, fun h => by simp [is_single] at h⟩
      | some b => exact ⟨_, .complete (some b), rfl, hset _, hl _, rfl, hc, rfl, rfl, fun h => by simp [is_single] at h⟩
    | some o =>
      cases h with
      | none =>
        exact ⟨_, .complete (some o), rfl, hset _, hl _, rfl, HandOk.mono hs (by omega), rfl, rfl, fun h => by simp [is_single] at h⟩
      | some b =>
        have hadj : acEq (ops.upper o) (ops.lower b) = true := by
          unfold Adjacent at ha'
          simpa [batches] using ha'
        have ho := hs o (by simp)
        have hb := hh b (by simp)
        obtain ⟨m, hm, hmok⟩ := L.begin_ok G o b ho.1 hb.1 hadj
        refine ⟨(extendTo ms i).set i (.inProgress o b m), .inProgress o b m, ?_, hset _, hl _, rfl, ⟨ho, hb, G, 0, frontierLe_refl G, hmok⟩,
          rfl, rfl, fun h => by simp [is_single] at h⟩
        simp [beginMerge, hadj, hm]
  | inProgress b1 b2 m => rw [hlay] at hd; simp [is_double] at hd
  | complete b => rw [hlay] at hd; simp [is_double] at hd

theorem layerWork_spec {G : List T} {i : Nat} {s : MergeState B M} (fuel : Int) (hs : LayerOk L G i s) :
    ∃ s', s.work ops fuel = some s' ∧ LayerOk L G i s' ∧ wt s' = wt s ∧ s'.is_double = s.is_double ∧ s'.is_vacant = s.is_vacant ∧
      Coarse L G (batches s) (batches s') ∧
      (∀ r, Debt L G r s → Debt L G (r - fuel) s') ∧
      (s'.is_double = true → s'.is_complete = false → fuel ≤ (2 ^ (i + 1) : Nat)) := by
  cases s with
  | vacant => exact ⟨.vacant, rfl, trivial, rfl, rfl, rfl, .refl _, fun _ _ => trivial, fun h => by simp [is_double] at h⟩
  | single b => exact ⟨.single b, rfl, hs, rfl, rfl, rfl, .refl _, fun _ _ => trivial, fun h => by simp [is_double] at h⟩
  | complete b => exact ⟨.complete b, rfl, hs, rfl, rfl, rfl, .refl _, fun _ _ => trivial, fun _ h => by simp [is_complete] at h⟩
  | inProgress b1 b2 m =>
    obtain ⟨g1, g2, F, c, hF, hm⟩ := hs
    obtain ⟨m', left, c', hw, hm', hc, hleft, hdone⟩ := L.work_ok F b1 b2 m c fuel hm
    have e : 2 ^ (i + 1) = 2 * 2 ^ i := by ring
    have := g1.2
    have := g2.2
    have hspent := L.spent_le _ _ _ _ _ hm'
    by_cases hpos : 0 < left
    · obtain ⟨d1, d2, d3, d4, d5⟩ := hdone hpos
      refine ⟨.complete (some (ops.done m')), ?_, ?_, rfl, rfl, rfl, ?_, fun _ _ => trivial, fun _ h => by simp [is_complete] at h⟩
      · simp [work, hw, hpos]
      · intro b hb
        simp only [Option.toList_some, List.mem_singleton] at hb
        subst hb
        exact ⟨d1, by omega⟩
      · exact Coarse.merge (L := L) (G := G) [] [] b1 b2 _ F hF ⟨d1, d2, d3, d4, d5⟩
    · refine ⟨.inProgress b1 b2 m', ?_, ⟨g1, g2, F, c', hF, hm'⟩, rfl, rfl, rfl, .refl _, ?_, ?_⟩
      · simp [work, hw, hpos]
      · rintro r ⟨F2, c2, hF2, hm2, hd⟩
        obtain ⟨m'2, left2, c2', hw2, hm2', hc2, hleft2, -⟩ := L.work_ok F2 b1 b2 m c2 fuel hm2
        rw [hw] at hw2
        obtain ⟨rfl, rfl⟩ := Prod.mk.injEq .. ▸ Option.some.inj hw2
        exact ⟨F2, c2', hF2, hm2', by omega⟩
      · intro _ _; omega

theorem layerFinish_spec {G : List T} {i : Nat} {s : MergeState B M} (hs : LayerOk L G i s) (hlen : (lens ops (batches s) : Int) < isizeMax) :
    ∃ h, s.finish ops = some h ∧ Coarse L G (batches s) h.toList ∧ HandOk L (i + 1) h ∧ (s.is_double = false → HandOk L i h) := by
  cases s with
  | vacant => exact ⟨none, rfl, .refl _, handOk_none _, fun _ => handOk_none _⟩
  | single b =>
    refine ⟨b, rfl, ?_, HandOk.mono hs (by omega), fun _ => hs⟩
    cases b <;> exact .refl _
  | complete b =>
    refine ⟨b, rfl, ?_, hs, fun h => by simp [is_double] at h⟩
    cases b <;> exact .refl _
  | inProgress b1 b2 m =>
    obtain ⟨s', hw, hok, -, hdb, -, hco, -, hfuel⟩ := layerWork_spec isizeMax hs
    have hcomp : ∃ b, s' = .complete b := by
      obtain ⟨g1, g2, F, c, hF, hm⟩ := hs
      obtain ⟨m', left, c', hw', hm', hc, hleft, hdone⟩ := L.work_ok F b1 b2 m c isizeMax hm
      have hspent := L.spent_le _ _ _ _ _ hm'
      have hl : lens ops (batches (.inProgress b1 b2 m : MergeState B M)) = ops.len b1 + ops.len b2 := by simp [lens, batches]
      have hpos : 0 < left := by omega
      simp [work, hw', hpos] at hw
      exact ⟨_, hw.symm⟩
    obtain ⟨b, rfl⟩ := hcomp
    refine ⟨b, ?_, ?_, hok, fun h => by simp [is_double] at h⟩
    · simp [finish, hw]
    · cases b <;> exact hco

theorem completeAt_spec {G : List T} {ms : List (MergeState B M)} {i : Nat} (hi : i < ms.length) (hs : LayerOk L G i (lay ms i))
    (hlen : (lens ops (batches (lay ms i)) : Int) < isizeMax) :
    ∃ ms' h, completeAt ops ms i = some (ms', h) ∧ lay ms' = Function.update (lay ms) i .vacant ∧ ms'.length = ms.length ∧
      Coarse L G (batches (lay ms i)) h.toList ∧ HandOk L (i + 1) h ∧ ((lay ms i).is_double = false → HandOk L i h) := by
  obtain ⟨h, h1, h2, h3, h4⟩ := layerFinish_spec hs hlen
  refine ⟨ms.set i .vacant, h, ?_, lay_set hi _, by simp, h2, h3, h4⟩
  simp [completeAt, getElem?_lay hi, h1]

/-- Replacing the contents of one layer by something coarser. -/
theorem coarse_update {G : List T} {f : Nat → MergeState B M} {i n : Nat} (hi : i < n) {s : MergeState B M} {h : Option B}
    (hc : Coarse L G (batches (f i)) (batches s ++ h.toList)) : Coarse L G (chain f n) (handed (Function.update f i s) n i h) := by
  rw [handed_update f hi, ← handed_none f (Nat.le_of_lt hi), ← Function.update_eq_self i f, handed_update _ hi, Function.update_eq_self]
  have := hc.context (chainFrom f (i + 1) n) (chain f i)
  simpa using this

/-- Putting the batch in hand into a layer. -/
theorem handed_insert {f : Nat → MergeState B M} {i n : Nat} (hi : i < n) {s : MergeState B M} {h : Option B}
    (hb : batches s = batches (f i) ++ h.toList) : chain (Function.update f i s) n = handed f n i h := by
  rw [← handed_none _ (Nat.le_of_lt hi), handed_update f hi, hb, ← Function.update_eq_self i f, handed_update _ hi, Function.update_eq_self]
  simp

/-- Taking the batch in hand out of a layer that is then empty. -/
theorem handed_coarse {G : List T} {f : Nat → MergeState B M} {i n : Nat} (hi : i < n) {s : MergeState B M} {h h' : Option B}
    (hc : Coarse L G (batches (f i) ++ h.toList) (batches s ++ h'.toList)) :
    Coarse L G (handed f n i h) (handed (Function.update f i s) n i h') := by
  rw [handed_update f hi, ← Function.update_eq_self i f, handed_update _ hi, Function.update_eq_self]
  have := hc.context (chainFrom f (i + 1) n) (chain f i)
  simpa using this

theorem lens_batches_le (f : Nat → MergeState B M) {i n : Nat} (hi : i < n) : lens ops (batches (f i)) ≤ lens ops (chain f n) := by
  rw [chain_split f hi, lens_append, chain, lens_append]; omega

/-! ## `apply_fuel` -/

/-- The invariant of the layers. -/
structure LInv (L : BatchLaws ops D R) (G : List T) (f : Nat → MergeState B M) : Prop where
  layer : ∀ k, LayerOk L G k (f k)
  room : ∀ k, (f k).is_double = true → W f k < 2 ^ k
  debt : ∀ k, (f k).is_double = true → Debt L G (4 * ((2 ^ k : Nat) - (W f k : Int))) (f k)

/-- A layer after `fuel` has been applied to it. -/
structure Fuelled (L : BatchLaws ops D R) (G : List T) (fuel : Int) (f : Nat → MergeState B M) (k : Nat) : Prop where
  notComplete : (f k).is_complete = false
  big : (f k).is_double = true → fuel ≤ (2 ^ (k + 1) : Nat)
  room : (f k).is_double = true → W f k < 2 ^ k
  debt : (f k).is_double = true → Debt L G (4 * ((2 ^ k : Nat) - (W f k : Int)) - fuel) (f k)

/-- State of the loop of `apply_fuel` before it treats layer `index`. -/
structure FInv (L : BatchLaws ops D R) (G : List T) (fuel : Int) (n0 n : Nat) (l0 : List B) (tot : Nat) (index : Nat) (ms : List (MergeState B M)) :
    Prop where
  layer : ∀ k, LayerOk L G k (lay ms k)
  done : ∀ k, k < index → Fuelled L G fuel (lay ms) k
  room : ∀ k, index ≤ k → (lay ms k).is_double = true → W (lay ms) k < 2 ^ k
  debt : ∀ k, index ≤ k → (lay ms k).is_double = true → Debt L G (4 * ((2 ^ k : Nat) - (W (lay ms) k : Int))) (lay ms k)
  top : ∀ k, n0 ≤ k → (lay ms k).is_double = false
  top' : index < n0 → ms.length = n0
  len : n0 ≤ ms.length ∧ ms.length ≤ n0 + 1
  tops : ms.length ≠ 0 → (lay ms (ms.length - 1)).is_vacant = false
  coarse : Coarse L G l0 (chain (lay ms) n)
  weight : W (lay ms) n = tot

theorem applyFuelStep_spec {G : List T} {fuel : Int} {n0 n tot index : Nat} {l0 : List B} {ms : List (MergeState B M)}
    (h : FInv L G fuel n0 n l0 tot index ms) (hidx : index < n0) (hn : n0 + 1 < n)
    {lo hi : List T} (hcon : Contig ops lo l0 hi) (hlen : (lens ops l0 : Int) < isizeMax) (hfuel : 0 ≤ fuel) :
    ∃ ms', applyFuelStep ops G fuel ms index = some ms' ∧ FInv L G fuel n0 n l0 tot (index + 1) ms' := by
  have hml := h.top' hidx
  have hil : index < ms.length := by omega
  obtain ⟨s1, hw, hok, hwt, hdb, hva, hco, hdebt, hbig⟩ := layerWork_spec fuel (h.layer index)
  -- after the work
  have hlay1 : lay (ms.set index s1) = Function.update (lay ms) index s1 := lay_set hil s1
  have hW1 : ∀ k, W (Function.update (lay ms) index s1) k = W (lay ms) k := by
    intro k
    induction k with
    | zero => rfl
    | succ k ih =>
      rw [W_succ, W_succ, ih]
      by_cases hk : k = index
      · subst hk; rw [Function.update_self, hwt]
      · rw [Function.update_of_ne hk]
  have hcoarse1 : Coarse L G l0 (chain (Function.update (lay ms) index s1) n) := by
    refine .trans _ _ _ h.coarse ?_
    have := coarse_update (L := L) (G := G) (f := lay ms) (i := index) (n := n) (by omega) (s := s1) (h := none) (by simpa using hco)
    rwa [handed_none _ (by omega)] at this
  unfold applyFuelStep
  simp only [getElem?_lay hil, hw]
  by_cases hc : s1.is_complete = true
  · -- the merge is complete: its result moves up
    rw [if_pos hc]
    have hdbl : (lay ms index).is_double = true := by
      rw [← hdb]; cases s1 <;> simp_all [is_complete, is_double]
    have hroom := h.room index (le_refl _) hdbl
    have hi2 : wt (lay ms index) = 2 := by
      generalize lay ms index = x at hdbl
      cases x <;> simp_all [is_double, wt]
    have hlenb : (lens ops (batches (lay (ms.set index s1) index)) : Int) < isizeMax := by
      have h1 := lens_batches_le (ops := ops) (lay (ms.set index s1)) (i := index) (n := n) (by omega)
      have h2 := hcoarse1.lens
      rw [← hlay1] at h2
      omega
    obtain ⟨ms2, hand, hcomp, hlay2, hlen2, hco2, hhand, -⟩ := completeAt_spec (L := L) (G := G) (ms := ms.set index s1) (i := index)
      (by simpa using hil) (by rw [hlay1, Function.update_self]; exact hok) hlenb
    rw [hlay1] at hlay2 hco2
    rw [Function.update_self] at hco2
    rw [Function.update_idem] at hlay2
    rw [List.length_set] at hlen2
    simp only [hcomp]
    -- the next layer is not a merge
    have hnext : (lay ms (index + 1)).is_double = false := by
      by_contra hcon
      rw [Bool.not_eq_false] at hcon
      have := h.room (index + 1) (by omega) hcon
      rw [W_succ, hi2] at this
      have e : 2 ^ (index + 1) = 2 * 2 ^ index := by ring
      omega
    have hlay2' : lay ms2 (index + 1) = lay ms (index + 1) := by rw [hlay2, Function.update_of_ne (by omega)]
    have hcoarse2 : Coarse L G l0 (handed (lay ms2) n (index + 1) hand) := by
      refine .trans _ _ _ hcoarse1 ?_
      have := coarse_update (L := L) (G := G) (f := Function.update (lay ms) index s1) (i := index) (n := n) (by omega) (s := .vacant) (h := hand)
        (by rw [Function.update_self]; simpa [batches] using hco2)
      rw [Function.update_idem, ← hlay2, handed_up _ (by omega) _ (by rw [hlay2, Function.update_self]; rfl)] at this
      exact this
    obtain ⟨ms3, s3, hins, hlay3, hlen3, hb3, hok3, hwt3, hv3, -⟩ := insertAt_spec (L := L) (G := G) (ms := ms2) (h := hand) (i := index + 1) (n := n)
      (by omega) (by rw [hlay2']; exact h.layer _) (by rw [hlay2']; exact hnext) hhand (hcoarse2.contig hcon).adjacent
    refine ⟨ms3, hins, ?_⟩
    have hlow : ∀ k, k < index → lay ms3 k = lay ms k := fun k hk => by
      rw [hlay3, Function.update_of_ne (by omega), hlay2, Function.update_of_ne (by omega)]
    have hmid : lay ms3 index = .vacant := by rw [hlay3, Function.update_of_ne (by omega), hlay2, Function.update_self]
    have hs3 : lay ms3 (index + 1) = s3 := by rw [hlay3, Function.update_self]
    have hhigh : ∀ k, index + 2 ≤ k → lay ms3 k = lay ms k := fun k hk => by
      rw [hlay3, Function.update_of_ne (by omega), hlay2, Function.update_of_ne (by omega)]
    have hWlow : ∀ k, k ≤ index → W (lay ms3) k = W (lay ms) k := fun k hk => W_congr fun i hi => hlow i (by omega)
    have hWmid : W (lay ms3) (index + 1) = W (lay ms) index := by rw [W_succ, hmid, hWlow _ (le_refl _)]; simp [wt]
    have hWhigh : ∀ k, index + 2 ≤ k → W (lay ms3) k = W (lay ms) k := fun k hk => by
      have := W_diff (f := lay ms3) (g := lay ms) hk (fun i h1 h2 => hhigh i h1)
      have e : 2 ^ (index + 1) = 2 * 2 ^ index := by ring
      rw [W_succ (lay ms3), hWmid, hs3, hwt3, hlay2', W_succ (lay ms), W_succ (lay ms), hi2, Nat.add_mul, e] at this
      omega
    have h12 : 2 ^ (index + 1) = 2 * 2 ^ index := by ring
    have h13 : 2 ^ (index + 1 + 1) = 4 * 2 ^ index := by ring
    constructor
    · intro k
      rcases Nat.lt_trichotomy k index with hk | hk | hk
      · rw [hlow k hk]; exact h.layer k
      · subst hk; rw [hmid]; trivial
      · rcases Nat.eq_or_lt_of_le hk with hk' | hk'
        · rw [← hk', hs3]; exact hok3
        · rw [hhigh k (by omega)]; exact h.layer k
    · intro k hk
      rcases Nat.lt_or_ge k index with hk' | hk'
      · obtain ⟨a, b, c, d⟩ := h.done k hk'
        constructor
        · rw [hlow k hk']; exact a
        · rw [hlow k hk']; exact b
        · rw [hlow k hk', hWlow k (by omega)]; exact c
        · rw [hlow k hk', hWlow k (by omega)]; exact d
      · have : k = index := by omega
        subst this
        constructor <;> rw [hmid] <;> simp [is_complete, is_double]
    · intro k hk hd
      rcases Nat.eq_or_lt_of_le hk with hk' | hk'
      · rw [← hk', hWmid]; omega
      · rw [hhigh k (by omega)] at hd
        rw [hWhigh k (by omega)]; exact h.room k (by omega) hd
    · intro k hk hd
      rcases Nat.eq_or_lt_of_le hk with hk' | hk'
      · rw [← hk', hWmid, hs3]
        refine hok3.debt.mono ?_
        rw [h13, h12]
        generalize 2 ^ index = p at hroom ⊢
        push_cast; omega
      · rw [hhigh k (by omega)] at hd
        rw [hWhigh k (by omega), hhigh k (by omega)]; exact h.debt k (by omega) hd
    · intro k hk
      rcases Nat.lt_or_ge (index + 1) k with hk' | hk'
      · rw [hhigh k (by omega)]; exact h.top k hk
      · have hk1 : k = index + 1 := by omega
        have hv : lay ms (index + 1) = .vacant := lay_of_length_le (by omega)
        rw [hk1, hs3]
        rw [hlay2', hv] at hwt3
        cases s3 <;> simp_all [wt, is_double]
    · intro hk; rw [hlen3, hlen2, hml]; omega
    · rw [hlen3, hlen2, hml]; omega
    · intro _
      rw [hlen3, hlen2, hml]
      rcases Nat.lt_or_ge (index + 2) n0 with hk | hk
      · have hm : max n0 (index + 1 + 1) - 1 = ms.length - 1 := by omega
        rw [hm, hhigh _ (by omega)]
        exact h.tops (by omega)
      · have hm : max n0 (index + 1 + 1) - 1 = index + 1 := by omega
        rw [hm, hs3]; exact hv3
    · rw [hlay3, handed_insert (by omega) hb3]; exact hcoarse2
    · rw [hWhigh n (by omega)]; exact h.weight
  · -- the merge is not complete
    rw [if_neg hc]
    rw [Bool.not_eq_true] at hc
    refine ⟨_, rfl, ?_⟩
    have hsame : ∀ k, k ≠ index → lay (ms.set index s1) k = lay ms k := fun k hk => by rw [hlay1, Function.update_of_ne hk]
    have hs1 : lay (ms.set index s1) index = s1 := by rw [hlay1, Function.update_self]
    have hW : ∀ k, W (lay (ms.set index s1)) k = W (lay ms) k := fun k => by rw [hlay1, hW1]
    constructor
    · intro k
      by_cases hk : k = index
      · subst hk; rw [hs1]; exact hok
      · rw [hsame k hk]; exact h.layer k
    · intro k hk
      by_cases hk' : k = index
      · subst hk'
        constructor
        · rw [hs1]; exact hc
        · rw [hs1]; intro hd; exact hbig hd hc
        · rw [hs1, hdb, hW]; exact h.room _ (le_refl _)
        · rw [hs1, hdb, hW]; intro hd; exact hdebt _ (h.debt _ (le_refl _) hd)
      · obtain ⟨a, b, c, d⟩ := h.done k (by omega)
        constructor
        · rw [hsame k hk']; exact a
        · rw [hsame k hk']; exact b
        · rw [hsame k hk', hW]; exact c
        · rw [hsame k hk', hW]; exact d
    · intro k hk; rw [hsame k (by omega), hW]; exact h.room k (by omega)
    · intro k hk; rw [hsame k (by omega), hW]; exact h.debt k (by omega)
    · intro k hk; rw [hsame k (by omega)]; exact h.top k hk
    · intro _; rw [List.length_set]; exact hml
    · rw [List.length_set]; exact h.len
    · rw [List.length_set]
      intro h0
      by_cases hk : ms.length - 1 = index
      · rw [hk, hs1, hva, ← hk]; exact h.tops h0
      · rw [hsame _ hk]; exact h.tops h0
    · rw [hlay1]; exact hcoarse1
    · rw [hW]; exact h.weight

/-- The highest layer is never vacant. -/
def TopOk (ms : List (MergeState B M)) : Prop := ms.length ≠ 0 → (lay ms (ms.length - 1)).is_vacant = false

theorem applyFuel_spec {G : List T} {fuel : Int} {n : Nat} {ms : List (MergeState B M)} (h : LInv L G (lay ms)) (hn : ms.length + 1 < n)
    {lo hi : List T} (hcon : Contig ops lo (chain (lay ms) n) hi) (hlen : (lens ops (chain (lay ms) n) : Int) < isizeMax) (hfuel : 0 ≤ fuel)
    (htop : TopOk ms) :
    ∃ ms', applyFuel ops G ms fuel = some ms' ∧ (∀ k, LayerOk L G k (lay ms' k)) ∧ (∀ k, Fuelled L G fuel (lay ms') k) ∧
      ms.length ≤ ms'.length ∧ ms'.length ≤ ms.length + 1 ∧ TopOk ms' ∧ Coarse L G (chain (lay ms) n) (chain (lay ms') n) ∧
      W (lay ms') n = W (lay ms) n := by
  have key : ∀ j, j ≤ ms.length → ∃ ms', (List.range j).foldlM (applyFuelStep ops G fuel) ms = some ms' ∧
      FInv L G fuel ms.length n (chain (lay ms) n) (W (lay ms) n) j ms' := by
    intro j
    induction j with
    | zero =>
      intro _
      refine ⟨ms, rfl, h.layer, fun k hk => by omega, fun k _ => h.room k, fun k _ => h.debt k, fun k hk => ?_, fun _ => rfl, by omega, htop,
        .refl _, rfl⟩
      rw [lay_of_length_le hk]; rfl
    | succ j ih =>
      intro hj
      obtain ⟨ms1, h1, h2⟩ := ih (by omega)
      obtain ⟨ms2, h3, h4⟩ := applyFuelStep_spec h2 (by omega) hn hcon hlen hfuel
      refine ⟨ms2, ?_, h4⟩
      rw [List.range_succ, List.foldlM_append, h1]
      simp [h3]
  obtain ⟨ms', h1, h2⟩ := key ms.length (le_refl _)
  refine ⟨ms', h1, h2.layer, fun k => ?_, h2.len.1, h2.len.2, h2.tops, h2.coarse, h2.weight⟩
  rcases Nat.lt_or_ge k ms.length with hk | hk
  · exact h2.done k hk
  · have := h2.top k hk
    constructor
    · generalize lay ms' k = x at this
      cases x <;> simp_all [is_double, is_complete]
    all_goals rw [this]; intro hh; simp at hh

theorem Fuelled.linv {G : List T} {fuel : Int} (hf : 0 ≤ fuel) {f : Nat → MergeState B M} (h1 : ∀ k, LayerOk L G k (f k))
    (h2 : ∀ k, Fuelled L G fuel f k) : LInv L G f :=
  ⟨h1, fun k => (h2 k).room, fun k hk => ((h2 k).debt hk).mono (by omega)⟩

end DD
