import Verif.Proofs.SpineLayers

namespace DD
open MergeState

variable {B M T D R : Type*} [LE T] [DecidableLE T] [DecidableEq T] [AddCommMonoid R] {ops : BatchOps B M T} {L : BatchLaws ops D R}

theorem eq_vacant {s : MergeState B M} (h : s.is_vacant = true) : s = .vacant := by cases s <;> simp_all [is_vacant]

theorem wt_pos {s : MergeState B M} (h : s.is_vacant = false) : 1 ≤ wt s := by cases s <;> simp_all [is_vacant, wt]

theorem wt_single_or_vacant {s : MergeState B M} (h : s.is_double = false) : wt s ≤ 1 := by cases s <;> simp_all [is_double, wt]

theorem wt_of_double {s : MergeState B M} (h : s.is_double = true) : wt s = 2 := by cases s <;> simp_all [is_double, wt]

theorem double_iff_wt {s : MergeState B M} : s.is_double = true ↔ wt s = 2 := by cases s <;> simp [is_double, wt]

theorem vacant_iff_wt {s : MergeState B M} : s = .vacant ↔ wt s = 0 := by cases s <;> simp [wt]

/-! ## `roll_up` -/

theorem rollStep_spec {G : List T} {n i : Nat} {l0 : List B} {ms : List (MergeState B M)} {h : Option B} (hi : i < ms.length) (hn : i + 1 < n)
    (hlayer : ∀ k, LayerOk L G k (lay ms k)) (hnd : (lay ms i).is_double = false) (hh : HandOk L i h)
    (hco : Coarse L G l0 (handed (lay ms) n i h)) {lo hi' : List T} (hcon : Contig ops lo l0 hi') (hlen : (lens ops l0 : Int) < isizeMax) :
    ∃ ms' h', rollStep ops G (ms, h) i = some (ms', h') ∧ lay ms' = Function.update (lay ms) i .vacant ∧ ms'.length = ms.length ∧
      HandOk L (i + 1) h' ∧ Coarse L G l0 (handed (lay ms') n (i + 1) h') := by
  obtain ⟨ms1, s1, h1, hlay1, hlen1, hb1, hok1, -, -, -⟩ := insertAt_spec (n := n) (by omega) (hlayer i) hnd hh (hco.contig hcon).adjacent
  have hl1 : ms1.length = ms.length := by omega
  have hco1 : Coarse L G l0 (chain (lay ms1) n) := by rw [hlay1, handed_insert (by omega) hb1]; exact hco
  have hs1 : lay ms1 i = s1 := by rw [hlay1, Function.update_self]
  obtain ⟨ms2, h2, hc2, hlay2, hlen2, hco2, hh2, -⟩ := completeAt_spec (L := L) (G := G) (ms := ms1) (i := i) (by omega) (by rw [hs1]; exact hok1) (by
    have h1 := lens_batches_le (ops := ops) (lay ms1) (i := i) (n := n) (by omega)
    have h2 := hco1.lens
    omega)
  refine ⟨ms2, h2, ?_, ?_, by omega, hh2, ?_⟩
  · simp [rollStep, h1, hc2]
  · rw [hlay2, hlay1, Function.update_idem]
  · refine .trans _ _ _ hco1 ?_
    have := coarse_update (L := L) (G := G) (f := lay ms1) (i := i) (n := n) (by omega) (s := .vacant) (h := h2) (by simpa [batches] using hco2)
    rwa [← hlay2, handed_up _ (by omega) _ (by rw [hlay2, Function.update_self]; rfl)] at this

structure Rolled (L : BatchLaws ops D R) (G : List T) (n j : Nat) (ms ms' : List (MergeState B M)) : Prop where
  layer : ∀ k, LayerOk L G k (lay ms' k)
  below : ∀ k, k < j → lay ms' k = .vacant
  at_ : (lay ms' j).is_double = false
  next : (lay ms' (j + 1)).is_double = true → lay ms' j = .vacant
  above : ∀ k, j + 2 ≤ k → lay ms' k = lay ms k
  len : ms.length ≤ ms'.length ∧ j + 1 ≤ ms'.length ∧ (ms'.length ≤ ms.length ∨ ms'.length ≤ j + 2)
  top : ms'.length = j + 1 ∨ (lay ms' (ms'.length - 1)).is_vacant = false
  coarse : Coarse L G (chain (lay ms) n) (chain (lay ms') n)
  weight : ∀ k, j + 2 ≤ k → W (lay ms') k + 1 ≤ W (lay ms) k + 2 ^ j

theorem rollUp_spec {G : List T} {n j : Nat} {ms : List (MergeState B M)} (hn : ms.length + 1 < n) (hn' : j + 2 < n)
    (hlayer : ∀ k, LayerOk L G k (lay ms k)) (hnd : ∀ k, k ≤ j + 1 → (lay ms k).is_double = false) (htop : TopOk ms)
    {lo hi : List T} (hcon : Contig ops lo (chain (lay ms) n) hi) (hlen : (lens ops (chain (lay ms) n) : Int) < isizeMax) :
    ∃ ms', rollUp ops G ms j = some ms' ∧ Rolled L G n j ms ms' := by
  have hp : 0 < 2 ^ j := Nat.two_pow_pos j
  have hj1 : 2 ^ (j + 1) = 2 * 2 ^ j := by ring
  have hle0 : (extendTo ms j).length = max ms.length (j + 1) := length_extendTo ms j
  have hle1 : ms.length ≤ (extendTo ms j).length := by omega
  have hle2 : j + 1 ≤ (extendTo ms j).length := by omega
  have hle3 : (extendTo ms j).length = ms.length ∨ (extendTo ms j).length = j + 1 := by omega
  clear hle0
  have htop0 : (extendTo ms j).length = j + 1 ∨ (lay (extendTo ms j) ((extendTo ms j).length - 1)).is_vacant = false := by
    rcases Nat.lt_or_ge (j + 1) ms.length with h | h
    · right
      rw [lay_extendTo, show (extendTo ms j).length - 1 = ms.length - 1 by omega]
      exact htop (by omega)
    · left; omega
  unfold rollUp
  simp only
  have hany : ((extendTo ms j).take j).any (fun m => !m.is_vacant) = true ↔ ∃ k, k < j ∧ (lay ms k).is_vacant = false := by
    rw [List.any_eq_true]
    constructor
    · rintro ⟨m, hm, hv⟩
      obtain ⟨k, hk, rfl⟩ := List.getElem_of_mem hm
      rw [List.length_take] at hk
      refine ⟨k, by omega, ?_⟩
      rw [List.getElem_take] at hv
      have : lay (extendTo ms j) k = (extendTo ms j)[k] := by
        rw [lay, List.getElem?_eq_getElem (by omega)]; rfl
      rw [← lay_extendTo ms j, this]
      simpa using hv
    · rintro ⟨k, hk, hv⟩
      refine ⟨lay ms k, ?_, by simp [hv]⟩
      rw [← lay_extendTo ms j]
      have h1 : k < (extendTo ms j).length := by omega
      have h2 := getElem?_lay h1
      rw [List.mem_take_iff_getElem]
      refine ⟨k, by omega, ?_⟩
      rw [List.getElem?_eq_getElem h1] at h2
      exact Option.some.inj h2
  by_cases htrig : ((extendTo ms j).take j).any (fun m => !m.is_vacant) = true
  · rw [if_pos htrig]
    obtain ⟨k0, hk0, hv0⟩ := hany.mp htrig
    have hWpos : 1 ≤ W (lay ms) j := by
      have h1 := W_mono (lay ms) (a := k0 + 1) (k := j) (by omega)
      rw [W_succ] at h1
      have h2 := wt_pos hv0
      have h3 : 0 < 2 ^ k0 := Nat.two_pow_pos k0
      nlinarith
    have key : ∀ i, i ≤ j → ∃ ms' h', (List.range i).foldlM (rollStep ops G) (extendTo ms j, none) = some (ms', h') ∧
        (∀ k, k < i → lay ms' k = .vacant) ∧ (∀ k, i ≤ k → lay ms' k = lay ms k) ∧ ms'.length = (extendTo ms j).length ∧ HandOk L i h' ∧
        Coarse L G (chain (lay ms) n) (handed (lay ms') n i h') := by
      intro i
      induction i with
      | zero =>
        intro _
        refine ⟨extendTo ms j, none, rfl, fun k hk => by omega, fun k _ => by rw [lay_extendTo], rfl, handOk_none _, ?_⟩
        rw [lay_extendTo, handed_none _ (by omega)]
        exact .refl _
      | succ i ih =>
        intro hi
        obtain ⟨ms1, h1, hf, hb, ha, hl, hh, hc⟩ := ih (by omega)
        have hlayer1 : ∀ k, LayerOk L G k (lay ms1 k) := by
          intro k
          rcases Nat.lt_or_ge k i with hk | hk
          · rw [hb k hk]; trivial
          · rw [ha k hk]; exact hlayer k
        obtain ⟨ms2, h2, hr, hlay2, hlen2, hh2, hc2⟩ := rollStep_spec (n := n) (l0 := chain (lay ms) n) (by omega) (by omega) hlayer1
          (by rw [ha i (le_refl _)]; exact hnd i (by omega)) hh hc hcon hlen
        refine ⟨ms2, h2, ?_, ?_, ?_, by omega, hh2, hc2⟩
        · rw [List.range_succ, List.foldlM_append, hf]
          simp [hr]
        · intro k hk
          rw [hlay2]
          by_cases hki : k = i
          · subst hki; rw [Function.update_self]
          · rw [Function.update_of_ne hki]; exact hb k (by omega)
        · intro k hk
          rw [hlay2, Function.update_of_ne (by omega)]
          exact ha k (by omega)
    obtain ⟨ms1, h1, hf, hb, ha, hl, hh, hc⟩ := key j (le_refl _)
    have hlayer1 : ∀ k, LayerOk L G k (lay ms1 k) := by
      intro k
      rcases Nat.lt_or_ge k j with hk | hk
      · rw [hb k hk]; trivial
      · rw [ha k hk]; exact hlayer k
    have hnd1 : (lay ms1 j).is_double = false := by rw [ha j (le_refl _)]; exact hnd j (by omega)
    obtain ⟨ms2, s2, hi2, hlay2, hlen2, hb2, hok2, hwt2, hv2, -⟩ := insertAt_spec (n := n) (by omega) (hlayer1 j) hnd1 hh (hc.contig hcon).adjacent
    have hs2 : lay ms2 j = s2 := by rw [hlay2, Function.update_self]
    have hl2 : ms2.length = (extendTo ms j).length := by rw [hlen2, hl]; exact max_eq_left hle2
    clear hlen2
    have hco2 : Coarse L G (chain (lay ms) n) (chain (lay ms2) n) := by rw [hlay2, handed_insert (by omega) hb2]; exact hc
    rw [ha j (le_refl _)] at hwt2
    simp only [hf, hi2, getElem?_lay (show j < ms2.length by omega), hs2]
    by_cases hdbl : s2.is_double = true
    · rw [if_pos hdbl]
      have hw1 : wt (lay ms j) = 1 := by have := wt_of_double hdbl; omega
      obtain ⟨ms3, h3, hc3, hlay3, hlen3, hco3, hh3, -⟩ := completeAt_spec (L := L) (G := G) (ms := ms2) (i := j) (by omega)
        (by rw [hs2]; exact hok2) (by
          have h1 := lens_batches_le (ops := ops) (lay ms2) (i := j) (n := n) (by omega)
          have h2 := hco2.lens
          omega)
      simp only [hc3]
      have hco3' : Coarse L G (chain (lay ms) n) (handed (lay ms3) n (j + 1) h3) := by
        refine .trans _ _ _ hco2 ?_
        have := coarse_update (L := L) (G := G) (f := lay ms2) (i := j) (n := n) (by omega) (s := .vacant) (h := h3) (by simpa [batches] using hco3)
        rwa [← hlay3, handed_up _ (by omega) _ (by rw [hlay3, Function.update_self]; rfl)] at this
      have hlay3j : ∀ k, k ≠ j → lay ms3 k = lay ms1 k := fun k hk => by
        rw [hlay3, Function.update_of_ne hk, hlay2, Function.update_of_ne hk]
      have hn1 : lay ms3 (j + 1) = lay ms (j + 1) := by rw [hlay3j _ (by omega), ha _ (by omega)]
      obtain ⟨ms4, s4, hi4, hlay4, hlen4, hb4, hok4, hwt4, hv4, -⟩ := insertAt_spec (L := L) (G := G) (ms := ms3) (h := h3) (i := j + 1) (n := n)
        (by omega) (by rw [hn1]; exact hlayer _) (by rw [hn1]; exact hnd _ (le_refl _)) hh3 (hco3'.contig hcon).adjacent
      refine ⟨ms4, hi4, ?_⟩
      have hl4 : ms4.length = ms3.length ∧ j + 2 ≤ ms3.length ∨ ms4.length = j + 2 ∧ ms3.length ≤ j + 2 := by
        rcases Nat.le_total ms3.length (j + 1 + 1) with h | h
        · right; exact ⟨by rw [hlen4]; exact max_eq_right h, h⟩
        · left; exact ⟨by rw [hlen4]; exact max_eq_left h, h⟩
      clear hlen4
      have hlow : ∀ k, k ≤ j → lay ms4 k = .vacant := by
        intro k hk
        rw [hlay4, Function.update_of_ne (by omega)]
        by_cases hkj : k = j
        · subst hkj; rw [hlay3, Function.update_self]
        · rw [hlay3j k hkj]; exact hb k (by omega)
      have hmid : lay ms4 (j + 1) = s4 := by rw [hlay4, Function.update_self]
      have hhigh : ∀ k, j + 2 ≤ k → lay ms4 k = lay ms k := fun k hk => by
        rw [hlay4, Function.update_of_ne (by omega), hlay3j k (by omega), ha k (by omega)]
      constructor
      · intro k
        rcases Nat.lt_trichotomy k (j + 1) with hk | hk | hk
        · rw [hlow k (by omega)]; trivial
        · subst hk; rw [hmid]; exact hok4
        · rw [hhigh k (by omega)]; exact hlayer k
      · intro k hk; exact hlow k (by omega)
      · rw [hlow j (le_refl _)]; rfl
      · intro _; exact hlow j (le_refl _)
      · exact hhigh
      · omega
      · right
        rcases Nat.lt_or_ge (j + 2) ms.length with h | h
        · have hl4 : ms4.length - 1 = ms.length - 1 := by omega
          rw [hl4, hhigh _ (by omega)]
          exact htop (by omega)
        · have hl4 : ms4.length - 1 = j + 1 := by omega
          rw [hl4, hmid]; exact hv4
      · rw [hlay4, handed_insert (by omega) hb4]; exact hco3'
      · intro k hk
        have hd := W_diff (f := lay ms4) (g := lay ms) hk (fun i h1 _ => hhigh i h1)
        have hz : W (lay ms4) (j + 1) = 0 := W_eq_zero fun i hi => hlow i (by omega)
        rw [W_succ (lay ms4), hz, hmid, hwt4, hn1, W_succ (lay ms), W_succ (lay ms), hw1, Nat.add_mul, hj1] at hd
        omega
    · rw [if_neg hdbl]
      rw [Bool.not_eq_true] at hdbl
      refine ⟨ms2, rfl, ?_⟩
      have hw0 : wt (lay ms j) = 0 := by have := wt_single_or_vacant hdbl; omega
      have hoth : ∀ k, k ≠ j → lay ms2 k = lay ms1 k := fun k hk => by rw [hlay2, Function.update_of_ne hk]
      constructor
      · intro k
        by_cases hk : k = j
        · subst hk; rw [hs2]; exact hok2
        · rw [hoth k hk]; exact hlayer1 k
      · intro k hk; rw [hoth k (by omega)]; exact hb k hk
      · rw [hs2]; exact hdbl
      · rw [hoth _ (by omega), ha _ (by omega), hnd _ (le_refl _)]; intro h; simp at h
      · intro k hk; rw [hoth k (by omega), ha k (by omega)]
      · omega
      · rcases Nat.lt_or_ge (j + 1) ms.length with h | h
        · right
          have hl4 : ms2.length - 1 = ms.length - 1 := by omega
          rw [hl4, hoth _ (by omega), ha _ (by omega)]
          exact htop (by omega)
        · left; omega
      · exact hco2
      · intro k hk
        have hhigh : ∀ i, j + 1 ≤ i → lay ms2 i = lay ms i := fun i hi => by rw [hoth i (by omega), ha i (by omega)]
        have hd := W_diff (f := lay ms2) (g := lay ms) (a := j + 1) (k := k) (by omega) (fun i h1 _ => hhigh i h1)
        have hz : W (lay ms2) j = 0 := W_eq_zero fun i hi => by rw [hoth i (by omega), hb i hi]
        rw [W_succ (lay ms2), hz, hs2, hwt2, hw0, W_succ (lay ms), hw0] at hd
        omega
  · rw [if_neg htrig]
    refine ⟨_, rfl, ?_⟩
    have hv : ∀ k, k < j → lay ms k = .vacant := fun k hk => by
      by_contra hcon
      refine htrig (hany.mpr ⟨k, hk, ?_⟩)
      cases hx : (lay ms k).is_vacant with
      | false => rfl
      | true => exact absurd (eq_vacant hx) hcon
    constructor
    · intro k; rw [lay_extendTo]; exact hlayer k
    · intro k hk; rw [lay_extendTo]; exact hv k hk
    · rw [lay_extendTo]; exact hnd j (by omega)
    · rw [lay_extendTo, hnd _ (le_refl _)]; intro h; simp at h
    · intro k _; rw [lay_extendTo]
    · omega
    · exact htop0
    · rw [lay_extendTo]; exact .refl _
    · intro k hk; rw [lay_extendTo]; omega

/-! ## `tidy_layers` -/

theorem lay_eraseIdx (ms : List (MergeState B M)) (i k : Nat) : lay (ms.eraseIdx i) k = if k < i then lay ms k else lay ms (k + 1) := by
  rw [lay, List.getElem?_eraseIdx]
  split_ifs <;> rfl

theorem virtualSize_eq (ms : List (MergeState B M)) {k : Nat} (hk : k ≤ ms.length) : virtualSize (ms.take k) = W (lay ms) k := by
  suffices h : ∀ i, i ≤ k → ((List.range i).map fun index =>
      match (ms.take k)[index]? with
      | some (.single _) => 1 <<< index
      | some (.inProgress _ _ _) => 2 <<< index
      | some (.complete _) => 2 <<< index
      | _ => 0).sum = W (lay ms) i by
    have hl : (ms.take k).length = k := by simp; omega
    have := h k (le_refl _)
    rw [virtualSize, hl]
    exact this
  intro i
  induction i with
  | zero => intro _; rfl
  | succ i ih =>
    intro hi
    rw [List.range_succ, List.map_append, List.sum_append, ih (by omega), W_succ]
    have : (ms.take k)[i]? = some (lay ms i) := by rw [List.getElem?_take_of_lt (by omega), getElem?_lay (by omega)]
    simp only [List.map_cons, List.map_nil, List.sum_cons, List.sum_nil, this]
    cases lay ms i <;> simp [wt, Nat.shiftLeft_eq]

/-- What `tidy_layers` keeps. -/
structure Tidied (L : BatchLaws ops D R) (G : List T) (ms ms' : List (MergeState B M)) : Prop where
  inv : LInv L G (lay ms')
  top : TopOk ms'
  len : ms'.length ≤ ms.length
  chain : chain (lay ms') ms'.length = chain (lay ms) ms.length
  weight : W (lay ms') ms'.length ≤ W (lay ms) ms.length

theorem tidyLoop_spec {G : List T} {level fuel : Nat} {ms : List (MergeState B M)} {b : Option B} (h : LInv L G (lay ms))
    (htop : lay ms (ms.length - 1) = .single b) (hb : HandOk L level b)
    {lo hi : List T} (hcon : Contig ops lo (chain (lay ms) ms.length) hi) :
    ∃ ms', tidyLoop ops G level fuel ms = some ms' ∧ Tidied L G ms ms' := by
  induction fuel generalizing ms with
  | zero => exact ⟨ms, rfl, h, fun _ => by rw [htop]; rfl, le_refl _, rfl, le_refl _⟩
  | succ fuel ih =>
    rw [tidyLoop]
    by_cases hlev : level < ms.length - 1
    · rw [if_pos hlev]
      obtain ⟨k, hk⟩ : ∃ k, ms.length = k + 2 := ⟨ms.length - 2, by omega⟩
      have hk2 : ms.length - 2 = k := by omega
      have hk1 : ms.length - 1 = k + 1 := by omega
      have hlevk : level ≤ k := by omega
      rw [hk1] at htop
      rw [hk2, getElem?_lay (by omega)]
      -- the layers with the penultimate one removed
      have hele : (ms.eraseIdx k).length = k + 1 := by rw [List.length_eraseIdx_of_lt (by omega)]; omega
      have elow : ∀ i, i < k → lay (ms.eraseIdx k) i = lay ms i := fun i hi => by rw [lay_eraseIdx, if_pos hi]
      have etop : lay (ms.eraseIdx k) k = .single b := by rw [lay_eraseIdx, if_neg (by omega), htop]
      have eW : ∀ i, i ≤ k → W (lay (ms.eraseIdx k)) i = W (lay ms) i := fun i hi => W_congr fun m hm => elow m (by omega)
      have ech : chain (lay (ms.eraseIdx k)) k = chain (lay ms) k := chain_congr fun m hm => elow m hm
      have eabove : ∀ i, k < i → lay (ms.eraseIdx k) i = .vacant := fun i hi => lay_of_length_le (by omega)
      have einv : LInv L G (lay (ms.eraseIdx k)) := by
        constructor
        · intro i
          rcases Nat.lt_trichotomy i k with hi | hi | hi
          · rw [elow i hi]; exact h.layer i
          · subst hi; rw [etop]; exact hb.mono hlevk
          · rw [eabove i hi]; trivial
        · intro i hd
          rcases Nat.lt_trichotomy i k with hi | hi | hi
          · rw [eW i (by omega)]; rw [elow i hi] at hd; exact h.room i hd
          · subst hi; rw [etop] at hd; simp [is_double] at hd
          · rw [eabove i hi] at hd; simp [is_double] at hd
        · intro i hd
          rcases Nat.lt_trichotomy i k with hi | hi | hi
          · rw [eW i (by omega), elow i hi]; rw [elow i hi] at hd; exact h.debt i hd
          · subst hi; rw [etop] at hd; simp [is_double] at hd
          · rw [eabove i hi] at hd; simp [is_double] at hd
      have hp : 2 ^ (k + 1) = 2 * 2 ^ k := by ring
      have hWe : W (lay (ms.eraseIdx k)) (k + 1) ≤ W (lay ms) (k + 2) := by
        rw [W_succ, W_succ, W_succ, eW k (le_refl _), etop, htop, hp]
        simp only [wt]; omega
      have hskip : batches (lay ms k) = [] → ∃ ms', tidyLoop ops G level fuel (ms.eraseIdx k) = some ms' ∧ Tidied L G ms ms' := by
        intro hbk
        have hch : chain (lay (ms.eraseIdx k)) (ms.eraseIdx k).length = chain (lay ms) ms.length := by
          rw [hele, hk, chain, chain, chain, etop, ech, htop, hbk]; rfl
        obtain ⟨ms', h1, h2⟩ := ih einv (by rw [hele]; exact etop) (by rw [hch]; exact hcon)
        refine ⟨ms', h1, h2.inv, h2.top, ?_, h2.chain.trans hch, h2.weight.trans ?_⟩
        · have := h2.len; omega
        · rw [hele, hk]; exact hWe
      have hself : Tidied L G ms ms := ⟨h, fun _ => by rw [hk1, htop]; rfl, le_refl _, rfl, le_refl _⟩
      cases hlay : lay ms k with
      | vacant => exact hskip (by rw [hlay]; rfl)
      | inProgress b1 b2 m => exact ⟨ms, rfl, hself⟩
      | complete b => exact ⟨ms, rfl, hself⟩
      | single ob =>
        cases ob with
        | none => exact hskip (by rw [hlay]; rfl)
        | some batch =>
          simp only
          split_ifs with hsz
          · rw [virtualSize_eq ms (by omega), hk, Nat.shiftLeft_eq] at hsz
            have hsz' : 2 * W (lay ms) k ≤ 2 ^ k := by
              have : 2 ^ (k + 2) = 4 * 2 ^ k := by ring
              omega
            have hch : handed (lay (ms.eraseIdx k)) (k + 1) k (some batch) = chain (lay ms) ms.length := by
              rw [handed, ech, hk, chain, chain, htop, hlay, chainFrom, if_pos (le_refl k), etop]
              have : chainFrom (lay (ms.eraseIdx k)) k k = [] := by
                cases k with
                | zero => rfl
                | succ k => rw [chainFrom, if_neg (by omega)]
              rw [this]
              simp [batches]
            have hbatch : HandOk L k (some batch) := by have := h.layer k; rw [hlay] at this; exact this
            obtain ⟨ms', s', hi', hlay', hlen', hb', hok', hwt', hv', -⟩ := insertAt_spec (L := L) (G := G) (ms := ms.eraseIdx k) (h := some batch)
              (i := k) (n := k + 1) (by omega) (einv.layer k) (by rw [etop]; rfl) hbatch (by rw [hch]; exact hcon.adjacent)
            have hl' : ms'.length = k + 1 := by omega
            have hs' : lay ms' k = s' := by rw [hlay', Function.update_self]
            have ho' : ∀ i, i ≠ k → lay ms' i = lay (ms.eraseIdx k) i := fun i hi => by rw [hlay', Function.update_of_ne hi]
            have hW' : ∀ i, i ≤ k → W (lay ms') i = W (lay ms) i := fun i hi => by
              rw [← eW i hi]; exact W_congr fun m hm => ho' m (by omega)
            rw [etop] at hwt'
            refine ⟨ms', hi', ⟨?_, ?_, ?_⟩, ?_, by omega, ?_, ?_⟩
            · intro i
              by_cases hi : i = k
              · subst hi; rw [hs']; exact hok'
              · rw [ho' i hi]; exact einv.layer i
            · intro i hd
              rcases Nat.lt_trichotomy i k with hi | hi | hi
              · rw [hW' i (by omega)]
                rw [ho' i (by omega), elow i hi] at hd
                exact h.room i hd
              · subst hi; rw [hW' i (le_refl _)]
                have := Nat.two_pow_pos i; omega
              · rw [ho' i (by omega), eabove i hi] at hd; simp [is_double] at hd
            · intro i hd
              rcases Nat.lt_trichotomy i k with hi | hi | hi
              · rw [hW' i (by omega), ho' i (by omega), elow i hi]
                rw [ho' i (by omega), elow i hi] at hd
                exact h.debt i hd
              · subst hi
                rw [hW' i (le_refl _), hs']
                refine hok'.debt.mono ?_
                rw [hp]
                generalize 2 ^ i = p at hsz' ⊢
                push_cast; omega
              · rw [ho' i (by omega), eabove i hi] at hd; simp [is_double] at hd
            · intro _; rw [hl', Nat.add_sub_cancel, hs']; exact hv'
            · rw [hl', hlay', handed_insert (by omega) hb', hch]
            · rw [hl', hk, W_succ, W_succ, W_succ, hW' k (le_refl _), hs', hwt', hlay, htop, hp]
              simp only [wt]; omega
          · exact ⟨ms, rfl, hself⟩
    · rw [if_neg hlev]
      exact ⟨ms, rfl, h, fun _ => by rw [htop]; rfl, le_refl _, rfl, le_refl _⟩

theorem tidyLayers_spec {G : List T} {ms : List (MergeState B M)} (h : LInv L G (lay ms)) (htop : TopOk ms)
    {lo hi : List T} (hcon : Contig ops lo (chain (lay ms) ms.length) hi) :
    ∃ ms', tidyLayers ops G ms = some ms' ∧ Tidied L G ms ms' := by
  unfold tidyLayers
  have hself : Tidied L G ms ms := ⟨h, htop, le_refl _, rfl, le_refl _⟩
  cases hl : ms.getLast? with
  | none => exact ⟨ms, rfl, hself⟩
  | some top =>
    simp only
    have hlay : lay ms (ms.length - 1) = top := by
      rw [List.getLast?_eq_getElem?] at hl
      rw [lay, hl]; rfl
    split_ifs with hs
    · cases top with
      | single b =>
        refine tidyLoop_spec h hlay ?_ hcon
        intro x hx
        have hx' : b = some x := by cases b <;> simp_all
        subst hx'
        have := h.layer (ms.length - 1)
        rw [hlay] at this
        exact ⟨(this x (by simp)).1, by rw [MergeState.len, levelOf]; exact Nat.le_pow_clog (by omega) _⟩
      | _ => simp [is_single] at hs
    · exact ⟨ms, rfl, hself⟩

/-! ## `introduce_batch` -/

/-- What `introduce_batch` at level `j` does. -/
structure Introduced (L : BatchLaws ops D R) (G : List T) (j : Nat) (l : List B) (ms ms' : List (MergeState B M)) : Prop where
  inv : LInv L G (lay ms')
  top : TopOk ms'
  coarse : Coarse L G l (chain (lay ms') ms'.length)
  weight : W (lay ms') ms'.length ≤ W (lay ms) ms.length + 2 * 2 ^ j

theorem introduceBatch_spec {G : List T} {ms : List (MergeState B M)} {effort j : Nat} {batch : Option B} (h : LInv L G (lay ms)) (htop : TopOk ms)
    (heff : 1 ≤ effort) (hb : HandOk L j batch)
    {lo hi : List T} (hcon : Contig ops lo (chain (lay ms) ms.length ++ batch.toList) hi)
    (hlen : (lens ops (chain (lay ms) ms.length ++ batch.toList) : Int) < isizeMax) :
    ∃ ms', introduceBatch ops G effort ms batch j = some ms' ∧
      Introduced L G j (chain (lay ms) ms.length ++ batch.toList) ms ms' := by
  obtain ⟨n, hn⟩ : ∃ n, n = ms.length + j + 10 := ⟨_, rfl⟩
  have hp : 0 < 2 ^ j := Nat.two_pow_pos j
  have hj1 : 2 ^ (j + 1) = 2 * 2 ^ j := by ring
  obtain ⟨mid, hcon0, -⟩ := Contig.append_iff.mp hcon
  have hch0 : chain (lay ms) n = chain (lay ms) ms.length := chain_eq_of_length_le ms (by omega)
  have hlen0 : (lens ops (chain (lay ms) n) : Int) < isizeMax := by rw [hch0]; rw [lens_append] at hlen; omega
  -- fuel
  obtain ⟨fuel, hfuel⟩ : ∃ fuel : Int, fuel = ((8 <<< j * effort : Nat) : Int) := ⟨_, rfl⟩
  have hfuel8 : (8 * (2 ^ j : Nat) : Int) ≤ fuel := by
    rw [hfuel, Nat.shiftLeft_eq]
    have : 8 * 2 ^ j * 1 ≤ 8 * 2 ^ j * effort := Nat.mul_le_mul_left _ heff
    omega
  obtain ⟨ms1, ha1, hlay1, hfu1, hl1a, hl1b, htop1, hco1, hw1⟩ := applyFuel_spec (fuel := fuel) (n := n) h (by omega) (by rw [hch0]; exact hcon0) hlen0
    (by omega) htop
  -- no merge in progress is left at the low levels
  have hbig : ∀ k, (lay ms1 k).is_double = true → j + 2 ≤ k := by
    intro k hd
    by_contra hk
    have h1 := (hfu1 k).big hd
    have h2 : 2 ^ (k + 1) ≤ 2 ^ (j + 2) := Nat.pow_le_pow_right (by omega) (by omega)
    have h3 : 2 ^ (j + 2) = 4 * 2 ^ j := by ring
    omega
  have hnd : ∀ k, k ≤ j + 1 → (lay ms1 k).is_double = false := fun k hk => by
    by_contra hd
    rw [Bool.not_eq_false] at hd
    have := hbig k hd; omega
  have hcon1 : Contig ops lo (chain (lay ms1) n) mid := hco1.contig (by rw [hch0]; exact hcon0)
  have hlen1 : (lens ops (chain (lay ms1) n) : Int) < isizeMax := by have := hco1.lens; omega
  obtain ⟨ms2, hr2, R2⟩ := rollUp_spec (n := n) (j := j) (by omega) (by omega) hlay1 hnd htop1 hcon1 hlen1
  -- insertion
  have hch2 : handed (lay ms2) n j batch = chain (lay ms2) n ++ batch.toList := by
    have : chain (lay ms2) j = [] := chain_empty _ fun i hi => by rw [R2.below i hi]; rfl
    rw [chain_split (lay ms2) (show j ≤ n by omega), handed, this]; simp
  have hco2 : Coarse L G (chain (lay ms) n ++ batch.toList) (chain (lay ms2) n ++ batch.toList) := by
    have := (Coarse.trans _ _ _ hco1 R2.coarse).context [] batch.toList
    simpa using this
  obtain ⟨ms3, s3, hi3, hlay3, hlen3, hb3, hok3, hwt3, hv3, -⟩ := insertAt_spec (n := n) (by omega) (R2.layer j) R2.at_ hb
    (by rw [hch2]; exact (hco2.contig (by rw [hch0]; exact hcon)).adjacent)
  have hs3 : lay ms3 j = s3 := by rw [hlay3, Function.update_self]
  have ho3 : ∀ k, k ≠ j → lay ms3 k = lay ms2 k := fun k hk => by rw [hlay3, Function.update_of_ne hk]
  have hco3 : Coarse L G (chain (lay ms) n ++ batch.toList) (chain (lay ms3) n) := by
    rw [hlay3, handed_insert (by omega) hb3, hch2]; exact hco2
  have hl3 : ms3.length = ms2.length := by have := R2.len; omega
  have hl2n : ms2.length ≤ n := by have := R2.len; omega
  have hWj : W (lay ms3) j = 0 := W_eq_zero fun i hi => by rw [ho3 i (by omega), R2.below i hi]
  have hWhigh : ∀ k, j + 2 ≤ k → W (lay ms3) k + 1 ≤ W (lay ms1) k + 2 * 2 ^ j := by
    intro k hk
    have h1 := R2.weight k hk
    have hd := W_diff (f := lay ms3) (g := lay ms2) (a := j + 1) (k := k) (by omega) (fun i h1 _ => ho3 i (by omega))
    have hz : W (lay ms2) j = 0 := W_eq_zero R2.below
    rw [W_succ, W_succ, hz, hWj, hs3, hwt3, Nat.add_mul] at hd
    omega
  have hinv3 : LInv L G (lay ms3) := by
    have cases3 : ∀ k, (lay ms3 k).is_double = true → W (lay ms3) k < 2 ^ k ∧ Debt L G (4 * ((2 ^ k : Nat) - (W (lay ms3) k : Int))) (lay ms3 k) := by
      intro k hd
      rcases Nat.lt_trichotomy k j with hk | hk | hk
      · rw [ho3 k (by omega), R2.below k hk] at hd; simp [is_double] at hd
      · subst hk
        refine ⟨by omega, ?_⟩
        rw [hWj, hs3]
        refine hok3.debt.mono ?_
        rw [hj1]
        generalize 2 ^ k = p
        push_cast; omega
      · rcases Nat.eq_or_lt_of_le (show j + 1 ≤ k from hk) with hk' | hk'
        · subst hk'
          have hd2 := hd
          rw [ho3 _ (by omega)] at hd2
          have hvj := R2.next hd2
          have hWk : W (lay ms3) (j + 1) = 2 ^ j := by
            rw [W_succ, hWj, hs3, hwt3, hvj]; simp [wt]
          refine ⟨by omega, ?_⟩
          rw [hWk, ho3 _ (by omega)]
          refine (R2.layer (j + 1)).debt.mono ?_
          have : 2 ^ (j + 1 + 1) = 4 * 2 ^ j := by ring
          rw [this, hj1]
          generalize 2 ^ j = p
          push_cast; omega
        · rw [ho3 k (by omega), R2.above k hk'] at hd ⊢
          have h1 := (hfu1 k).room hd
          have h2 := (hfu1 k).debt hd
          have h3 := h2.nonneg hd (hfu1 k).notComplete
          have h4 := hWhigh k hk'
          refine ⟨by omega, h2.mono (by omega)⟩
    refine ⟨?_, fun k hd => (cases3 k hd).1, fun k hd => (cases3 k hd).2⟩
    intro k
    by_cases hk : k = j
    · subst hk; rw [hs3]; exact hok3
    · rw [ho3 k hk]; exact R2.layer k
  have htop3 : TopOk ms3 := by
    intro _
    rw [hl3]
    by_cases hk : ms2.length - 1 = j
    · rw [hk, hs3]; exact hv3
    · rw [ho3 _ hk]
      rcases R2.top with h | h
      · omega
      · exact h
  have hch3 : chain (lay ms3) n = chain (lay ms3) ms3.length := chain_eq_of_length_le ms3 (by omega)
  obtain ⟨ms4, ht4, T4⟩ := tidyLayers_spec (L := L) (G := G) (ms := ms3) hinv3 htop3 (lo := lo) (hi := hi)
    (by rw [← hch3]; exact hco3.contig (by rw [hch0]; exact hcon))
  refine ⟨ms4, ?_, T4.inv, T4.top, ?_, ?_⟩
  · unfold introduceBatch
    simp only [← hfuel, ha1, hr2, hi3, ht4]
  · rw [T4.chain, ← hch3, ← hch0]; exact hco3
  · refine T4.weight.trans ?_
    have h1 : W (lay ms3) n = W (lay ms3) ms3.length := W_vacant_above (by omega) fun i hi => lay_of_length_le hi
    have h2 : W (lay ms) n = W (lay ms) ms.length := W_vacant_above (by omega) fun i hi => lay_of_length_le hi
    have h3 := hWhigh n (by omega)
    omega

/-- `apply_fuel` from outside, as `introduceBatch_spec`. -/
theorem applyFuel_intro {G : List T} {ms : List (MergeState B M)} {fuel : Int} (hf : 0 ≤ fuel) (h : LInv L G (lay ms)) (htop : TopOk ms)
    {lo hi : List T} (hcon : Contig ops lo (chain (lay ms) ms.length) hi) (hlen : (lens ops (chain (lay ms) ms.length) : Int) < isizeMax) :
    ∃ ms', applyFuel ops G ms fuel = some ms' ∧ LInv L G (lay ms') ∧ TopOk ms' ∧
      Coarse L G (chain (lay ms) ms.length) (chain (lay ms') ms'.length) ∧ W (lay ms') ms'.length = W (lay ms) ms.length := by
  have hch0 : chain (lay ms) (ms.length + 2) = chain (lay ms) ms.length := chain_eq_of_length_le ms (by omega)
  obtain ⟨ms1, h1, h2, h3, h4, h5, h6, h7, h8⟩ := applyFuel_spec (fuel := fuel) (n := ms.length + 2) h (by omega) (by rw [hch0]; exact hcon)
    (by rw [hch0]; exact hlen) hf htop
  refine ⟨ms1, h1, Fuelled.linv hf h2 h3, h6, ?_, ?_⟩
  · rw [hch0, chain_eq_of_length_le ms1 (by omega)] at h7; exact h7
  · have g1 : W (lay ms1) (ms.length + 2) = W (lay ms1) ms1.length := W_vacant_above (by omega) fun i hi => lay_of_length_le hi
    have g2 : W (lay ms) (ms.length + 2) = W (lay ms) ms.length := W_vacant_above (by omega) fun i hi => lay_of_length_le hi
    omega

/-! ## Fusing empty batches -/

theorem fuseEmpty_spec {G : List T} {ms : List (MergeState B M)} {batch : B} (h : LInv L G (lay ms)) (htop : TopOk ms) (hb : L.Ok batch)
    {lo hi : List T} (hcon : Contig ops lo (chain (lay ms) ms.length ++ [batch]) hi) :
    (fuseEmpty ops G ms batch = some none) ∨ ∃ ms', fuseEmpty ops G ms batch = some (some ms') ∧ LInv L G (lay ms') ∧ TopOk ms' ∧
      Coarse L G (chain (lay ms) ms.length ++ [batch]) (chain (lay ms') ms'.length) ∧ W (lay ms') ms'.length = W (lay ms) ms.length := by
  unfold fuseEmpty
  split_ifs with hl
  · cases hpos : ms.findIdx? (fun m => !m.is_vacant) with
    | none => exact .inl rfl
    | some p =>
      obtain ⟨hp, hpv, hpb⟩ := List.findIdx?_eq_some_iff_getElem.mp hpos
      have hget := getElem?_lay hp
      simp only [hget]
      split_ifs with hs
      · right
        obtain ⟨hs1, hs2⟩ := hs
        have hlow : ∀ i, i < p → lay ms i = .vacant := by
          intro i hi
          have := hpb i hi
          have hli : lay ms i = ms[i] := by rw [lay, List.getElem?_eq_getElem (by omega)]; rfl
          rw [hli]
          exact eq_vacant (by simpa using this)
        have hnd : (lay ms p).is_double = false := by
          generalize lay ms p = x at hs1
          cases x <;> simp_all [is_single, is_double]
        have hbo : HandOk L p (some batch) := fun x hx => by
          simp only [Option.toList_some, List.mem_singleton] at hx
          subst hx; exact ⟨hb, by rw [hl]; exact Nat.zero_le _⟩
        have hch : handed (lay ms) ms.length p (some batch) = chain (lay ms) ms.length ++ [batch] := by
          have : chain (lay ms) p = [] := chain_empty _ fun i hi => by rw [hlow i hi]; rfl
          rw [chain_split (lay ms) (Nat.le_of_lt hp), handed, this]; simp
        obtain ⟨ms1, s1, hi1, hlay1, hlen1, hb1, hok1, hwt1, hv1, -⟩ := insertAt_spec (n := ms.length) hp (h.layer p) hnd hbo
          (by rw [hch]; exact hcon.adjacent)
        have hl1 : ms1.length = ms.length := by omega
        have hs1' : lay ms1 p = s1 := by rw [hlay1, Function.update_self]
        have hzero : lens ops (batches s1) = 0 := by
          rw [hb1, lens_append]
          have e1 : lens ops (Option.some batch).toList = 0 := by simp [lens, hl]
          have e2 : lens ops (batches (lay ms p)) = 0 := by
            generalize lay ms p = x at hs1 hs2
            cases x with
            | single b => cases b <;> simp_all [lens, batches, MergeState.len]
            | _ => simp [is_single] at hs1
          omega
        obtain ⟨ms2, h2, hc2, hlay2, hlen2, hco2, -, -⟩ := completeAt_spec (L := L) (G := G) (ms := ms1) (i := p) (by omega)
          (by rw [hs1']; exact hok1) (by rw [hs1', hzero]; decide)
        have hh2 : HandOk L p h2 := by
          intro x hx
          have h1 := hco2.lens
          rw [hs1', hzero] at h1
          have h3 : ops.len x ≤ lens ops h2.toList := by
            cases h2 with
            | none => simp at hx
            | some y => simp only [Option.toList_some, List.mem_singleton] at hx; subst hx; simp [lens]
          have h4 := hco2.ok (fun y hy => by
            rw [hs1'] at hy
            generalize s1 = z at hok1 hy
            cases z with
            | vacant => simp [batches] at hy
            | single b =>
              have : y ∈ b.toList := by cases b <;> simpa [batches] using hy
              exact (hok1 y this).1
            | complete b =>
              have : y ∈ b.toList := by cases b <;> simpa [batches] using hy
              exact (hok1 y this).1
            | inProgress b1 b2 m =>
              simp only [batches, List.mem_cons, List.not_mem_nil, or_false] at hy
              rcases hy with rfl | rfl
              · exact hok1.1.1
              · exact hok1.2.1.1) x hx
          exact ⟨h4, by have := Nat.two_pow_pos p; omega⟩
        refine ⟨ms2.set p (.single h2), ?_, ?_, ?_, ?_, ?_⟩
        · simp [hi1, hc2]
        all_goals
          have hlayf : lay (ms2.set p (.single h2)) = Function.update (lay ms) p (.single h2) := by
            rw [lay_set (by omega), hlay2, Function.update_idem, hlay1, Function.update_idem]
          have hwp : wt (lay ms p) = 1 := by
            generalize lay ms p = x at hs1
            cases x <;> simp_all [is_single, wt]
          have hW : ∀ k, W (Function.update (lay ms) p (.single h2)) k = W (lay ms) k := by
            intro k
            induction k with
            | zero => rfl
            | succ k ih =>
              rw [W_succ, W_succ, ih]
              by_cases hk : k = p
              · subst hk; rw [Function.update_self, hwp]; rfl
              · rw [Function.update_of_ne hk]
        · rw [hlayf]
          constructor
          · intro k
            by_cases hk : k = p
            · subst hk; rw [Function.update_self]; exact hh2
            · rw [Function.update_of_ne hk]; exact h.layer k
          · intro k hd
            by_cases hk : k = p
            · subst hk; rw [Function.update_self] at hd; simp [is_double] at hd
            · rw [Function.update_of_ne hk] at hd; rw [hW]; exact h.room k hd
          · intro k hd
            by_cases hk : k = p
            · subst hk; rw [Function.update_self] at hd; simp [is_double] at hd
            · rw [Function.update_of_ne hk] at hd ⊢; rw [hW]; exact h.debt k hd
        · intro h0
          rw [List.length_set, hlayf]
          by_cases hk : ms2.length - 1 = p
          · rw [hk, Function.update_self]; rfl
          · rw [Function.update_of_ne hk, show ms2.length - 1 = ms.length - 1 by omega]; exact htop (by omega)
        · rw [List.length_set, hlayf, hlen2, hl1, ← hch]
          have hc := handed_coarse (L := L) (G := G) (f := lay ms) (i := p) (n := ms.length) hp (s := .single h2) (h := some batch) (h' := none) (by
            rw [hs1', hb1] at hco2
            have e : batches (.single h2 : MergeState B M) = h2.toList := by cases h2 <;> rfl
            rw [e]
            simpa using hco2)
          rwa [handed_none _ (Nat.le_of_lt hp)] at hc
        · rw [List.length_set, hlayf, hlen2, hl1, hW]
      · exact .inl rfl
  · exact .inl rfl

end DD
