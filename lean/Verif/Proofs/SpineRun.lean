import Verif.Proofs.SpineIntro
import Verif.Proofs.Lattice
import Verif.Spec.Spine

namespace DD
open MergeState

variable {B M T D R : Type*} [PartialOrder T] [OrderBot T] [DecidableLE T] [DecidableEq T] [AddCommMonoid R] {ops : BatchOps B M T}
  {L : BatchLaws ops D R}

theorem perm_of_acEq {F G : List T} (h : acEq F G = true) (hF : F.Nodup) : F.Perm G := by
  simp only [acEq, Bool.and_eq_true, beq_iff_eq, List.all_eq_true, List.contains_iff_mem] at h
  exact (List.subperm_of_subset hF h.2).perm_of_length_le (by omega)

theorem acEq_of_perm {F G : List T} (h : F.Perm G) : acEq F G = true := by
  simp only [acEq, Bool.and_eq_true, beq_iff_eq, List.all_eq_true, List.contains_iff_mem]
  exact ⟨h.length_eq, fun x hx => h.subset hx⟩

theorem beyond_perm {F G : List T} (h : F.Perm G) (q : T) : Beyond F q ↔ Beyond G q := by
  constructor
  · rintro ⟨f, hf, hq⟩; exact ⟨f, h.subset hf, hq⟩
  · rintro ⟨f, hf, hq⟩; exact ⟨f, h.symm.subset hf, hq⟩

theorem isAntichain_perm {F G : List T} (h : F.Perm G) (hF : IsAntichainList F) : IsAntichainList G :=
  h.pairwise hF fun h => ⟨h.2, h.1⟩

theorem FrontierLe.trans {F G H : List T} (h1 : FrontierLe F G) (h2 : FrontierLe G H) : FrontierLe F H := fun q hq => h1 q (h2 q hq)

theorem frontierLe_of_perm {F G : List T} (h : F.Perm G) : FrontierLe F G := fun q hq => (beyond_perm h q).mpr hq

theorem isAntichain_bot : IsAntichainList [(⊥ : T)] := List.pairwise_singleton _ _

theorem two_pow_levelOf_le (n : Nat) : 2 * 2 ^ levelOf n ≤ 4 * n + 2 := by
  rw [levelOf]
  rcases Nat.lt_or_ge 1 n with h | h
  · have hc := Nat.pow_pred_clog_lt_self (b := 2) (by omega) h
    have hpos : 0 < Nat.clog 2 n := Nat.clog_pos (by omega) h
    have : 2 ^ Nat.clog 2 n = 2 * 2 ^ (Nat.clog 2 n).pred := by
      conv_lhs => rw [← Nat.succ_pred_eq_of_pos hpos]
      rw [Nat.pow_succ]; ring
    omega
  · have : Nat.clog 2 n = 0 := Nat.clog_of_right_le_one h 2
    rw [this]; omega

def costs (ops : BatchOps B M T) (l : List B) : Nat := (l.map fun b => 4 * ops.len b + 2).sum

theorem considerMerges_spec {G P : List T} {effort : Nat} (heff : 1 ≤ effort) (pending : List B) : ∀ {ms : List (MergeState B M)} {lo hi : List T},
    LInv L G (lay ms) → TopOk ms → (∀ b ∈ pending, L.Ok b) → Contig ops lo (chain (lay ms) ms.length ++ pending) hi →
    (lens ops (chain (lay ms) ms.length ++ pending) : Int) < isizeMax →
    ∃ ms' taken rest, considerMerges ops G P effort pending ms = some (ms', rest) ∧ pending = taken ++ rest ∧ LInv L G (lay ms') ∧ TopOk ms' ∧
      Coarse L G (chain (lay ms) ms.length ++ taken) (chain (lay ms') ms'.length) ∧
      (∀ b ∈ taken, FrontierLe (ops.upper b) P) ∧
      W (lay ms') ms'.length + costs ops rest ≤ W (lay ms) ms.length + costs ops pending ∧
      (∀ b ∈ rest.head?, ¬ FrontierLe (ops.upper b) P) := by
  induction pending with
  | nil =>
    intro ms lo hi h ht _ hcon hlen
    exact ⟨ms, [], [], rfl, rfl, h, ht, by simpa using .refl _, by simp, le_refl _, by simp⟩
  | cons b pending ih =>
    intro ms lo hi h ht hok hcon hlen
    rw [considerMerges]
    by_cases hle : acLe (ops.upper b) P = true
    · rw [if_pos hle]
      have hP : FrontierLe (ops.upper b) P := (acLe_iff _ _).mp hle
      have hcon' := hcon
      rw [← List.singleton_append, ← List.append_assoc] at hcon'
      obtain ⟨mid, hconb, hconr⟩ := Contig.append_iff.mp hcon'
      have hlenb : (lens ops (chain (lay ms) ms.length ++ [b]) : Int) < isizeMax := by
        rw [lens_append, lens_cons] at hlen ⊢
        have : lens ops ([] : List B) = 0 := rfl
        push_cast at hlen ⊢; omega
      have next : ∀ ms1, LInv L G (lay ms1) → TopOk ms1 → Coarse L G (chain (lay ms) ms.length ++ [b]) (chain (lay ms1) ms1.length) →
          W (lay ms1) ms1.length ≤ W (lay ms) ms.length + (4 * ops.len b + 2) →
          ∃ ms' taken rest, considerMerges ops G P effort pending ms1 = some (ms', rest) ∧ b :: pending = taken ++ rest ∧ LInv L G (lay ms') ∧
            TopOk ms' ∧ Coarse L G (chain (lay ms) ms.length ++ taken) (chain (lay ms') ms'.length) ∧
            (∀ b ∈ taken, FrontierLe (ops.upper b) P) ∧
            W (lay ms') ms'.length + costs ops rest ≤ W (lay ms) ms.length + costs ops (b :: pending) ∧
            (∀ b ∈ rest.head?, ¬ FrontierLe (ops.upper b) P) := by
        intro ms1 h1 ht1 hco1 hW1
        have hco1' : Coarse L G (chain (lay ms) ms.length ++ b :: pending) (chain (lay ms1) ms1.length ++ pending) := by
          have := hco1.context [] pending
          simpa using this
        obtain ⟨ms', taken, rest, g1, g2, g3, g4, g5, g6, g7, g8⟩ := ih h1 ht1 (fun x hx => hok x (List.mem_cons_of_mem _ hx))
          (hco1'.contig hcon) (by have := hco1'.lens; omega)
        refine ⟨ms', b :: taken, rest, g1, by rw [g2]; rfl, g3, g4, ?_, ?_, ?_, g8⟩
        · refine .trans _ _ _ ?_ g5
          have := hco1.context [] taken
          simpa using this
        · intro x hx
          rcases List.mem_cons.mp hx with rfl | hx
          · exact hP
          · exact g6 x hx
        · have : costs ops (b :: pending) = (4 * ops.len b + 2) + costs ops pending := by simp [costs]
          omega
      have hokb := hok b List.mem_cons_self
      rcases fuseEmpty_spec (L := L) (G := G) h ht hokb hconb with hf | ⟨ms1, hf, f1, f2, f3, f4⟩
      · simp only [hf]
        obtain ⟨ms1, i1, I1⟩ := introduceBatch_spec (L := L) (G := G) (effort := effort) (j := levelOf (ops.len b)) (batch := some b) h ht heff
          (fun x hx => by
            simp only [Option.toList_some, List.mem_singleton] at hx
            subst hx
            exact ⟨hokb, Nat.le_pow_clog (by omega) _⟩) hconb hlenb
        simp only [i1]
        exact next ms1 I1.inv I1.top I1.coarse (I1.weight.trans (by have := two_pow_levelOf_le (ops.len b); omega))
      · simp only [hf]
        exact next ms1 f1 f2 f3 (by omega)
    · rw [if_neg hle]
      refine ⟨ms, [], b :: pending, rfl, rfl, h, ht, by simpa using .refl _, by simp, le_refl _, ?_⟩
      intro x hx
      simp only [List.head?_cons, Option.mem_some_iff] at hx
      subst hx
      exact fun hc => hle ((acLe_iff _ _).mpr hc)

/-- The invariant of a spine, given the batches inserted. -/
structure SpineInv (L : BatchLaws ops D R) (s : Spine B M T) (ins : List B) (budget : Nat) : Prop where
  split : ∃ insM, ins = insM ++ s.pending ∧ Coarse L s.logical_frontier insM (chain (lay s.merging) s.merging.length) ∧
    ∀ b ∈ insM, FrontierLe (ops.upper b) s.physical_frontier
  contig : Contig ops [⊥] ins s.upper
  ok : ∀ b ∈ ins, L.Ok b
  order : ∀ b ∈ ins, FrontierLe (ops.lower b) (ops.upper b) ∧ ¬ (ops.lower b).Perm (ops.upper b)
  linv : LInv L s.logical_frontier (lay s.merging)
  top : TopOk s.merging
  effort : 1 ≤ s.effort
  upper : IsAntichainList s.upper
  weight : W (lay s.merging) s.merging.length + costs ops s.pending ≤ budget

/-- The oldest pending batch may not be merged yet. -/
def Stuck (ops : BatchOps B M T) (s : Spine B M T) : Prop := ∀ b ∈ s.pending.head?, ¬ FrontierLe (ops.upper b) s.physical_frontier

theorem SpineInv.init (effort : Nat) : SpineInv L (Spine.init effort : Spine B M T) [] 0 where
  split := ⟨[], rfl, .refl _, by simp⟩
  contig := List.Perm.refl _
  ok := by simp
  order := by simp
  linv := ⟨fun k => trivial, fun k hd => by simp [Spine.init, lay, is_double] at hd, fun k hd => by simp [Spine.init, lay, is_double] at hd⟩
  top := fun h => by simp [Spine.init] at h
  effort := by simp only [Spine.init]; split_ifs <;> omega
  upper := isAntichain_bot
  weight := by simp [Spine.init, costs, W]

/-- Replacing the layers. -/
theorem SpineInv.setLayers {s : Spine B M T} {ins : List B} {budget budget' : Nat} (h : SpineInv L s ins budget) {ms : List (MergeState B M)}
    (h1 : LInv L s.logical_frontier (lay ms)) (h2 : TopOk ms)
    (h3 : Coarse L s.logical_frontier (chain (lay s.merging) s.merging.length) (chain (lay ms) ms.length))
    (h4 : W (lay ms) ms.length + budget ≤ W (lay s.merging) s.merging.length + budget') : SpineInv L { s with merging := ms } ins budget' := by
  obtain ⟨insM, g1, g2, g3⟩ := h.split
  refine ⟨⟨insM, g1, .trans _ _ _ g2 h3, g3⟩, h.contig, h.ok, h.order, h1, h2, h.effort, h.upper, ?_⟩
  have := h.weight
  simp only
  omega

theorem SpineInv.chain_contig {s : Spine B M T} {ins : List B} {budget : Nat} (h : SpineInv L s ins budget) :
    Contig ops [⊥] (chain (lay s.merging) s.merging.length ++ s.pending) s.upper ∧
    lens ops (chain (lay s.merging) s.merging.length ++ s.pending) ≤ lens ops ins := by
  obtain ⟨insM, g1, g2, g3⟩ := h.split
  have : Coarse L s.logical_frontier ins (chain (lay s.merging) s.merging.length ++ s.pending) := by
    rw [g1]; have := g2.context [] s.pending; simpa using this
  exact ⟨this.contig h.contig, this.lens⟩

theorem SpineInv.consider {s : Spine B M T} {ins : List B} {budget : Nat} (h : SpineInv L s ins budget)
    (hlen : (lens ops ins : Int) < isizeMax) :
    ∃ ms rest, considerMerges ops s.logical_frontier s.physical_frontier s.effort s.pending s.merging = some (ms, rest) ∧
      SpineInv L { s with merging := ms, pending := rest } ins budget ∧ Stuck ops { s with merging := ms, pending := rest } := by
  obtain ⟨insM, g1, g2, g3⟩ := h.split
  obtain ⟨c1, c2⟩ := h.chain_contig
  obtain ⟨ms, taken, rest, r1, r2, r3, r4, r5, r6, r7, r8⟩ := considerMerges_spec (L := L) (G := s.logical_frontier) (P := s.physical_frontier) h.effort
    s.pending h.linv h.top (fun b hb => h.ok b (by rw [g1]; simp [hb])) c1 (by omega)
  refine ⟨ms, rest, r1, ⟨⟨insM ++ taken, ?_, ?_, ?_⟩, h.contig, h.ok, h.order, r3, r4, h.effort, h.upper, ?_⟩, r8⟩
  · rw [g1, r2, List.append_assoc]
  · refine .trans _ _ _ ?_ r5
    have := g2.context [] taken
    simpa using this
  · intro b hb
    rcases List.mem_append.mp hb with hb | hb
    · exact g3 b hb
    · exact r6 b hb
  · have := h.weight
    simp only
    omega

theorem insert_inv {s : Spine B M T} {ins : List B} {budget : Nat} (h : SpineInv L s ins budget) {b : B} (hb : L.Ok b)
    (h1 : (ops.lower b).Perm s.upper) (h2 : ¬ (ops.lower b).Perm (ops.upper b)) (h3 : FrontierLe (ops.lower b) (ops.upper b))
    (hlen : (lens ops (ins ++ [b]) : Int) < isizeMax) :
    ∃ s', s.insert ops b = some s' ∧ SpineInv L s' (ins ++ [b]) (budget + (4 * ops.len b + 2)) ∧ s'.upper = ops.upper b ∧
      s'.logical_frontier = s.logical_frontier ∧ s'.physical_frontier = s.physical_frontier ∧ Stuck ops s' := by
  have hne : ¬ acEq (ops.lower b) (ops.upper b) = true := fun hc => h2 (perm_of_acEq hc (nodup_of_isAntichain (L.lower_antichain b hb)))
  have hinv : SpineInv L { s with pending := s.pending ++ [b], upper := ops.upper b } (ins ++ [b]) (budget + (4 * ops.len b + 2)) := by
    obtain ⟨insM, g1, g2, g3⟩ := h.split
    refine ⟨⟨insM, ?_, g2, g3⟩, ?_, ?_, ?_, h.linv, h.top, h.effort, L.upper_antichain b hb, ?_⟩
    · rw [g1, List.append_assoc]
    · exact Contig.append_iff.mpr ⟨s.upper, h.contig, acEq_of_perm h1.symm, List.Perm.refl _⟩
    · intro x hx
      rcases List.mem_append.mp hx with hx | hx
      · exact h.ok x hx
      · rw [List.mem_singleton] at hx; subst hx; exact hb
    · intro x hx
      rcases List.mem_append.mp hx with hx | hx
      · exact h.order x hx
      · rw [List.mem_singleton] at hx; subst hx; exact ⟨h3, h2⟩
    · have := h.weight
      have e : costs ops (s.pending ++ [b]) = costs ops s.pending + (4 * ops.len b + 2) := by simp [costs]
      simp only
      omega
  obtain ⟨ms, rest, r1, r2, r3⟩ := hinv.consider hlen
  refine ⟨{ s with upper := ops.upper b, merging := ms, pending := rest }, ?_, r2, rfl, rfl, rfl, r3⟩
  rw [Spine.insert, if_neg hne, if_pos (acEq_of_perm h1)]
  simp only at r1
  rw [r1]; rfl

theorem exert_inv {s : Spine B M T} {ins : List B} {budget : Nat} (h : SpineInv L s ins budget) (effort : Option Nat)
    (hlen : (lens ops ins : Int) < isizeMax) :
    ∃ s', s.exert ops effort = some s' ∧ SpineInv L s' ins (budget + (match effort with | none => 0 | some e => 4 * e + 2)) ∧ s'.upper = s.upper ∧
      s'.logical_frontier = s.logical_frontier ∧ s'.physical_frontier = s.physical_frontier ∧ s'.pending = s.pending := by
  obtain ⟨c1, c2⟩ := h.chain_contig
  obtain ⟨mid, c3, -⟩ := Contig.append_iff.mp c1
  rw [lens_append] at c2
  obtain ⟨ms, t1, T1⟩ := tidyLayers_spec h.linv h.top c3
  have hinv : SpineInv L { s with merging := ms } ins budget := h.setLayers T1.inv T1.top (by rw [T1.chain]; exact .refl _) (by have := T1.weight; omega)
  unfold Spine.exert
  simp only [t1]
  cases effort with
  | none => exact ⟨_, rfl, hinv, rfl, rfl, rfl, rfl⟩
  | some e =>
    simp only
    split_ifs with hd
    · obtain ⟨ms2, a1, a2, a3, a4, a5⟩ := applyFuel_intro (L := L) (fuel := (e : Int)) (by omega) T1.inv T1.top (by rw [T1.chain]; exact c3)
        (by rw [T1.chain]; omega)
      refine ⟨{ s with merging := ms2 }, by rw [a1]; rfl, ?_, rfl, rfl, rfl, rfl⟩
      exact hinv.setLayers a2 a3 a4 (by simp only; omega)
    · obtain ⟨ms2, i1, I1⟩ := introduceBatch_spec (L := L) (effort := s.effort) (j := levelOf e) (batch := none) T1.inv T1.top h.effort
        (handOk_none _) (by simpa [T1.chain] using c3) (by simp only [Option.toList_none, List.append_nil, T1.chain]; omega)
      refine ⟨{ s with merging := ms2 }, by rw [i1]; rfl, ?_, rfl, rfl, rfl, rfl⟩
      refine hinv.setLayers I1.inv I1.top (by simpa using I1.coarse) ?_
      have := I1.weight
      have := two_pow_levelOf_le e
      simp only
      omega

theorem introduce_inv {s : Spine B M T} {ins : List B} {budget : Nat} (h : SpineInv L s ins budget) (level : Nat)
    (hlen : (lens ops ins : Int) < isizeMax) :
    ∃ s', s.step ops (.introduce level) = some s' ∧ SpineInv L s' ins (budget + 2 * 2 ^ level) ∧ s'.upper = s.upper ∧
      s'.logical_frontier = s.logical_frontier ∧ s'.physical_frontier = s.physical_frontier ∧ s'.pending = s.pending := by
  obtain ⟨c1, c2⟩ := h.chain_contig
  obtain ⟨mid, c3, -⟩ := Contig.append_iff.mp c1
  rw [lens_append] at c2
  obtain ⟨ms2, i1, I1⟩ := introduceBatch_spec (L := L) (effort := s.effort) (j := level) (batch := none) h.linv h.top h.effort
    (handOk_none _) (by simpa using c3) (by simp only [Option.toList_none, List.append_nil]; omega)
  refine ⟨{ s with merging := ms2 }, by rw [Spine.step, i1]; rfl, ?_, rfl, rfl, rfl, rfl⟩
  refine h.setLayers I1.inv I1.top (by simpa using I1.coarse) ?_
  have := I1.weight
  omega

theorem fuel_inv {s : Spine B M T} {ins : List B} {budget : Nat} (h : SpineInv L s ins budget) (amount : Nat)
    (hlen : (lens ops ins : Int) < isizeMax) :
    ∃ s', s.step ops (.fuel amount) = some s' ∧ SpineInv L s' ins budget ∧ s'.upper = s.upper ∧
      s'.logical_frontier = s.logical_frontier ∧ s'.physical_frontier = s.physical_frontier ∧ s'.pending = s.pending := by
  obtain ⟨c1, c2⟩ := h.chain_contig
  obtain ⟨mid, c3, -⟩ := Contig.append_iff.mp c1
  rw [lens_append] at c2
  obtain ⟨ms2, a1, a2, a3, a4, a5⟩ := applyFuel_intro (L := L) (fuel := (amount : Int)) (by omega) h.linv h.top c3 (by omega)
  refine ⟨{ s with merging := ms2 }, by rw [Spine.step, a1]; rfl, h.setLayers a2 a3 a4 (by omega), rfl, rfl, rfl, rfl⟩

theorem setLogical_inv {s : Spine B M T} {ins : List B} {budget : Nat} (h : SpineInv L s ins budget) {F : List T}
    (hF : FrontierLe s.logical_frontier F) :
    SpineInv L (s.setLogical F) ins budget ∧ FrontierLe (s.setLogical F).logical_frontier F ∧ FrontierLe F (s.setLogical F).logical_frontier := by
  have e : ∀ q, Beyond (acExtend [] F) q ↔ Beyond F q := fun q => by rw [beyond_acExtend]; simp [Beyond]
  have hG : FrontierLe s.logical_frontier (acExtend [] F) := fun q hq => hF q ((e q).mp hq)
  refine ⟨?_, fun q => (e q).mpr, fun q => (e q).mp⟩
  obtain ⟨insM, g1, g2, g3⟩ := h.split
  exact ⟨⟨insM, g1, g2.mono hG, g3⟩, h.contig, h.ok, h.order,
    ⟨fun k => (h.linv.layer k).monoG hG, h.linv.room, fun k hd => (h.linv.debt k hd).monoG hG⟩, h.top, h.effort, h.upper, h.weight⟩

theorem setPhysical_inv {s : Spine B M T} {ins : List B} {budget : Nat} (h : SpineInv L s ins budget) {F : List T}
    (hF : FrontierLe s.physical_frontier F) (hlen : (lens ops ins : Int) < isizeMax) :
    ∃ s', s.setPhysical ops F = some s' ∧ SpineInv L s' ins budget ∧ s'.upper = s.upper ∧
      s'.logical_frontier = s.logical_frontier ∧ FrontierLe s'.physical_frontier F ∧ FrontierLe F s'.physical_frontier ∧ Stuck ops s' := by
  have e : ∀ q, Beyond (acExtend [] F) q ↔ Beyond F q := fun q => by rw [beyond_acExtend]; simp [Beyond]
  have hG : FrontierLe s.physical_frontier (acExtend [] F) := fun q hq => hF q ((e q).mp hq)
  have hinv : SpineInv L { s with physical_frontier := acExtend [] F } ins budget := by
    obtain ⟨insM, g1, g2, g3⟩ := h.split
    exact ⟨⟨insM, g1, g2, fun b hb => (g3 b hb).trans hG⟩, h.contig, h.ok, h.order, h.linv, h.top, h.effort, h.upper, h.weight⟩
  obtain ⟨ms, rest, r1, r2, r3⟩ := hinv.consider hlen
  refine ⟨{ s with physical_frontier := acExtend [] F, merging := ms, pending := rest }, ?_, r2, rfl, rfl, fun q => (e q).mpr, fun q => (e q).mp, r3⟩
  rw [Spine.setPhysical, if_pos ((acLe_iff _ _).mpr hF)]
  simp only at r1
  rw [r1]; rfl

/-- Every legal sequence of calls succeeds and keeps the invariant. -/
theorem spine_run_inv (os : List (Spine.Op B T)) : ∀ {s : Spine B M T} {ins : List B} {budget : Nat} {logical physical : List T},
    SpineInv L s ins budget → Stuck ops s → FrontierLe s.logical_frontier logical → FrontierLe s.physical_frontier physical →
    Spine.Legal L s.upper logical physical os → (lens ops (ins ++ Spine.inserted ops s.upper os) : Int) < isizeMax →
    ∃ s', s.run ops os = some s' ∧ SpineInv L s' (ins ++ Spine.inserted ops s.upper os) (budget + Spine.introduced ops os) ∧
      Stuck ops s' := by
  induction os with
  | nil => intro s ins budget lg ph h hst _ _ _ _; exact ⟨s, rfl, by simpa [Spine.inserted, Spine.introduced] using h, hst⟩
  | cons o os ih =>
    intro s ins budget lg ph h hst hlg hph hleg hlen
    have run_cons : ∀ {s1 : Spine B M T}, s.step ops o = some s1 → s.run ops (o :: os) = s1.run ops os := by
      intro s1 h1
      simp [Spine.run, h1]
    have skip : ∀ {s1 : Spine B M T} {cost : Nat} {lg1 ph1 : List T}, s.step ops o = some s1 →
        SpineInv L s1 ins (budget + cost) → Stuck ops s1 → s1.upper = s.upper → FrontierLe s1.logical_frontier lg1 → FrontierLe s1.physical_frontier ph1 →
        Spine.Legal L s.upper lg1 ph1 os → Spine.inserted ops s.upper (o :: os) = Spine.inserted ops s.upper os →
        Spine.introduced ops (o :: os) = cost + Spine.introduced ops os →
        ∃ s', s.run ops (o :: os) = some s' ∧
          SpineInv L s' (ins ++ Spine.inserted ops s.upper (o :: os)) (budget + Spine.introduced ops (o :: os)) ∧ Stuck ops s' := by
      intro s1 cost lg1 ph1 h1 h2 hst1 h3 h4 h5 h6 h7 h8
      rw [run_cons h1, h7, h8, ← Nat.add_assoc]
      rw [h7] at hlen
      rw [← h3] at h6 hlen ⊢
      exact ih h2 hst1 h4 h5 h6 hlen
    have stuck_of : ∀ {s1 : Spine B M T}, s1.pending = s.pending → s1.physical_frontier = s.physical_frontier → Stuck ops s1 := by
      intro s1 e1 e2
      unfold Stuck
      rw [e1, e2]; exact hst
    have hins : (lens ops ins : Int) < isizeMax := by rw [lens_append] at hlen; omega
    cases o with
    | insert b =>
      obtain ⟨l1, l2, l3, l4, l5⟩ := hleg
      rw [Spine.inserted, ← List.singleton_append, ← List.append_assoc] at hlen
      obtain ⟨s1, h1, h2, h3, h4, h5, h6⟩ := insert_inv h l1 l2 l3 l4 (by rw [lens_append] at hlen; omega)
      rw [run_cons h1]
      rw [← h3] at hlen l5
      obtain ⟨s2, k1, k2, k3⟩ := ih (logical := lg) (physical := ph) h2 h6 (by rw [h4]; exact hlg) (by rw [h5]; exact hph) l5 hlen
      refine ⟨s2, k1, ?_, k3⟩
      rw [h3, List.append_assoc, List.singleton_append, Nat.add_assoc] at k2
      rw [Spine.inserted, Spine.introduced]
      exact k2
    | setLogical F =>
      obtain ⟨h1, h2, h3⟩ := setLogical_inv h (hlg.trans hleg.1)
      exact skip (cost := 0) rfl h1 hst rfl h2 hph hleg.2 rfl (by simp [Spine.introduced])
    | setPhysical F =>
      obtain ⟨s1, h1, h2, h3, h4, h5, h6, h7⟩ := setPhysical_inv h (hph.trans hleg.1) hins
      exact skip (cost := 0) h1 h2 h7 h3 (by rw [h4]; exact hlg) h5 hleg.2 rfl (by simp [Spine.introduced])
    | exert e =>
      obtain ⟨s1, h1, h2, h3, h4, h5, h6⟩ := exert_inv h e hins
      refine skip h1 h2 (stuck_of h6 h5) h3 (by rw [h4]; exact hlg) (by rw [h5]; exact hph) hleg rfl ?_
      cases e <;> simp [Spine.introduced]
    | introduce level =>
      obtain ⟨s1, h1, h2, h3, h4, h5, h6⟩ := introduce_inv h level hins
      exact skip h1 h2 (stuck_of h6 h5) h3 (by rw [h4]; exact hlg) (by rw [h5]; exact hph) hleg rfl rfl
    | fuel amount =>
      obtain ⟨s1, h1, h2, h3, h4, h5, h6⟩ := fuel_inv h amount hins
      exact skip (cost := 0) h1 h2 (stuck_of h6 h5) h3 (by rw [h4]; exact hlg) (by rw [h5]; exact hph) hleg rfl (by simp [Spine.introduced])
    | close =>
      rw [Spine.Legal] at hleg
      by_cases hu : s.upper = []
      · have hs : s.step ops .close = some s := by rw [Spine.step, Spine.close, if_neg (by simp [hu])]
        have hh : SpineInv L s ins (budget + 2) := by
          obtain ⟨a, b, c, d, e, f, g, i, j⟩ := h
          exact ⟨a, b, c, d, e, f, g, i, by omega⟩
        refine skip (cost := 2) hs hh hst rfl hlg hph (by rw [hu]; exact hleg) ?_ rfl
        rw [Spine.inserted, if_pos hu, hu]; rfl
      · rw [Spine.inserted, if_neg hu, ← List.append_assoc] at hlen
        have hbl : ops.lower (ops.empty s.upper []) = s.upper := L.empty_lower _ _
        have hbu : ops.upper (ops.empty s.upper []) = [] := L.empty_upper _ _
        obtain ⟨s1, h1, h2, h3, h4, h5, h6⟩ := insert_inv h (b := ops.empty s.upper []) (L.empty_ok _ _ h.upper List.Pairwise.nil fun q hq => by obtain ⟨f, hf, -⟩ := hq; simp at hf)
          (by rw [hbl])
          (by rw [hbl, hbu]; intro hp; exact hu hp.eq_nil)
          (by rw [hbl, hbu]; rintro q ⟨f, hf, -⟩; simp at hf) (by rw [lens_append] at hlen; omega)
        have hs : s.step ops .close = some s1 := by rw [Spine.step, Spine.close, if_pos hu]; exact h1
        rw [run_cons hs]
        rw [hbu] at h3
        obtain ⟨s2, k1, k2, k3⟩ := ih (logical := lg) (physical := ph) h2 h6 (by rw [h4]; exact hlg) (by rw [h5]; exact hph) (by rw [h3]; exact hleg)
          (by rw [h3]; exact hlen)
        refine ⟨s2, k1, ?_, k3⟩
        rw [h3, L.empty_len, List.append_assoc, Nat.add_assoc] at k2
        rw [Spine.inserted, if_neg hu, Spine.introduced]
        exact k2

/-! ## Consequences of the invariant -/

theorem SpineInv.mapBatches {s : Spine B M T} {ins : List B} {budget : Nat} (h : SpineInv L s ins budget) :
    Coarse L s.logical_frontier ins s.mapBatches := by
  obtain ⟨insM, g1, g2, g3⟩ := h.split
  rw [Spine.mapBatches, mapBatches_eq, g1]
  have := g2.context [] s.pending
  simpa using this

theorem length_chain_le (f : Nat → MergeState B M) (n : Nat) : (chain f n).length ≤ 2 * n := by
  induction n with
  | zero => simp [chain]
  | succ n ih =>
    rw [chain, List.length_append]
    have : (batches (f n)).length ≤ 2 := by
      cases f n with
      | vacant => simp [batches]
      | single b => cases b <;> simp [batches]
      | inProgress b1 b2 m => simp [batches]
      | complete b => cases b <;> simp [batches]
    omega

theorem TopOk.layers {ms : List (MergeState B M)} (h : TopOk ms) (h0 : ms.length ≠ 0) : 2 ^ (ms.length - 1) ≤ W (lay ms) ms.length := by
  obtain ⟨k, hk⟩ : ∃ k, ms.length = k + 1 := ⟨ms.length - 1, by omega⟩
  have h1 := wt_pos (h h0)
  rw [hk] at h1 ⊢
  rw [Nat.add_sub_cancel] at h1 ⊢
  rw [W_succ]
  have := Nat.two_pow_pos k
  nlinarith

/-- The frontiers between inserted batches increase. -/
theorem contig_before {lo F hi : List T} : ∀ {l : List B}, Contig ops lo l F → (∀ b ∈ l, L.Ok b) →
    (∀ b ∈ l, FrontierLe (ops.lower b) (ops.upper b)) → IsAntichainList lo → FrontierLe lo F ∧ ∀ b ∈ l, FrontierLe (ops.upper b) F := by
  intro l
  induction l generalizing lo with
  | nil => intro h _ _ _; exact ⟨frontierLe_of_perm h, by simp⟩
  | cons x l ih =>
    intro h hok hord hlo
    obtain ⟨g1, g2⟩ := ih h.2 (fun b hb => hok b (List.mem_cons_of_mem _ hb)) (fun b hb => hord b (List.mem_cons_of_mem _ hb))
      (L.upper_antichain x (hok x List.mem_cons_self))
    refine ⟨?_, ?_⟩
    · exact (frontierLe_of_perm (perm_of_acEq h.1 (nodup_of_isAntichain hlo))).trans ((hord x List.mem_cons_self).trans g1)
    · intro b hb
      rcases List.mem_cons.mp hb with rfl | hb
      · exact g1
      · exact g2 b hb

theorem contig_after {F hi : List T} : ∀ {l : List B} {lo : List T}, Contig ops lo l hi → FrontierLe F lo → (∀ b ∈ l, L.Ok b) →
    (∀ b ∈ l, FrontierLe (ops.lower b) (ops.upper b)) → IsAntichainList lo → ∀ b ∈ l, FrontierLe F (ops.lower b) := by
  intro l
  induction l with
  | nil => intro lo _ _ _ _ _ b hb; simp at hb
  | cons x l ih =>
    intro lo h hF hok hord hlo b hb
    have h1 : FrontierLe F (ops.lower x) := hF.trans (frontierLe_of_perm (perm_of_acEq h.1 (nodup_of_isAntichain hlo)))
    rcases List.mem_cons.mp hb with rfl | hb
    · exact h1
    · exact ih h.2 (h1.trans (hord x List.mem_cons_self)) (fun b hb => hok b (List.mem_cons_of_mem _ hb))
        (fun b hb => hord b (List.mem_cons_of_mem _ hb)) (L.upper_antichain x (hok x List.mem_cons_self)) b hb

theorem contig_boundary {hi : List T} {l : List B} (h : Contig ops [⊥] l hi) : hi.Perm (Spine.boundary ops l) := by
  rcases List.eq_nil_or_concat' l with rfl | ⟨l', b, rfl⟩
  · exact h.symm
  · obtain ⟨mid, -, -, h2⟩ := Contig.append_iff.mp h
    rw [Spine.boundary, List.getLast?_append]
    exact h2.symm

theorem perm_of_le_le {F G : List T} (hF : IsAntichainList F) (hG : IsAntichainList G) (h1 : FrontierLe F G) (h2 : FrontierLe G F) : F.Perm G :=
  perm_of_beyond_eq hF hG fun q => ⟨h2 q, h1 q⟩

/-- Splitting the inserted batches at a boundary: exactly those before it have an upper frontier before it. -/
theorem SpineInv.boundary {s : Spine B M T} {ins : List B} {budget : Nat} (h : SpineInv L s ins budget) {before after : List B}
    (hins : ins = before ++ after) :
    (∀ b ∈ before, FrontierLe (ops.upper b) (Spine.boundary ops before)) ∧
    (∀ b ∈ after, FrontierLe (Spine.boundary ops before) (ops.lower b) ∧ ¬ FrontierLe (ops.upper b) (Spine.boundary ops before)) ∧
    IsAntichainList (Spine.boundary ops before) := by
  subst hins
  obtain ⟨mid, c1, c2⟩ := Contig.append_iff.mp h.contig
  have hmid := contig_boundary c1
  replace c1 := c1.perm_right hmid
  replace c2 := c2.of_perm hmid.symm
  have hanti : IsAntichainList (Spine.boundary ops before) := by
    unfold Spine.boundary
    cases hl : before.getLast? with
    | none => exact isAntichain_bot
    | some b => exact L.upper_antichain b (h.ok b (List.mem_append_left _ (List.mem_of_getLast? hl)))
  refine ⟨(contig_before (L := L) (hi := s.upper) c1 (fun b hb => h.ok b (List.mem_append_left _ hb))
    (fun b hb => (h.order b (List.mem_append_left _ hb)).1) isAntichain_bot).2, ?_, hanti⟩
  intro b hb
  have h1 := contig_after (L := L) c2 (frontierLe_refl _) (fun b hb => h.ok b (List.mem_append_right _ hb))
    (fun b hb => (h.order b (List.mem_append_right _ hb)).1) hanti b hb
  refine ⟨h1, fun hc => ?_⟩
  have hb' := h.order b (List.mem_append_right _ hb)
  have hok := h.ok b (List.mem_append_right _ hb)
  exact hb'.2 (perm_of_le_le (L.lower_antichain b hok) (L.upper_antichain b hok) hb'.1 (hc.trans h1))

/-- What is pending is exactly what may not be merged. -/
theorem SpineInv.pending_eq {s : Spine B M T} {ins : List B} {budget : Nat} (h : SpineInv L s ins budget) (hst : Stuck ops s) :
    s.pending = ins.filter fun b => !acLe (ops.upper b) s.physical_frontier := by
  obtain ⟨insM, g1, g2, g3⟩ := h.split
  rw [g1, List.filter_append, List.filter_eq_nil_iff.mpr, List.nil_append, List.filter_eq_self.mpr]
  · intro b hb
    rw [Bool.not_eq_true', ← Bool.not_eq_true]
    intro hc
    have hc : FrontierLe (ops.upper b) s.physical_frontier := (acLe_iff _ _).mp hc
    cases hp : s.pending with
    | nil => rw [hp] at hb; simp at hb
    | cons x rest =>
      refine hst x (by rw [hp]; rfl) ?_
      rw [hp] at hb
      rcases List.mem_cons.mp hb with rfl | hb
      · exact hc
      · have hins : ins = (insM ++ [x]) ++ rest := by rw [g1, hp]; simp
        have hb2 := ((h.boundary hins).2.1 b hb).1
        have hx : Spine.boundary ops (insM ++ [x]) = ops.upper x := by simp [Spine.boundary]
        rw [hx] at hb2
        exact hb2.trans ((h.order b (by rw [g1, hp]; simp [hb])).1.trans hc)
  · intro b hb
    rw [(acLe_iff _ _).mpr (g3 b hb)]; simp

theorem foldlM_through {F : List T} (l : List B) :
    (∀ b ∈ l, acLe (ops.lower b) F = acLe (ops.upper b) F ∨ acEq F (ops.lower b) = true) → ∀ storage,
    l.foldlM (fun storage batch =>
      if ops.len batch ≠ 0 then
        if acLe (ops.lower batch) F ≠ acLe (ops.upper batch) F ∧ ¬ acEq F (ops.lower batch) then none
        else if acLe (ops.upper batch) F then some (storage ++ [batch])
        else some storage
      else some storage) storage = some (storage ++ (l.filter fun b => acLe (ops.upper b) F).filter fun b => ops.len b ≠ 0) := by
  induction l with
  | nil => intro _ storage; simp
  | cons b l ih =>
    intro h storage
    have hb := h b List.mem_cons_self
    have ih := ih (fun x hx => h x (List.mem_cons_of_mem _ hx))
    have hnot : ¬ (acLe (ops.lower b) F ≠ acLe (ops.upper b) F ∧ ¬ acEq F (ops.lower b) = true) := by
      rintro ⟨h1, h2⟩
      rcases hb with hb | hb
      · exact h1 hb
      · exact h2 hb
    rw [List.foldlM_cons, if_neg hnot, List.filter_cons]
    by_cases hlen : ops.len b ≠ 0
    · rw [if_pos hlen]
      by_cases hu : acLe (ops.upper b) F = true
      · rw [if_pos hu, if_pos hu, List.filter_cons, if_pos (by simpa using hlen)]
        simp only [Option.bind_eq_bind, Option.bind_some]
        rw [ih]; simp
      · rw [if_neg hu, if_neg hu]
        simp only [Option.bind_eq_bind, Option.bind_some]
        rw [ih]
    · rw [if_neg hlen]
      simp only [Option.bind_eq_bind, Option.bind_some]
      rw [ih]
      by_cases hu : acLe (ops.upper b) F = true
      · rw [if_pos hu, List.filter_cons, if_neg (by simpa using hlen)]
      · rw [if_neg hu]

theorem sum_filter_len (l : List B) (hok : ∀ b ∈ l, L.Ok b) (d : D) (q : T) :
    ((l.filter fun b => ops.len b ≠ 0).map fun b => L.acc b d q).sum = (l.map fun b => L.acc b d q).sum := by
  induction l with
  | nil => rfl
  | cons b l ih =>
    have ih := ih fun x hx => hok x (List.mem_cons_of_mem _ hx)
    rw [List.filter_cons]
    by_cases hlen : ops.len b ≠ 0
    · rw [if_pos (by simpa using hlen), List.map_cons, List.sum_cons, ih, List.map_cons, List.sum_cons]
    · rw [if_neg (by simpa using hlen), ih, List.map_cons, List.sum_cons, L.acc_of_len b (hok b List.mem_cons_self) (by simpa using hlen), zero_add]

/-- `batches_through` at a boundary. -/
theorem SpineInv.through {s : Spine B M T} {ins : List B} {budget : Nat} (h : SpineInv L s ins budget) {before after : List B}
    (hins : ins = before ++ after) {F : List T} (hF : F.Perm (Spine.boundary ops before)) (hphys : FrontierLe s.physical_frontier F)
    (hlog : s.logical_frontier ≠ []) :
    ∃ bs, s.batchesThrough ops F = some bs ∧
      ∀ d q, Beyond s.logical_frontier q → (∀ b ∈ before, Beyond (L.since b) q) →
        (bs.map fun b => L.acc b d q).sum = (before.map fun b => L.acc b d q).sum := by
  obtain ⟨b1, b2, b3⟩ := h.boundary hins
  have hFle : FrontierLe F (Spine.boundary ops before) := frontierLe_of_perm hF
  have hleF : FrontierLe (Spine.boundary ops before) F := frontierLe_of_perm hF.symm
  have hFa : IsAntichainList F := isAntichain_perm hF.symm b3
  unfold Spine.batchesThrough
  by_cases hmin : lessEqual F ⊥ = true
  · rw [if_pos hmin]
    refine ⟨[], rfl, fun d q _ _ => ?_⟩
    rw [lessEqual_iff] at hmin
    rcases List.eq_nil_or_concat' before with rfl | ⟨l', b, hl⟩
    · rfl
    · exfalso
      have hbm : b ∈ before := by rw [hl]; simp
      have hb := h.order b (by rw [hins]; exact List.mem_append_left _ hbm)
      have hok := h.ok b (by rw [hins]; exact List.mem_append_left _ hbm)
      have hbot : Beyond (ops.upper b) ⊥ := b1 b hbm ⊥ (hleF ⊥ hmin)
      refine hb.2 (perm_of_le_le (L.lower_antichain b hok) (L.upper_antichain b hok) hb.1 fun q _ => beyond_mono hbot bot_le)
  · rw [if_neg hmin, if_neg hlog]
    have hp : acLe s.physical_frontier F = true := (acLe_iff _ _).mpr hphys
    rw [if_neg (by simp [hp])]
    simp only
    obtain ⟨insM, g1, g2, g3⟩ := h.split
    -- the merged batches are all before the boundary
    obtain ⟨p1, hp1, hp2⟩ : ∃ p1, before = insM ++ p1 ∧ s.pending = p1 ++ after := by
      rw [hins] at g1
      rcases List.append_eq_append_iff.mp g1 with ⟨x, hx1, hx2⟩ | ⟨x, hx1, hx2⟩
      · -- insM = before ++ x
        cases x with
        | nil => exact ⟨[], by simpa using hx1.symm, by simpa using hx2.symm⟩
        | cons b x =>
          exfalso
          have hb : b ∈ insM := by rw [hx1]; simp
          have hb' : b ∈ after := by rw [hx2]; simp
          exact (b2 b hb').2 ((g3 b hb).trans (hphys.trans hFle))
      · exact ⟨x, hx1, hx2⟩
    have hall : ∀ b ∈ s.pending, acLe (ops.lower b) F = acLe (ops.upper b) F ∨ acEq F (ops.lower b) = true := by
      intro b hb
      rw [hp2] at hb
      rcases List.mem_append.mp hb with hb | hb
      · left
        have hbm : b ∈ before := by rw [hp1]; exact List.mem_append_right _ hb
        have hu := (b1 b hbm).trans hleF
        have hl := (h.order b (by rw [hins]; exact List.mem_append_left _ hbm)).1.trans hu
        rw [(acLe_iff _ _).mpr hu, (acLe_iff _ _).mpr hl]
      · by_cases hl : acLe (ops.lower b) F = true
        · right
          have hok := h.ok b (by rw [hins]; exact List.mem_append_right _ hb)
          exact acEq_of_perm (perm_of_le_le hFa (L.lower_antichain b hok) (hFle.trans (b2 b hb).1) ((acLe_iff _ _).mp hl))
        · left
          rw [Bool.not_eq_true] at hl
          rw [hl]
          symm
          by_contra hu
          rw [Bool.not_eq_false] at hu
          exact (b2 b hb).2 (FrontierLe.trans ((acLe_iff _ _).mp hu) hFle)
    have hpend : s.pending.filter (fun b => acLe (ops.upper b) F) = p1 := by
      rw [hp2, List.filter_append, List.filter_eq_self.mpr, List.filter_eq_nil_iff.mpr, List.append_nil]
      · intro b hb hc
        exact (b2 b hb).2 (FrontierLe.trans ((acLe_iff _ _).mp hc) hFle)
      · intro b hb
        exact (acLe_iff _ _).mpr ((b1 b (by rw [hp1]; exact List.mem_append_right _ hb)).trans hleF)
    refine ⟨_, foldlM_through s.pending hall _, fun d q hq hs => ?_⟩
    rw [hpend, mapBatches_eq, ← List.filter_append]
    have hokb : ∀ b ∈ before, L.Ok b := fun b hb => h.ok b (by rw [hins]; exact List.mem_append_left _ hb)
    have hco : Coarse L s.logical_frontier before (chain (lay s.merging) s.merging.length ++ p1) := by
      rw [hp1]; have := g2.context [] p1; simpa using this
    rw [sum_filter_len (L := L) _ (hco.ok hokb)]
    exact (hco.acc hq hs d).2

end DD
