import Verif.Proofs.TimeOrd
import Mathlib.Algebra.BigOperators.Group.Finset.Basic
import Mathlib.Algebra.BigOperators.Group.Finset.Sigma
import Mathlib.Data.Finset.Max
import Mathlib.Algebra.Order.Group.Defs

/-!
# Determining the times to visit before visiting them

The argument behind the reductions that work in two phases: first find the times at which the output may have to be corrected, then correct it at those times, in order. The
times of the input are kept in a buffer in which updates that cancel out, when advanced to the meet of the times to come, disappear; so that the set of times found is not closed
under joins. The output is right nevertheless.
-/

namespace DD

section
open Classical
variable {T Γ Λ : Type*} [Lattice T] [TimeOrd T] [AddCancelCommMonoid Γ] [AddCommGroup Λ]

/-- The updates of `S` at times that become `e` when advanced to `μ`. -/
noncomputable def groupAt (ι : T → Γ) (S : Finset T) (μ e : T) : Γ := ∑ j ∈ S with j ⊔ μ = e, ι j

/-- The updates of `S` at times at or before `p`. -/
noncomputable def upToAt (ι : T → Γ) (S : Finset T) (p : T) : Γ := ∑ j ∈ S with j ≤ p, ι j

omit [TimeOrd T] in
theorem upToAt_groups (ι : T → Γ) (S : Finset T) {μ p : T} (hp : μ ≤ p) :
    upToAt ι S p = ∑ e ∈ S.image (· ⊔ μ) with e ≤ p, groupAt ι S μ e := by
  unfold upToAt groupAt
  rw [← Finset.sum_fiberwise_of_maps_to (s := S.filter (· ≤ p)) (t := (S.image (· ⊔ μ)).filter (· ≤ p)) (g := (· ⊔ μ))]
  · apply Finset.sum_congr rfl
    intro e he
    apply Finset.sum_congr _ fun _ _ => rfl
    ext j
    simp only [Finset.mem_filter]
    constructor
    · rintro ⟨⟨h1, h2⟩, h3⟩; exact ⟨h1, h3⟩
    · rintro ⟨h1, h3⟩
      exact ⟨⟨h1, le_sup_left.trans (h3.le.trans (Finset.mem_filter.1 he).2)⟩, h3⟩
  · intro j hj
    simp only [Finset.mem_filter, Finset.mem_image] at hj ⊢
    exact ⟨⟨j, hj.1, rfl⟩, sup_le hj.2 hp⟩

omit [TimeOrd T] in
theorem upToAt_congr (ι : T → Γ) (S : Finset T) {μ p p' : T} (hp : μ ≤ p) (hp' : μ ≤ p') (h : ∀ e, groupAt ι S μ e ≠ 0 → (e ≤ p ↔ e ≤ p')) :
    upToAt ι S p = upToAt ι S p' := by
  rw [upToAt_groups ι S hp, upToAt_groups ι S hp', Finset.sum_filter, Finset.sum_filter]
  apply Finset.sum_congr rfl
  intro e _
  by_cases h0 : groupAt ι S μ e = 0
  · simp [h0]
  · simp only [h e h0]

omit [TimeOrd T] in
theorem upToAt_ne (ι : T → Γ) (S : Finset T) {μ p p' : T} (hp : μ ≤ p) (hp' : μ ≤ p') (hle : p' ≤ p) (h : upToAt ι S p ≠ upToAt ι S p') :
    ∃ e, groupAt ι S μ e ≠ 0 ∧ e ≤ p ∧ ¬ e ≤ p' := by
  by_contra hc
  push Not at hc
  exact h (upToAt_congr ι S hp hp' fun e he => ⟨hc e he, fun h => h.trans hle⟩)

omit [TimeOrd T] in
theorem groupAt_coarse (ι : T → Γ) (S : Finset T) {μ μ' e' : T} (hm : μ ≤ μ') (h : groupAt ι S μ' e' ≠ 0) : ∃ e, e ⊔ μ' = e' ∧ groupAt ι S μ e ≠ 0 := by
  by_contra hc
  push Not at hc
  apply h
  have : groupAt ι S μ' e' = ∑ e ∈ (S.filter (fun j => j ⊔ μ' = e')).image (· ⊔ μ), groupAt ι S μ e := by
    unfold groupAt
    rw [← Finset.sum_fiberwise_of_maps_to (s := S.filter (fun j => j ⊔ μ' = e')) (t := (S.filter (fun j => j ⊔ μ' = e')).image (· ⊔ μ)) (g := (· ⊔ μ))]
    · apply Finset.sum_congr rfl
      intro e he
      apply Finset.sum_congr _ fun _ _ => rfl
      ext j
      simp only [Finset.mem_filter]
      constructor
      · rintro ⟨⟨h1, h2⟩, h3⟩; exact ⟨h1, h3⟩
      · rintro ⟨h1, h3⟩
        refine ⟨⟨h1, ?_⟩, h3⟩
        obtain ⟨k, hk, hke⟩ := Finset.mem_image.1 he
        rw [← (Finset.mem_filter.1 hk).2, ← sup_eq_right.2 hm, ← sup_assoc, ← sup_assoc, h3, hke]
    · intro j hj
      exact Finset.mem_image_of_mem _ hj
  rw [this]
  apply Finset.sum_eq_zero
  intro e he
  obtain ⟨k, hk, rfl⟩ := Finset.mem_image.1 he
  by_contra h0
  exact h0 (hc _ (by rw [sup_assoc, sup_eq_right.2 hm]; exact (Finset.mem_filter.1 hk).2))

omit [TimeOrd T] in
theorem groupAt_mem {ι : T → Γ} {S : Finset T} {μ e : T} (h : groupAt ι S μ e ≠ 0) : ∃ j ∈ S, j ⊔ μ = e := by
  by_contra hc
  push Not at hc
  exact h (Finset.sum_eq_zero fun j hj => absurd (Finset.mem_filter.1 hj).2 (hc j (Finset.mem_filter.1 hj).1))

/-- The visited times not later than `y`. -/
noncomputable def visUpTo (Vis : Finset T) (y : T) : Finset T := Vis.filter fun j => toLin j ≤ toLin y

/-- What the first phase achieves. `Vis` are the times visited, `perm` those of them that are never forgotten: the new times, and the joins found. `ι` are the updates at each time,
`μ` at most the meet of the times to come; `In` the times of interest. Of the times visited those at or beyond one that is never forgotten are corrected, by `c`, so that the
output is the function `F` of the updates. -/
structure TwoPhase (Vis : Finset T) (perm In : T → Prop) (ι : T → Γ) (μ : T → T) (c : T → Λ) (F : Γ → Λ) : Prop where
  down : ∀ p q, p ≤ q → In q → In p
  muLe : ∀ y ∈ Vis, ∀ z ∈ Vis, toLin y ≤ toLin z → μ y ≤ z
  muMono : ∀ y ∈ Vis, ∀ z ∈ Vis, toLin y ≤ toLin z → μ y ≤ μ z
  joinsInt : ∀ y ∈ Vis, (∃ s ∈ Vis, perm s ∧ s ≤ y) → ∀ e, groupAt ι (visUpTo Vis y) (μ y) e ≠ 0 → In (e ⊔ y) → ¬ e ≤ y → e ⊔ y ∈ Vis ∧ perm (e ⊔ y)
  joinsPerm : ∀ y ∈ Vis, ∀ s ∈ Vis, perm s → toLin s ≤ toLin y → In (s ⊔ y) → ¬ s ≤ y → s ⊔ y ∈ Vis ∧ perm (s ⊔ y)
  corrects : ∀ y ∈ Vis, In y → (∃ s ∈ Vis, perm s ∧ s ≤ y) → upToAt c Vis y = F (upToAt ι Vis y)
  others : ∀ y ∈ Vis, (¬ ∃ s ∈ Vis, perm s ∧ s ≤ y) → c y = 0

namespace TwoPhase
variable {Vis : Finset T} {perm In : T → Prop} {ι : T → Γ} {μ : T → T} {c : T → Λ} {F : Γ → Λ}

theorem right_aux (h : TwoPhase Vis perm In ι μ c F) (n : Nat) : ∀ q, (Vis.filter (· ≤ q)).card ≤ n → In q → (∃ s ∈ Vis, perm s ∧ s ≤ q) →
    upToAt c Vis q = F (upToAt ι Vis q) := by
  induction n with
  | zero =>
    rintro q hq - ⟨s, hs, -, hsq⟩
    exfalso
    have : s ∈ Vis.filter (· ≤ q) := Finset.mem_filter.2 ⟨hs, hsq⟩
    rw [Finset.card_eq_zero.1 (Nat.le_zero.1 hq)] at this
    simp at this
  | succ n ih =>
    rintro q hcard hq ⟨s0, hs0, hs0p, hs0q⟩
    obtain ⟨b, hbS, hbmax⟩ := Finset.exists_max_image (Vis.filter (· ≤ q)) toLin ⟨s0, Finset.mem_filter.2 ⟨hs0, hs0q⟩⟩
    obtain ⟨hb, hbq⟩ := Finset.mem_filter.1 hbS
    have late : ∀ x ∈ Vis, x ≤ q → toLin x ≤ toLin b := fun x hx hxq => hbmax x (Finset.mem_filter.2 ⟨hx, hxq⟩)
    obtain ⟨a, haS, hamin⟩ := Finset.exists_min_image (Vis.filter fun s => perm s ∧ s ≤ q) toLin ⟨s0, Finset.mem_filter.2 ⟨hs0, hs0p, hs0q⟩⟩
    obtain ⟨ha, hap, haq⟩ := Finset.mem_filter.1 haS
    have earliest : ∀ s ∈ Vis, perm s → s ≤ q → toLin a ≤ toLin s := fun s h1 h2 h3 => hamin s (Finset.mem_filter.2 ⟨h1, h2, h3⟩)
    -- what is never forgotten is at or before the last
    have permB : ∀ s ∈ Vis, perm s → s ≤ q → s ≤ b := by
      intro s h1 h2 h3
      by_contra hc
      have hle : s ⊔ b ≤ q := sup_le h3 hbq
      obtain ⟨h4, -⟩ := h.joinsPerm b hb s h1 h2 (late s h1 h3) (h.down _ _ hle hq) hc
      have h5 : toLin b = toLin (s ⊔ b) := le_antisymm (TimeOrd.mono le_sup_right) (late _ h4 hle)
      exact hc (le_sup_left.trans (toLin_inj.1 h5).ge)
    have intB : ∃ s ∈ Vis, perm s ∧ s ≤ b := ⟨a, ha, hap, permB a ha hap haq⟩
    have alive : ∀ y ∈ Vis, y ≤ q → (∃ s ∈ Vis, perm s ∧ s ≤ y) → ∀ e, groupAt ι (visUpTo Vis y) (μ y) e ≠ 0 → e ≤ q → e ≤ y ∨ e ⊔ y ≤ b := by
      intro y hy hyq hi e he heq
      by_contra hc
      push Not at hc
      have hle : e ⊔ y ≤ q := sup_le heq hyq
      obtain ⟨h4, h5⟩ := h.joinsInt y hy hi e he (h.down _ _ hle hq) hc.1
      exact hc.2 (permB _ h4 h5 hle)
    let Z : T → Prop := fun y => y ∈ Vis ∧ y ≤ q ∧ (∃ s ∈ Vis, perm s ∧ s ≤ y) ∧ ¬ y ≤ b
    have flat : ∀ y, Z y → ∀ e, groupAt ι (visUpTo Vis y) (μ y) e ≠ 0 → e ≤ q → e ≤ y := by
      rintro y ⟨h1, h2, h3, h4⟩ e he heq
      rcases alive y h1 h2 h3 e he heq with h5 | h5
      · exact h5
      · exact absurd (le_sup_right.trans h5) h4
    have low : ∀ y ∈ Vis, y ≤ b → (∃ s ∈ Vis, perm s ∧ s ≤ y) → ∀ e, groupAt ι (visUpTo Vis y) (μ y) e ≠ 0 → e ≤ q → e ≤ b := by
      intro y hy hyb hi e he heq
      rcases alive y hy (hyb.trans hbq) hi e he heq with h5 | h5
      · exact h5.trans hyb
      · exact le_sup_left.trans h5
    have permZ : ∀ y, Z y → ∀ s ∈ Vis, perm s → s ≤ q → toLin s ≤ toLin y → s ≤ y := by
      rintro y ⟨h1, h2, h3, h4⟩ s hs hsp hsq hl
      by_contra hc
      have hle : s ⊔ y ≤ q := sup_le hsq h2
      obtain ⟨h5, h6⟩ := h.joinsPerm y h1 s hs hsp hl (h.down _ _ hle hq) hc
      exact h4 (le_sup_right.trans (permB _ h5 h6 hle))
    have nonint : ∀ w ∈ Vis, w ≤ q → toLin a ≤ toLin w → (¬ ∃ s ∈ Vis, perm s ∧ s ≤ w) → a ⊔ w ∈ Vis ∧ perm (a ⊔ w) ∧ w ≤ b := by
      intro w hw hwq hl hn
      have hle : a ⊔ w ≤ q := sup_le haq hwq
      obtain ⟨h5, h6⟩ := h.joinsPerm w hw a ha hap hl (h.down _ _ hle hq) fun hc => hn ⟨a, ha, hap, hc⟩
      exact ⟨h5, h6, le_sup_right.trans (permB _ h5 h6 hle)⟩
    have whole : ∀ y ∈ Vis, ∀ p, (∀ x ∈ Vis, x ≤ p → toLin x ≤ toLin y) → upToAt ι (visUpTo Vis y) p = upToAt ι Vis p := by
      intro y _ p hx
      unfold upToAt visUpTo
      apply Finset.sum_congr _ fun _ _ => rfl
      ext j
      simp only [Finset.mem_filter]
      exact ⟨fun ⟨⟨h1, _⟩, h3⟩ => ⟨h1, h3⟩, fun ⟨h1, h3⟩ => ⟨⟨h1, hx j h1 h3⟩, h3⟩⟩
    have hmuB : μ b ≤ b := h.muLe b hb b hb (le_refl _)
    have hΨ : upToAt ι Vis q = upToAt ι Vis b := by
      rw [← whole b hb q late, ← whole b hb b fun x hx hxb => late x hx (hxb.trans hbq)]
      exact upToAt_congr ι _ (hmuB.trans hbq) hmuB fun e he => ⟨low b hb (le_refl _) intB e he, fun h => h.trans hbq⟩
    -- the corrections that are not at or before the last
    let ζ : T → T → Λ := fun y p => ∑ j ∈ Vis with Z j ∧ toLin j ≤ toLin y ∧ j ≤ p, c j
    have parts : ∀ y p, p ≤ q → (∀ x ∈ Vis, x ≤ p → toLin x ≤ toLin y) → upToAt c Vis p = upToAt c Vis (p ⊓ b) + ζ y p := by
      intro y p hp hx
      show (∑ j ∈ Vis with j ≤ p, c j) = (∑ j ∈ Vis with j ≤ p ⊓ b, c j) + ∑ j ∈ Vis with Z j ∧ toLin j ≤ toLin y ∧ j ≤ p, c j
      rw [Finset.sum_filter, Finset.sum_filter, Finset.sum_filter, ← Finset.sum_add_distrib]
      apply Finset.sum_congr rfl
      intro j hj
      by_cases h1 : j ≤ p
      · by_cases h2 : j ≤ b
        · rw [if_pos h1, if_pos (le_inf h1 h2), if_neg fun hc => hc.1.2.2.2 h2, add_zero]
        · rw [if_pos h1, if_neg fun hc => h2 (hc.trans inf_le_right), zero_add]
          by_cases h3 : ∃ s ∈ Vis, perm s ∧ s ≤ j
          · rw [if_pos ⟨⟨hj, h1.trans hp, h3, h2⟩, hx j hj h1, h1⟩]
          · rw [h.others j hj h3, ite_self]
      · rw [if_neg h1, if_neg fun hc => h1 (hc.trans inf_le_left), if_neg fun hc => h1 hc.2.2, add_zero]
    have key : ∀ (k : Nat) y, (visUpTo Vis y).card ≤ k → y ∈ Vis → y ≤ q → (∃ s ∈ Vis, perm s ∧ s ≤ y) → ∀ p, μ y ≤ p → p ≤ q →
        (∃ s ∈ Vis, perm s ∧ s ≤ p ∧ toLin s ≤ toLin y) → ζ y p = F (upToAt ι (visUpTo Vis y) p) - F (upToAt ι (visUpTo Vis y) (p ⊓ b)) := by
      intro k
      induction k with
      | zero =>
        intro y hk hy
        exfalso
        have : y ∈ visUpTo Vis y := Finset.mem_filter.2 ⟨hy, le_refl _⟩
        rw [Finset.card_eq_zero.1 (Nat.le_zero.1 hk)] at this
        simp at this
      | succ k ihk =>
        rintro y hk hy hyq hi p hmp hpq ⟨s, hs, hsp, hsle, hsl⟩
        have hmb : μ y ≤ b := h.muLe y hy b hb (late y hy hyq)
        have prev : ∀ x ∈ Vis, x ≤ q → (∃ s ∈ Vis, perm s ∧ s ≤ x) → toLin x < toLin y → ∃ y' ∈ Vis, y' ≤ q ∧ (∃ s ∈ Vis, perm s ∧ s ≤ y') ∧ toLin y' < toLin y ∧
            ∀ x ∈ Vis, x ≤ q → (∃ s ∈ Vis, perm s ∧ s ≤ x) → toLin x < toLin y → toLin x ≤ toLin y' := by
          intro x h1 h2 h3 h4
          obtain ⟨y', hy', hmax⟩ := Finset.exists_max_image (Vis.filter fun x => x ≤ q ∧ (∃ s ∈ Vis, perm s ∧ s ≤ x) ∧ toLin x < toLin y) toLin
            ⟨x, Finset.mem_filter.2 ⟨h1, h2, h3, h4⟩⟩
          obtain ⟨h5, h6, h7, h8⟩ := Finset.mem_filter.1 hy'
          exact ⟨y', h5, h6, h7, h8, fun x h1 h2 h3 h4 => hmax x (Finset.mem_filter.2 ⟨h1, h2, h3, h4⟩)⟩
        have less : ∀ y' ∈ Vis, toLin y' < toLin y → (visUpTo Vis y').card ≤ k := by
          intro y' _ hl
          have : (visUpTo Vis y').card < (visUpTo Vis y).card := by
            apply Finset.card_lt_card
            refine ⟨fun j hj => ?_, fun hc => ?_⟩
            · exact Finset.mem_filter.2 ⟨(Finset.mem_filter.1 hj).1, (Finset.mem_filter.1 hj).2.trans hl.le⟩
            · exact absurd (Finset.mem_filter.1 (hc (Finset.mem_filter.2 ⟨hy, le_refl _⟩))).2 (not_le.2 hl)
          omega
        -- the times between two visits
        have splits : ∀ y' ∈ Vis, toLin y' < toLin y → ∀ (pr : T → Prop), (∑ j ∈ visUpTo Vis y with pr j, ι j) =
            (∑ j ∈ visUpTo Vis y' with pr j, ι j) + (∑ j ∈ Vis.filter (fun j => toLin y' < toLin j ∧ toLin j < toLin y) with pr j, ι j) + if pr y then ι y else 0 := by
          intro y' _ hl pr
          have : visUpTo Vis y = insert y (visUpTo Vis y' ∪ Vis.filter (fun j => toLin y' < toLin j ∧ toLin j < toLin y)) := by
            ext j
            simp only [visUpTo, Finset.mem_filter, Finset.mem_insert, Finset.mem_union]
            constructor
            · rintro ⟨h1, h2⟩
              rcases h2.eq_or_lt with h3 | h3
              · exact Or.inl (toLin_inj.1 h3)
              · rcases le_or_gt (toLin j) (toLin y') with h4 | h4
                · exact Or.inr (Or.inl ⟨h1, h4⟩)
                · exact Or.inr (Or.inr ⟨h1, h4, h3⟩)
            · rintro (rfl | ⟨h1, h2⟩ | ⟨h1, h2, h3⟩)
              · exact ⟨hy, le_refl _⟩
              · exact ⟨h1, h2.trans hl.le⟩
              · exact ⟨h1, h3.le⟩
          have hd : Disjoint (visUpTo Vis y') (Vis.filter (fun j => toLin y' < toLin j ∧ toLin j < toLin y)) := by
            rw [Finset.disjoint_left]
            intro j hj hj'
            exact absurd (Finset.mem_filter.1 hj).2 (not_le.2 (Finset.mem_filter.1 hj').2.1)
          have hn : y ∉ visUpTo Vis y' ∪ Vis.filter (fun j => toLin y' < toLin j ∧ toLin j < toLin y) := by
            rw [Finset.mem_union]
            rintro (hj | hj)
            · exact absurd (Finset.mem_filter.1 hj).2 (not_le.2 hl)
            · exact absurd (Finset.mem_filter.1 hj).2.2 (lt_irrefl _)
          rw [Finset.sum_filter, this, Finset.sum_insert hn, Finset.sum_union hd, ← Finset.sum_filter, ← Finset.sum_filter, add_comm]
        by_cases hyb : y ≤ b
        · -- everything that is left is at or before the last
          have hlow : ∀ p, μ y ≤ p → p ≤ q → upToAt ι (visUpTo Vis y) p = upToAt ι (visUpTo Vis y) (p ⊓ b) := fun p h1 h2 =>
            upToAt_congr ι _ h1 (le_inf h1 hmb) fun e he => ⟨fun h3 => le_inf h3 (low y hy hyb hi e he (h3.trans h2)), fun h3 => h3.trans inf_le_left⟩
          rw [← hlow p hmp hpq, sub_self]
          by_cases hz : ∃ z, Z z ∧ toLin z ≤ toLin y ∧ z ≤ p
          · obtain ⟨z, hz, hzy, hzp⟩ := hz
            have hzy' : toLin z < toLin y := lt_of_le_of_ne hzy fun hc => hz.2.2.2 ((toLin_inj.1 hc) ▸ hyb)
            obtain ⟨y', h1, h2, h3, h4, h5⟩ := prev z hz.1 hz.2.1 hz.2.2.1 hzy'
            obtain ⟨s', hs', hsp', hsz'⟩ := hz.2.2.1
            have hk' := ihk y' (less y' h1 h4) h1 h2 h3 p ((h.muMono y' h1 y hy h4.le).trans hmp) hpq
              ⟨s', hs', hsp', hsz'.trans hzp, (TimeOrd.mono hsz').trans (h5 z hz.1 hz.2.1 hz.2.2.1 hzy')⟩
            have hζ : ζ y p = ζ y' p := by
              show (∑ j ∈ Vis with _, c j) = ∑ j ∈ Vis with _, c j
              apply Finset.sum_congr _ fun _ _ => rfl
              ext j
              simp only [Finset.mem_filter]
              constructor
              · rintro ⟨g1, g2, g3, g4⟩
                exact ⟨g1, g2, h5 j g1 g2.2.1 g2.2.2.1 (lt_of_le_of_ne g3 fun hc => g2.2.2.2 ((toLin_inj.1 hc) ▸ hyb)), g4⟩
              · rintro ⟨g1, g2, g3, g4⟩
                exact ⟨g1, g2, g3.trans h4.le, g4⟩
            rw [hζ, hk', sub_eq_zero]
            congr 1
            have e1 := splits y' h1 h4 (· ≤ p)
            have e2 := splits y' h1 h4 (· ≤ p ⊓ b)
            have e3 : (∑ j ∈ Vis.filter (fun j => toLin y' < toLin j ∧ toLin j < toLin y) with j ≤ p, ι j) =
                ∑ j ∈ Vis.filter (fun j => toLin y' < toLin j ∧ toLin j < toLin y) with j ≤ p ⊓ b, ι j := by
              apply Finset.sum_congr _ fun _ _ => rfl
              ext j
              simp only [Finset.mem_filter]
              constructor
              · rintro ⟨⟨g1, g2, g3⟩, g4⟩
                refine ⟨⟨g1, g2, g3⟩, le_inf g4 ?_⟩
                refine (nonint j g1 (g4.trans hpq) ?_ fun hc => ?_).2.2
                · obtain ⟨s3, hs3, hsp3, hsy3⟩ := h3
                  exact (earliest s3 hs3 hsp3 (hsy3.trans h2)).trans ((TimeOrd.mono hsy3).trans g2.le)
                · exact absurd (h5 j g1 (g4.trans hpq) hc g3) (not_le.2 g2)
              · rintro ⟨⟨g1, g2, g3⟩, g4⟩
                exact ⟨⟨g1, g2, g3⟩, g4.trans inf_le_left⟩
            have e4 := hlow p hmp hpq
            unfold upToAt at e4 ⊢
            rw [e1, e2, e3] at e4
            have e5 : (if y ≤ p then ι y else 0) = if y ≤ p ⊓ b then ι y else 0 := by
              congr 1
              exact propext ⟨fun g => le_inf g hyb, fun g => g.trans inf_le_left⟩
            rw [e5] at e4
            exact add_right_cancel (add_right_cancel e4)
          · apply Finset.sum_eq_zero
            intro j hj
            obtain ⟨-, g2, g3, g4⟩ := Finset.mem_filter.1 hj
            exact absurd ⟨j, g2, g3, g4⟩ hz
        · have hZ : Z y := ⟨hy, hyq, hi, hyb⟩
          obtain ⟨s1, hs1, hsp1, hsy1⟩ := hi
          have hs1b := permB s1 hs1 hsp1 (hsy1.trans hyq)
          have hs1y : toLin s1 < toLin y := lt_of_le_of_ne (TimeOrd.mono hsy1) fun hc => hyb ((toLin_inj.1 hc) ▸ hs1b)
          obtain ⟨y', h1, h2, h3, h4, h5⟩ := prev s1 hs1 (hsy1.trans hyq) ⟨s1, hs1, hsp1, le_refl _⟩ hs1y
          have hmm : μ y' ≤ μ y := h.muMono y' h1 y hy h4.le
          have hay' : toLin a ≤ toLin y' := by
            obtain ⟨s3, hs3, hsp3, hsy3⟩ := h3
            exact (earliest s3 hs3 hsp3 (hsy3.trans h2)).trans (TimeOrd.mono hsy3)
          have hay : a ≤ y := permZ y hZ a ha hap haq (hay'.trans h4.le)
          set Ws := Vis.filter (fun j => toLin y' < toLin j ∧ toLin j < toLin y) with hWs
          have wInfo : ∀ w ∈ Ws, w ≤ q → a ⊔ w ∈ Vis ∧ perm (a ⊔ w) ∧ w ≤ b ∧ ¬ w ≤ y := by
            intro w hw hwq
            obtain ⟨g1, g2, g3⟩ := Finset.mem_filter.1 hw
            obtain ⟨k1, k2, k3⟩ := nonint w g1 hwq (hay'.trans g2.le) fun hc => absurd (h5 w g1 hwq hc g3) (not_le.2 g2)
            refine ⟨k1, k2, k3, fun hc => ?_⟩
            have hle : a ⊔ w ≤ y := sup_le hay hc
            have hlt : toLin (a ⊔ w) < toLin y := lt_of_le_of_ne (TimeOrd.mono hle) fun hc' =>
              hyb ((toLin_inj.1 hc') ▸ permB _ k1 k2 (hle.trans hyq))
            have := h5 (a ⊔ w) k1 (hle.trans hyq) ⟨_, k1, k2, le_refl _⟩ hlt
            exact absurd (lt_of_lt_of_le g2 (TimeOrd.mono (le_sup_right (a := a)))) (not_lt.2 this)
          have hWb : ∀ p, p ≤ q → upToAt ι Ws (p ⊓ b) = upToAt ι Ws p := by
            intro p hp
            apply Finset.sum_congr _ fun _ _ => rfl
            ext j
            simp only [Finset.mem_filter]
            exact ⟨fun ⟨g1, g2⟩ => ⟨g1, g2.trans inf_le_left⟩, fun ⟨g1, g2⟩ => ⟨g1, le_inf g2 (wInfo j g1 (g2.trans hp)).2.2.1⟩⟩
          have hsplit : ∀ p, upToAt ι (visUpTo Vis y) p = upToAt ι (visUpTo Vis y') p + upToAt ι Ws p + if y ≤ p then ι y else 0 := fun p => splits y' h1 h4 (· ≤ p)
          have hgroup : ∀ e, groupAt ι (visUpTo Vis y) (μ y) e = groupAt ι (visUpTo Vis y') (μ y) e + groupAt ι Ws (μ y) e + if y ⊔ μ y = e then ι y else 0 :=
            fun e => splits y' h1 h4 (· ⊔ μ y = e)
          have hmy : μ y ≤ y := h.muLe y hy y hy (le_refl _)
          have hflat : ∀ p p', μ y ≤ p → μ y ≤ p' → p' ≤ p → p ≤ q → (p ⊓ y ≤ p') → upToAt ι (visUpTo Vis y) p = upToAt ι (visUpTo Vis y) p' := fun p p' g1 g2 g3 g4 g5 =>
            upToAt_congr ι _ g1 g2 fun e he => ⟨fun g => (le_inf g (flat y hZ e he (g.trans g4))).trans g5, fun g => g.trans g3⟩
          have dich : (∀ p, μ y ≤ p → p ≤ q → upToAt ι (visUpTo Vis y') p = upToAt ι (visUpTo Vis y') (p ⊓ b)) ∨ ∀ p, μ y ≤ p → p ≤ q → upToAt ι Ws p = 0 := by
            by_cases hD1 : ∀ p, μ y ≤ p → p ≤ q → upToAt ι (visUpTo Vis y') p = upToAt ι (visUpTo Vis y') (p ⊓ b)
            · exact Or.inl hD1
            refine Or.inr fun p2 hp2 hp2q => ?_
            by_contra hW
            push Not at hD1
            obtain ⟨p1, hp1, hp1q, hne⟩ := hD1
            -- something old that is not at or before the last
            obtain ⟨e2, he2, he2p, he2b⟩ := upToAt_ne ι _ hp1 (le_inf hp1 hmb) inf_le_left hne
            replace he2b : ¬ e2 ≤ b := fun hc => he2b (le_inf he2p hc)
            have he2q := he2p.trans hp1q
            -- something new between the two visits
            rw [upToAt_groups ι Ws hp2] at hW
            obtain ⟨e, hem, hβ⟩ := Finset.exists_ne_zero_of_sum_ne_zero hW
            have heq := (Finset.mem_filter.1 hem).2.trans hp2q
            obtain ⟨w, hw, hwe⟩ := groupAt_mem hβ
            have hwq : w ≤ q := le_sup_left.trans (hwe.le.trans heq)
            obtain ⟨-, -, hwb, hwy⟩ := wInfo w hw hwq
            have heb : e ≤ b := hwe ▸ sup_le hwb hmb
            have hey : ¬ e ≤ y := fun hc => hwy (le_sup_left.trans (hwe.le.trans hc))
            have hyy : y ⊔ μ y = y := sup_eq_left.2 hmy
            have he2y : e2 ≤ y := by
              by_cases hc : y = e2
              · exact hc.ge
              · apply flat y hZ e2 _ he2q
                rw [hgroup e2, hyy, if_neg hc, add_zero]
                have hβ2 : groupAt ι Ws (μ y) e2 = 0 := by
                  by_contra hb2
                  obtain ⟨w2, hw2, hwe2⟩ := groupAt_mem hb2
                  exact he2b (hwe2 ▸ sup_le (wInfo w2 hw2 (le_sup_left.trans (hwe2.le.trans he2q))).2.2.1 hmb)
                rw [hβ2, add_zero]
                exact he2
            have hα : groupAt ι (visUpTo Vis y') (μ y) e ≠ 0 := by
              intro hα
              apply hey
              apply flat y hZ e _ heq
              rw [hgroup e, hα, zero_add, hyy, if_neg fun hc => hyb (hc.trans_le heb), add_zero]
              exact hβ
            -- nothing of the group of `e2` is due to times at or before the last
            have late2 : ∀ u ∈ Vis, u ≤ b → (∃ s ∈ Vis, perm s ∧ s ≤ u) → toLin u ≤ toLin y' → groupAt ι (visUpTo Vis u) (μ y) e2 = 0 := by
              intro u hu hub hiu hul
              by_contra hc
              obtain ⟨e3, he3, hg3⟩ := groupAt_coarse ι _ (h.muMono u hu y hy (hul.trans h4.le)) hc
              have := low u hu hub hiu e3 hg3 (le_sup_left.trans (he3.le.trans he2q))
              exact he2b (he3 ▸ sup_le this hmb)
            have hZ' : Z y' := by
              refine ⟨h1, h2, h3, fun hc => he2 (late2 y' h1 hc h3 (le_refl _))⟩
            obtain ⟨j0, hj0, hj0e⟩ := groupAt_mem he2
            obtain ⟨k2, hk2m, hk2max⟩ := Finset.exists_max_image ((visUpTo Vis y').filter fun j => j ⊔ μ y = e2) toLin ⟨j0, Finset.mem_filter.2 ⟨hj0, hj0e⟩⟩
            obtain ⟨hk2', hk2e⟩ := Finset.mem_filter.1 hk2m
            obtain ⟨hk2, hk2l⟩ := Finset.mem_filter.1 hk2'
            have after : ∀ u ∈ Vis, u ≤ b → (∃ s ∈ Vis, perm s ∧ s ≤ u) → toLin u ≤ toLin y' → toLin u < toLin k2 := by
              intro u hu hub hiu hul
              by_contra hc
              apply he2
              rw [← late2 u hu hub hiu hul]
              apply Finset.sum_congr _ fun _ _ => rfl
              ext j
              simp only [Finset.mem_filter, visUpTo]
              constructor
              · rintro ⟨⟨g1, g2⟩, g3⟩
                exact ⟨⟨g1, (hk2max j (Finset.mem_filter.2 ⟨Finset.mem_filter.2 ⟨g1, g2⟩, g3⟩)).trans (not_lt.1 hc)⟩, g3⟩
              · rintro ⟨⟨g1, g2⟩, g3⟩
                exact ⟨⟨g1, g2.trans hul⟩, g3⟩
            have hk2q : k2 ≤ q := le_sup_left.trans (hk2e.le.trans he2q)
            have hk2b : ¬ k2 ≤ b := fun hc => he2b (hk2e ▸ sup_le hc hmb)
            have hZ2 : Z k2 := by
              refine ⟨hk2, hk2q, ?_, hk2b⟩
              by_contra hc
              exact hk2b (nonint k2 hk2 hk2q (after a ha (permB a ha hap haq) ⟨a, ha, hap, le_refl _⟩ hay').le hc).2.2
            -- a part of the group of `e` is at or before `k2`
            obtain ⟨e', he', hg'⟩ := groupAt_coarse ι _ hmm hα
            have he'e : e' ≤ e := le_sup_left.trans he'.le
            have he'y : e' ≤ y' := flat y' hZ' e' hg' (he'e.trans heq)
            have hay2 : a ≤ y' := permZ y' hZ' a ha hap haq hay'
            have mem2 : ∀ j ∈ visUpTo Vis y', j ⊔ μ y' = e' → toLin j ≤ toLin k2 := by
              intro j hj hje
              obtain ⟨g1, g2⟩ := Finset.mem_filter.1 hj
              by_contra hc
              push Not at hc
              have hje' : j ≤ e' := le_sup_left.trans hje.le
              by_cases hij : ∃ s ∈ Vis, perm s ∧ s ≤ j
              · exact absurd (after j g1 ((hje'.trans he'e).trans heb) hij g2) (not_lt.2 hc.le)
              · have haj : toLin a ≤ toLin j := ((after a ha (permB a ha hap haq) ⟨a, ha, hap, le_refl _⟩ hay').trans hc).le
                obtain ⟨g3, g4, g5⟩ := nonint j g1 ((hje'.trans he'e).trans heq) haj hij
                have g6 : a ⊔ j ≤ y' := sup_le hay2 (hje'.trans he'y)
                have g7 := after (a ⊔ j) g3 (permB _ g3 g4 (g6.trans h2)) ⟨_, g3, g4, le_refl _⟩ (TimeOrd.mono g6)
                exact absurd (hc.trans_le (TimeOrd.mono (le_sup_right (a := a)))) (not_lt.2 g7.le)
            have hg2 : groupAt ι (visUpTo Vis k2) (μ y') e' ≠ 0 := by
              intro hc
              apply hg'
              rw [← hc]
              apply Finset.sum_congr _ fun _ _ => rfl
              ext j
              simp only [Finset.mem_filter, visUpTo]
              constructor
              · rintro ⟨⟨g1, g2⟩, g3⟩
                exact ⟨⟨g1, mem2 j (Finset.mem_filter.2 ⟨g1, g2⟩) g3⟩, g3⟩
              · rintro ⟨⟨g1, g2⟩, g3⟩
                exact ⟨⟨g1, g2.trans hk2l⟩, g3⟩
            obtain ⟨e'', he'', hg''⟩ := groupAt_coarse ι _ (h.muMono k2 hk2 y' h1 hk2l) hg2
            have he''k : e'' ≤ k2 := flat k2 hZ2 e'' hg'' ((le_sup_left.trans he''.le).trans (he'e.trans heq))
            apply hey
            calc e = e'' ⊔ μ y' ⊔ μ y := by rw [he'', he']
              _ = e'' ⊔ μ y := by rw [sup_assoc, sup_eq_right.2 hmm]
              _ ≤ k2 ⊔ μ y := sup_le_sup_right he''k _
              _ = e2 := hk2e
              _ ≤ y := he2y
          have hold : ∀ p, μ y ≤ p → p ≤ q → (∃ s ∈ Vis, perm s ∧ s ≤ p ∧ toLin s ≤ toLin y') →
              ζ y' p = F (upToAt ι (visUpTo Vis y') p) - F (upToAt ι (visUpTo Vis y') (p ⊓ b)) := fun p g1 g2 g3 =>
            ihk y' (less y' h1 h4) h1 h2 h3 p (hmm.trans g1) g2 g3
          by_cases hyp : y ≤ p
          · have hζy : ζ y y = F (upToAt ι (visUpTo Vis y) y) - F (upToAt ι (visUpTo Vis y) (y ⊓ b)) := by
              have hyl : ∀ x ∈ Vis, x ≤ y → toLin x ≤ toLin y := fun x _ hx => TimeOrd.mono hx
              have hyl' : ∀ x ∈ Vis, x ≤ y ⊓ b → toLin x ≤ toLin y := fun x _ hx => TimeOrd.mono (hx.trans inf_le_left)
              have e1 := parts y y hyq hyl
              rw [h.corrects y hy (h.down _ _ hyq hq) ⟨s1, hs1, hsp1, hsy1⟩, ih (y ⊓ b) ?_ (h.down _ _ (inf_le_left.trans hyq) hq)
                ⟨a, ha, hap, le_inf hay (permB a ha hap haq)⟩, ← whole y hy y hyl, ← whole y hy (y ⊓ b) hyl'] at e1
              · rw [e1, add_sub_cancel_left]
              · have : (Vis.filter (· ≤ y ⊓ b)).card < (Vis.filter (· ≤ q)).card := by
                  apply Finset.card_lt_card
                  refine ⟨fun j hj => ?_, fun hc => ?_⟩
                  · exact Finset.mem_filter.2 ⟨(Finset.mem_filter.1 hj).1, (Finset.mem_filter.1 hj).2.trans (inf_le_left.trans hyq)⟩
                  · have hby := (Finset.mem_filter.1 (hc hbS)).2.trans inf_le_left
                    have : toLin b = toLin y := le_antisymm (TimeOrd.mono hby) (late y hy hyq)
                    exact hyb (toLin_inj.1 this).ge
                omega
            have hone : ∀ p, y ≤ p → ζ y p = ζ y' p + c y := by
              intro p hyp
              show (∑ j ∈ Vis with Z j ∧ toLin j ≤ toLin y ∧ j ≤ p, c j) = (∑ j ∈ Vis with Z j ∧ toLin j ≤ toLin y' ∧ j ≤ p, c j) + c y
              rw [add_comm, ← Finset.sum_insert fun hc => absurd (Finset.mem_filter.1 hc).2.2.1 (not_le.2 h4)]
              apply Finset.sum_congr _ fun _ _ => rfl
              ext j
              simp only [Finset.mem_filter, Finset.mem_insert]
              constructor
              · rintro ⟨g1, g2, g3, g4⟩
                rcases g3.eq_or_lt with g5 | g5
                · exact Or.inl (toLin_inj.1 g5)
                · exact Or.inr ⟨g1, g2, h5 j g1 g2.2.1 g2.2.2.1 g5, g4⟩
              · rintro (rfl | ⟨g1, g2, g3, g4⟩)
                · exact ⟨hy, hZ, le_refl _, hyp⟩
                · exact ⟨g1, g2, g3.trans h4.le, g4⟩
            have hdiff : ζ y p - ζ y y = ζ y' p - ζ y' y := by
              rw [hone p hyp, hone y (le_refl _), add_sub_add_right_eq_sub]
            have hsame : ζ y' p = ζ y' y := by
              have hp' : ∃ s ∈ Vis, perm s ∧ s ≤ y ∧ toLin s ≤ toLin y' := ⟨a, ha, hap, hay, hay'⟩
              rw [hold p hmp hpq ⟨a, ha, hap, hay.trans hyp, hay'⟩, hold y hmy hyq hp']
              rcases dich with hd | hd
              · rw [← hd p hmp hpq, ← hd y hmy hyq, sub_self, sub_self]
              · have e1 := hflat p y hmp hmy hyp hpq inf_le_right
                rw [hsplit p, hsplit y, hd p hmp hpq, hd y hmy hyq, if_pos hyp, if_pos (le_refl _), add_zero, add_zero] at e1
                have e2 := hflat (p ⊓ b) (y ⊓ b) (le_inf hmp hmb) (le_inf hmy hmb) (inf_le_inf_right b hyp) (inf_le_left.trans hpq)
                  (le_inf inf_le_right (inf_le_left.trans inf_le_right))
                rw [hsplit (p ⊓ b), hsplit (y ⊓ b), hWb p hpq, hWb y hyq, hd p hmp hpq, hd y hmy hyq, if_neg fun hc => hyb (hc.trans inf_le_right),
                  if_neg fun hc => hyb (hc.trans inf_le_right), add_zero, add_zero, add_zero, add_zero] at e2
                rw [add_right_cancel e1, e2]
            have : ζ y p = ζ y y := sub_eq_zero.1 (by rw [hdiff, hsame, sub_self])
            rw [this, hζy, hflat p y hmp hmy hyp hpq inf_le_right, hflat (p ⊓ b) (y ⊓ b) (le_inf hmp hmb) (le_inf hmy hmb) (inf_le_inf_right b hyp)
              (inf_le_left.trans hpq) (le_inf inf_le_right (inf_le_left.trans inf_le_right))]
          · have hζ : ζ y p = ζ y' p := by
              apply Finset.sum_congr _ fun _ _ => rfl
              ext j
              simp only [Finset.mem_filter]
              constructor
              · rintro ⟨g1, g2, g3, g4⟩
                exact ⟨g1, g2, h5 j g1 g2.2.1 g2.2.2.1 (lt_of_le_of_ne g3 fun hc => hyp ((toLin_inj.1 hc) ▸ g4)), g4⟩
              · rintro ⟨g1, g2, g3, g4⟩
                exact ⟨g1, g2, g3.trans h4.le, g4⟩
            have hsy' : toLin s ≤ toLin y' := by
              refine h5 s hs (hsle.trans hpq) ⟨s, hs, hsp, le_refl _⟩ (lt_of_le_of_ne hsl fun hc => hyp ((toLin_inj.1 hc) ▸ hsle))
            rw [hζ, hold p hmp hpq ⟨s, hs, hsp, hsle, hsy'⟩, hsplit p, hsplit (p ⊓ b), hWb p hpq, if_neg hyp, if_neg fun hc => hyp (hc.trans inf_le_left), add_zero, add_zero]
            rcases dich with hd | hd
            · rw [← hd p hmp hpq, sub_self, sub_self]
            · rw [hd p hmp hpq, add_zero, add_zero]
    have hζ : ζ b q = 0 := by
      rw [key _ b (le_refl _) hb hbq intB q (hmuB.trans hbq) (le_refl _) ⟨a, ha, hap, haq, late a ha haq⟩, inf_eq_right.2 hbq, whole b hb q late,
        whole b hb b fun x hx hxb => late x hx (hxb.trans hbq), hΨ, sub_self]
    rw [hΨ, ← h.corrects b hb (h.down _ _ hbq hq) intB]
    unfold upToAt
    have hsplit := parts b q (le_refl _) late
    rw [inf_eq_right.2 hbq, hζ, add_zero] at hsplit
    exact hsplit

/-- The output is right at every time of interest, whether it was visited or not. -/
theorem right (h : TwoPhase Vis perm In ι μ c F) {q : T} (hq : In q) (hs : ∃ s ∈ Vis, perm s ∧ s ≤ q) : upToAt c Vis q = F (upToAt ι Vis q) :=
  right_aux h _ q (le_refl _) hq hs

end TwoPhase

end

end DD
