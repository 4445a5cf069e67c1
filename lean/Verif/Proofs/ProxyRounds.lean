import Verif.Proofs.ProxyKey
import Verif.Proofs.ReduceOp

/-!
# The proxy reduce: the rounds over the moments of all keys of a window
-/

set_option linter.unusedSectionVars false

namespace DD

theorem endsFrom_eq {A : Type*} (ls : List (List A)) (n : Nat) : endsFrom n ls = (List.range ls.length).map fun i => n + (ls.take (i + 1)).flatten.length := by
  induction ls generalizing n with
  | nil => rfl
  | cons l ls ih =>
    rw [endsFrom, ih, List.length_cons, List.range_succ_eq_map, List.map_cons, List.map_map]
    simp [Function.comp_def, Nat.add_assoc]

theorem endsFrom_zero {A : Type*} (ls : List (List A)) : endsFrom 0 ls = pieceEnds ls := by
  rw [endsFrom_eq]
  simp [pieceEnds]

theorem modify_flatten_perm {α : Type*} (tiles : List (List α)) (idx : Nat) (new : List α) (h : idx < tiles.length) :
    (tiles.modify idx fun d => d ++ new).flatten.Perm (tiles.flatten ++ new) := by
  induction tiles generalizing idx with
  | nil => simp at h
  | cons t tiles ih =>
    cases idx with
    | zero =>
      simp only [List.modify_zero_cons, List.flatten_cons, List.append_assoc]
      exact List.Perm.append_left _ List.perm_append_comm
    | succ idx =>
      simp only [List.modify_succ_cons, List.flatten_cons, List.append_assoc]
      exact List.Perm.append_left _ (ih idx (by simpa using h))

section
variable {T R1 R2 : Type*} [Lattice T] [DecidableLE T] [DecidableEq T] [TimeOrd T] [AddCommMonoid R1] [DecidableEq R1] [AddCommMonoid R2] [DecidableEq R2]

/-- The states after the corrections have been distributed, each with what it got. -/
def contrib : List (ProxyKeyState T R1 R2 × Option (Crossing T R1 R2)) → List (List (Nat × R2)) → List (ProxyKeyState T R1 R2 × Upds Nat T R2)
  | [], _ => []
  | (st, none) :: rest, pieces => (st, []) :: contrib rest pieces
  | (_, some _) :: _, [] => []
  | (st, some x) :: rest, p :: pieces => ({ st with produced := st.produced ++ p.map fun c => (c.1, x.1, c.2) }, p.map fun c => (c.1, x.1, c.2)) :: contrib rest pieces

/-- The updates of a key, with the key. -/
def withKey (x : ProxyKeyState T R1 R2 × Upds Nat T R2) : Upds (Nat × Nat) T R2 := x.2.map fun u => ((x.1.key, u.1), u.2)

/-- The keys and accumulations of a crossing. -/
def crossingOf (ps : List (ProxyKeyState T R1 R2 × Option (Crossing T R1 R2))) : List (Nat × Crossing T R1 R2) := ps.filterMap fun p => p.2.map fun c => (p.1.key, c)

theorem contrib_keys (ps : List (ProxyKeyState T R1 R2 × Option (Crossing T R1 R2))) (pieces : List (List (Nat × R2))) (hl : (crossingOf ps).length = pieces.length) :
    (contrib ps pieces).map (fun x => x.1.key) = ps.map (fun p => p.1.key) ∧ (contrib ps pieces).map (fun x => x.1.moments) = ps.map (fun p => p.1.moments) := by
  induction ps generalizing pieces with
  | nil => exact ⟨rfl, rfl⟩
  | cons p ps ih =>
    obtain ⟨st, c⟩ := p
    cases c with
    | none =>
      obtain ⟨h1, h2⟩ := ih pieces (by simpa [crossingOf] using hl)
      simp [contrib, h1, h2]
    | some x =>
      cases pieces with
      | nil => simp [crossingOf] at hl
      | cons q pieces =>
        obtain ⟨h1, h2⟩ := ih pieces (by simpa [crossingOf] using hl)
        simp [contrib, h1, h2]

theorem scatter_spec (held : List T) (ps : List (ProxyKeyState T R1 R2 × Option (Crossing T R1 R2))) :
    ∀ (pre : List (Nat × R2)) (pieces : List (List (Nat × R2))) (corr : List (Nat × R2)) (tiles : List (Upds (Nat × Nat) T R2)),
      corr = pre ++ pieces.flatten → (crossingOf ps).length = pieces.length → tiles.length = held.length →
      (∀ a ∈ crossingOf ps, Beyond held a.2.1) → (∀ j us, tiles[j]? = some us → ∀ u ∈ us, outputIndex held u.2.1 = some j) →
      ∃ tiles', scatter held corr ps (endsFrom pre.length pieces) pre.length tiles = some ((contrib ps pieces).map (·.1), tiles') ∧ tiles'.length = held.length ∧
        (∀ j us, tiles'[j]? = some us → ∀ u ∈ us, outputIndex held u.2.1 = some j) ∧ tiles'.flatten.Perm (tiles.flatten ++ (contrib ps pieces).flatMap withKey) := by
  induction ps with
  | nil =>
    intro pre pieces corr tiles _ _ hlen _ hf
    exact ⟨tiles, rfl, hlen, hf, by simp [contrib]⟩
  | cons p ps ih =>
    intro pre pieces corr tiles hc hl hlen hb hf
    obtain ⟨st, c⟩ := p
    cases c with
    | none =>
      obtain ⟨tiles', h1, h2, h3, h4⟩ := ih pre pieces corr tiles hc (by simpa [crossingOf] using hl) hlen (fun a ha => hb a (by simpa [crossingOf] using ha)) hf
      refine ⟨tiles', ?_, h2, h3, ?_⟩
      · rw [scatter, h1]; rfl
      · simpa [contrib, withKey] using h4
    | some x =>
      cases pieces with
      | nil => simp [crossingOf] at hl
      | cons q pieces =>
        have hl' : (crossingOf ps).length = pieces.length := by simpa [crossingOf] using hl
        have hb' : ∀ a ∈ crossingOf ps, Beyond held a.2.1 := fun a ha => hb a (by
          unfold crossingOf at ha ⊢
          rw [List.filterMap_cons_some (by rfl)]
          exact List.mem_cons_of_mem _ ha)
        have hx : Beyond held x.1 := hb (st.key, x) (by simp [crossingOf])
        have hc' : corr = (pre ++ q) ++ pieces.flatten := by rw [hc]; simp
        obtain ⟨t, ia, oa⟩ := x
        have hends : endsFrom pre.length (q :: pieces) = (pre ++ q).length :: endsFrom (pre ++ q).length pieces := by simp [endsFrom]
        rw [hends, scatter]
        by_cases hq : q = []
        · subst hq
          obtain ⟨tiles', h1, h2, h3, h4⟩ := ih (pre ++ []) pieces corr tiles hc' hl' hlen hb' hf
          refine ⟨tiles', ?_, h2, h3, ?_⟩
          · rw [if_pos (by simp), h1]
            simp [contrib]
          · simpa [contrib, withKey] using h4
        · have hne : pre.length ≠ (pre ++ q).length := by
            have := List.length_pos_iff.2 hq
            simp; omega
          obtain ⟨idx, hidx⟩ : ∃ idx, outputIndex held t = some idx := by
            cases ho : outputIndex held t with
            | none => exact absurd hx (outputIndex_eq_none.1 ho)
            | some idx => exact ⟨idx, rfl⟩
          have hlt := outputIndex_lt hidx
          have hpiece : (corr.take (pre ++ q).length).drop pre.length = q := by
            rw [hc', List.take_left' rfl, List.drop_left' rfl]
          rw [if_neg hne, hidx]
          simp only
          rw [if_pos ⟨by simp, by rw [hc']; simp⟩, hpiece]
          have hf' : ∀ j us, (tiles.modify idx fun d => d ++ q.map fun c => ((st.key, c.1), t, c.2))[j]? = some us → ∀ u ∈ us, outputIndex held u.2.1 = some j := by
            intro j us hj u hu
            rw [List.getElem?_modify] at hj
            split_ifs at hj with he
            · subst he
              cases htj : tiles[idx]? with
              | none => rw [htj] at hj; simp at hj
              | some us0 =>
                rw [htj] at hj
                have hj := Option.some.inj hj
                rw [← hj] at hu
                rcases List.mem_append.1 hu with hu | hu
                · exact hf idx us0 htj u hu
                · obtain ⟨c, -, rfl⟩ := List.mem_map.1 hu
                  exact hidx
            · cases htj : tiles[j]? with
              | none => rw [htj] at hj; simp at hj
              | some us0 =>
                rw [htj] at hj
                have hj := Option.some.inj hj
                exact hf j us (by rw [htj, ← hj]) u hu
          obtain ⟨tiles', h1, h2, h3, h4⟩ := ih (pre ++ q) pieces corr (tiles.modify idx fun d => d ++ q.map fun c => ((st.key, c.1), t, c.2)) hc' hl' (by simp [hlen]) hb' hf'
          refine ⟨tiles', ?_, h2, h3, ?_⟩
          · rw [h1]; rfl
          · refine h4.trans ?_
            refine (List.Perm.append_right _ (modify_flatten_perm tiles idx _ (by omega))).trans ?_
            simp [contrib, withKey, Function.comp_def]

theorem ofKey_withKey (l : List (ProxyKeyState T R1 R2 × Upds Nat T R2)) (hn : (l.map fun x => x.1.key).Nodup) : ∀ x ∈ l, ofKey (l.flatMap withKey) x.1.key = x.2 := by
  have hself : ∀ x : ProxyKeyState T R1 R2 × Upds Nat T R2, ofKey (withKey x) x.1.key = x.2 := by
    rintro ⟨st, us⟩
    simp only [ofKey, withKey, List.filterMap_map]
    induction us with
    | nil => rfl
    | cons u us ih => simp
  have hother : ∀ (k : Nat) (x : ProxyKeyState T R1 R2 × Upds Nat T R2), x.1.key ≠ k → ofKey (withKey x) k = [] := by
    rintro k ⟨st, us⟩ hk
    simp only [ofKey, withKey, List.filterMap_map]
    induction us with
    | nil => rfl
    | cons u us _ => simp at hk; simp [hk]
  have hothers : ∀ (k : Nat) (l : List (ProxyKeyState T R1 R2 × Upds Nat T R2)), (∀ x ∈ l, x.1.key ≠ k) → ofKey (l.flatMap withKey) k = [] := by
    intro k l
    induction l with
    | nil => intro _; rfl
    | cons y l ih =>
      intro h
      rw [List.flatMap_cons, ofKey_append, ih fun x hx => h x (by simp [hx]), hother k y (h y (by simp))]
      rfl
  induction l with
  | nil => simp
  | cons y l ih =>
    intro x hx
    rw [List.map_cons, List.nodup_cons] at hn
    rw [List.flatMap_cons, ofKey_append]
    rcases List.mem_cons.1 hx with rfl | hx
    · rw [hself, hothers, List.append_nil]
      intro z hz e
      exact hn.1 (List.mem_map.2 ⟨z, hz, e⟩)
    · rw [ih hn.2 x hx, hother, List.nil_append]
      intro e
      exact hn.1 (List.mem_map.2 ⟨x, hx, e.symm⟩)

variable {f : Nat → List (Nat × R1) → List (Nat × R2)} {I : Nat → Upds Nat T R1} {O : Nat → Upds Nat T R2} {M : Nat → List T}

/-- A state of a key in the second phase, and what it becomes when its moment has been prepared. -/
structure Prepared (f : Nat → List (Nat × R1) → List (Nat × R2)) (I : Nat → Upds Nat T R1) (O : Nat → Upds Nat T R2) (M : Nat → List T) (L : Nat → Upds Nat T R2)
    (st : ProxyKeyState T R1 R2) (p : ProxyKeyState T R1 R2 × Option (Crossing T R1 R2)) : Prop where
  key : p.1.key = st.key
  moments : p.1.moments = st.moments.tail
  idle : p.2 = none → ∃ done, KeyInv (f st.key) (I st.key) (O st.key) (M st.key) done p.1 (L st.key)
  busy : ∀ x, p.2 = some x → x.1 ∈ M st.key ∧ ConsolidatedPairs x.2.1 ∧ ConsolidatedPairs x.2.2 ∧
    ∀ corr : List (Nat × R2), (∀ v, weight corr v + weight x.2.2 v = weight (f st.key x.2.1) v) →
      ∃ done, KeyInv (f st.key) (I st.key) (O st.key) (M st.key) done { p.1 with produced := p.1.produced ++ corr.map fun c => (c.1, x.1, c.2) }
        (L st.key ++ corr.map fun c => (c.1, x.1, c.2))

theorem mapM_prepare (hf : ∀ k, f k [] = []) (hM : ∀ k, (M k).Pairwise fun a b => toLin a < toLin b) (L : Nat → Upds Nat T R2) (states : List (ProxyKeyState T R1 R2))
    (h : ∀ st ∈ states, ∃ done, KeyInv (f st.key) (I st.key) (O st.key) (M st.key) done st (L st.key)) :
    ∃ ps, states.mapM ProxyKeyState.prepare = some ps ∧ List.Forall₂ (Prepared f I O M L) states ps := by
  induction states with
  | nil => exact ⟨[], rfl, .nil⟩
  | cons st states ih =>
    obtain ⟨ps, h1, h2⟩ := ih fun s hs => h s (by simp [hs])
    obtain ⟨done, hk⟩ := h st (by simp)
    have : ∃ p, st.prepare = some p ∧ Prepared f I O M L st p := by
      cases hm : st.moments with
      | nil => exact ⟨(st, none), prepare_done hm, rfl, by rw [hm]; rfl, fun _ => ⟨done, hk⟩, by simp⟩
      | cons t ts =>
        obtain ⟨st', c, a1, a2, a3, a4, a5⟩ := prepare_spec (hf st.key) (hM st.key) hk hm
        refine ⟨(st', c), a1, a2, by rw [hm]; exact a3, fun hc => ⟨_, a4 hc⟩, fun x hx => ?_⟩
        obtain ⟨b1, b2, b3, b4⟩ := a5 x hx
        refine ⟨?_, b2, b3, fun corr hcorr => ⟨done ++ [t], ?_⟩⟩
        · rw [b1, ← hk.split, hm]; simp
        · rw [b1]; exact b4 corr hcorr
    obtain ⟨p, hp1, hp2⟩ := this
    refine ⟨p :: ps, ?_, .cons hp2 h2⟩
    rw [List.mapM_cons, hp1, h1]
    rfl

theorem contrib_inv (L : Nat → Upds Nat T R2) {states : List (ProxyKeyState T R1 R2)} {ps : List (ProxyKeyState T R1 R2 × Option (Crossing T R1 R2))}
    (h : List.Forall₂ (Prepared f I O M L) states ps) : ∀ {pieces : List (List (Nat × R2))},
    List.Forall₂ (fun (w : Nat × Crossing T R1 R2) piece => ∀ v, weight piece v + weight w.2.2.2 v = weight (f w.1 w.2.2.1) v) (crossingOf ps) pieces →
    ∀ x ∈ contrib ps pieces, ∃ done, KeyInv (f x.1.key) (I x.1.key) (O x.1.key) (M x.1.key) done x.1 (L x.1.key ++ x.2) := by
  induction h with
  | nil => intro pieces _ x hx; simp [contrib] at hx
  | @cons st p states ps hp _ ih =>
    intro pieces hw x hx
    obtain ⟨st', c⟩ := p
    cases c with
    | none =>
      rw [contrib] at hx
      rcases List.mem_cons.1 hx with rfl | hx
      · obtain ⟨done, hd⟩ := hp.idle rfl
        have := hp.key
        simp only at this
        refine ⟨done, ?_⟩
        simp only [List.append_nil, this]
        exact hd
      · exact ih (by simpa [crossingOf] using hw) x hx
    | some y =>
      have hcr : crossingOf ((st', some y) :: ps) = (st'.key, y) :: crossingOf ps := by simp [crossingOf]
      rw [hcr] at hw
      cases hw with
      | @cons _ q _ pieces hw1 hw2 =>
        rw [contrib] at hx
        rcases List.mem_cons.1 hx with rfl | hx
        · have hk := hp.key
          simp only at hk
          obtain ⟨-, -, -, b4⟩ := hp.busy y rfl
          obtain ⟨done, hd⟩ := b4 q (by rw [← hk]; exact hw1)
          rw [← hk] at hd
          exact ⟨done, hd⟩
        · exact ih hw2 x hx

/-- What holds between rounds. -/
structure RoundsInv (f : Nat → List (Nat × R1) → List (Nat × R2)) (I : Nat → Upds Nat T R1) (O : Nat → Upds Nat T R2) (M : Nat → List T) (held : List T)
    (states : List (ProxyKeyState T R1 R2)) (tiles : List (Upds (Nat × Nat) T R2)) : Prop where
  nodup : (states.map (·.key)).Nodup
  len : tiles.length = held.length
  filed : ∀ j us, tiles[j]? = some us → ∀ u ∈ us, outputIndex held u.2.1 = some j
  only : ∀ u ∈ tiles.flatten, u.1.1 ∈ states.map (·.key)
  keys : ∀ st ∈ states, ∃ done, KeyInv (f st.key) (I st.key) (O st.key) (M st.key) done st (ofKey tiles.flatten st.key)

theorem sum_tails_lt {A : Type*} (ls : List (List A)) : (ls.map (fun l => l.tail.length)).sum ≤ (ls.map List.length).sum ∧
    ((∃ l ∈ ls, l ≠ []) → (ls.map (fun l => l.tail.length)).sum < (ls.map List.length).sum) := by
  induction ls with
  | nil => simp
  | cons l ls ih =>
    simp only [List.map_cons, List.sum_cons, List.length_tail, List.mem_cons, exists_eq_or_imp]
    simp only [List.length_tail] at ih
    refine ⟨by omega, ?_⟩
    rintro (h | h)
    · have := List.length_pos_iff.2 h
      omega
    · have := ih.2 h
      omega

theorem rounds_spec {corrections : Corrections R1 R2} (hc : Corrects f corrections) (hM : ∀ k, (M k).Pairwise fun a b => toLin a < toLin b) {held : List T}
    (hheld : ∀ k, ∀ m ∈ M k, Beyond held m) (fuel : Nat) :
    ∀ (states : List (ProxyKeyState T R1 R2)) (tiles : List (Upds (Nat × Nat) T R2)), RoundsInv f I O M held states tiles → (states.map fun st => st.moments.length).sum ≤ fuel →
      ∃ tiles', rounds corrections held fuel states tiles = some tiles' ∧ tiles'.length = held.length ∧
        (∀ j us, tiles'[j]? = some us → ∀ u ∈ us, outputIndex held u.2.1 = some j) ∧ (∀ u ∈ tiles'.flatten, u.1.1 ∈ states.map (·.key)) ∧
        ∀ k ∈ states.map (·.key), (∀ u ∈ ofKey tiles'.flatten k, u.2.1 ∈ M k) ∧ ∀ m ∈ M k, ReducedAt (f k) (I k) (O k ++ ofKey tiles'.flatten k) m := by
  have hend : ∀ (states : List (ProxyKeyState T R1 R2)) (tiles : List (Upds (Nat × Nat) T R2)), RoundsInv f I O M held states tiles → (∀ st ∈ states, st.moments = []) →
      ∀ k ∈ states.map (·.key), (∀ u ∈ ofKey tiles.flatten k, u.2.1 ∈ M k) ∧ ∀ m ∈ M k, ReducedAt (f k) (I k) (O k ++ ofKey tiles.flatten k) m := by
    intro states tiles hi he k hk
    obtain ⟨st, hst, rfl⟩ := List.mem_map.1 hk
    obtain ⟨done, hd⟩ := hi.keys st hst
    have hs := hd.split
    rw [he st hst, List.append_nil] at hs
    rw [← hs]
    exact ⟨hd.times, hd.right⟩
  induction fuel with
  | zero =>
    intro states tiles hi hsum
    have he : ∀ st ∈ states, st.moments = [] := by
      intro st hst
      by_contra hne
      have := (sum_tails_lt (states.map (·.moments))).2 ⟨_, List.mem_map.2 ⟨st, hst, rfl⟩, hne⟩
      simp only [List.map_map, Function.comp_def] at this hsum
      omega
    refine ⟨tiles, ?_, hi.len, hi.filed, hi.only, hend states tiles hi he⟩
    unfold rounds
    rw [if_pos]
    simpa using he
  | succ fuel ih =>
    intro states tiles hi hsum
    unfold rounds
    split_ifs with hall
    · have he : ∀ st ∈ states, st.moments = [] := by simpa using hall
      exact ⟨tiles, rfl, hi.len, hi.filed, hi.only, hend states tiles hi he⟩
    · have hsome : ∃ l ∈ states.map (·.moments), l ≠ [] := by
        simp only [List.all_eq_true, List.isEmpty_iff, not_forall] at hall
        obtain ⟨st, h1, h2⟩ := hall
        exact ⟨_, List.mem_map.2 ⟨st, h1, rfl⟩, h2⟩
      have hdec : ((states.map (·.moments)).map fun l => l.tail.length).sum ≤ fuel := by
        have := (sum_tails_lt (states.map (·.moments))).2 hsome
        simp only [List.map_map, Function.comp_def] at this hsum ⊢
        omega
      obtain ⟨ps, h1, h2⟩ := mapM_prepare hc.nothing hM (fun k => ofKey tiles.flatten k) states hi.keys
      have hkeys : ps.map (fun p => p.1.key) = states.map (·.key) := by
        clear h1 hsum hdec hsome hall hi
        induction h2 with
        | nil => rfl
        | cons hp _ ihh => rw [List.map_cons, List.map_cons, hp.key, ihh]
      have hmoms : ps.map (fun p => p.1.moments) = (states.map (·.moments)).map List.tail := by
        clear h1 hkeys hsum hdec hsome hall hi
        induction h2 with
        | nil => rfl
        | cons hp _ ihh => rw [List.map_cons, List.map_cons, List.map_cons, hp.moments, ihh]
      have hbusy : ∀ a ∈ crossingOf ps, a.2.1 ∈ M a.1 ∧ ConsolidatedPairs a.2.2.1 ∧ ConsolidatedPairs a.2.2.2 := by
        clear h1 hkeys hmoms hsum hdec hsome hall hi
        induction h2 with
        | nil => intro a ha; simp [crossingOf] at ha
        | @cons st p states ps hp _ ihh =>
          intro a ha
          obtain ⟨q, hq, he⟩ := List.mem_filterMap.1 ha
          rcases List.mem_cons.1 hq with rfl | hq
          · cases hc2 : q.2 with
            | none => rw [hc2] at he; simp at he
            | some x =>
              rw [hc2] at he
              have he := Option.some.inj he
              subst he
              obtain ⟨b1, b2, b3, -⟩ := hp.busy x hc2
              rw [hp.key]
              exact ⟨b1, b2, b3⟩
          · exact ihh a (List.mem_filterMap.2 ⟨q, hq, he⟩)
      have hcn : ((crossingOf ps).map (·.1)).Nodup := by
        have hsub : ((crossingOf ps).map (·.1)).Sublist (ps.map fun p => p.1.key) := by
          clear h1 h2 hkeys hmoms hbusy
          induction ps with
          | nil => exact List.Sublist.refl _
          | cons p ps ihh =>
            obtain ⟨st, c⟩ := p
            cases c with
            | none => simpa [crossingOf] using ihh.cons _
            | some x => simpa [crossingOf] using ihh
        exact hsub.nodup (by rw [hkeys]; exact hi.nodup)
      have hnext : ∀ pieces : List (List (Nat × R2)), List.Forall₂ (fun (w : Nat × Crossing T R1 R2) piece => ∀ v, weight piece v + weight w.2.2.2 v = weight (f w.1 w.2.2.1) v)
          (crossingOf ps) pieces → ∀ tiles', tiles'.length = held.length → (∀ j us, tiles'[j]? = some us → ∀ u ∈ us, outputIndex held u.2.1 = some j) →
          tiles'.flatten.Perm (tiles.flatten ++ (contrib ps pieces).flatMap withKey) →
          ∃ tiles'', rounds corrections held fuel ((contrib ps pieces).map (·.1)) tiles' = some tiles'' ∧ tiles''.length = held.length ∧
            (∀ j us, tiles''[j]? = some us → ∀ u ∈ us, outputIndex held u.2.1 = some j) ∧ (∀ u ∈ tiles''.flatten, u.1.1 ∈ states.map (·.key)) ∧
            ∀ k ∈ states.map (·.key), (∀ u ∈ ofKey tiles''.flatten k, u.2.1 ∈ M k) ∧ ∀ m ∈ M k, ReducedAt (f k) (I k) (O k ++ ofKey tiles''.flatten k) m := by
        intro pieces hw tiles' hlen' hfiled' hperm
        obtain ⟨hk1, hk2⟩ := contrib_keys ps pieces hw.length_eq
        have hk1' : ((contrib ps pieces).map (·.1)).map (·.key) = states.map (·.key) := by rw [List.map_map, ← hkeys, ← hk1]; rfl
        have hinv : RoundsInv f I O M held ((contrib ps pieces).map (·.1)) tiles' := by
          refine ⟨by rw [hk1']; exact hi.nodup, hlen', hfiled', ?_, ?_⟩
          · intro u hu
            rw [hk1']
            rcases List.mem_append.1 (hperm.mem_iff.1 hu) with hu | hu
            · exact hi.only u hu
            · obtain ⟨x, hx, hu⟩ := List.mem_flatMap.1 hu
              obtain ⟨c, -, rfl⟩ := List.mem_map.1 hu
              rw [← hkeys, ← hk1]
              exact List.mem_map.2 ⟨x, hx, rfl⟩
          · intro st hst
            obtain ⟨x, hx, rfl⟩ := List.mem_map.1 hst
            obtain ⟨done, hd⟩ := contrib_inv (fun k => ofKey tiles.flatten k) h2 hw x hx
            refine ⟨done, hd.perm ?_⟩
            refine List.Perm.symm ((List.Perm.filterMap _ hperm).trans ?_)
            show (ofKey (tiles.flatten ++ (contrib ps pieces).flatMap withKey) x.1.key).Perm _
            rw [ofKey_append, ofKey_withKey _ (by rw [hk1, hkeys]; exact hi.nodup) x hx]
        have := ih _ tiles' hinv (by
          have e : (((contrib ps pieces).map (·.1)).map fun st => st.moments.length) = ((states.map (·.moments)).map fun l => l.tail.length) := by
            have : ((contrib ps pieces).map fun x => x.1.moments).map List.length = ((states.map (·.moments)).map List.tail).map List.length := by rw [hk2, hmoms]
            simpa only [List.map_map, Function.comp_def] using this
          rw [e]; exact hdec)
        rw [hk1'] at this
        exact this
      rw [h1]
      simp only
      split_ifs with hact
      · have hnil : crossingOf ps = [] := by simpa [crossingOf] using hact
        have hcon : contrib ps ([] : List (List (Nat × R2))) = ps.map fun p => (p.1, []) := by
          clear h1 h2 hkeys hmoms hbusy hcn hnext hact
          induction ps with
          | nil => rfl
          | cons p ps ihh =>
            obtain ⟨st, c⟩ := p
            cases c with
            | none => rw [contrib, ihh (by simpa [crossingOf] using hnil)]; rfl
            | some x => simp [crossingOf] at hnil
        obtain ⟨tiles'', b1, b2⟩ := hnext [] (by rw [hnil]; exact .nil) tiles hi.len hi.filed (by
          rw [hcon]
          have : (ps.map fun p => (p.1, ([] : Upds Nat T R2))).flatMap withKey = [] := by
            rw [List.flatMap_eq_nil_iff]
            intro x hx
            obtain ⟨p, -, rfl⟩ := List.mem_map.1 hx
            rfl
          rw [this, List.append_nil])
        refine ⟨tiles'', ?_, b2⟩
        rw [← b1, hcon, List.map_map]
        rfl
      · obtain ⟨pieces, hans, hw⟩ := hc.answers ((crossingOf ps).map fun a => (a.1, a.2.2.1, a.2.2.2)) (by
          rw [List.map_map]; exact hcn) (by
          intro w hw
          obtain ⟨a, ha, rfl⟩ := List.mem_map.1 hw
          exact (hbusy a ha).2)
        rw [List.forall₂_map_left_iff] at hw
        simp only [List.map_map, Function.comp_def, ← endsFrom_zero] at hans
        have hans' : corrections ((ps.filterMap fun p => p.2.map fun c => (p.1.key, c)).map (·.1))
            (endsFrom 0 ((ps.filterMap fun p => p.2.map fun c => (p.1.key, c)).map fun a => a.2.2.1)) ((ps.filterMap fun p => p.2.map fun c => (p.1.key, c)).map fun a => a.2.2.1).flatten
            (endsFrom 0 ((ps.filterMap fun p => p.2.map fun c => (p.1.key, c)).map fun a => a.2.2.2)) ((ps.filterMap fun p => p.2.map fun c => (p.1.key, c)).map fun a => a.2.2.2).flatten =
            (pieces.flatten, endsFrom 0 pieces) := hans
        rw [hans']
        obtain ⟨tiles', c1, c2, c3, c4⟩ := scatter_spec held ps [] pieces pieces.flatten tiles rfl hw.length_eq hi.len (fun a ha => hheld a.1 _ (hbusy a ha).1) hi.filed
        simp only [List.length_nil] at c1
        simp only [c1]
        exact hnext pieces hw tiles' c2 c3 c4

end
end DD
