import Verif.Proofs.Chunk
import Verif.Proofs.Lattice

/-!
# Advancing chunks
-/

namespace DD
variable {D T R : Type*} [LinearOrder D] [LinearOrder (Lin T)] [AddCommMonoid R] [DecidableEq R]

/-- What `coalesce` adds to the results. -/
def coalesced : Upds D T R → Upds D T R
  | [] => []
  | u :: us =>
    let same := us.takeWhile fun v => toLin v.2.1 = toLin u.2.1
    let diff := same.foldl (fun diff v => diff + v.2.2) u.2.2
    (if diff ≠ 0 then [(u.1, u.2.1, diff)] else []) ++ coalesced (us.dropWhile fun v => toLin v.2.1 = toLin u.2.1)
termination_by us => us.length
decreasing_by
  simp only [List.length_cons]
  exact Nat.lt_succ_of_le (List.dropWhile_sublist _).length_le

/-- The results so far. -/
def resultsOf (r : Upds D T R × Chain D T R) : Upds D T R := r.2.flatten ++ r.1

omit [LinearOrder D] [LinearOrder (Lin T)] [AddCommMonoid R] [DecidableEq R] in
theorem pushResult_spec {cap : Nat} (r : Upds D T R × Chain D T R) (u : D × T × R) (hf : Full r.2) :
    resultsOf (pushResult cap r u) = resultsOf r ++ [u] ∧ Full (pushResult cap r u).2 := by
  simp only [pushResult]
  split_ifs
  · refine ⟨by simp [resultsOf], fun c hc => ?_⟩
    rcases List.mem_append.1 hc with hc | hc
    · exact hf c hc
    · rw [List.mem_singleton.1 hc]; simp
  · exact ⟨by simp [resultsOf], hf⟩

theorem coalesce_spec (cap : Nat) (us : Upds D T R) (r : Upds D T R × Chain D T R) (hf : Full r.2) :
    resultsOf (coalesce cap us r) = resultsOf r ++ coalesced us ∧ Full (coalesce cap us r).2 := by
  fun_induction coalesced us generalizing r with
  | case1 => simpa [coalesce] using hf
  | case2 u us same diff ih =>
    rw [coalesce]
    by_cases hd : diff ≠ 0
    · obtain ⟨k1, k2⟩ := pushResult_spec (cap := cap) r (u.1, u.2.1, diff) hf
      obtain ⟨g1, g2⟩ := ih (pushResult cap r (u.1, u.2.1, diff)) k2
      rw [if_pos hd, if_pos hd]
      exact ⟨by rw [g1, k1, List.append_assoc], g2⟩
    · obtain ⟨g1, g2⟩ := ih r hf
      rw [if_neg hd, if_neg hd]
      exact ⟨by rw [g1, List.nil_append], g2⟩

omit [LinearOrder D] in
theorem mem_coalesced (us : Upds D T R) : ∀ w ∈ coalesced us, ∃ v ∈ us, w.1 = v.1 ∧ w.2.1 = v.2.1 := by
  fun_induction coalesced us with
  | case1 => simp
  | case2 u us same diff ih =>
    intro w hw
    rcases List.mem_append.1 hw with hw | hw
    · split_ifs at hw
      · rw [List.mem_singleton.1 hw]; exact ⟨u, by simp, rfl, rfl⟩
      · simp at hw
    · obtain ⟨v, hv, e⟩ := ih w hw
      exact ⟨v, by simp [(List.dropWhile_sublist _).subset hv], e⟩

theorem foldl_add_start (l : Upds D T R) : ∀ (r : R), l.foldl (fun diff v => diff + v.2.2) r = r + (l.map fun v => v.2.2).sum := by
  induction l with
  | nil => simp
  | cons v l ih => intro r; simp [ih, add_assoc]

theorem total_same [DecidableEq T] (l : Upds D T R) (d : D) (t : T) (h : ∀ v ∈ l, v.1 = d ∧ v.2.1 = t) (d' : D) (t' : T) :
    total l d' t' = if d = d' ∧ t = t' then (l.map fun v => v.2.2).sum else 0 := by
  induction l with
  | nil => simp
  | cons v l ih =>
    rw [total_cons, ih fun w hw => h w (by simp [hw]), (h v (by simp)).1, (h v (by simp)).2]
    split_ifs <;> simp

theorem total_coalesced [DecidableEq T] (us : Upds D T R) (d0 : D) (h : ∀ u ∈ us, u.1 = d0) (d : D) (t : T) : total (coalesced us) d t = total us d t := by
  fun_induction coalesced us with
  | case1 => rfl
  | case2 u us same diff ih =>
    rw [total_append, ih fun w hw => h w (by simp [(List.dropWhile_sublist _).subset hw])]
    conv_rhs => rw [total_cons, ← List.takeWhile_append_dropWhile (p := fun v => decide (toLin v.2.1 = toLin u.2.1)) (l := us), total_append, ← add_assoc]
    congr 1
    have hsame : ∀ v ∈ same, v.1 = u.1 ∧ v.2.1 = u.2.1 := by
      intro v hv
      refine ⟨(h v (by simp [(List.takeWhile_sublist _).subset hv])).trans (h u (by simp)).symm, ?_⟩
      have := List.all_eq_true.1 List.all_takeWhile _ hv
      exact (of_decide_eq_true this : toLin v.2.1 = toLin u.2.1)
    have e : diff = u.2.2 + (same.map fun v => v.2.2).sum := foldl_add_start same u.2.2
    rw [total_same same u.1 u.2.1 hsame]
    have e2 : total (if diff ≠ 0 then [(u.1, u.2.1, diff)] else []) d t = if u.1 = d ∧ u.2.1 = t then diff else 0 := by
      by_cases hd : diff = 0
      · simp [hd]
      · rw [if_pos hd, total_cons, total_nil, add_zero]
    rw [e2, e]
    split_ifs <;> simp

omit [AddCommMonoid R] [DecidableEq R] [LinearOrder D] in
theorem lt_of_dropWhile_time (us : Upds D T R) (t : Lin T) (hs : us.Pairwise fun a b => toLin a.2.1 ≤ toLin b.2.1) (hle : ∀ v ∈ us, t ≤ toLin v.2.1) :
    ∀ v ∈ us.dropWhile fun v => toLin v.2.1 = t, t < toLin v.2.1 := by
  induction us with
  | nil => simp
  | cons u us ih =>
    intro v hv
    rw [List.dropWhile_cons] at hv
    split_ifs at hv with hu
    · exact ih (List.pairwise_cons.1 hs).2 (fun w hw => hle w (by simp [hw])) v hv
    · have h1 : t < toLin u.2.1 := lt_of_le_of_ne (hle u (by simp)) fun e => hu (by simp [e])
      rcases List.mem_cons.1 hv with rfl | hv
      · exact h1
      · exact h1.trans_le ((List.pairwise_cons.1 hs).1 v hv)

theorem consolidated_coalesced (us : Upds D T R) (d0 : D) (h : ∀ u ∈ us, u.1 = d0) (hs : us.Pairwise fun a b => toLin a.2.1 ≤ toLin b.2.1) :
    Consolidated (coalesced us) := by
  fun_induction coalesced us with
  | case1 => exact ⟨List.Pairwise.nil, by simp⟩
  | case2 u us same diff ih =>
    have hs' := List.pairwise_cons.1 hs
    have ih := ih (fun w hw => h w (by simp [(List.dropWhile_sublist _).subset hw])) (hs'.2.sublist (List.dropWhile_sublist _))
    split_ifs with hd
    · rw [List.singleton_append, consolidated_cons]
      refine ⟨fun w hw => ?_, hd, ih⟩
      obtain ⟨v, hv, e1, e2⟩ := mem_coalesced _ w hw
      refine ltDT_congr (Or.inr ⟨?_, ?_⟩) e1 e2
      · exact (h u (by simp)).trans (h v (by simp [(List.dropWhile_sublist _).subset hv])).symm
      · exact lt_of_dropWhile_time us _ hs'.2 hs'.1 v hv
    · exact ih

variable [DecidableEq T]

theorem mem_consolidatedU (us : Upds D T R) : ∀ u ∈ consolidatedU us, ∃ v ∈ us, u.1 = v.1 ∧ u.2.1 = v.2.1 := by
  intro u hu
  by_contra hc
  push Not at hc
  have h0 : total us u.1 u.2.1 = 0 := by
    unfold total
    apply List.sum_eq_zero
    intro x hx
    obtain ⟨v, hv, rfl⟩ := List.mem_map.1 hx
    rw [if_neg]
    rintro ⟨e1, e2⟩
    exact hc v hv e1.symm e2.symm
  rw [← total_consolidatedU] at h0
  have hcons := consolidated_consolidatedU us
  have : total (consolidatedU us) u.1 u.2.1 ≠ 0 := (total_ne_zero_iff hcons u.1 u.2.1).2 ⟨u.2.2, hu⟩
  exact this h0

/-- Consolidation of sequences over separate ranges of data. -/
theorem consolidatedU_append {a b : Upds D T R} (h : ∀ u ∈ a, ∀ v ∈ b, u.1 < v.1) : consolidatedU (a ++ b) = consolidatedU a ++ consolidatedU b := by
  refine consolidatedU_unique (consolidated_consolidatedU _) ?_ fun d t => ?_
  · have ha := consolidated_consolidatedU a
    have hb := consolidated_consolidatedU b
    refine ⟨List.pairwise_append.2 ⟨ha.1, hb.1, fun u hu v hv => ?_⟩, fun u hu => ?_⟩
    · obtain ⟨u', hu', e1, -⟩ := mem_consolidatedU a u hu
      obtain ⟨v', hv', e2, -⟩ := mem_consolidatedU b v hv
      rw [e1, e2]
      exact Or.inl (h u' hu' v' hv')
    · rcases List.mem_append.1 hu with hu | hu
      · exact ha.2 u hu
      · exact hb.2 u hu
  · rw [total_consolidatedU, total_append, total_append, total_consolidatedU, total_consolidatedU]

variable [Lattice T]

/-- The updates advanced and consolidated. -/
def advanced (F : List T) (us : Upds D T R) : Upds D T R := consolidatedU (retimed (fun t => advanceBy t F) us)

omit [LinearOrder D] [LinearOrder (Lin T)] [AddCommMonoid R] [DecidableEq R] [DecidableEq T] [Lattice T] in
theorem retimed_append (f : T → T) (a b : Upds D T R) : retimed f (a ++ b) = retimed f a ++ retimed f b := by simp [retimed]

theorem advanced_append (F : List T) {a b : Upds D T R} (h : ∀ u ∈ a, ∀ v ∈ b, u.1 < v.1) : advanced F (a ++ b) = advanced F a ++ advanced F b := by
  unfold advanced
  rw [retimed_append, consolidatedU_append]
  intro u hu v hv
  obtain ⟨u', hu', rfl⟩ := List.mem_map.1 hu
  obtain ⟨v', hv', rfl⟩ := List.mem_map.1 hv
  exact h u' hu' v' hv'

theorem total_retimed_congr (f : T → T) {v w : Upds D T R} (h : ∀ d t, total v d t = total w d t) (d : D) (t : T) :
    total (retimed f v) d t = total (retimed f w) d t := by
  have := measure_of_total (fun d' t' => if d' = d ∧ f t' = t then AddMonoidHom.id R else 0) h
  unfold total retimed
  rw [List.map_map, List.map_map]
  convert this using 3 <;> (funext u; simp only [Function.comp]; split_ifs <;> simp)

theorem advanced_congr (F : List T) {v w : Upds D T R} (h : ∀ d t, total v d t = total w d t) : advanced F v = advanced F w :=
  consolidatedU_congr fun d t => total_retimed_congr _ h d t

/-- One group of equal data, advanced, sorted by time, coalesced. -/
theorem group_spec (F : List T) (group : Upds D T R) (d0 : D) (h : ∀ u ∈ group, u.1 = d0) :
    coalesced ((group.map fun v => (v.1, advanceBy v.2.1 F, v.2.2)).insertionSort fun a b => toLin a.2.1 ≤ toLin b.2.1) = advanced F group := by
  have hp := List.perm_insertionSort (fun a b : D × T × R => toLin a.2.1 ≤ toLin b.2.1) (group.map fun v => (v.1, advanceBy v.2.1 F, v.2.2))
  have hd : ∀ u ∈ (group.map fun v => (v.1, advanceBy v.2.1 F, v.2.2)).insertionSort fun a b => toLin a.2.1 ≤ toLin b.2.1, u.1 = d0 := by
    intro u hu
    obtain ⟨v, hv, rfl⟩ := List.mem_map.1 (hp.subset hu)
    exact h v hv
  have : Std.Total (fun a b : D × T × R => toLin a.2.1 ≤ toLin b.2.1) := ⟨fun a b => le_total _ _⟩
  have : IsTrans (D × T × R) (fun a b => toLin a.2.1 ≤ toLin b.2.1) := ⟨fun a b c => le_trans⟩
  refine consolidatedU_unique (consolidated_coalesced _ d0 hd (List.pairwise_insertionSort _ _)) (consolidated_consolidatedU _) fun d t => ?_
  rw [total_coalesced _ d0 hd, total_perm hp]
  exact (total_consolidatedU _ d t).symm

/-- Sorted by data. -/
def SortedD (us : Upds D T R) : Prop := us.Pairwise fun u v => u.1 ≤ v.1

omit [AddCommMonoid R] [DecidableEq R] [DecidableEq T] [LinearOrder (Lin T)] [Lattice T] in
theorem lt_of_dropWhile_data (us : Upds D T R) (d : D) (hs : SortedD us) (hle : ∀ v ∈ us, d ≤ v.1) : ∀ v ∈ us.dropWhile fun v => v.1 = d, d < v.1 := by
  induction us with
  | nil => simp
  | cons u us ih =>
    intro v hv
    rw [List.dropWhile_cons] at hv
    split_ifs at hv with hu
    · exact ih (List.pairwise_cons.1 hs).2 (fun w hw => hle w (by simp [hw])) v hv
    · have h1 : d < u.1 := lt_of_le_of_ne (hle u (by simp)) fun e => hu (by simp [e])
      rcases List.mem_cons.1 hv with rfl | hv
      · exact h1
      · exact h1.trans_le ((List.pairwise_cons.1 hs).1 v hv)

theorem advanceGroups_spec (cap : Nat) (F : List T) (us : Upds D T R) (r : Upds D T R × Chain D T R) (hs : SortedD us) (hf : Full r.2) :
    resultsOf (advanceGroups cap F us r) = resultsOf r ++ advanced F us ∧ Full (advanceGroups cap F us r).2 := by
  fun_induction advanceGroups cap F us r with
  | case1 r =>
    refine ⟨?_, hf⟩
    have : advanced F ([] : Upds D T R) = [] := by
      unfold advanced
      have := mem_consolidatedU (retimed (fun t => advanceBy t F) ([] : Upds D T R))
      apply List.eq_nil_iff_forall_not_mem.2
      intro u hu
      obtain ⟨v, hv, -⟩ := this u hu
      simp [retimed] at hv
    simp [this]
  | case2 u us r group ih =>
    have hs' := List.pairwise_cons.1 hs
    obtain ⟨k1, k2⟩ := coalesce_spec cap (group.insertionSort fun a b => toLin a.2.1 ≤ toLin b.2.1) r hf
    obtain ⟨g1, g2⟩ := ih (hs'.2.sublist (List.dropWhile_sublist _)) k2
    refine ⟨?_, g2⟩
    have hg : ∀ v ∈ u :: us.takeWhile fun v => v.1 = u.1, v.1 = u.1 := by
      intro v hv
      rcases List.mem_cons.1 hv with rfl | hv
      · rfl
      · simpa using List.all_eq_true.1 List.all_takeWhile _ hv
    rw [g1, k1, group_spec F _ u.1 hg, List.append_assoc, ← advanced_append]
    · rw [List.cons_append, List.takeWhile_append_dropWhile]
    · intro a ha b hb
      rw [hg a ha]
      exact lt_of_dropWhile_data us u.1 hs'.2 hs'.1 b hb

/-- `advance` emits whole groups of equal data, withholding the last unless it is told that nothing follows. -/
theorem chunkAdvance_spec (cap : Nat) (F : List T) (input out : Chain D T R) (done : Bool) (hs : SortedD input.flatten) (hf : Full out) :
    ∃ a b, input.flatten = a ++ b ∧ (chunkAdvance cap input F done out).1.flatten = b ∧ Full (chunkAdvance cap input F done out).1 ∧
      (chunkAdvance cap input F done out).2.flatten = out.flatten ++ advanced F a ∧ Full (chunkAdvance cap input F done out).2 ∧
      (∀ u ∈ a, ∀ v ∈ b, u.1 < v.1) ∧ (done = true → b = []) ∧ (done = false → b = [] → a = []) := by
  have hnil : advanced F ([] : Upds D T R) = [] := by
    simpa [resultsOf, advanceGroups] using (advanceGroups_spec cap F ([] : Upds D T R) ([], []) List.Pairwise.nil (by simp [Full])).1.symm
  simp only [chunkAdvance]
  generalize hbuf : input.flatten = buf at hs ⊢
  cases hh : buf.head? with
  | none =>
    have : buf = [] := List.head?_eq_none_iff.1 hh
    subst this
    exact ⟨[], [], by simp, rfl, by simp [Full], by simp [hnil], hf, by simp, by simp, by simp⟩
  | some first =>
    have hne : buf ≠ [] := by rintro rfl; simp at hh
    rw [List.getLast?_eq_some_getLast hne]
    simp only
    generalize hlast : buf.getLast hne = last
    have hlastmem : last ∈ buf := hlast ▸ List.getLast_mem hne
    by_cases hg : (!done && decide (first.1 = last.1)) = true
    · rw [if_pos hg]
      refine ⟨[], buf, rfl, by simp, ?_, by simp [hnil], hf, by simp, ?_, by simp⟩
      · intro c hc; rw [List.mem_singleton.1 hc]; exact hne
      · rintro rfl; simp at hg
    · rw [if_neg hg]
      simp only
      generalize he : (if done = true then buf.length else buf.length - (buf.reverse.takeWhile fun u => decide (u.1 = last.1)).length) = stop
      have hsplit : buf = buf.take stop ++ buf.drop stop := (List.take_append_drop stop buf).symm
      have hs' := hs
      rw [hsplit] at hs'
      obtain ⟨k1, k2⟩ := advanceGroups_spec cap F (buf.take stop) ([], out) (List.pairwise_append.1 hs').1 hf
      refine ⟨buf.take stop, buf.drop stop, hsplit, ?_, ?_, ?_, ?_, ?_, ?_, ?_⟩
      · split_ifs with h
        · simp
        · rw [List.drop_eq_nil_of_le (not_lt.1 h)]; rfl
      · split_ifs with h
        · intro c hc; rw [List.mem_singleton.1 hc]; simpa using h
        · simp [Full]
      · have : resultsOf (([], out) : Upds D T R × Chain D T R) = out.flatten := by simp [resultsOf]
        rw [this] at k1
        rw [← k1]
        split_ifs with h
        · simp [resultsOf]
        · simp only [ne_eq, not_not] at h; simp [resultsOf, h]
      · split_ifs with h
        · intro c hc
          rcases List.mem_append.1 hc with hc | hc
          · exact k2 c hc
          · rw [List.mem_singleton.1 hc]; exact h
        · exact k2
      · cases done with
        | true =>
          have : stop = buf.length := by simpa using he.symm
          simp [this]
        | false =>
          simp only [Bool.false_eq_true, if_false] at he
          -- what follows `stop` has the datum of the last update, what precedes a lesser one
          set suffix := buf.reverse.takeWhile fun u => decide (u.1 = last.1) with hsuf
          have hrev : buf = (buf.reverse.dropWhile fun u => decide (u.1 = last.1)).reverse ++ suffix.reverse := by
            rw [← List.reverse_append, hsuf, List.takeWhile_append_dropWhile, List.reverse_reverse]
          have hlen : (buf.reverse.dropWhile fun u => decide (u.1 = last.1)).reverse.length = stop := by
            have := congrArg List.length hrev
            rw [List.length_append, List.length_reverse (as := suffix)] at this
            omega
          have htake : buf.take stop = (buf.reverse.dropWhile fun u => decide (u.1 = last.1)).reverse := by
            conv_lhs => rw [hrev]
            rw [← hlen, List.take_left]
          have hdrop : buf.drop stop = suffix.reverse := by
            conv_lhs => rw [hrev]
            rw [← hlen, List.drop_left]
          intro u hu v hv
          rw [hdrop, List.mem_reverse] at hv
          have hv1 : v.1 = last.1 := by simpa using List.all_eq_true.1 List.all_takeWhile _ hv
          rw [hv1]
          have hmax : ∀ w ∈ buf, w.1 ≤ last.1 := by
            intro w hw
            have hsp := List.dropLast_append_getLast hne
            rw [hlast] at hsp
            have hs2 := hs
            rw [← hsp] at hs2 hw
            rcases List.mem_append.1 hw with hw | hw
            · exact (List.pairwise_append.1 hs2).2.2 w hw last (by simp)
            · rw [List.mem_singleton.1 hw]
          rw [htake, List.mem_reverse] at hu
          have key : ∀ l : Upds D T R, l.Pairwise (fun u v => v.1 ≤ u.1) → (∀ w ∈ l, w.1 ≤ last.1) → ∀ w ∈ l.dropWhile (fun u => decide (u.1 = last.1)), w.1 < last.1 := by
            intro l
            induction l with
            | nil => simp
            | cons x l ih =>
              intro hp hm w hw
              rw [List.dropWhile_cons] at hw
              split_ifs at hw with hx
              · exact ih (List.pairwise_cons.1 hp).2 (fun w hw => hm w (by simp [hw])) w hw
              · have h1 : x.1 < last.1 := lt_of_le_of_ne (hm x (by simp)) (by simpa using hx)
                rcases List.mem_cons.1 hw with rfl | hw
                · exact h1
                · exact ((List.pairwise_cons.1 hp).1 w hw).trans_lt h1
          exact key buf.reverse (List.pairwise_reverse.2 hs) (fun w hw => hmax w (by simpa using hw)) u hu
      · rintro rfl
        have : stop = buf.length := by simpa using he.symm
        simp [this]
      · rintro rfl hb
        exfalso
        simp only [Bool.false_eq_true, if_false] at he
        have h1 : 0 < (buf.reverse.takeWhile fun u => decide (u.1 = last.1)).length := by
          have : buf.reverse = last :: buf.dropLast.reverse := by
            conv_lhs => rw [← List.dropLast_append_getLast hne, hlast]
            simp
          rw [this, List.takeWhile_cons]
          simp
        have h2 : 0 < buf.length := List.length_pos_iff.2 hne
        have := List.drop_eq_nil_iff.1 hb
        omega

end DD
