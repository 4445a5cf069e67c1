import Verif.Proofs.TrieAlign

/-! Writing the layers of a merged trie from surveys. -/

namespace DD
set_option linter.unusedSectionVars false
variable {α β γ κ : Type*}

/-- The items that a report stands for: of two items with equal keys, the first. -/
def Rep.items (out : β → γ) : Rep β → List γ
  | .this l => l.map out
  | .that l => l.map out
  | .both a _ => [out a]

theorem slice_mid (P l Q : List γ) : slice (P ++ (l ++ Q)) P.length (P.length + l.length) = l := by simp [slice]

/-- The loop over the items of a list found in both inputs. -/
theorem bothLoop_spec (out : β → γ) (rs : List (Rep β)) : ∀ (P0 Q0 P1 Q1 : List γ) (end0 end1 : Nat) (rest : List Report) (o : Lists γ), (∀ r ∈ rs, r.Full) →
    P0.length + (lefts rs).length ≤ end0 → P1.length + (rights rs).length ≤ end1 →
    (rest = [] ∨ (P0.length + (lefts rs).length = end0 ∧ P1.length + (rights rs).length = end1)) →
    bothLoop (P0 ++ ((lefts rs).map out ++ Q0)) (P1 ++ ((rights rs).map out ++ Q1)) P0.length end0 P1.length end1 (reps P0.length P1.length rs ++ rest) o =
      some (rest, { o with values := o.values ++ rs.flatMap (Rep.items out) }) := by
  induction rs with
  | nil =>
    intro P0 Q0 P1 Q1 end0 end1 rest o _ h0 h1 h
    rcases h with rfl | ⟨e0, e1⟩
    · simp [reps, bothLoop]
    · cases rest with
      | nil => simp [reps, bothLoop]
      | cons i rest =>
        simp only [lefts, rights, List.flatMap_nil, List.length_nil, Nat.add_zero] at e0 e1
        simp only [reps, List.nil_append, bothLoop, List.flatMap_nil, List.append_nil]
        rw [if_neg (by omega)]
  | cons r rs ih =>
    intro P0 Q0 P1 Q1 end0 end1 rest o hf h0 h1 h
    have hf' : ∀ r ∈ rs, r.Full := fun r hr => hf r (List.mem_cons_of_mem _ hr)
    have hr := hf r (by simp)
    simp only [lefts_cons, rights_cons, List.length_append] at h0 h1 h
    have key := ih (P0 ++ r.left.map out) Q0 (P1 ++ r.right.map out) Q1 end0 end1 rest { o with values := o.values ++ r.items out } hf'
      (by simp only [List.length_append, List.length_map]; omega) (by simp only [List.length_append, List.length_map]; omega)
      (by
        rcases h with h | h
        · exact Or.inl h
        · right; simp only [List.length_append, List.length_map]; omega)
    simp only [List.length_append, List.length_map, List.append_assoc] at key
    simp only [lefts_cons, rights_cons, List.map_append, List.append_assoc, reps, List.cons_append, List.flatMap_cons]
    cases r with
    | this l =>
      simp only [Rep.Full] at hr
      have hl : 0 < l.length := List.length_pos_iff.2 hr
      simp only [Rep.left, Rep.right, List.length_nil, Nat.add_zero, List.map_nil, List.nil_append, Rep.items, Rep.report] at key h0 h1 ⊢
      rw [bothLoop, if_pos (by omega)]
      rw [if_neg (by omega)]
      have := slice_mid P0 (l.map out) ((lefts rs).map out ++ Q0)
      rw [List.length_map] at this
      rw [this, key]
    | that l =>
      simp only [Rep.Full] at hr
      have hl : 0 < l.length := List.length_pos_iff.2 hr
      simp only [Rep.left, Rep.right, List.length_nil, Nat.add_zero, List.map_nil, List.nil_append, Rep.items, Rep.report] at key h0 h1 ⊢
      rw [bothLoop, if_pos (by omega)]
      rw [if_neg (by omega)]
      have := slice_mid P1 (l.map out) ((rights rs).map out ++ Q1)
      rw [List.length_map] at this
      rw [this, key]
    | both a b =>
      simp only [Rep.left, Rep.right, List.length_cons, List.length_nil, Nat.zero_add, List.map_cons, List.map_nil, List.cons_append, List.nil_append, Rep.items,
        Rep.report] at key h0 h1 ⊢
      rw [bothLoop, if_pos (by omega)]
      rw [if_neg (by omega)]
      have : (P0 ++ out a :: (List.map out (lefts rs) ++ Q0))[P0.length]? = some (out a) := by simp
      rw [this]
      simp only [Lists.push]
      rw [key]

/-- Copying lists. -/
theorem copyLists_spec (G l X : List (List γ)) (pruned : Bool) (O : List (List γ)) :
    copyLists (Lists.of (G ++ (l ++ X))) pruned G.length (G.length + l.length) G.flatten.length (G.flatten.length + l.flatten.length) (Lists.of O) =
      some (Lists.of (O ++ l)) := by
  rw [copyLists]
  cases pruned with
  | false =>
    have h := Lists.extend_of O (G ++ (l ++ X)) (i := G.length) (j := G.length + l.length) (by omega) (by simp)
    simp only [Bool.false_eq_true, if_false]
    rw [h, slice_mid]
  | true =>
    simp only [if_true]
    have hm : ((List.range' G.length (G.length + l.length - G.length)).mapM fun i => ((Lists.of (G ++ (l ++ X))).range i).map fun b =>
        (Lists.of O).values.length + min b.2 (G.flatten.length + l.flatten.length) - G.flatten.length) = some (ends O.flatten.length l) := by
      rw [show G.length + l.length - G.length = l.length by omega]
      have gen : ∀ (l : List (List γ)) (G X : List (List γ)) (base top lo : Nat), lo ≤ G.flatten.length → G.flatten.length + l.flatten.length ≤ top →
          ((List.range' G.length l.length).mapM fun i => ((Lists.of (G ++ (l ++ X))).range i).map fun b => base + min b.2 top - lo) =
            some (ends (base + (G.flatten.length - lo)) l) := by
        intro l
        induction l with
        | nil => intros; rfl
        | cons x l ih =>
          intro G X base top lo hlo htop
          rw [List.length_cons, List.range'_succ, List.mapM_cons]
          rw [Lists.range_of _ _ (by simp)]
          have e : startAt (G ++ (x :: l ++ X)) (G.length + 1) = G.flatten.length + x.length := by
            have := startAt_left_add G [x] (l ++ X)
            simpa using this
          rw [e]
          simp only [List.flatten_cons, List.length_append] at htop
          have := ih (G ++ [x]) X base top lo (by rw [List.flatten_append, List.length_append]; omega) (by rw [List.flatten_append, List.length_append]; simp only [List.flatten_cons, List.flatten_nil, List.append_nil]; omega)
          simp only [List.length_append, List.length_cons, List.length_nil, Nat.zero_add, List.append_assoc, List.cons_append, List.nil_append, List.flatten_append,
            List.flatten_cons, List.flatten_nil, List.append_nil] at this
          simp only [Option.map_some, Option.bind_eq_bind, Option.bind_some, List.cons_append, Option.pure_def, ends]
          rw [this]
          simp only [Option.bind_some, Option.some.injEq, List.cons.injEq]
          constructor
          · rw [Nat.min_eq_left (by omega)]; omega
          · congr 1; omega
      have := gen l G X O.flatten.length (G.flatten.length + l.flatten.length) G.flatten.length le_rfl le_rfl
      rw [Nat.sub_self, Nat.add_zero] at this
      exact this
    rw [hm]
    simp only [Option.map_some, Option.some.injEq]
    have : (Lists.of (G ++ (l ++ X))).values = G.flatten ++ (l.flatten ++ X.flatten) := by simp [Lists.of]
    rw [this, slice_mid]
    simp [Lists.of, ends_append]

section
variable [LinearOrder κ] (sub : α → List β) (skey : β → κ) (out : β → γ)

/-- The lists that a report stands for. -/
def Rep.lists : Rep α → List (List γ)
  | .this l => l.map (itemsOf sub out)
  | .that l => l.map (itemsOf sub out)
  | .both a b => [(align skey (sub a) (sub b)).flatMap (Rep.items out)]

/-- The lists of both inputs begin with those of the reports; the last report may stand for the first part of a list of each input only. -/
def LayerReads : List (Rep α) → List (List γ) → List (List γ) → Prop
  | [], _, _ => True
  | .this l :: rs, R0, R1 => ∃ X, R0 = l.map (itemsOf sub out) ++ X ∧ LayerReads rs X R1
  | .that l :: rs, R0, R1 => ∃ X, R1 = l.map (itemsOf sub out) ++ X ∧ LayerReads rs R0 X
  | .both a b :: rs, R0, R1 => ∃ e0 X0 e1 X1, R0 = (itemsOf sub out a ++ e0) :: X0 ∧ R1 = (itemsOf sub out b ++ e1) :: X1 ∧
      (rs = [] ∨ (e0 = [] ∧ e1 = [])) ∧ LayerReads rs X0 X1

theorem writeLoop_spec (rs : List (Rep α)) : ∀ (G0 R0 G1 R1 : List (List γ)) (first : Bool) (O : List (List γ)), LayerReads sub out rs R0 R1 →
    writeLoop (Lists.of (G0 ++ R0)) (Lists.of (G1 ++ R1)) first (reps G0.length G1.length rs)
      (reps G0.flatten.length G1.flatten.length (rs.flatMap (Rep.down sub skey))) (Lists.of O) = some (Lists.of (O ++ rs.flatMap (Rep.lists sub skey out))) := by
  induction rs with
  | nil => intros; simp [reps, writeLoop]
  | cons r rs ih =>
    intro G0 R0 G1 R1 first O h
    cases r with
    | this l =>
      obtain ⟨X, rfl, h⟩ := h
      simp only [reps, Rep.report, writeLoop, List.flatMap_cons, Rep.down, List.cons_append, List.nil_append, writeReport, Rep.left, Rep.right, List.length_nil, Nat.add_zero]
      have hc := copyLists_spec G0 (l.map (itemsOf sub out)) X (first || (reps (G0.length + l.length) G1.length rs).isEmpty) O
      rw [flatten_itemsOf, List.length_map, List.length_map] at hc
      rw [hc]
      simp only [Option.map_some, Option.bind_some]
      have := ih (G0 ++ l.map (itemsOf sub out)) X G1 R1 false (O ++ l.map (itemsOf sub out)) h
      simp only [List.length_append, List.length_map, List.append_assoc, List.flatten_append, flatten_itemsOf] at this
      rw [this, Rep.lists]
    | that l =>
      obtain ⟨X, rfl, h⟩ := h
      simp only [reps, Rep.report, writeLoop, List.flatMap_cons, Rep.down, List.cons_append, List.nil_append, writeReport, Rep.left, Rep.right, List.length_nil, Nat.add_zero]
      have hc := copyLists_spec G1 (l.map (itemsOf sub out)) X (first || (reps G0.length (G1.length + l.length) rs).isEmpty) O
      rw [flatten_itemsOf, List.length_map, List.length_map] at hc
      rw [hc]
      simp only [Option.map_some, Option.bind_some]
      have := ih G0 R0 (G1 ++ l.map (itemsOf sub out)) X false (O ++ l.map (itemsOf sub out)) h
      simp only [List.length_append, List.length_map, List.append_assoc, List.flatten_append, flatten_itemsOf] at this
      rw [this, Rep.lists]
    | both a b =>
      obtain ⟨e0, X0, e1, X1, rfl, rfl, hc, h⟩ := h
      simp only [reps, Rep.report, writeLoop, List.flatMap_cons, Rep.down, writeReport, Rep.left, Rep.right, List.length_cons, List.length_nil, Nat.zero_add]
      rw [Lists.range_of _ _ (by simp), Lists.range_of _ _ (by simp)]
      simp only [Option.bind_some]
      have s0 : startAt (G0 ++ (itemsOf sub out a ++ e0) :: X0) (G0.length + 1) = G0.flatten.length + (itemsOf sub out a ++ e0).length := by
        have := startAt_left_add G0 [itemsOf sub out a ++ e0] X0
        simpa using this
      have s1 : startAt (G1 ++ (itemsOf sub out b ++ e1) :: X1) (G1.length + 1) = G1.flatten.length + (itemsOf sub out b ++ e1).length := by
        have := startAt_left_add G1 [itemsOf sub out b ++ e1] X1
        simpa using this
      rw [s0, s1, startAt_left, startAt_left, reps_append, lefts_align, rights_align]
      have v0 : (Lists.of (G0 ++ (itemsOf sub out a ++ e0) :: X0)).values = G0.flatten ++ ((lefts (align skey (sub a) (sub b))).map out ++ (e0 ++ X0.flatten)) := by
        simp [Lists.of, itemsOf, lefts_align]
      have v1 : (Lists.of (G1 ++ (itemsOf sub out b ++ e1) :: X1)).values = G1.flatten ++ ((rights (align skey (sub a) (sub b))).map out ++ (e1 ++ X1.flatten)) := by
        simp [Lists.of, itemsOf, rights_align]
      rw [v0, v1, bothLoop_spec out _ _ _ _ _ _ _ _ _ (full_align skey _ _)]
      rotate_left
      · rw [lefts_align]; simp [itemsOf]
      · rw [rights_align]; simp [itemsOf]
      · rcases hc with rfl | ⟨rfl, rfl⟩
        · left; simp [reps]
        · right; rw [lefts_align, rights_align]; simp [itemsOf]
      simp only [Option.map_some, Option.bind_some]
      have hclose : (Lists.close { Lists.of O with values := (Lists.of O).values ++ (align skey (sub a) (sub b)).flatMap (Rep.items out) }) =
          Lists.of (O ++ [(align skey (sub a) (sub b)).flatMap (Rep.items out)]) := by
        simp [Lists.close, Lists.of, ends_append, ends_singleton]
      rw [hclose]
      rcases hc with rfl | ⟨rfl, rfl⟩
      · simp [reps, writeLoop, Rep.lists]
      · simp only [List.append_nil]
        have := ih (G0 ++ [itemsOf sub out a]) X0 (G1 ++ [itemsOf sub out b]) X1 false (O ++ [(align skey (sub a) (sub b)).flatMap (Rep.items out)]) h
        have l0 : (itemsOf sub out a).length = (sub a).length := by simp [itemsOf]
        have l1 : (itemsOf sub out b).length = (sub b).length := by simp [itemsOf]
        simp only [List.length_append, List.length_cons, List.length_nil, Nat.zero_add, List.append_assoc, List.flatten_append, List.flatten_cons, List.flatten_nil,
          List.append_nil, List.cons_append, List.nil_append, l0, l1] at this
        rw [this, Rep.lists]
        simp

/-- `write_layer`. -/
theorem writeLayer_spec (rs : List (Rep α)) (L0 L1 : List (List γ)) (h : LayerReads sub out rs L0 L1) :
    writeLayer (Lists.of L0) (Lists.of L1) (reps 0 0 rs) (reps 0 0 (rs.flatMap (Rep.down sub skey))) = some (Lists.of (rs.flatMap (Rep.lists sub skey out))) := by
  have := writeLoop_spec sub skey out rs [] L0 [] L1 true [] h
  simpa [writeLayer] using this

end

/-! ### Differences -/

section
variable {R : Type*} [AddCommMonoid R] [DecidableEq R] (diff : β → R)

/-- The differences of the times that a report stands for. -/
def Rep.diffs : Rep β → List (List R)
  | .this l => l.map fun u => [diff u]
  | .that l => l.map fun u => [diff u]
  | .both a b => [if diff a + diff b ≠ 0 then [diff a + diff b] else []]

theorem writeDiffs_fold (rs : List (Rep β)) : ∀ (G0 X0 G1 X1 : List β) (O : List (List R)),
    (reps G0.length G1.length rs).foldlM (writeDiff (Lists.of ((G0 ++ (lefts rs ++ X0)).map fun u => [diff u])) (Lists.of ((G1 ++ (rights rs ++ X1)).map fun u => [diff u]))) (Lists.of O) =
      some (Lists.of (O ++ rs.flatMap (Rep.diffs diff))) := by
  induction rs with
  | nil => intros; simp [reps]
  | cons r rs ih =>
    intro G0 X0 G1 X1 O
    have := ih (G0 ++ r.left) X0 (G1 ++ r.right) X1 (O ++ r.diffs diff)
    simp only [List.length_append, List.append_assoc] at this
    simp only [reps, List.foldlM_cons, Option.bind_eq_bind, lefts_cons, rights_cons, List.append_assoc, List.flatMap_cons]
    have hstep : writeDiff (Lists.of ((G0 ++ (r.left ++ (lefts rs ++ X0))).map fun u => [diff u])) (Lists.of ((G1 ++ (r.right ++ (rights rs ++ X1))).map fun u => [diff u]))
        (Lists.of O) (r.report G0.length G1.length) = some (Lists.of (O ++ r.diffs diff)) := by
      cases r with
      | this l =>
        simp only [Rep.report, writeDiff, Rep.left, Rep.diffs]
        rw [Lists.extend_of _ _ (by omega) (by simp), ← map_slice, slice_mid]
      | that l =>
        simp only [Rep.report, writeDiff, Rep.right, Rep.diffs]
        rw [Lists.extend_of _ _ (by omega) (by simp), ← map_slice, slice_mid]
      | both a b =>
        simp only [Rep.report, writeDiff, Rep.left, Rep.right, Rep.diffs]
        have one : ∀ (l : List β), (l.map fun u => [diff u]).flatten = l.map diff := by intro l; induction l <;> simp_all
        have start : ∀ (G X : List β) (n : Nat), n ≤ G.length → startAt ((G ++ X).map fun u => [diff u]) n = n := by
          intro G X n hn
          rw [startAt, ← List.map_take, one, List.length_map, List.length_take, List.length_append]; omega
        rw [Lists.range_of _ _ (by simp), Lists.range_of _ _ (by simp)]
        simp only [Option.bind_some]
        have z0 : startAt (List.map (fun u => [diff u]) (G0 ++ ([a] ++ (lefts rs ++ X0)))) (G0.length + 1) = G0.length + 1 := by
          rw [← List.append_assoc]; exact start _ _ _ (by simp)
        have z1 : startAt (List.map (fun u => [diff u]) (G1 ++ ([b] ++ (rights rs ++ X1)))) (G1.length + 1) = G1.length + 1 := by
          rw [← List.append_assoc]; exact start _ _ _ (by simp)
        rw [z0, z1, start _ _ _ le_rfl, start _ _ _ le_rfl, if_pos (by omega)]
        have g0 : (Lists.of (List.map (fun u => [diff u]) (G0 ++ ([a] ++ (lefts rs ++ X0))))).values[G0.length]? = some (diff a) := by
          simp only [Lists.of, one]; simp
        have g1 : (Lists.of (List.map (fun u => [diff u]) (G1 ++ ([b] ++ (rights rs ++ X1))))).values[G1.length]? = some (diff b) := by
          simp only [Lists.of, one]; simp
        rw [g0, g1]
        simp only
        split
        · simp [Lists.push, Lists.close, Lists.of, ends_append, ends_singleton]
        · simp [Lists.close, Lists.of, ends_append, ends_singleton]
    rw [hstep, Option.bind_some, this]

/-- `write_diffs`. -/
theorem writeDiffs_spec (rs : List (Rep β)) (X0 X1 : List β) :
    writeDiffs (Lists.of ((lefts rs ++ X0).map fun u => [diff u])) (Lists.of ((rights rs ++ X1).map fun u => [diff u])) (reps 0 0 rs) =
      some (Lists.of (rs.flatMap (Rep.diffs diff))) := by
  have := writeDiffs_fold diff rs [] X0 [] X1 []
  simpa [writeDiffs] using this

end

end DD
