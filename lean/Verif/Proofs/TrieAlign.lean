import Verif.Model.TrieMerger
import Verif.Proofs.ColBasic
import Verif.Proofs.Chunk

/-! How the items of two sorted lists interleave, and the reports about them. -/

namespace DD
set_option linter.unusedSectionVars false
variable {α β κ : Type*}

/-- Items of one list, of the other, or an item of each with equal keys. -/
inductive Rep (α : Type*) where
  | this (l : List α)
  | that (l : List α)
  | both (a b : α)

/-- The items of the first list. -/
def Rep.left : Rep α → List α
  | .this l => l
  | .that _ => []
  | .both a _ => [a]

/-- The items of the second list. -/
def Rep.right : Rep α → List α
  | .this _ => []
  | .that l => l
  | .both _ b => [b]

/-- Ranges are not empty. -/
def Rep.Full : Rep α → Prop
  | .this l => l ≠ []
  | .that l => l ≠ []
  | .both _ _ => True

/-- The report, with its positions. -/
def Rep.report (o0 o1 : Nat) : Rep α → Report
  | .this l => .this o0 (o0 + l.length)
  | .that l => .that o1 (o1 + l.length)
  | .both _ _ => .both o0 o1

/-- The reports, with their positions. -/
def reps : Nat → Nat → List (Rep α) → List Report
  | _, _, [] => []
  | o0, o1, r :: rs => r.report o0 o1 :: reps (o0 + r.left.length) (o1 + r.right.length) rs

def lefts (rs : List (Rep α)) : List α := rs.flatMap Rep.left
def rights (rs : List (Rep α)) : List α := rs.flatMap Rep.right

theorem lefts_cons (r : Rep α) (rs : List (Rep α)) : lefts (r :: rs) = r.left ++ lefts rs := rfl
theorem rights_cons (r : Rep α) (rs : List (Rep α)) : rights (r :: rs) = r.right ++ rights rs := rfl
theorem lefts_append (a b : List (Rep α)) : lefts (a ++ b) = lefts a ++ lefts b := by simp [lefts]
theorem rights_append (a b : List (Rep α)) : rights (a ++ b) = rights a ++ rights b := by simp [rights]

theorem reps_append (a b : List (Rep α)) : ∀ (o0 o1 : Nat), reps o0 o1 (a ++ b) = reps o0 o1 a ++ reps (o0 + (lefts a).length) (o1 + (rights a).length) b := by
  induction a with
  | nil => intros; simp [reps, lefts, rights]
  | cons r a ih =>
    intro o0 o1
    simp only [List.cons_append, reps, ih, lefts_cons, rights_cons, List.length_append]
    simp only [Nat.add_assoc]

theorem reps_length (rs : List (Rep α)) : ∀ (o0 o1 : Nat), (reps o0 o1 rs).length = rs.length := by
  induction rs with
  | nil => intros; rfl
  | cons r rs ih => intros; simp [reps, ih]

section align
variable [LinearOrder κ] (key : α → κ)

/-- The interleaving of two lists sorted by key. -/
def align : List α → List α → List (Rep α)
  | [], [] => []
  | x :: xs, [] => [.this (x :: xs)]
  | [], y :: ys => [.that (y :: ys)]
  | x :: xs, y :: ys =>
    if key x < key y then .this (x :: xs.takeWhile fun z => key z < key y) :: align (xs.dropWhile fun z => key z < key y) (y :: ys)
    else if key x = key y then .both x y :: align xs ys
    else .that (y :: ys.takeWhile fun z => key z < key x) :: align (x :: xs) (ys.dropWhile fun z => key z < key x)
termination_by xs ys => xs.length + ys.length
decreasing_by
  · have := (List.dropWhile_sublist (fun z => decide (key z < key y)) (l := xs)).length_le
    simp only [List.length_cons]; omega
  · simp only [List.length_cons]; omega
  · have := (List.dropWhile_sublist (fun z => decide (key z < key x)) (l := ys)).length_le
    simp only [List.length_cons]; omega

theorem lefts_rights_align : ∀ (n : Nat) (xs ys : List α), xs.length + ys.length ≤ n →
    lefts (align key xs ys) = xs ∧ rights (align key xs ys) = ys ∧ ∀ r ∈ align key xs ys, r.Full := by
  intro n
  induction n with
  | zero =>
    intro xs ys h
    have h1 : xs = [] := List.length_eq_zero_iff.1 (by omega)
    have h2 : ys = [] := List.length_eq_zero_iff.1 (by omega)
    subst h1; subst h2
    simp [align, lefts, rights]
  | succ n ih =>
    intro xs ys h
    match xs, ys with
    | [], [] => simp [align, lefts, rights]
    | x :: xs, [] => simp [align, lefts, rights, Rep.left, Rep.right, Rep.Full]
    | [], y :: ys => simp [align, lefts, rights, Rep.left, Rep.right, Rep.Full]
    | x :: xs, y :: ys =>
      simp only [List.length_cons] at h
      rw [align]
      split
      · have := (List.dropWhile_sublist (fun z => decide (key z < key y)) (l := xs)).length_le
        obtain ⟨i1, i2, i3⟩ := ih (xs.dropWhile fun z => key z < key y) (y :: ys) (by simp only [List.length_cons]; omega)
        refine ⟨?_, ?_, ?_⟩
        · rw [lefts_cons, i1]; simp [Rep.left]
        · rw [rights_cons, i2]; simp [Rep.right]
        · intro r hr
          rcases List.mem_cons.1 hr with rfl | hr
          · simp [Rep.Full]
          · exact i3 r hr
      · split
        · obtain ⟨i1, i2, i3⟩ := ih xs ys (by omega)
          refine ⟨?_, ?_, ?_⟩
          · rw [lefts_cons, i1]; simp [Rep.left]
          · rw [rights_cons, i2]; simp [Rep.right]
          · intro r hr
            rcases List.mem_cons.1 hr with rfl | hr
            · simp [Rep.Full]
            · exact i3 r hr
        · have := (List.dropWhile_sublist (fun z => decide (key z < key x)) (l := ys)).length_le
          obtain ⟨i1, i2, i3⟩ := ih (x :: xs) (ys.dropWhile fun z => key z < key x) (by simp only [List.length_cons]; omega)
          refine ⟨?_, ?_, ?_⟩
          · rw [lefts_cons, i1]; simp [Rep.left]
          · rw [rights_cons, i2]; simp [Rep.right]
          · intro r hr
            rcases List.mem_cons.1 hr with rfl | hr
            · simp [Rep.Full]
            · exact i3 r hr

theorem lefts_align (xs ys : List α) : lefts (align key xs ys) = xs := (lefts_rights_align key _ xs ys le_rfl).1
theorem rights_align (xs ys : List α) : rights (align key xs ys) = ys := (lefts_rights_align key _ xs ys le_rfl).2.1
theorem full_align (xs ys : List α) : ∀ r ∈ align key xs ys, r.Full := (lefts_rights_align key _ xs ys le_rfl).2.2

theorem takeWhile_map_key (xs : List α) (p : κ → Bool) : (xs.map key).takeWhile p = (xs.takeWhile fun z => p (key z)).map key := by
  rw [List.takeWhile_map]; rfl

/-- The loop of `survey`. -/
theorem surveyLoop_spec (n : Nat) : ∀ (xs ys : List α) (P0 Q0 P1 Q1 : List κ), xs.length + ys.length < n →
    xs.Pairwise (fun a b => key a < key b) → ys.Pairwise (fun a b => key a < key b) →
    surveyLoop (P0 ++ (xs.map key ++ Q0)) (P1 ++ (ys.map key ++ Q1)) n P0.length (P0.length + xs.length) P1.length (P1.length + ys.length) =
      some (reps P0.length P1.length (align key xs ys)) := by
  induction n with
  | zero => intro xs ys P0 Q0 P1 Q1 h; omega
  | succ n ih =>
    intro xs ys P0 Q0 P1 Q1 h h0 h1
    match xs, ys with
    | [], [] => simp [surveyLoop, align, reps]
    | x :: xs, [] => simp [surveyLoop, align, reps, Rep.report]
    | [], y :: ys => simp [surveyLoop, align, reps, Rep.report]
    | x :: xs, y :: ys =>
      simp only [List.length_cons] at h
      rw [surveyLoop, if_pos (by simp)]
      have e0 : (P0 ++ (List.map key (x :: xs) ++ Q0))[P0.length]? = some (key x) := by simp
      have e1 : (P1 ++ (List.map key (y :: ys) ++ Q1))[P1.length]? = some (key y) := by simp
      rw [e0, e1, align]
      simp only
      split
      · rename_i hlt
        have hg : gallopIn (P0 ++ (List.map key (x :: xs) ++ Q0)) (P0.length + 1) (P0.length + (x :: xs).length) (fun z => decide (z < key y)) =
            some (P0.length + 1 + (xs.takeWhile fun z => key z < key y).length) := by
          rw [gallopIn]
          have ht : (P0 ++ (List.map key (x :: xs) ++ Q0)).take (P0.length + (x :: xs).length) = P0 ++ (x :: xs).map key := by
            rw [← List.append_assoc]; apply List.take_left'; simp
          rw [ht]
          have hd : (P0 ++ (x :: xs).map key).drop (P0.length + 1) = xs.map key := by
            rw [← List.drop_drop, List.drop_left]; rfl
          rw [gallop_eq]
          · rw [hd, takeWhile_map_key, List.length_map]
          · rw [hd, List.pairwise_map]
            refine (List.pairwise_cons.1 h0).2.imp ?_
            intro a b hab hb
            simp only [decide_eq_true_eq] at hb ⊢
            exact lt_trans hab hb
        rw [hg, Option.bind_some]
        have hsplit : (x :: xs) = (x :: xs.takeWhile fun z => key z < key y) ++ xs.dropWhile fun z => key z < key y := by simp
        have := ih (xs.dropWhile fun z => key z < key y) (y :: ys) (P0 ++ (x :: xs.takeWhile fun z => key z < key y).map key) Q0 P1 Q1
          (by have := (List.dropWhile_sublist (fun z => decide (key z < key y)) (l := xs)).length_le; simp only [List.length_cons]; omega)
          ((List.pairwise_cons.1 h0).2.sublist (List.dropWhile_sublist _)) h1
        have hl : P0.length + 1 + (xs.takeWhile fun z => key z < key y).length = (P0 ++ (x :: xs.takeWhile fun z => key z < key y).map key).length := by
          simp; omega
        have hu : P0.length + (x :: xs).length = (P0 ++ (x :: xs.takeWhile fun z => key z < key y).map key).length + (xs.dropWhile fun z => key z < key y).length := by
          conv_lhs => rw [hsplit]
          simp only [List.length_append, List.length_map]; omega
        have hv : P0 ++ (List.map key (x :: xs) ++ Q0) = (P0 ++ (x :: xs.takeWhile fun z => key z < key y).map key) ++ ((xs.dropWhile fun z => key z < key y).map key ++ Q0) := by
          conv_lhs => rw [hsplit]
          simp only [List.map_append, List.append_assoc]
        rw [hl, hu, hv, this]
        simp [reps, Rep.report, Rep.left, Rep.right]
      · rename_i hnlt
        split
        · have := ih xs ys (P0 ++ [key x]) Q0 (P1 ++ [key y]) Q1 (by omega) (List.pairwise_cons.1 h0).2 (List.pairwise_cons.1 h1).2
          simp only [List.length_append, List.length_cons, List.length_nil, List.append_assoc, List.cons_append, List.nil_append, Nat.zero_add] at this
          simp only [List.length_cons, List.map_cons, List.cons_append, ← Nat.add_assoc]
          have a0 : P0.length + xs.length + 1 = P0.length + 1 + xs.length := by omega
          have a1 : P1.length + ys.length + 1 = P1.length + 1 + ys.length := by omega
          rw [a0, a1, this]
          simp [reps, Rep.report, Rep.left, Rep.right]
        · rename_i hne
          have hlt : key y < key x := lt_of_le_of_ne (not_lt.1 hnlt) (Ne.symm hne)
          have hg : gallopIn (P1 ++ (List.map key (y :: ys) ++ Q1)) (P1.length + 1) (P1.length + (y :: ys).length) (fun z => decide (z < key x)) =
              some (P1.length + 1 + (ys.takeWhile fun z => key z < key x).length) := by
            rw [gallopIn]
            have ht : (P1 ++ (List.map key (y :: ys) ++ Q1)).take (P1.length + (y :: ys).length) = P1 ++ (y :: ys).map key := by
              rw [← List.append_assoc]; apply List.take_left'; simp
            rw [ht]
            have hd : (P1 ++ (y :: ys).map key).drop (P1.length + 1) = ys.map key := by
              rw [← List.drop_drop, List.drop_left]; rfl
            rw [gallop_eq]
            · rw [hd, takeWhile_map_key, List.length_map]
            · rw [hd, List.pairwise_map]
              refine (List.pairwise_cons.1 h1).2.imp ?_
              intro a b hab hb
              simp only [decide_eq_true_eq] at hb ⊢
              exact lt_trans hab hb
          rw [hg, Option.bind_some]
          have hsplit : (y :: ys) = (y :: ys.takeWhile fun z => key z < key x) ++ ys.dropWhile fun z => key z < key x := by simp
          have := ih (x :: xs) (ys.dropWhile fun z => key z < key x) P0 Q0 (P1 ++ (y :: ys.takeWhile fun z => key z < key x).map key) Q1
            (by have := (List.dropWhile_sublist (fun z => decide (key z < key x)) (l := ys)).length_le; simp only [List.length_cons]; omega)
            h0 ((List.pairwise_cons.1 h1).2.sublist (List.dropWhile_sublist _))
          have hl : P1.length + 1 + (ys.takeWhile fun z => key z < key x).length = (P1 ++ (y :: ys.takeWhile fun z => key z < key x).map key).length := by
            simp; omega
          have hu : P1.length + (y :: ys).length = (P1 ++ (y :: ys.takeWhile fun z => key z < key x).map key).length + (ys.dropWhile fun z => key z < key x).length := by
            conv_lhs => rw [hsplit]
            simp only [List.length_append, List.length_map]; omega
          have hv : P1 ++ (List.map key (y :: ys) ++ Q1) = (P1 ++ (y :: ys.takeWhile fun z => key z < key x).map key) ++ ((ys.dropWhile fun z => key z < key x).map key ++ Q1) := by
            conv_lhs => rw [hsplit]
            simp only [List.map_append, List.append_assoc]
          rw [hl, hu, hv, this]
          simp [reps, Rep.report, Rep.left, Rep.right]

end align

/-! ### Surveys of a layer -/

section
variable (sub : α → List β) (key : β → κ)

/-- The keys of the items of a list. -/
def itemsOf (a : α) : List κ := (sub a).map key

theorem flatten_itemsOf (l : List α) : (l.map (itemsOf sub key)).flatten = (l.flatMap sub).map key := by
  rw [List.map_flatMap, List.flatMap_def]; rfl

theorem startAt_left (G X : List (List κ)) : startAt (G ++ X) G.length = G.flatten.length := by simp [startAt]

theorem startAt_left_add (G Y X : List (List κ)) : startAt (G ++ (Y ++ X)) (G.length + Y.length) = G.flatten.length + Y.flatten.length := by
  rw [← List.append_assoc, ← List.length_append, startAt_left]; simp

end

section
variable [LinearOrder κ] (sub : α → List β) (key : β → κ)

/-- What a report says about the items of its lists. -/
def Rep.down : Rep α → List (Rep β)
  | .this l => [.this (l.flatMap sub)]
  | .that l => [.that (l.flatMap sub)]
  | .both a b => align key (sub a) (sub b)

theorem lefts_down (r : Rep α) : lefts (r.down sub key) = r.left.flatMap sub := by
  cases r <;> simp [Rep.down, Rep.left, lefts_align] <;> simp [lefts, Rep.left]

theorem rights_down (r : Rep α) : rights (r.down sub key) = r.right.flatMap sub := by
  cases r <;> simp [Rep.down, Rep.right, rights_align] <;> simp [rights, Rep.right]

theorem lefts_downs (rs : List (Rep α)) : lefts (rs.flatMap (Rep.down sub key)) = (lefts rs).flatMap sub := by
  induction rs with
  | nil => rfl
  | cons r rs ih => rw [List.flatMap_cons, lefts_append, lefts_down, ih, lefts_cons, List.flatMap_append]

theorem rights_downs (rs : List (Rep α)) : rights (rs.flatMap (Rep.down sub key)) = (rights rs).flatMap sub := by
  induction rs with
  | nil => rfl
  | cons r rs ih => rw [List.flatMap_cons, rights_append, rights_down, ih, rights_cons, List.flatMap_append]

theorem surveyOne_spec (r : Rep α) (hr : r.Full) (G0 X0 G1 X1 : List (List κ))
    (h0 : ∀ a ∈ r.left, (sub a).Pairwise fun x y => key x < key y) (h1 : ∀ a ∈ r.right, (sub a).Pairwise fun x y => key x < key y) :
    surveyOne (Lists.of (G0 ++ (r.left.map (itemsOf sub key) ++ X0))) (Lists.of (G1 ++ (r.right.map (itemsOf sub key) ++ X1))) (r.report G0.length G1.length) =
      some (reps G0.flatten.length G1.flatten.length (r.down sub key)) := by
  cases r with
  | this l =>
    simp only [Rep.Full] at hr
    have hl : 0 < l.length := List.length_pos_iff.2 hr
    simp only [Rep.report, surveyOne, Rep.left, Rep.down, reps]
    rw [Lists.range_of _ _ (by simp; omega), Lists.range_of _ _ (by simp; omega)]
    have e : G0.length + l.length - 1 + 1 = G0.length + (l.map (itemsOf sub key)).length := by rw [List.length_map]; omega
    rw [e, startAt_left, startAt_left_add, flatten_itemsOf, List.length_map]
    rfl
  | that l =>
    simp only [Rep.Full] at hr
    have hl : 0 < l.length := List.length_pos_iff.2 hr
    simp only [Rep.report, surveyOne, Rep.right, Rep.down, reps]
    rw [Lists.range_of _ _ (by simp; omega), Lists.range_of _ _ (by simp; omega)]
    have e : G1.length + l.length - 1 + 1 = G1.length + (l.map (itemsOf sub key)).length := by rw [List.length_map]; omega
    rw [e, startAt_left, startAt_left_add, flatten_itemsOf, List.length_map]
    rfl
  | both a b =>
    simp only [Rep.report, surveyOne, Rep.left, Rep.right, Rep.down]
    rw [Lists.range_of _ _ (by simp), Lists.range_of _ _ (by simp)]
    simp only [Option.bind_some]
    have e0 : startAt (G0 ++ (List.map (itemsOf sub key) [a] ++ X0)) (G0.length + 1) = G0.flatten.length + (sub a).length := by
      have := startAt_left_add G0 ([a].map (itemsOf sub key)) X0
      simpa [itemsOf] using this
    have e1 : startAt (G1 ++ (List.map (itemsOf sub key) [b] ++ X1)) (G1.length + 1) = G1.flatten.length + (sub b).length := by
      have := startAt_left_add G1 ([b].map (itemsOf sub key)) X1
      simpa [itemsOf] using this
    rw [e0, e1, startAt_left, startAt_left]
    have v0 : (Lists.of (G0 ++ (List.map (itemsOf sub key) [a] ++ X0))).values = G0.flatten ++ ((sub a).map key ++ X0.flatten) := by simp [Lists.of, itemsOf]
    have v1 : (Lists.of (G1 ++ (List.map (itemsOf sub key) [b] ++ X1))).values = G1.flatten ++ ((sub b).map key ++ X1.flatten) := by simp [Lists.of, itemsOf]
    rw [v0, v1]
    exact surveyLoop_spec key _ (sub a) (sub b) _ _ _ _ (by omega) (h0 a (by simp [Rep.left])) (h1 b (by simp [Rep.right]))

theorem survey_fold (rs : List (Rep α)) : ∀ (G0 X0 G1 X1 : List (List κ)) (out : List Report), (∀ r ∈ rs, r.Full) →
    (∀ a ∈ lefts rs, (sub a).Pairwise fun x y => key x < key y) → (∀ a ∈ rights rs, (sub a).Pairwise fun x y => key x < key y) →
    (reps G0.length G1.length rs).foldlM (fun output report => (surveyOne (Lists.of (G0 ++ ((lefts rs).map (itemsOf sub key) ++ X0)))
      (Lists.of (G1 ++ ((rights rs).map (itemsOf sub key) ++ X1))) report).map (output ++ ·)) out =
      some (out ++ reps G0.flatten.length G1.flatten.length (rs.flatMap (Rep.down sub key))) := by
  induction rs with
  | nil => intros; simp [reps]
  | cons r rs ih =>
    intro G0 X0 G1 X1 out hf h0 h1
    simp only [reps, List.foldlM_cons, Option.bind_eq_bind]
    have hs0 : ∀ a ∈ r.left, (sub a).Pairwise fun x y => key x < key y := fun a ha => h0 a (by rw [lefts_cons]; exact List.mem_append_left _ ha)
    have hs1 : ∀ a ∈ r.right, (sub a).Pairwise fun x y => key x < key y := fun a ha => h1 a (by rw [rights_cons]; exact List.mem_append_left _ ha)
    have := surveyOne_spec sub key r (hf r (by simp)) G0 ((lefts rs).map (itemsOf sub key) ++ X0) G1 ((rights rs).map (itemsOf sub key) ++ X1) hs0 hs1
    have c0 : G0 ++ ((lefts (r :: rs)).map (itemsOf sub key) ++ X0) = G0 ++ (r.left.map (itemsOf sub key) ++ ((lefts rs).map (itemsOf sub key) ++ X0)) := by
      rw [lefts_cons, List.map_append, List.append_assoc]
    have c1 : G1 ++ ((rights (r :: rs)).map (itemsOf sub key) ++ X1) = G1 ++ (r.right.map (itemsOf sub key) ++ ((rights rs).map (itemsOf sub key) ++ X1)) := by
      rw [rights_cons, List.map_append, List.append_assoc]
    rw [c0, c1, this]
    simp only [Option.map_some, Option.bind_some]
    have := ih (G0 ++ r.left.map (itemsOf sub key)) X0 (G1 ++ r.right.map (itemsOf sub key)) X1
      (out ++ reps G0.flatten.length G1.flatten.length (r.down sub key)) (fun r hr => hf r (List.mem_cons_of_mem _ hr))
      (fun a ha => h0 a (by rw [lefts_cons]; exact List.mem_append_right _ ha)) (fun a ha => h1 a (by rw [rights_cons]; exact List.mem_append_right _ ha))
    simp only [List.length_append, List.length_map, List.append_assoc, List.flatten_append, flatten_itemsOf] at this
    rw [this, List.flatMap_cons, reps_append, lefts_down, rights_down]

/-- `survey`. -/
theorem survey_spec (rs : List (Rep α)) (hf : ∀ r ∈ rs, r.Full) (h0 : ∀ a ∈ lefts rs, (sub a).Pairwise fun x y => key x < key y)
    (h1 : ∀ a ∈ rights rs, (sub a).Pairwise fun x y => key x < key y) :
    survey (Lists.of ((lefts rs).map (itemsOf sub key))) (Lists.of ((rights rs).map (itemsOf sub key))) (reps 0 0 rs) =
      some (reps 0 0 (rs.flatMap (Rep.down sub key))) := by
  have := survey_fold sub key rs [] [] [] [] [] hf h0 h1
  simpa [survey] using this

end

end DD
