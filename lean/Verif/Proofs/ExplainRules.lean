import Verif.Proofs.Explain

/-!
# Proofs: reverse rules of projections, joins, variables, filters, flatmaps and sources
-/

namespace DD.Ir.Ex

variable {norm : Overflow}

/-- The rows of a linear operator. -/
theorem wider_two {r : Record} {k v m : Nat} (hr : r.Shaped k v m) (rest : List Value) : Wider [k, v] [.tuple r.key, .tuple r.val] [.tuple r.key, .tuple (r.val ++ rest)] := by
  refine ⟨rfl, rfl, fun i hi => ?_⟩
  match i, hi with
  | 0, _ => exact ⟨r.key, [], rfl, by simp, by simp [hr.1]⟩
  | 1, _ => exact ⟨r.val, rest, rfl, rfl, by simp [hr.2.1]⟩

theorem wider_three {l r : Record} {k v w m n : Nat} (hl : l.Shaped k v m) (hr : r.val.length = w) (rest rest' : List Value) :
    Wider [k, v, w] [.tuple l.key, .tuple l.val, .tuple r.val] [.tuple l.key, .tuple (l.val ++ rest), .tuple (r.val ++ rest')] := by
  refine ⟨rfl, rfl, fun i hi => ?_⟩
  match i, hi with
  | 0, _ => exact ⟨l.key, [], rfl, by simp, by simp [hl.1]⟩
  | 1, _ => exact ⟨l.val, rest, rfl, rfl, by simp [hl.2.1]⟩
  | 2, _ => exact ⟨r.val, rest', rfl, rfl, by simp [hr]⟩

/-- The tuple a side of a projection means on a record. -/
noncomputable def keyOf (norm : Overflow) (t : Term) (rows : List Value) : List Value :=
  match denote norm rows t [] with
  | some (.tuple vs) => vs
  | _ => []

theorem keyOf_spec {arities : List Nat} {rows rows' : List Value} (hw : Wider arities rows rows') {t : Term} (hp : Plain arities t) (h : (denote norm rows t []).isSome) :
    denote norm rows t [] = some (.tuple (keyOf norm t rows)) ∧ BuildsTo norm (expandValueFields t arities) rows' (keyOf norm t rows) := by
  obtain ⟨v, hv⟩ := Option.isSome_iff_exists.1 h
  obtain ⟨vs, rfl, hb⟩ := plain_wider hw hp hv
  have : keyOf norm t rows = vs := by simp only [keyOf, hv]
  rw [this]
  exact ⟨hv, hb⟩

theorem lossy_traced {deps : List Demand} {recs : List Record} {k v w m n kOut : Nat} {proj : Projection} (hp : Plain [k, v] proj.key) (hd : ∀ d ∈ deps, d.val.length = w ∧ d.chain.length = n)
    (hr : ∀ r ∈ recs, r.Shaped k v m) (hs : ∀ r ∈ recs, (denote norm [.tuple r.key, .tuple r.val] proj.key []).isSome) :
    lossyLookup norm (deps.map Demand.row) ⟨recs.map Record.row, (k, v), m⟩ (kOut, w) n proj =
      some ((traced deps recs fun r d => denote norm [.tuple r.key, .tuple r.val] proj.key [] = some (.tuple d.key)).map Demand.row) := by
  classical
  unfold lossyLookup
  simp only
  rw [dfProject_map (row' := fun r => (.tuple (keyOf norm proj.key [.tuple r.key, .tuple r.val]), .tuple (r.key ++ (r.val ++ r.chain)))), Option.bind_some, dfJoin_map (row := wideRow), Option.bind_some,
    timeLe_strip, traced_of_filter_one]
  · intro x hx
    obtain ⟨h1, h2⟩ := List.mem_product.1 hx
    have hk := (keyOf_spec (wider_two (hr _ h2) []) hp (hs _ h2)).1
    rw [hk]
    simp only [Demand.row, tuple_inj, Option.some.injEq]
    exact eq_comm
  · intro x hx; exact hr _ (List.mem_product.1 (List.mem_filter.1 hx).1).2
  · intro x hx; exact (hd _ (List.mem_product.1 (List.mem_filter.1 hx).1).1).2
  · intro d h1 r h2 _
    have h1 := hd _ h1
    have h2 := hr _ h2
    rw [wideRow, lossyReassemble]
    refine evalProj_tuple ?_ (.append (.append (.append ?_ ?_) ?_) ?_)
    · exact builds_fidx r.key (A := []) (C := r.val ++ r.chain) (by simp) rfl (by simp [h2.1])
    · exact builds_fidx r.val (A := r.key) (C := r.chain) (by simp) h2.1.symm (by simp [h2.2.1])
    · exact builds_fidx r.chain (A := r.key ++ r.val) (C := []) (by simp) (by simp [h2.1, h2.2.1]) (by simp [h2.2.2])
    · exact builds_fidx d.chain (A := d.val) (C := [d.q]) (by simp [Demand.row]) h1.1.symm (by simp [h1.2])
    · exact builds_f (s := 1) rfl rfl (last_getElem (by simp [h1.1, h1.2]))
  · intro r h
    have h2 := hr _ h
    rw [lossyPair]
    refine evalProj_tuple (keyOf_spec (wider_two h2 r.chain) hp (hs _ h)).2 (.append ?_ ?_)
    · exact builds_fidx r.key (A := []) (C := []) (by simp [Record.row]) rfl (by simp [h2.1])
    · exact builds_fidx (r.val ++ r.chain) (A := []) (C := []) (by simp [Record.row]) rfl (by simp [h2.2.1, h2.2.2])

/-! ### Joins -/

/-- The row of a pair of records of a join. -/
noncomputable def pairRow (norm : Overflow) (proj : Projection) (x : Record × Record) : Value × Value :=
  (.tuple (keyOf norm proj.key [.tuple x.1.key, .tuple x.1.val, .tuple x.2.val]),
   .tuple (x.1.key ++ x.1.val ++ x.2.val ++ x.1.chain ++ x.2.chain ++ keyOf norm proj.val [.tuple x.1.key, .tuple x.1.val, .tuple x.2.val]))

/-- The row of a demand and a pair of records. -/
noncomputable def combinedRow (norm : Overflow) (proj : Projection) (x : Demand × Record × Record) : Value × Value :=
  (.tuple x.2.1.key, .tuple (x.2.1.val ++ x.2.2.val ++ x.2.1.chain ++ x.2.2.chain ++ x.1.chain ++ [x.1.q] ++ x.1.val ++ keyOf norm proj.val [.tuple x.2.1.key, .tuple x.2.1.val, .tuple x.2.2.val]))

theorem mid_getElem {a b c : List Value} {x : Value} {n : Nat} (h : a.length = n) : (a ++ [x] ++ b ++ c)[n]? = some x := by
  rw [List.append_assoc, List.append_assoc, ← h, List.getElem?_append_right (le_refl _), Nat.sub_self]; rfl

open Classical in
theorem product_filter {A B : Type*} (L : List A) (M : List B) (P : B → Prop) : L ×ˢ (M.filter fun y => P y) = (L ×ˢ M).filter fun x => P x.2 := by
  induction L with
  | nil => rfl
  | cons x L ih =>
    rw [List.product_cons, List.product_cons, List.filter_append, ih]
    congr 1
    rw [List.filter_map]
    rfl

theorem join_traced {deps : List Demand} {lefts rights : List Record} {k v w o m l n kOut : Nat} {proj : Projection} (hpk : Plain [k, v, w] proj.key) (hpv : Plain [k, v, w] proj.val)
    (hd : ∀ d ∈ deps, d.val.length = o ∧ d.chain.length = n) (hl : ∀ r ∈ lefts, r.Shaped k v m) (hr : ∀ r ∈ rights, r.val.length = w ∧ r.chain.length = l)
    (hsk : ∀ a ∈ lefts, ∀ b ∈ rights, a.key = b.key → (denote norm [.tuple a.key, .tuple a.val, .tuple b.val] proj.key []).isSome)
    (hsv : ∀ a ∈ lefts, ∀ b ∈ rights, a.key = b.key → ∃ vs, denote norm [.tuple a.key, .tuple a.val, .tuple b.val] proj.val [] = some (.tuple vs) ∧ vs.length = o) {kr : Nat} :
    joinLookup norm (deps.map Demand.row) ⟨lefts.map Record.row, (k, v), m⟩ ⟨rights.map Record.row, (kr, w), l⟩ (kOut, o) n proj =
      some (((tracedJoin deps lefts rights fun a b d => denote norm [.tuple a.key, .tuple a.val, .tuple b.val] proj.key [] = some (.tuple d.key) ∧
          denote norm [.tuple a.key, .tuple a.val, .tuple b.val] proj.val [] = some (.tuple d.val)).map fun x => x.1.row),
        ((tracedJoin deps lefts rights fun a b d => denote norm [.tuple a.key, .tuple a.val, .tuple b.val] proj.key [] = some (.tuple d.key) ∧
          denote norm [.tuple a.key, .tuple a.val, .tuple b.val] proj.val [] = some (.tuple d.val)).map fun x => x.2.row)) := by
  classical
  unfold joinLookup
  simp only
  have hval : ∀ a ∈ lefts, ∀ b ∈ rights, a.key = b.key → denote norm [.tuple a.key, .tuple a.val, .tuple b.val] proj.val [] = some (.tuple (keyOf norm proj.val [.tuple a.key, .tuple a.val, .tuple b.val])) ∧
      (keyOf norm proj.val [.tuple a.key, .tuple a.val, .tuple b.val]).length = o := by
    intro a ha b hb hab
    obtain ⟨vs, h1, h2⟩ := hsv a ha b hb hab
    have : keyOf norm proj.val [.tuple a.key, .tuple a.val, .tuple b.val] = vs := by simp only [keyOf, h1]
    rw [this]
    exact ⟨h1, h2⟩
  have hpair : dfJoin norm (lefts.map Record.row) (rights.map Record.row) (joinForward proj k v w m l) = some (((lefts ×ˢ rights).filter fun x => x.1.row.1 = x.2.row.1).map (pairRow norm proj)) := by
    refine dfJoin_map fun a ha b hb hk => ?_
    simp only [Record.row, tuple_inj] at hk
    have h1 := hl _ ha
    have h2 := hr _ hb
    have hw := wider_three (n := l) h1 h2.1 a.chain b.chain
    rw [pairRow, joinForward]
    refine evalProj_tuple (keyOf_spec hw hpk (hsk a ha b hb hk)).2 (.append (.append (.append (.append (.append ?_ ?_) ?_) ?_) ?_) ?_)
    · exact builds_fidx a.key (A := []) (C := []) (by simp [Record.row]) rfl (by simp [h1.1])
    · exact builds_fidx a.val (A := []) (C := a.chain) (by simp [Record.row]) rfl (by simp [h1.2.1])
    · exact builds_fidx b.val (A := []) (C := b.chain) (by simp [Record.row]) rfl (by simp [h2.1])
    · exact builds_fidx a.chain (A := a.val) (C := []) (by simp [Record.row]) h1.2.1.symm (by simp [h1.2.2])
    · exact builds_fidx b.chain (A := b.val) (C := []) (by simp [Record.row]) h2.1.symm (by simp [h2.2])
    · exact (keyOf_spec hw hpv (by rw [(hval a ha b hb hk).1]; rfl)).2
  rw [hpair, Option.bind_some]
  have hmem : ∀ {y : Record × Record}, y ∈ (lefts ×ˢ rights).filter (fun x => decide (x.1.row.1 = x.2.row.1)) → y.1 ∈ lefts ∧ y.2 ∈ rights ∧ y.1.key = y.2.key := by
    intro y hy
    obtain ⟨hy, hk⟩ := List.mem_filter.1 hy
    obtain ⟨h1, h2⟩ := List.mem_product.1 hy
    have hk := of_decide_eq_true hk
    simp only [Record.row, tuple_inj] at hk
    exact ⟨h1, h2, hk⟩
  have hcomb : dfJoin norm (deps.map Demand.row) (((lefts ×ˢ rights).filter fun x => x.1.row.1 = x.2.row.1).map (pairRow norm proj)) (joinCombined k v w o m l n) =
      some (((deps ×ˢ ((lefts ×ˢ rights).filter fun x => x.1.row.1 = x.2.row.1)).filter fun x => x.1.row.1 = (pairRow norm proj x.2).1).map (combinedRow norm proj)) := by
    refine dfJoin_map fun d hd' y hy hk => ?_
    obtain ⟨ha, hb, hab⟩ := hmem hy
    have h0 := hd _ hd'
    have h1 := hl _ ha
    have h2 := hr _ hb
    have h3 := (hval _ ha _ hb hab).2
    rw [combinedRow, joinCombined]
    refine evalProj_tuple ?_ (.append (.append (.append (.append (.append (.append (.append ?_ ?_) ?_) ?_) ?_) ?_) ?_) ?_)
    · exact builds_fidx y.1.key (A := []) (by simp [pairRow]; rfl) rfl (by simp [h1.1])
    · exact builds_fidx y.1.val (A := y.1.key) (by simp [pairRow]; rfl) h1.1.symm (by simp [h1.2.1])
    · exact builds_fidx y.2.val (A := y.1.key ++ y.1.val) (by simp [pairRow]; rfl) (by simp [h1.1, h1.2.1]) (by simp [h2.1])
    · exact builds_fidx y.1.chain (A := y.1.key ++ y.1.val ++ y.2.val) (by simp [pairRow]; rfl) (by simp [h1.1, h1.2.1, h2.1]; omega) (by simp [h1.2.2])
    · exact builds_fidx y.2.chain (A := y.1.key ++ y.1.val ++ y.2.val ++ y.1.chain) (by simp [pairRow]; rfl) (by simp [h1.1, h1.2.1, h1.2.2, h2.1]; omega) (by simp [h2.2])
    · exact builds_fidx d.chain (A := d.val) (C := [d.q]) (by simp [Demand.row]) h0.1.symm (by simp [h0.2])
    · exact builds_f (s := 1) rfl rfl (last_getElem (by simp [h0.1, h0.2]))
    · exact builds_fidx d.val (A := []) (C := d.chain ++ [d.q]) (by simp [Demand.row]) rfl (by simp [h0.1])
    · exact builds_fidx (keyOf norm proj.val [.tuple y.1.key, .tuple y.1.val, .tuple y.2.val]) (A := y.1.key ++ y.1.val ++ y.2.val ++ y.1.chain ++ y.2.chain) (C := []) (by simp [pairRow])
        (by simp [h1.1, h1.2.1, h1.2.2, h2.1, h2.2]; omega) (by simp [h3])
  rw [hcomb, Option.bind_some]
  set L := (deps ×ˢ ((lefts ×ˢ rights).filter fun x => x.1.row.1 = x.2.row.1)).filter fun x => x.1.row.1 = (pairRow norm proj x.2).1 with hL
  have hLmem : ∀ x ∈ L, x.1 ∈ deps ∧ x.2.1 ∈ lefts ∧ x.2.2 ∈ rights ∧ x.2.1.key = x.2.2.key := by
    intro x hx
    obtain ⟨h1, h2⟩ := List.mem_product.1 (List.mem_filter.1 hx).1
    exact ⟨h1, hmem h2⟩
  have hfil : optFilter norm (L.map (combinedRow norm proj)) (joinFilter v w o m l n) =
      some ((L.filter fun x => decide (OuterLe x.2.1.chain x.1.chain) && decide (OuterLe x.2.2.chain x.1.chain) && decide (x.1.val = keyOf norm proj.val [.tuple x.2.1.key, .tuple x.2.1.val, .tuple x.2.2.val])).map
        (combinedRow norm proj)) := by
    refine optFilter_map fun x hx => ?_
    obtain ⟨h0, ha, hb, hab⟩ := hLmem x hx
    have h0 := hd _ h0
    have h1 := hl _ ha
    have h2 := hr _ hb
    have h3 := (hval _ ha _ hb hab).2
    rw [joinFilter]
    refine andAll_three ?_ ?_ ?_
    · rw [← h1.2.2, ← h0.2]
      exact timeCond_holds (A := x.2.1.val ++ x.2.2.val) (B := x.2.2.chain) (C := [x.1.q] ++ x.1.val ++ keyOf norm proj.val [.tuple x.2.1.key, .tuple x.2.1.val, .tuple x.2.2.val]) (by simp [combinedRow])
        (by simp [h1.2.1, h2.1]) (by simp [h1.2.1, h2.1, h2.2])
    · rw [← h2.2, ← h0.2]
      exact timeCond_holds (A := x.2.1.val ++ x.2.2.val ++ x.2.1.chain) (B := []) (C := [x.1.q] ++ x.1.val ++ keyOf norm proj.val [.tuple x.2.1.key, .tuple x.2.1.val, .tuple x.2.2.val]) (by simp [combinedRow])
        (by simp [h1.2.1, h1.2.2, h2.1]; omega) (by simp [h1.2.1, h1.2.2, h2.1]; omega)
    · exact dataEq_holds (A := x.2.1.val ++ x.2.2.val ++ x.2.1.chain ++ x.2.2.chain ++ x.1.chain ++ [x.1.q]) (B := []) (C := []) (by simp [combinedRow])
        (by simp [h1.2.1, h1.2.2, h2.1, h2.2, h0.2]; omega) (by simp [h1.2.1, h1.2.2, h2.1, h2.2, h0.1, h0.2]; omega) h0.1 h3
  rw [hfil, Option.bind_some]
  set M := L.filter fun x => decide (OuterLe x.2.1.chain x.1.chain) && decide (OuterLe x.2.2.chain x.1.chain) && decide (x.1.val = keyOf norm proj.val [.tuple x.2.1.key, .tuple x.2.1.val, .tuple x.2.2.val]) with hM
  have hleft : dfProject norm (M.map (combinedRow norm proj)) (joinSplit true k v w m l n) = some (M.map fun x => Demand.row ⟨x.2.1, x.1.q⟩) := by
    refine dfProject_map fun x hx => ?_
    obtain ⟨h0, ha, hb, hab⟩ := hLmem x (List.mem_filter.1 hx).1
    have h0 := hd _ h0
    have h1 := hl _ ha
    have h2 := hr _ hb
    rw [joinSplit, Demand.row, if_pos rfl]
    refine evalProj_tuple ?_ (.append (.append ?_ ?_) ?_)
    · exact builds_fidx x.2.1.key (A := []) (C := []) (by simp [combinedRow]) rfl (by simp [h1.1])
    · exact builds_fidx x.2.1.val (A := []) (by simp [combinedRow]; rfl) rfl (by simp [h1.2.1])
    · exact builds_fidx x.2.1.chain (A := x.2.1.val ++ x.2.2.val) (by simp [combinedRow]; rfl) (by simp [h1.2.1, h2.1]) (by simp [h1.2.2])
    · exact builds_f (s := 1) rfl rfl (mid_getElem (by simp [h1.2.1, h1.2.2, h2.1, h2.2, h0.2]; omega))
  have hright : dfProject norm (M.map (combinedRow norm proj)) (joinSplit false k v w m l n) = some (M.map fun x => Demand.row ⟨x.2.2, x.1.q⟩) := by
    refine dfProject_map fun x hx => ?_
    obtain ⟨h0, ha, hb, hab⟩ := hLmem x (List.mem_filter.1 hx).1
    have h0 := hd _ h0
    have h1 := hl _ ha
    have h2 := hr _ hb
    rw [joinSplit, Demand.row, if_neg (by simp)]
    refine evalProj_tuple ?_ (.append (.append ?_ ?_) ?_)
    · rw [← hab]; exact builds_fidx x.2.1.key (A := []) (C := []) (by simp [combinedRow]) rfl (by simp [h1.1])
    · exact builds_fidx x.2.2.val (A := x.2.1.val) (by simp [combinedRow]; rfl) h1.2.1.symm (by simp [h2.1])
    · exact builds_fidx x.2.2.chain (A := x.2.1.val ++ x.2.2.val ++ x.2.1.chain) (by simp [combinedRow]; rfl) (by simp [h1.2.1, h1.2.2, h2.1]; omega) (by simp [h2.2])
    · exact builds_f (s := 1) rfl rfl (mid_getElem (by simp [h1.2.1, h1.2.2, h2.1, h2.2, h0.2]; omega))
  rw [hleft, Option.bind_some, hright, Option.map_some]
  have hfinal : M = (deps ×ˢ (lefts ×ˢ rights)).filter fun x => decide (x.2.1.key = x.2.2.key ∧ (denote norm [.tuple x.2.1.key, .tuple x.2.1.val, .tuple x.2.2.val] proj.key [] = some (.tuple x.1.key) ∧
      denote norm [.tuple x.2.1.key, .tuple x.2.1.val, .tuple x.2.2.val] proj.val [] = some (.tuple x.1.val)) ∧ OuterLe x.2.1.chain x.1.chain ∧ OuterLe x.2.2.chain x.1.chain) := by
    have hprod : (deps ×ˢ ((lefts ×ˢ rights).filter fun x => decide (x.1.row.1 = x.2.row.1))) = (deps ×ˢ (lefts ×ˢ rights)).filter fun x => decide (x.2.1.row.1 = x.2.2.row.1) := by
      have := product_filter deps (lefts ×ˢ rights) (fun x => x.1.row.1 = x.2.row.1)
      convert this
    rw [hM, hL, hprod, List.filter_filter, List.filter_filter]
    refine List.filter_congr fun x hx => ?_
    obtain ⟨h0, hx⟩ := List.mem_product.1 hx
    obtain ⟨ha, hb⟩ := List.mem_product.1 hx
    rw [Bool.eq_iff_iff]
    simp only [Bool.and_eq_true, decide_eq_true_eq, Record.row, Demand.row, pairRow, tuple_inj]
    by_cases hab : x.2.1.key = x.2.2.key
    · have hk := (keyOf_spec (wider_three (n := l) (hl _ ha) (hr _ hb).1 [] []) hpk (hsk _ ha _ hb hab)).1
      have hv := (hval _ ha _ hb hab).1
      rw [hk, hv]
      simp only [hab, Option.some.injEq, tuple_inj, true_and, and_true]
      constructor
      · rintro ⟨⟨⟨ho, ho'⟩, h2⟩, h1⟩; exact ⟨⟨h1.symm, h2.symm⟩, ho, ho'⟩
      · rintro ⟨⟨h1, h2⟩, ho, ho'⟩; exact ⟨⟨⟨ho, ho'⟩, h2.symm⟩, h1.symm⟩
    · simp [hab]
  rw [hfinal]
  unfold tracedJoin
  simp only [List.map_map, Function.comp_def]
  congr!

end DD.Ir.Ex
