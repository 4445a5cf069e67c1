import Verif.Proofs.Surface

/-!
# Which terms are accepted
-/

namespace DD.Ir
variable {N : Type*} [DecidableEq N] {cons : N → Option (Nat × Nat)}

theorem known_bind_iff {A B : Type*} {o : Option A} {f : A → Option B} {p q : Prop} (h1 : o.isSome = true ↔ p) (h2 : ∀ a, o = some a → ((f a).isSome = true ↔ q)) : (o.bind f).isSome = true ↔ p ∧ q := by
  cases o with
  | none => simp at h1; simp [h1]
  | some a =>
    rw [Option.bind_some, h2 a rfl]
    simp at h1
    simp [h1]

theorem elaborates_length {binders : List (N × Nat × Nat)} {depth : Nat} : ∀ {ss : List (Surface N)} {ts : List Term}, elaborates cons binders depth ss = some ts → ts.length = ss.length
  | [], ts, h => by simp only [elaborates] at h; cases h; rfl
  | s :: ss, ts, h => by
    simp only [elaborates] at h
    obtain ⟨u, h1, h2⟩ := Option.bind_eq_some_iff.1 h
    obtain ⟨v, h3, h4⟩ := Option.map_eq_some_iff.1 h2
    cases h4
    rw [List.length_cons, List.length_cons, elaborates_length h3]

theorem elaborateArms_tags {binders : List (N × Nat × Nat)} {depth : Nat} : ∀ (arms : Arms N) (tagged : List (Nat × Term)) (d : Option Term) (r : List (Nat × Term) × Option Term),
    elaborateArms cons binders depth arms tagged d = some r →
    (∀ tag, tag ∈ r.1.map Prod.fst ↔ tag ∈ tagged.map Prod.fst ∨ arms.Has cons tag) ∧ (r.2.isSome = true ↔ d.isSome = true ∨ arms.HasDefault)
  | .nil, tagged, d, r, h => by simp only [elaborateArms] at h; cases h; simp [Arms.Has, Arms.HasDefault]
  | .default s rest, tagged, d, r, h => by
    simp only [elaborateArms] at h
    obtain ⟨u, h1, h2⟩ := Option.bind_eq_some_iff.1 h
    obtain ⟨h3, h4⟩ := elaborateArms_tags rest tagged (some u) r h2
    exact ⟨fun tag => by rw [h3]; simp only [Arms.Has], by rw [h4]; simp [Arms.HasDefault]⟩
  | .con c names s rest, tagged, d, r, h => by
    simp only [elaborateArms] at h
    obtain ⟨p, h0, h1⟩ := Option.bind_eq_some_iff.1 h
    split_ifs at h1
    obtain ⟨u, h2, h3⟩ := Option.bind_eq_some_iff.1 h1
    obtain ⟨h4, h5⟩ := elaborateArms_tags rest _ d r h3
    refine ⟨fun tag => ?_, by rw [h5]; simp only [Arms.HasDefault]⟩
    rw [h4]
    simp only [Arms.Has, h0, Option.map_some, Option.some.injEq, List.map_append, List.map_cons, List.map_nil, List.mem_append, List.mem_singleton]
    rw [or_assoc, eq_comm (a := tag)]

theorem fillArms_isSome {tagged : List (Nat × Term)} {d : Option Term} :
    (fillArms tagged d).isSome = true ↔ (∀ t u, t < u → u ∈ tagged.map Prod.fst → t ∈ tagged.map Prod.fst) ∨ d.isSome = true := by
  have key : ∀ (l : List Nat) (f : Nat → Option Term), (l.mapM f).isSome = true ↔ ∀ a ∈ l, (f a).isSome = true := by
    intro l f
    induction l with
    | nil => simp
    | cons a l ih =>
      rw [List.mapM_cons, List.forall_mem_cons, ← ih]
      cases f a with
      | none => simp
      | some x => cases l.mapM f <;> simp
  have hmap : (tagged.map fun p => p.1 + 1) = (tagged.map Prod.fst).map (· + 1) := by rw [List.map_map]; rfl
  unfold fillArms
  rw [key]
  have hfind : ∀ t, ((((tagged.find? fun p => p.1 = t).map Prod.snd).or d).isSome = true) ↔ t ∈ tagged.map Prod.fst ∨ d.isSome = true := by
    intro t
    rw [Option.isSome_or, Bool.or_eq_true, Option.isSome_map, List.find?_isSome]
    simp
  constructor
  · intro h
    by_cases hd : d.isSome = true
    · exact Or.inr hd
    · refine Or.inl fun t u htu hu => ?_
      have hlt : t < (tagged.map fun p => p.1 + 1).foldr max 0 := by
        rw [hmap]
        exact Nat.lt_trans htu (le_greatest hu)
      exact ((hfind t).1 (h t (List.mem_range.2 hlt))).resolve_right hd
  · intro h t ht
    rw [hfind]
    rcases h with h | h
    · rw [List.mem_range, hmap] at ht
      obtain ⟨u, hu, hle⟩ := lt_greatest ht
      rcases Nat.lt_or_eq_of_le hle with e | e
      · exact Or.inl (h t u e hu)
      · rw [e]; exact Or.inl hu
    · exact Or.inr h

theorem known_binders (binders : List (N × Nat × Nat)) (names : List N) (depth : Nat) :
    (fun x => ∃ p ∈ binders ++ names.zipIdx.map fun q => (q.1, depth, q.2), p.1 = x) = fun x => (∃ p ∈ binders, p.1 = x) ∨ x ∈ names := by
  funext x
  apply propext
  constructor
  · rintro ⟨p, hp, rfl⟩
    rcases List.mem_append.1 hp with h | h
    · exact Or.inl ⟨p, h, rfl⟩
    · obtain ⟨q, hq, rfl⟩ := List.mem_map.1 h
      exact Or.inr (List.fst_mem_of_mem_zipIdx hq)
  · rintro (⟨p, hp, rfl⟩ | h)
    · exact ⟨p, List.mem_append_left _ hp, rfl⟩
    · obtain ⟨i, hi⟩ := List.getElem?_of_mem h
      exact ⟨(x, depth, i), List.mem_append_right _ (List.mem_map.2 ⟨(x, i), List.mem_zipIdx_iff_getElem?.2 hi, rfl⟩), rfl⟩

mutual
theorem elaborate_known : ∀ (s : Surface N) (binders : List (N × Nat × Nat)) (depth : Nat), (elaborate cons binders depth s).isSome = true ↔ s.Known cons fun x => ∃ p ∈ binders, p.1 = x
  | .var i, binders, depth => by simp [elaborate, Surface.Known]
  | .bound i, binders, depth => by simp [elaborate, Surface.Known]
  | .int i, binders, depth => by simp [elaborate, Surface.Known]
  | .name x, binders, depth => by simp [elaborate, Surface.Known, resolveBinder]
  | .tuple fs, binders, depth => by simp only [elaborate, Surface.Known, Option.isSome_map]; exact elaborates_known fs binders depth
  | .list fs, binders, depth => by simp only [elaborate, Surface.Known, Option.isSome_map]; exact elaborates_known fs binders depth
  | .spread s, binders, depth => by simp only [elaborate, Surface.Known, Option.isSome_map]; exact elaborate_known s binders depth
  | .proj s i, binders, depth => by simp only [elaborate, Surface.Known, Option.isSome_map]; exact elaborate_known s binders depth
  | .inject t s, binders, depth => by
    simp only [elaborate, Surface.Known]
    exact known_bind_iff (elaborate_known t binders depth) fun _ _ => by rw [Option.isSome_map]; exact elaborate_known s binders depth
  | .con c args, binders, depth => by
    simp only [elaborate, Surface.Known]
    have ha := elaborates_known args binders depth
    cases hc : cons c with
    | none => simp
    | some p =>
      rw [Option.bind_some]
      cases he : elaborates cons binders depth args with
      | none => rw [he] at ha; simp at ha; simp [ha]
      | some ts =>
        rw [he] at ha
        simp at ha
        rw [Option.bind_some, elaborates_length he]
        by_cases hl : args.length = p.2
        · simp [hl, ha, Prod.ext_iff]
        · simp [hl, Prod.ext_iff, Ne.symm hl]
  | .case s arms, binders, depth => by
    simp only [elaborate, Surface.Known]
    refine known_bind_iff (elaborate_known s binders depth) fun _ _ => known_bind_iff (elaborateArms_known arms binders depth [] none) fun r hr => ?_
    obtain ⟨h1, h2⟩ := elaborateArms_tags arms [] none r hr
    rw [Option.isSome_map, fillArms_isSome, h2]
    simp only [h1, List.map_nil, List.not_mem_nil, false_or, Option.isSome_none, Bool.false_eq_true]
  | .fold l i s, binders, depth => by
    simp only [elaborate, Surface.Known]
    refine known_bind_iff (elaborate_known l binders depth) fun _ _ => known_bind_iff (elaborate_known i binders depth) fun _ _ => ?_
    rw [Option.isSome_map]
    exact elaborate_known s binders (depth + 2)
  | .ite l i s, binders, depth => by
    simp only [elaborate, Surface.Known]
    refine known_bind_iff (elaborate_known l binders depth) fun _ _ => known_bind_iff (elaborate_known i binders depth) fun _ _ => ?_
    rw [Option.isSome_map]
    exact elaborate_known s binders depth
  | .unary op s, binders, depth => by simp only [elaborate, Surface.Known, Option.isSome_map]; exact elaborate_known s binders depth
  | .binary op l r, binders, depth => by
    simp only [elaborate, Surface.Known]
    exact known_bind_iff (elaborate_known l binders depth) fun _ _ => by rw [Option.isSome_map]; exact elaborate_known r binders depth
  | .hash fs, binders, depth => by simp only [elaborate, Surface.Known, Option.isSome_map]; exact elaborates_known fs binders depth
theorem elaborates_known : ∀ (s : List (Surface N)) (binders : List (N × Nat × Nat)) (depth : Nat), (elaborates cons binders depth s).isSome = true ↔ Surface.AllKnown cons s fun x => ∃ p ∈ binders, p.1 = x
  | [], binders, depth => by simp [elaborates, Surface.AllKnown]
  | s :: ss, binders, depth => by
    simp only [elaborates, Surface.AllKnown]
    exact known_bind_iff (elaborate_known s binders depth) fun _ _ => by rw [Option.isSome_map]; exact elaborates_known ss binders depth
theorem elaborateArms_known : ∀ (arms : Arms N) (binders : List (N × Nat × Nat)) (depth : Nat) (tagged : List (Nat × Term)) (d : Option Term),
    (elaborateArms cons binders depth arms tagged d).isSome = true ↔ arms.Known cons fun x => ∃ p ∈ binders, p.1 = x
  | .nil, binders, depth, tagged, d => by simp [elaborateArms, Arms.Known]
  | .default s rest, binders, depth, tagged, d => by
    simp only [elaborateArms, Arms.Known]
    exact known_bind_iff (elaborate_known s binders depth) fun _ _ => elaborateArms_known rest binders depth tagged _
  | .con c names s rest, binders, depth, tagged, d => by
    simp only [elaborateArms, Arms.Known]
    cases hc : cons c with
    | none => simp
    | some p =>
      rw [Option.bind_some]
      by_cases hl : names.length = p.2
      · rw [if_pos hl, known_bind_iff (elaborate_known s _ (depth + 1)) fun _ _ => elaborateArms_known rest binders depth _ _, known_binders]
        simp [Prod.ext_iff, hl]
      · simp [hl, Prod.ext_iff, Ne.symm hl]
end

end DD.Ir
