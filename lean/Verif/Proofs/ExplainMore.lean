import Verif.Proofs.ExplainRules

/-!
# Proofs: reverse rules of variables, filters, flatmaps, and the sets of demands
-/

namespace DD.Ir.Ex

variable {norm : Overflow}

theorem dfFilter_map_truthy {A : Type*} {L : List A} {row : A → Value × Value} {t : Term} {P : A → Bool} (h : ∀ x ∈ L, ∃ c, eval norm t [(row x).1, (row x).2] = some (c, [(row x).1, (row x).2]) ∧ c.truthy = P x) :
    dfFilter norm (L.map row) t = some ((L.filter P).map row) := by
  unfold dfFilter
  rw [mapM_some_map row _ (fun x => if P x then [row x] else []) L]
  · simp only [Option.map_some, Option.some.injEq]
    induction L with
    | nil => rfl
    | cons x L ih =>
      have := ih fun y hy => h y (List.mem_cons_of_mem _ hy)
      by_cases hx : P x = true
      · simp [hx, this]
      · simp [hx, this]
  · intro x hx
    obtain ⟨c, h1, h2⟩ := h x hx
    simp only [h1, Option.map_some, h2]

/-! ### Variables -/

theorem bind_before {deps : List Demand} {k v n : Nat} (hn : ∀ i : Int, 0 ≤ i → i < 2 ^ 63 → norm i = some i) (hd : ∀ d ∈ deps, d.Shaped k v n)
    (hc : ∀ d ∈ deps, ∃ (i : Int) (outer : List Value), d.chain = .int i :: outer ∧ i < 2 ^ 63) :
    bindLookup norm (deps.map Demand.row) k v n = some ((deps.filterMap Demand.before).map Demand.row) := by
  have hgt : ∀ d ∈ deps, eval norm (f 1 v) [d.row.1, d.row.2] = some (d.chain.headD (.int 0), [d.row.1, d.row.2]) := by
    intro d h
    obtain ⟨i, outer, h1, _⟩ := hc d h
    refine eval_f (s := 1) rfl rfl ?_
    rw [h1, ← (hd d h).2.1, List.append_assoc, List.getElem?_append_right (le_refl _), Nat.sub_self]
    rfl
  unfold bindLookup
  have h1 : dfFilter norm (deps.map Demand.row) (bindFilter v) = some ((deps.filter fun d => d.before.isSome).map Demand.row) := by
    refine dfFilter_map fun d h => ?_
    obtain ⟨i, outer, h1, _⟩ := hc d h
    simp only [bindFilter, eval, hgt d h, Option.bind_some, evalBinary, Option.map_some, Demand.before, h1, List.headD_cons, Value.cmp]
    congr 3
    by_cases hi : 0 < i
    · simp [hi, compare_gt_iff_gt]
    · have : (compare i 0 == .gt) = false := by
        rw [beq_eq_false_iff_ne]
        intro hc
        rw [compare_gt_iff_gt] at hc
        exact hi hc
      simp [hi, this]
  rw [h1, Option.bind_some, dfProject_map (row' := fun d => (d.before.getD d).row)]
  · congr 1
    clear h1 hgt hc hd
    induction deps with
    | nil => rfl
    | cons d deps ih =>
      cases h : d.before with
      | none => simp [h, ih]
      | some x => simp [h, ih]
  · intro d hx
    obtain ⟨hm, hs⟩ := List.mem_filter.1 hx
    obtain ⟨i, outer, hch, hlt⟩ := hc d hm
    have hsh := hd d hm
    have hi : 0 < i := by
      by_contra hi
      simp [Demand.before, hch, hi] at hs
    have hb : d.before = some ⟨⟨d.key, d.val, .int (i - 1) :: outer⟩, d.q⟩ := by simp [Demand.before, hch, hi]
    have hlen : outer.length + 1 = n := by rw [← hsh.2.2, hch]; rfl
    rw [hb, Option.getD_some, bindDecrement]
    have hnorm : norm (i - 1) = some (i - 1) := hn _ (by omega) (by omega)
    have : Demand.row ⟨⟨d.key, d.val, .int (i - 1) :: outer⟩, d.q⟩ = (.tuple d.key, .tuple (d.val ++ [.int (i - 1)] ++ outer ++ [d.q])) := by simp [Demand.row]
    rw [this]
    refine evalProj_tuple ?_ (.append (.append (.append ?_ ?_) ?_) ?_)
    · exact builds_fidx d.key (A := []) (C := []) (by simp [Demand.row]) rfl (by simp [hsh.1])
    · exact builds_fidx d.val (A := []) (C := d.chain ++ [d.q]) (by simp [Demand.row]) rfl (by simp [hsh.2.1])
    · refine builds_one (fun _ h => by cases h) ?_
      simp only [eval, hgt d hm, Option.bind_some, hch, List.headD_cons, evalBinary, Value.asInt, hnorm, Option.map_some]
    · exact builds_fidx outer (A := d.val ++ [.int i]) (C := [d.q]) (by simp [Demand.row, hch]) (by simp [hsh.2.1]) (by rw [← hlen]; omega)
    · exact builds_f (s := 1) rfl rfl (last_getElem (by simp [hsh.2.1, hsh.2.2]))

/-! ### Filters -/

theorem filter_demands {deps : List Demand} {k v n : Nat} {cond : Term} (hp : Columns [k, v] cond 0) (hd : ∀ d ∈ deps, d.Shaped k v n)
    (hs : ∀ d ∈ deps, (denote norm [.tuple d.key, .tuple d.val] cond []).isSome) :
    filterLookup norm (deps.map Demand.row) cond = some ((deps.filter fun d => ((denote norm [.tuple d.key, .tuple d.val] cond []).map Value.truthy).getD false).map Demand.row) := by
  refine dfFilter_map_truthy fun d h => ?_
  obtain ⟨c, hc⟩ := Option.isSome_iff_exists.1 (hs d h)
  refine ⟨c, ?_, by rw [hc]; rfl⟩
  have := eval_wider (norm := norm) (wider_two (hd d h) (d.chain ++ [d.q])) hp
  rw [hc, Option.map_some, ← List.append_assoc] at this
  exact this

/-! ### Flatmaps -/

/-- The positions and elements of the list of a record. -/
noncomputable def elems (norm : Overflow) (list : Term) (r : Record) : List (Value × Nat) :=
  match denote norm [.tuple r.key, .tuple r.val] list [] with
  | some (.list xs) => xs.zipIdx
  | _ => []

theorem dfFlatMap_map {A B : Type*} {L : List A} {row : A → Value × Value} {list : Term} {xs : A → List B} {row' : A × B → Value × Value} (elem : B → Value)
    (h : ∀ x ∈ L, ∃ vs env, eval norm list [(row x).1, (row x).2] = some (.list vs, env) ∧ enumerate vs = (xs x).map elem) (hrow : ∀ x e, row' (x, e) = ((row x).1, elem e)) :
    dfFlatMap norm (L.map row) list = some ((L.flatMap fun x => (xs x).map fun e => (x, e)).map row') := by
  unfold dfFlatMap
  rw [mapM_some_map row _ (fun x => (xs x).map fun e => row' (x, e)) L]
  · simp only [Option.map_some, Option.some.injEq]
    clear h
    induction L with
    | nil => rfl
    | cons x L ih => simp only [List.map_cons, List.flatten_cons, List.flatMap_cons, List.map_append, ih, List.map_map]; rfl
  · intro x hx
    obtain ⟨vs, env, h1, h2⟩ := h x hx
    simp only [h1, Option.bind_some, h2, List.map_map, Option.some.injEq]
    exact List.map_congr_left fun e _ => (hrow x e).symm

theorem builds_nested {xs : List Value} {env ys : List Value} (hs : env[2]? = some (.tuple xs)) (h : xs[1]? = some (.tuple ys)) (B : List Value) :
    ∀ {A C : List Value} {lo n : Nat}, ys = A ++ B ++ C → lo = A.length → n = B.length → BuildsTo norm ((List.range n).map fun c => Term.proj (f 2 1) (lo + c)) env B := by
  induction B with
  | nil => intro A C lo n _ _ hn; subst hn; exact builds_nil
  | cons b B ih =>
    intro A C lo n hy hlo hn
    have h1 : BuildsTo norm [Term.proj (f 2 1) lo] env [b] := by
      refine builds_one (fun _ h => by cases h) ?_
      rw [eval_proj, eval_f hs rfl h]
      simp only [Option.bind_some, Value.fields, hy]
      subst hlo
      simp
    have h2 := @ih (A ++ [b]) C (lo + 1) B.length (by simpa using hy) (by simp [hlo]) rfl
    have h3 : (List.range n).map (fun c => Term.proj (f 2 1) (lo + c)) = [Term.proj (f 2 1) lo] ++ (List.range B.length).map fun c => Term.proj (f 2 1) (lo + 1 + c) := by
      rw [hn, List.length_cons, List.range_succ_eq_map, List.map_cons, List.map_map]
      simp only [List.singleton_append, List.cons.injEq, Nat.add_zero, true_and]
      exact List.map_congr_left fun c _ => by simp only [Function.comp_apply, Nat.succ_eq_add_one]; congr 1; omega
    rw [h3]
    exact h1.append h2

theorem flatMap_demands {deps : List Demand} {recs : List Record} {k v n kOut : Nat} {list : Term} (hp : Columns [0, v] list 0) (hd : ∀ d ∈ deps, d.val.length = 2 ∧ d.chain.length = n)
    (hr : ∀ r ∈ recs, r.Shaped k v n) (hl : ∀ r ∈ recs, ∃ xs, denote norm [.tuple r.key, .tuple r.val] list [] = some (.list xs)) :
    ∃ out : List Demand, flatMapLookup norm (deps.map Demand.row) ⟨recs.map Record.row, (k, v), n⟩ (kOut, 2) n list = some (out.map Demand.row) ∧
      ∀ x, x ∈ out ↔ ∃ d ∈ deps, ∃ r ∈ recs, (∃ (xs : List Value) (i : Nat) (e : Value), denote norm [.tuple r.key, .tuple r.val] list [] = some (.list xs) ∧ xs[i]? = some e ∧ d.val = [.int i, e]) ∧
        r.key = d.key ∧ OuterLe r.chain d.chain ∧ x = ⟨⟨r.key, r.val, d.chain⟩, d.q⟩ := by
  classical
  have hden : ∀ r ∈ recs, ∀ a rest : List Value, eval norm list [.tuple a, .tuple (r.val ++ rest)] = (denote norm [.tuple r.key, .tuple r.val] list []).map fun x => (x, [.tuple a, .tuple (r.val ++ rest)]) := by
    intro r h a rest
    have hw : ∀ a rest : List Value, Wider [0, v] [.tuple [], .tuple r.val] [.tuple a, .tuple (r.val ++ rest)] := by
      intro a rest
      refine ⟨rfl, rfl, fun i hi => ?_⟩
      match i, hi with
      | 0, _ => exact ⟨[], a, rfl, rfl, rfl⟩
      | 1, _ => exact ⟨r.val, rest, rfl, rfl, by simp [(hr r h).2.1]⟩
    have h1 := denote_wider (norm := norm) (hw r.key []) list [] 0 hp
    rw [List.append_nil] at h1
    rw [h1]
    exact eval_wider (hw a rest) hp
  unfold flatMapLookup
  simp only
  rw [dfProject_map (row' := fun r => (.tuple [r.row.1, r.row.2], r.row.2)), Option.bind_some,
    dfFlatMap_map (xs := elems norm list) (row' := fun x => (.tuple [x.1.row.1, x.1.row.2], .tuple [.int x.2.2, x.2.1])) (fun e => .tuple [.int e.2, e.1]), Option.bind_some,
    dfProject_map (row' := fun x => (.tuple [x.1.row.1, .int x.2.2, x.2.1], .tuple [x.1.row.1, x.1.row.2])), Option.bind_some]
  rotate_left
  · intro x _
    simp only [evalProj]
    have h1 : eval norm (.tuple [f 0 0, f 1 0, f 1 1]) [.tuple [x.1.row.1, x.1.row.2], .tuple [.int x.2.2, x.2.1]] = some (.tuple ([x.1.row.1] ++ ([.int x.2.2] ++ [x.2.1])), _) :=
      eval_tuple (.append (us := [f 1 0, f 1 1]) (builds_f (s := 0) rfl rfl rfl) (.append (us := [f 1 1]) (builds_f (s := 1) rfl rfl rfl) (builds_f (s := 1) rfl rfl rfl)))
    rw [h1]
    rfl
  · intro r h
    obtain ⟨xs, hx⟩ := hl r h
    refine ⟨xs, [.tuple [r.row.1, r.row.2], r.row.2], ?_, ?_⟩
    · have := hden r h [r.row.1, r.row.2] r.chain
      rw [hx] at this
      exact this
    · simp only [elems, hx, enumerate]
  · intro x e; rfl
  · intro r _
    simp only [evalProj]
    rfl
  have hdep : dfProject norm (deps.map Demand.row) ⟨.tuple [.var 0, f 1 0, f 1 1], .tuple (fidx 1 2 (2 + n + 1))⟩ = some (deps.map fun d => (.tuple (.tuple d.key :: d.val), .tuple (d.chain ++ [d.q]))) := by
    refine dfProject_map fun d h => ?_
    have hdl := hd d h
    obtain ⟨a, b, hab⟩ := List.length_eq_two.1 hdl.1
    rw [hab]
    have e0 : BuildsTo norm [.var 0] [d.row.1, d.row.2] [.tuple d.key] := builds_one (fun _ h => by cases h) rfl
    have e1 : BuildsTo norm [f 1 0] [d.row.1, d.row.2] [a] := builds_f (s := 1) rfl rfl (by simp [hab])
    have e2 : BuildsTo norm [f 1 1] [d.row.1, d.row.2] [b] := builds_f (s := 1) rfl rfl (by simp [hab])
    refine evalProj_tuple (e0.append (e1.append e2)) ?_
    · exact builds_fidx (d.chain ++ [d.q]) (A := d.val) (C := []) (by simp [Demand.row]) hdl.1.symm (by simp [hdl.2]; omega)
  rw [hdep, Option.bind_some]
  set P := recs.flatMap fun x => (elems norm list x).map fun e => (x, e) with hP
  have hPmem : ∀ x ∈ P, x.1 ∈ recs ∧ x.2 ∈ elems norm list x.1 := by
    intro x hx
    obtain ⟨r, hr', hx⟩ := List.mem_flatMap.1 hx
    obtain ⟨e, he, rfl⟩ := List.mem_map.1 hx
    exact ⟨hr', he⟩
  rw [dfJoin_map (row := fun x => wideRow (x.1, x.2.1)), Option.bind_some]
  rotate_left
  · intro d h1 x h2 hk
    have h1 := hd _ h1
    have h2 := hr _ (hPmem x h2).1
    simp only [evalProj, Demand.row, Record.row, tuple_inj] at hk ⊢
    have hwide : eval norm (.tuple ((List.range v).map (fun c => Term.proj (f 2 1) c) ++ (List.range n).map (fun c => Term.proj (f 2 1) (v + c)) ++ fidx 1 0 n ++ [f 1 n]))
        [.tuple (.tuple d.key :: d.val), .tuple (d.chain ++ [d.q]), .tuple [.tuple x.1.key, .tuple (x.1.val ++ x.1.chain)]] = some (.tuple (x.1.val ++ x.1.chain ++ d.chain ++ [d.q]), [.tuple (.tuple d.key :: d.val), .tuple (d.chain ++ [d.q]), .tuple [.tuple x.1.key, .tuple (x.1.val ++ x.1.chain)]]) := by
      refine eval_tuple (.append (.append (.append ?_ ?_) ?_) ?_)
      · have := builds_nested (norm := norm) (env := [.tuple (.tuple d.key :: d.val), .tuple (d.chain ++ [d.q]), .tuple [.tuple x.1.key, .tuple (x.1.val ++ x.1.chain)]]) rfl rfl x.1.val (A := []) (C := x.1.chain) (n := v)
          (by simp) rfl h2.2.1.symm
        simpa using this
      · exact builds_nested (xs := [.tuple x.1.key, .tuple (x.1.val ++ x.1.chain)]) rfl rfl x.1.chain (A := x.1.val) (C := []) (by simp) h2.2.1.symm h2.2.2.symm
      · exact builds_fidx d.chain (A := []) (C := [d.q]) (by simp) rfl (by simp [h1.2])
      · exact builds_f (s := 1) rfl rfl (last_getElem h1.2)
    have hkey : eval norm (f 2 0) [.tuple (.tuple d.key :: d.val), .tuple (d.chain ++ [d.q]), .tuple [.tuple x.1.key, .tuple (x.1.val ++ x.1.chain)]] = some (.tuple x.1.key, [.tuple (.tuple d.key :: d.val), .tuple (d.chain ++ [d.q]), .tuple [.tuple x.1.key, .tuple (x.1.val ++ x.1.chain)]]) := eval_f (s := 2) rfl rfl rfl
    rw [hkey, Option.bind_some, hwide]
    rfl
  set L := (deps ×ˢ P).filter fun x => decide ((Value.tuple (.tuple x.1.key :: x.1.val)) = .tuple [x.2.1.row.1, .int x.2.2.2, x.2.2.1]) with hL
  have hLmem : ∀ x ∈ L, x.1 ∈ deps ∧ x.2.1 ∈ recs := by
    intro x hx
    obtain ⟨h1, h2⟩ := List.mem_product.1 (List.mem_filter.1 hx).1
    exact ⟨h1, (hPmem _ h2).1⟩
  have hfil : optFilter norm (L.map fun x => wideRow (x.1, x.2.1)) (andAll ((List.range n).map fun c => le (f 1 (v + c)) (f 1 (v + n + c)))) =
      some ((L.filter fun x => OuterLe x.2.1.chain x.1.chain).map fun x => wideRow (x.1, x.2.1)) := by
    refine optFilter_map fun x hx => ?_
    obtain ⟨h1, h2⟩ := hLmem x hx
    have h1 := hd _ h1
    have h2 := hr _ h2
    have := timeCond_holds (norm := norm) (env := [(wideRow (x.1, x.2.1)).1, (wideRow (x.1, x.2.1)).2]) (A := x.2.1.val) (a := x.2.1.chain) (B := []) (b := x.1.chain) (C := [x.1.q]) (inAt := v) (outAt := v + n)
      (by simp [wideRow]) h2.2.1.symm (by simp [h2.2.1, h2.2.2])
    rw [h1.2, h2.2.2] at this
    simpa only [timeCond, Nat.min_self, Nat.sub_self, Nat.add_zero] using this
  rw [hfil, Option.bind_some]
  refine ⟨(L.filter fun x => decide (OuterLe x.2.1.chain x.1.chain)).map fun x => ⟨⟨x.2.1.key, x.2.1.val, x.1.chain⟩, x.1.q⟩, ?_, ?_⟩
  · rw [dfProject_map (row' := fun x => Demand.row ⟨⟨x.2.1.key, x.2.1.val, x.1.chain⟩, x.1.q⟩), List.map_map]
    · rfl
    · intro x hx
      obtain ⟨h1, h2⟩ := hLmem x (List.mem_filter.1 hx).1
      have h1 := hd _ h1
      have h2 := hr _ h2
      have hv : eval norm (.tuple (fidx 1 0 v ++ fidx 1 (v + n) (v + 2 * n) ++ [f 1 (v + 2 * n)])) [(wideRow (x.1, x.2.1)).1, (wideRow (x.1, x.2.1)).2] =
          some (.tuple (x.2.1.val ++ x.1.chain ++ [x.1.q]), [(wideRow (x.1, x.2.1)).1, (wideRow (x.1, x.2.1)).2]) := by
        refine eval_tuple (.append (.append ?_ ?_) ?_)
        · exact builds_fidx x.2.1.val (A := []) (C := x.2.1.chain ++ x.1.chain ++ [x.1.q]) (by simp [wideRow]) rfl (by simp [h2.2.1])
        · exact builds_fidx x.1.chain (A := x.2.1.val ++ x.2.1.chain) (C := [x.1.q]) (by simp [wideRow]) (by simp [h2.2.1, h2.2.2]) (by rw [h1.2]; omega)
        · exact builds_f (s := 1) rfl rfl (last_getElem (by simp [h1.2, h2.2.1, h2.2.2]; omega))
      simp only [evalProj]
      have hk : eval norm (.var 0) [(wideRow (x.1, x.2.1)).1, (wideRow (x.1, x.2.1)).2] = some ((wideRow (x.1, x.2.1)).1, [(wideRow (x.1, x.2.1)).1, (wideRow (x.1, x.2.1)).2]) := rfl
      rw [hk, Option.bind_some, hv]
      rfl
  · intro y
    simp only [List.mem_map, List.mem_filter, hL, decide_eq_true_eq, hP]
    constructor
    · rintro ⟨x, ⟨⟨hx, hk⟩, ho⟩, rfl⟩
      obtain ⟨h1, h2⟩ := List.mem_product.1 hx
      obtain ⟨h2, h3⟩ := hPmem _ h2
      obtain ⟨xs, hxs⟩ := hl _ h2
      simp only [elems, hxs] at h3
      simp only [tuple_inj, Record.row, List.cons.injEq] at hk
      refine ⟨x.1, h1, x.2.1, h2, ⟨xs, x.2.2.2, x.2.2.1, hxs, ?_, ?_⟩, hk.1.symm, ho, rfl⟩
      · exact List.mem_zipIdx_iff_getElem?.1 h3
      · exact hk.2
    · rintro ⟨d, h1, r, h2, ⟨xs, i, e, hxs, hi, hv⟩, hk, ho, rfl⟩
      refine ⟨(d, r, (e, i)), ⟨⟨List.mem_product.2 ⟨h1, List.mem_flatMap.2 ⟨r, h2, List.mem_map.2 ⟨(e, i), ?_, rfl⟩⟩⟩, ?_⟩, ho⟩, rfl⟩
      · simp only [elems, hxs]
        exact List.mem_zipIdx_iff_getElem?.2 hi
      · simp only [Record.row, hv, hk]

/-! ### Sets of demands -/

theorem dfDistinct_mem : ∀ (c : RowColl) (x : Value × Value), x ∈ dfDistinct c ↔ x.2 = .tuple [] ∧ ∃ v, (x.1, v) ∈ c
  | [], x => by simp [dfDistinct]
  | r :: rs, x => by
    simp only [dfDistinct, List.mem_cons, List.mem_filter, dfDistinct_mem rs x]
    constructor
    · rintro (rfl | ⟨⟨h1, v, hv⟩, _⟩)
      · exact ⟨rfl, r.2, .inl rfl⟩
      · exact ⟨h1, v, .inr hv⟩
    · rintro ⟨h1, v, rfl | hv⟩
      · left
        exact Prod.ext rfl h1
      · by_cases hx : x.1 = r.1
        · left
          exact Prod.ext hx h1
        · right
          refine ⟨⟨h1, v, hv⟩, ?_⟩
          have : (x.1.cmp r.1 == .eq) = false := by rw [beq_eq_false_iff_ne]; exact fun hc => hx ((Value.cmp_eq _ _).1 hc)
          rw [this]
          rfl

theorem dfDistinct_nodup : ∀ (c : RowColl), ((dfDistinct c).map Prod.fst).Nodup
  | [] => by simp [dfDistinct]
  | r :: rs => by
    simp only [dfDistinct, List.map_cons, List.nodup_cons]
    constructor
    · intro h
      obtain ⟨x, hx, he⟩ := List.mem_map.1 h
      have := (List.mem_filter.1 hx).2
      rw [he, (Value.cmp_eq _ _).2 rfl] at this
      simp at this
    · exact (dfDistinct_nodup rs).sublist ((List.filter_sublist).map _)

theorem distinctFull_spec {c : RowColl} {k v : Nat} (hc : ∀ r ∈ c, ∃ ks vs, r = (.tuple ks, .tuple vs) ∧ ks.length = k ∧ vs.length = v) :
    ∃ out, distinctFull norm c k v = some out ∧ out.Nodup ∧ ∀ x, x ∈ out ↔ x ∈ c := by
  have fl : ∀ x : Value, ∀ xs, x = .tuple xs → x.fields.getD [] = xs := by rintro _ xs rfl; rfl
  unfold distinctFull
  have h1 : dfProject norm c (pack k v 0 false) = some (c.map fun r => (.tuple (r.1.fields.getD [] ++ r.2.fields.getD []), .tuple [])) := by
    have := dfProject_map (norm := norm) (L := c) (row := id) (p := pack k v 0 false) (row' := fun r => (.tuple (r.1.fields.getD [] ++ r.2.fields.getD []), .tuple [])) ?_
    · simpa using this
    · rintro r h
      obtain ⟨ks, vs, rfl, hk, hv⟩ := hc r h
      simp only [id, Value.fields, Option.getD_some]
      refine evalProj_tuple (.append ?_ ?_) ?_
      · exact builds_fidx ks (A := []) (C := []) (by simp) rfl (by simp [hk])
      · exact builds_fidx vs (A := []) (C := []) (by simp) rfl (by simp [hv])
      · exact builds_fidx [] (A := vs) (C := []) (by simp) hv.symm (by simp)
  rw [h1, Option.bind_some]
  set p := c.map fun r => ((.tuple (r.1.fields.getD [] ++ r.2.fields.getD []), .tuple []) : Value × Value) with hp
  have hmem : ∀ x ∈ dfDistinct p, ∃ ks vs, x = (.tuple (ks ++ vs), .tuple []) ∧ ks.length = k ∧ vs.length = v ∧ (.tuple ks, .tuple vs) ∈ c := by
    intro x hx
    obtain ⟨h2, w, hw⟩ := (dfDistinct_mem p x).1 hx
    obtain ⟨r, hr, he⟩ := List.mem_map.1 hw
    obtain ⟨ks, vs, rfl, hk, hv⟩ := hc r hr
    exact ⟨ks, vs, Prod.ext (Prod.ext_iff.1 he).1.symm h2, hk, hv, hr⟩
  set un : Value × Value → Value × Value := fun x => (.tuple ((x.1.fields.getD []).take k), .tuple ((x.1.fields.getD []).drop k)) with hun
  have hu : ∀ ks vs : List Value, ks.length = k → un (.tuple (ks ++ vs), .tuple []) = (.tuple ks, .tuple vs) := by
    intro ks vs hk
    simp only [hun, Value.fields, Option.getD_some, ← hk, List.take_left, List.drop_left]
  have h2 : dfProject norm (dfDistinct p) (distinctUnpack k v) = some ((dfDistinct p).map un) := by
    have := dfProject_map (norm := norm) (L := dfDistinct p) (row := id) (p := distinctUnpack k v) (row' := un) ?_
    · simpa using this
    · intro x hx
      obtain ⟨ks, vs, rfl, hk, hv, _⟩ := hmem x hx
      rw [hu ks vs hk]
      refine evalProj_tuple ?_ ?_
      · exact builds_fidx ks (A := []) (C := vs) (by simp) rfl (by simp [hk])
      · exact builds_fidx vs (A := ks) (C := []) (by simp) hk.symm (by simp [hv])
  refine ⟨_, h2, ?_, ?_⟩
  · refine List.pairwise_map.2 ((List.pairwise_map.1 (dfDistinct_nodup p)).imp_of_mem ?_)
    intro x y hx hy he
    obtain ⟨ks, vs, rfl, hk, hv, _⟩ := hmem x hx
    obtain ⟨ks', vs', rfl, hk', hv', _⟩ := hmem y hy
    intro hee
    refine he ?_
    rw [hu ks vs hk, hu ks' vs' hk'] at hee
    simp only [Prod.mk.injEq, tuple_inj] at hee
    simp only [hee.1, hee.2]
  · intro x
    rw [List.mem_map]
    constructor
    · rintro ⟨y, hy, rfl⟩
      obtain ⟨ks, vs, rfl, hk, hv, hm⟩ := hmem y hy
      rw [hu ks vs hk]
      exact hm
    · intro hx
      obtain ⟨ks, vs, rfl, hk, hv⟩ := hc x hx
      refine ⟨(.tuple (ks ++ vs), .tuple []), (dfDistinct_mem p _).2 ⟨rfl, .tuple [], ?_⟩, hu ks vs hk⟩
      exact List.mem_map.2 ⟨_, hx, rfl⟩

theorem source_spec {deps : List Demand} {src : List Record} {k v n : Nat} (hd : ∀ d ∈ deps, d.Shaped k v n) :
    ∃ out, sourceLookup norm (deps.map Demand.row) (src.map Record.row) k v = some out ∧ ∀ x, x ∈ out ↔ ∃ d ∈ deps, x = (.tuple d.key, .tuple d.val) ∧ ∃ r ∈ src, r.key = d.key := by
  classical
  unfold sourceLookup
  rw [dfProject_map (row' := fun d => (.tuple d.key, .tuple d.val)), Option.bind_some, dfJoin_map (row := fun x => (.tuple x.1.key, .tuple x.1.val))]
  · refine ⟨_, rfl, fun x => ?_⟩
    rw [List.mem_map]
    constructor
    · rintro ⟨y, hy, rfl⟩
      obtain ⟨hy, hk⟩ := List.mem_filter.1 hy
      obtain ⟨h1, h2⟩ := List.mem_product.1 hy
      have hk := of_decide_eq_true hk
      simp only [Record.row, tuple_inj] at hk
      exact ⟨y.1, h1, rfl, y.2, h2, hk.symm⟩
    · rintro ⟨d, h1, rfl, r, h2, hk⟩
      refine ⟨(d, r), List.mem_filter.2 ⟨List.mem_product.2 ⟨h1, h2⟩, ?_⟩, rfl⟩
      simp [Record.row, hk]
  · intro d h1 r h2 _
    have h1 := hd _ h1
    refine evalProj_tuple ?_ ?_
    · exact builds_fidx d.key (A := []) (C := []) (by simp) rfl (by simp [h1.1])
    · exact builds_fidx d.val (A := []) (C := []) (by simp) rfl (by simp [h1.2.1])
  · intro d h1
    have h1 := hd _ h1
    refine evalProj_tuple ?_ ?_
    · exact builds_fidx d.key (A := []) (C := []) (by simp [Demand.row]) rfl (by simp [h1.1])
    · exact builds_fidx d.val (A := []) (C := d.chain ++ [d.q]) (by simp [Demand.row]) rfl (by simp [h1.2.1])

end DD.Ir.Ex
