import Verif.Proofs.ExplainColumns

/-!
# Proofs: reverse rules of explanations
-/

namespace DD.Ir.Ex

variable {norm : Overflow}

/-! ### The dataflow -/

theorem mapM_some_map {A B C : Type*} (g : A → B) (h : B → Option C) (k : A → C) : ∀ (L : List A), (∀ x ∈ L, h (g x) = some (k x)) → (L.map g).mapM h = some (L.map k)
  | [], _ => rfl
  | x :: L, hx => by
    simp only [List.map_cons, List.mapM_cons, hx x (List.mem_cons_self ..), mapM_some_map g h k L fun y hy => hx y (List.mem_cons_of_mem _ hy)]
    rfl

theorem dfProject_map {A : Type*} {L : List A} {row row' : A → Value × Value} {p : Projection} (h : ∀ x ∈ L, evalProj norm p [(row x).1, (row x).2] = some (row' x)) :
    dfProject norm (L.map row) p = some (L.map row') := mapM_some_map _ _ _ L h

theorem dfFilter_map {A : Type*} {L : List A} {row : A → Value × Value} {t : Term} {P : A → Bool} (h : ∀ x ∈ L, eval norm t [(row x).1, (row x).2] = some (.ofBool (P x), [(row x).1, (row x).2])) :
    dfFilter norm (L.map row) t = some ((L.filter P).map row) := by
  unfold dfFilter
  rw [mapM_some_map row _ (fun x => if P x then [row x] else []) L]
  · simp only [Option.map_some, Option.some.injEq]
    induction L with
    | nil => rfl
    | cons x L ih =>
      have := ih fun y hy => h y (List.mem_cons_of_mem _ hy)
      by_cases hx : P x = true
      · simp [hx, this]
      · simp [hx, this]
  · intro x hx
    simp only [h x hx, Option.map_some, Option.some.injEq, Value.ofBool, Value.truthy]
    cases P x <;> rfl

open Classical in
theorem dfJoin_map {A B : Type*} {L : List A} {M : List B} {rl : A → Value × Value} {rr : B → Value × Value} {row : A × B → Value × Value} {p : Projection}
    (h : ∀ x ∈ L, ∀ y ∈ M, (rl x).1 = (rr y).1 → evalProj norm p [(rl x).1, (rl x).2, (rr y).2] = some (row (x, y))) :
    dfJoin norm (L.map rl) (M.map rr) p = some (((L ×ˢ M).filter fun x => (rl x.1).1 = (rr x.2).1).map row) := by
  unfold dfJoin
  have : ((L.map rl).flatMap fun a => (M.map rr).filterMap fun b => if a.1.cmp b.1 == .eq then some [a.1, a.2, b.2] else none) =
      ((L ×ˢ M).filter fun x => (rl x.1).1 = (rr x.2).1).map fun x => [(rl x.1).1, (rl x.1).2, (rr x.2).2] := by
    induction L with
    | nil => rfl
    | cons x L ih =>
      rw [List.product_cons, List.map_cons, List.flatMap_cons, ih fun y hy => h y (List.mem_cons_of_mem _ hy), List.filter_append, List.map_append]
      congr 1
      clear ih h
      induction M with
      | nil => rfl
      | cons y M ih =>
        simp only [List.map_cons, List.filterMap_cons, List.filter_cons]
        by_cases hxy : (rl x).1 = (rr y).1
        · have : ((rl x).1.cmp (rr y).1 == .eq) = true := by rw [beq_iff_eq]; exact (Value.cmp_eq _ _).2 hxy
          rw [if_pos this, if_pos (by simpa using hxy), List.map_cons, ← ih]
        · have : ((rl x).1.cmp (rr y).1 == .eq) = false := by rw [beq_eq_false_iff_ne]; exact fun hc => hxy ((Value.cmp_eq _ _).1 hc)
          rw [if_neg (by simp [this]), if_neg (by simpa using hxy), ← ih]
  rw [this]
  refine mapM_some_map _ _ _ _ ?_
  intro x hx
  obtain ⟨hm, hk⟩ := List.mem_filter.1 hx
  exact h x.1 (List.mem_product.1 hm).1 x.2 (List.mem_product.1 hm).2 (of_decide_eq_true hk)

/-! ### Conditions -/

/-- An optional condition has a truth value. -/
def CondHolds (norm : Overflow) (o : Option Term) (env : List Value) (b : Bool) : Prop :=
  match o with
  | none => b = true
  | some t => eval norm t env = some (.ofBool b, env)

theorem truthy_ofBool (b : Bool) : (Value.ofBool b).truthy = b := by cases b <;> rfl

theorem and_holds {s t : Term} {env : List Value} {a b : Bool} (hs : eval norm s env = some (.ofBool a, env)) (ht : eval norm t env = some (.ofBool b, env)) :
    eval norm (.binary .and s t) env = some (.ofBool (a && b), env) := by
  simp only [eval, hs, Option.bind_some, truthy_ofBool, ht, Option.map_some]
  cases a <;> simp

theorem andAll_holds {ts : List Term} {env : List Value} {b : Term → Bool} (h : ∀ t ∈ ts, eval norm t env = some (.ofBool (b t), env)) : CondHolds norm (andAll ts) env (ts.all b) := by
  cases ts with
  | nil => rfl
  | cons t ts =>
    simp only [andAll, CondHolds]
    have gen : ∀ (ts : List Term) (t : Term) (a : Bool), eval norm t env = some (.ofBool a, env) → (∀ t ∈ ts, eval norm t env = some (.ofBool (b t), env)) →
        eval norm (ts.foldl (fun a b => .binary .and a b) t) env = some (.ofBool (a && ts.all b), env) := by
      intro ts
      induction ts with
      | nil => intro t a ht _; simpa using ht
      | cons u us ih =>
        intro t a ht hu
        rw [List.foldl_cons, ih _ (a && b u) (and_holds ht (hu u (List.mem_cons_self ..))) fun v hv => hu v (List.mem_cons_of_mem _ hv), List.all_cons, Bool.and_assoc]
    rw [gen ts t (b t) (h t (List.mem_cons_self ..)) fun v hv => h v (List.mem_cons_of_mem _ hv), List.all_cons]

theorem andAll_range_holds {n : Nat} {g : Nat → Term} {env : List Value} {b : Nat → Bool} (h : ∀ i < n, eval norm (g i) env = some (.ofBool (b i), env)) :
    CondHolds norm (andAll ((List.range n).map g)) env ((List.range n).all b) := by
  have gen : ∀ (l : List Nat), (∀ i ∈ l, eval norm (g i) env = some (.ofBool (b i), env)) → CondHolds norm (andAll (l.map g)) env (l.all b) := by
    intro l hl
    cases l with
    | nil => rfl
    | cons i l =>
      simp only [List.map_cons, andAll, CondHolds]
      have gen : ∀ (l : List Nat) (t : Term) (a : Bool), eval norm t env = some (.ofBool a, env) → (∀ i ∈ l, eval norm (g i) env = some (.ofBool (b i), env)) →
          eval norm ((l.map g).foldl (fun a b => .binary .and a b) t) env = some (.ofBool (a && l.all b), env) := by
        intro l
        induction l with
        | nil => intro t a ht _; simpa using ht
        | cons u us ih =>
          intro t a ht hu
          rw [List.map_cons, List.foldl_cons, ih _ (a && b u) (and_holds ht (hu u (List.mem_cons_self ..))) fun v hv => hu v (List.mem_cons_of_mem _ hv), List.all_cons, Bool.and_assoc]
      rw [gen l (g i) (b i) (hl i (List.mem_cons_self ..)) fun v hv => hl v (List.mem_cons_of_mem _ hv), List.all_cons]
  exact gen _ fun i hi => h i (List.mem_range.1 hi)

theorem andAll_three {o₁ o₂ o₃ : Option Term} {env : List Value} {a b c : Bool} (h₁ : CondHolds norm o₁ env a) (h₂ : CondHolds norm o₂ env b) (h₃ : CondHolds norm o₃ env c) :
    CondHolds norm (andAll ([o₁, o₂, o₃].filterMap id)) env (a && b && c) := by
  cases o₁ <;> cases o₂ <;> cases o₃ <;> simp only [CondHolds] at h₁ h₂ h₃ <;> (try subst h₁) <;> (try subst h₂) <;> (try subst h₃) <;>
    simp only [List.filterMap_cons, List.filterMap_nil, id, andAll, List.foldl_cons, List.foldl_nil, CondHolds, Bool.true_and, Bool.and_true] <;>
    first | assumption | exact and_holds (by assumption) (by assumption) | exact and_holds (and_holds (by assumption) (by assumption)) (by assumption)

theorem optFilter_map {A : Type*} {L : List A} {row : A → Value × Value} {o : Option Term} {P : A → Bool} (h : ∀ x ∈ L, CondHolds norm o [(row x).1, (row x).2] (P x)) :
    optFilter norm (L.map row) o = some ((L.filter P).map row) := by
  cases o with
  | some t => exact dfFilter_map h
  | none =>
    simp only [CondHolds] at h
    rw [List.filter_eq_self.2 h]
    rfl

theorem eval_le {s t : Term} {env : List Value} {a b : Value} (hs : eval norm s env = some (a, env)) (ht : eval norm t env = some (b, env)) : eval norm (le s t) env = some (.ofBool (a.cmp b != .gt), env) := by
  simp only [le, eval, hs, ht, Option.bind_some, evalBinary, Option.map_some]

theorem eval_eq {s t : Term} {env : List Value} {a b : Value} (hs : eval norm s env = some (a, env)) (ht : eval norm t env = some (b, env)) : eval norm (eq s t) env = some (.ofBool (a.cmp b == .eq), env) := by
  simp only [eq, eval, hs, ht, Option.bind_some, evalBinary, Option.map_some]

theorem cmp_ne_gt {a b : Value} : (a.cmp b != .gt) = true ↔ a.Less b ∨ a = b := by
  rw [bne_iff_ne, ne_eq, Value.cmp_gt]
  constructor
  · intro h
    rcases Value.less_trichotomy a b with h' | h' | h'
    · exact .inl h'
    · exact .inr h'
    · exact absurd h' h
  · rintro (h | rfl) h'
    · exact Value.less_asymm h h'
    · exact Value.less_irrefl _ h'

open Classical in
/-- The comparison of two chains in a row. -/
theorem timeCond_holds {env A a B b C : List Value} {inAt outAt : Nat} (h : env[1]? = some (.tuple (A ++ a ++ B ++ b ++ C))) (hin : inAt = A.length) (hout : outAt = A.length + a.length + B.length) :
    CondHolds norm (andAll (timeCond inAt a.length outAt b.length)) env (decide (OuterLe a b)) := by
  unfold timeCond
  set n := min a.length b.length with hn
  have key : ∀ i < n, ∃ x y, a[a.length - n + i]? = some x ∧ b[b.length - n + i]? = some y := by
    intro i hi
    exact ⟨_, _, List.getElem?_eq_getElem (by omega), List.getElem?_eq_getElem (by omega)⟩
  have hall : CondHolds norm (andAll ((List.range n).map fun i => le (f 1 (inAt + (a.length - n) + i)) (f 1 (outAt + (b.length - n) + i)))) env
      ((List.range n).all fun i => ((a[a.length - n + i]?).getD (.int 0)).cmp ((b[b.length - n + i]?).getD (.int 0)) != .gt) := by
    refine andAll_range_holds fun i hi => ?_
    obtain ⟨x, y, hx, hy⟩ := key i hi
    rw [hx, hy]
    refine eval_le (eval_f h rfl ?_) (eval_f h rfl ?_)
    · rw [hin, show A ++ a ++ B ++ b ++ C = A ++ (a ++ (B ++ b ++ C)) by simp, List.getElem?_append_right (by omega), show A.length + (a.length - n) + i - A.length = a.length - n + i by omega,
        List.getElem?_append_left (by omega)]
      exact hx
    · rw [hout, show A ++ a ++ B ++ b ++ C = (A ++ a ++ B) ++ (b ++ C) by simp, List.getElem?_append_right (by simp; omega)]
      simp only [List.length_append]
      rw [show A.length + a.length + B.length + (b.length - n) + i - (A.length + a.length + B.length) = b.length - n + i by omega, List.getElem?_append_left (by omega)]
      exact hy
  have hiff : ((List.range n).all fun i => ((a[a.length - n + i]?).getD (.int 0)).cmp ((b[b.length - n + i]?).getD (.int 0)) != .gt) = decide (OuterLe a b) := by
    rw [Bool.eq_iff_iff, decide_eq_true_eq, List.all_eq_true]
    constructor
    · intro hl j x y hx hy
      have hja : j < a.length := by
        by_contra hc
        rw [List.getElem?_eq_none (by simp; omega)] at hx
        cases hx
      have hjb : j < b.length := by
        by_contra hc
        rw [List.getElem?_eq_none (by simp; omega)] at hy
        cases hy
      rw [List.getElem?_reverse hja] at hx
      rw [List.getElem?_reverse hjb] at hy
      have := hl (n - 1 - j) (List.mem_range.2 (by omega))
      rw [show a.length - n + (n - 1 - j) = a.length - 1 - j by omega, show b.length - n + (n - 1 - j) = b.length - 1 - j by omega, hx, hy] at this
      exact cmp_ne_gt.1 this
    · intro ho i hi
      have hi := List.mem_range.1 hi
      obtain ⟨x, y, hx, hy⟩ := key i hi
      rw [hx, hy]
      refine cmp_ne_gt.2 (ho (n - 1 - i) x y ?_ ?_)
      · rw [List.getElem?_reverse (by omega), ← hx]; congr 1; omega
      · rw [List.getElem?_reverse (by omega), ← hy]; congr 1; omega
  rw [← hiff]
  exact hall

open Classical in
/-- Equality of two ranges of a row. -/
theorem dataEq_holds {env A a B b C : List Value} {p q n : Nat} (h : env[1]? = some (.tuple (A ++ a ++ B ++ b ++ C))) (hp : p = A.length) (hq : q = A.length + a.length + B.length) (ha : a.length = n)
    (hb : b.length = n) : CondHolds norm (andAll ((List.range n).map fun i => eq (f 1 (p + i)) (f 1 (q + i)))) env (decide (a = b)) := by
  have key : ∀ i < n, ∃ x y, a[i]? = some x ∧ b[i]? = some y := by
    intro i hi
    exact ⟨_, _, List.getElem?_eq_getElem (by omega), List.getElem?_eq_getElem (by omega)⟩
  have hall : CondHolds norm (andAll ((List.range n).map fun i => eq (f 1 (p + i)) (f 1 (q + i)))) env ((List.range n).all fun i => ((a[i]?).getD (.int 0)).cmp ((b[i]?).getD (.int 0)) == .eq) := by
    refine andAll_range_holds fun i hi => ?_
    obtain ⟨x, y, hx, hy⟩ := key i hi
    rw [hx, hy]
    refine eval_eq (eval_f h rfl ?_) (eval_f h rfl ?_)
    · rw [hp, show A ++ a ++ B ++ b ++ C = A ++ (a ++ (B ++ b ++ C)) by simp, List.getElem?_append_right (by omega), show A.length + i - A.length = i by omega, List.getElem?_append_left (by omega)]
      exact hx
    · rw [hq, show A ++ a ++ B ++ b ++ C = (A ++ a ++ B) ++ (b ++ C) by simp, List.getElem?_append_right (by simp; omega)]
      simp only [List.length_append]
      rw [show A.length + a.length + B.length + i - (A.length + a.length + B.length) = i by omega, List.getElem?_append_left (by omega)]
      exact hy
  have hiff : ((List.range n).all fun i => ((a[i]?).getD (.int 0)).cmp ((b[i]?).getD (.int 0)) == .eq) = decide (a = b) := by
    rw [Bool.eq_iff_iff, decide_eq_true_eq, List.all_eq_true]
    constructor
    · intro hl
      refine List.ext_getElem? fun i => ?_
      by_cases hi : i < n
      · obtain ⟨x, y, hx, hy⟩ := key i hi
        have := hl i (List.mem_range.2 hi)
        rw [hx, hy] at this
        rw [hx, hy, (Value.cmp_eq x y).1 (beq_iff_eq.1 this)]
      · rw [List.getElem?_eq_none (by omega), List.getElem?_eq_none (by omega)]
    · rintro rfl i hi
      rw [beq_iff_eq]
      exact (Value.cmp_eq _ _).2 rfl
  rw [← hiff]
  exact hall

/-! ### The rules -/

/-- The row after the join: key, value, chain of the record, chain of the demand, query. -/
def wideRow (x : Demand × Record) : Value × Value := (.tuple x.2.key, .tuple (x.2.val ++ x.2.chain ++ x.1.chain ++ [x.1.q]))

theorem traced_row (x : Demand × Record) : Demand.row ⟨x.2, x.1.q⟩ = (.tuple x.2.key, .tuple (x.2.val ++ x.2.chain ++ [x.1.q])) := rfl

open Classical in
theorem timeLe_strip {L : List (Demand × Record)} {k v m n : Nat} (hr : ∀ x ∈ L, x.2.Shaped k v m) (hd : ∀ x ∈ L, x.1.chain.length = n) :
    ((optFilter norm (L.map wideRow) (timeLe v m n)).bind fun filtered => dfProject norm filtered (strip k v m n m)) =
      some ((L.filter fun x => OuterLe x.2.chain x.1.chain).map fun x => Demand.row ⟨x.2, x.1.q⟩) := by
  have h1 : optFilter norm (L.map wideRow) (timeLe v m n) = some ((L.filter fun x => OuterLe x.2.chain x.1.chain).map wideRow) := by
    refine optFilter_map fun x hx => ?_
    have hs := hr x hx
    have hc := hd x hx
    rw [timeLe, ← hs.2.2, ← hc]
    exact timeCond_holds (A := x.2.val) (B := []) (C := [x.1.q]) (by simp [wideRow]) hs.2.1.symm (by simp [hs.2.1])
  rw [h1, Option.bind_some]
  refine dfProject_map fun x hx => ?_
  have hx := (List.mem_filter.1 hx).1
  have hs := hr x hx
  have hc := hd x hx
  rw [traced_row]
  have hstrip : (List.range m).map (fun i => f 1 (v + (m - m) + i)) = fidx 1 v (v + m) := by
    simp only [fidx, Nat.sub_self, Nat.add_zero, Nat.add_sub_cancel_left, List.range'_eq_map_range, List.map_map]
    rfl
  rw [strip, hstrip]
  refine evalProj_tuple ?_ (.append (.append ?_ ?_) ?_)
  · exact builds_fidx x.2.key (A := []) (C := []) (by simp [wideRow]) rfl (by simp [hs.1])
  · exact builds_fidx x.2.val (A := []) (C := x.2.chain ++ x.1.chain ++ [x.1.q]) (by simp [wideRow]) rfl (by simp [hs.2.1])
  · exact builds_fidx x.2.chain (A := x.2.val) (C := x.1.chain ++ [x.1.q]) (by simp [wideRow]) hs.2.1.symm (by rw [hs.2.2])
  · refine builds_f (s := 1) rfl rfl ?_
    have : (x.2.val ++ x.2.chain ++ x.1.chain).length = v + m + n := by simp [hs.2.1, hs.2.2, hc]; omega
    rw [← this, List.getElem?_append_right (le_refl _), Nat.sub_self]
    rfl

theorem tuple_inj {a b : List Value} : Value.tuple a = Value.tuple b ↔ a = b := by simp

open Classical in
theorem traced_of_filter {deps : List Demand} {recs : List Record} {P Q : Demand × Record → Prop} [DecidablePred P] [DecidablePred Q] {R : Record → Demand → Prop} (h : ∀ x, (P x ∧ Q x) ↔ R x.2 x.1) :
    (((((deps ×ˢ recs).filter fun x => P x).filter fun x => Q x).filter fun x => OuterLe x.2.chain x.1.chain).map fun x => Demand.row ⟨x.2, x.1.q⟩) = (traced deps recs R).map Demand.row := by
  unfold traced
  rw [List.map_map, List.filter_filter, List.filter_filter]
  simp only [Function.comp_def]
  congr 1
  refine List.filter_congr fun x _ => ?_
  rw [Bool.eq_iff_iff]
  simp only [Bool.and_eq_true, decide_eq_true_eq, ← h]
  tauto

open Classical in
theorem traced_of_filter_one {deps : List Demand} {recs : List Record} {P : Demand × Record → Prop} [DecidablePred P] {R : Record → Demand → Prop} (h : ∀ x ∈ deps ×ˢ recs, P x ↔ R x.2 x.1) :
    ((((deps ×ˢ recs).filter fun x => P x).filter fun x => OuterLe x.2.chain x.1.chain).map fun x => Demand.row ⟨x.2, x.1.q⟩) = (traced deps recs R).map Demand.row := by
  unfold traced
  rw [List.map_map, List.filter_filter]
  simp only [Function.comp_def]
  congr 1
  refine List.filter_congr fun x hx => ?_
  rw [Bool.eq_iff_iff]
  simp only [Bool.and_eq_true, decide_eq_true_eq, ← h x hx]
  tauto

theorem row_one {r : Record} : r.row.1 = .tuple r.key := rfl

theorem pack_demand {d : Demand} {k v n : Nat} (hd : d.Shaped k v n) : evalProj norm (pack k v n true) [d.row.1, d.row.2] = some (.tuple (d.key ++ d.val), .tuple (d.chain ++ [d.q])) := by
  refine evalProj_tuple (.append ?_ ?_) ?_
  · exact builds_fidx d.key (A := []) (C := []) (by simp [Demand.row]) rfl (by simp [hd.1])
  · exact builds_fidx d.val (A := []) (C := d.chain ++ [d.q]) (by simp [Demand.row]) rfl (by simp [hd.2.1])
  · exact builds_fidx (d.chain ++ [d.q]) (A := d.val) (C := []) (by simp [Demand.row]) hd.2.1.symm (by simp [hd.2.2])

theorem pack_record {r : Record} {k v m : Nat} (hr : r.Shaped k v m) : evalProj norm (pack k v m false) [r.row.1, r.row.2] = some (.tuple (r.key ++ r.val), .tuple r.chain) := by
  refine evalProj_tuple (.append ?_ ?_) ?_
  · exact builds_fidx r.key (A := []) (C := []) (by simp [Record.row]) rfl (by simp [hr.1])
  · exact builds_fidx r.val (A := []) (C := r.chain) (by simp [Record.row]) rfl (by simp [hr.2.1])
  · exact builds_fidx r.chain (A := r.val) (C := []) (by simp [Record.row]) hr.2.1.symm (by simp [hr.2.2])

theorem shapePreserving_traced {deps : List Demand} {recs : List Record} {k v m n : Nat} (hd : ∀ d ∈ deps, d.Shaped k v n) (hr : ∀ r ∈ recs, r.Shaped k v m) :
    shapePreservingLookup norm (deps.map Demand.row) ⟨recs.map Record.row, (k, v), m⟩ n = some ((traced deps recs fun r d => r.key = d.key ∧ r.val = d.val).map Demand.row) := by
  classical
  unfold shapePreservingLookup
  simp only
  rw [dfProject_map (row' := fun r => (.tuple (r.key ++ r.val), .tuple r.chain)) fun r h => pack_record (hr r h), Option.bind_some,
    dfProject_map (row' := fun d => (.tuple (d.key ++ d.val), .tuple (d.chain ++ [d.q]))) fun d h => pack_demand (hd d h), Option.bind_some, dfJoin_map (row := wideRow), Option.bind_some,
    timeLe_strip, traced_of_filter_one]
  · intro x hx
    obtain ⟨h1, h2⟩ := List.mem_product.1 hx
    have h1 := hd _ h1
    have h2 := hr _ h2
    rw [tuple_inj]
    constructor
    · intro h
      have := List.append_inj h (by rw [h1.1, h2.1])
      exact ⟨this.1.symm, this.2.symm⟩
    · rintro ⟨h, h'⟩; rw [h, h']
  · intro x hx; exact hr _ (List.mem_product.1 (List.mem_filter.1 hx).1).2
  · intro x hx; exact (hd _ (List.mem_product.1 (List.mem_filter.1 hx).1).1).2.2
  · intro d h1 r h2 hk
    have h1 := hd _ h1
    have h2 := hr _ h2
    simp only [tuple_inj] at hk
    have hk := List.append_inj hk (by rw [h1.1, h2.1])
    rw [wideRow]
    refine evalProj_tuple ?_ (.append (.append (.append ?_ ?_) ?_) ?_)
    · rw [← hk.1]; exact builds_fidx d.key (A := []) (C := d.val) (by simp) rfl (by simp [h1.1])
    · rw [← hk.2]; exact builds_fidx d.val (A := d.key) (C := []) (by simp) h1.1.symm (by simp [h1.2.1])
    · exact builds_fidx r.chain (A := []) (C := []) (by simp) rfl (by simp [h2.2.2])
    · exact builds_fidx d.chain (A := []) (C := [d.q]) (by simp) rfl (by simp [h1.2.2])
    · refine builds_f (s := 1) rfl rfl ?_
      rw [← h1.2.2, List.getElem?_append_right (le_refl _), Nat.sub_self]
      rfl

/-- The row of a keyed lookup that narrows: the demanded value after the value. -/
def narrowRow (x : Demand × Record) : Value × Value := (.tuple x.2.key, .tuple (x.2.val ++ x.1.val ++ x.2.chain ++ x.1.chain ++ [x.1.q]))

theorem last_getElem {a : List Value} {x : Value} {n : Nat} (h : a.length = n) : (a ++ [x])[n]? = some x := by
  rw [← h, List.getElem?_append_right (le_refl _), Nat.sub_self]; rfl

theorem keyed_traced {deps : List Demand} {recs : List Record} {k v w m n kOut : Nat} {reducerMin : Bool} (hd : ∀ d ∈ deps, d.val.length = w ∧ d.chain.length = n) (hr : ∀ r ∈ recs, r.Shaped k v m) :
    keyedLookup norm (deps.map Demand.row) ⟨recs.map Record.row, (k, v), m⟩ (kOut, w) n reducerMin =
      some ((traced deps recs fun r d => r.key = d.key ∧ (reducerMin = true → v = w → r.val = d.val)).map Demand.row) := by
  classical
  unfold keyedLookup
  simp only
  by_cases hm : (reducerMin && decide (v = w) && decide (v > 0)) = true
  · simp only [hm, if_true]
    simp only [Bool.and_eq_true, decide_eq_true_eq] at hm
    obtain ⟨⟨hmin, rfl⟩, _⟩ := hm
    have hjoin : dfJoin norm (deps.map Demand.row) (recs.map Record.row) (kyJoin k v v m n true) = some (((deps ×ˢ recs).filter fun x => x.1.row.1 = x.2.row.1).map narrowRow) := by
      refine dfJoin_map fun d h1 r h2 hk => ?_
      have h1 := hd _ h1
      have h2 := hr _ h2
      simp only [Demand.row, Record.row, tuple_inj] at hk
      simp only [narrowRow, kyJoin, if_true]
      refine evalProj_tuple ?_ (.append (.append (.append (.append ?_ ?_) ?_) ?_) ?_)
      · rw [← hk]; exact builds_fidx d.key (A := []) (C := []) (by simp [Demand.row]) rfl (by rw [hk, h2.1]; simp)
      · exact builds_fidx r.val (A := []) (C := r.chain) (by simp [Record.row]) rfl (by simp [h2.2.1])
      · exact builds_fidx d.val (A := []) (C := d.chain ++ [d.q]) (by simp [Demand.row]) rfl (by simp [h1.1])
      · exact builds_fidx r.chain (A := r.val) (C := []) (by simp [Record.row]) h2.2.1.symm (by simp [h2.2.2])
      · exact builds_fidx d.chain (A := d.val) (C := [d.q]) (by simp [Demand.row]) h1.1.symm (by simp [h1.2])
      · exact builds_f (s := 1) rfl rfl (last_getElem (by simp [h1.1, h1.2]))
    rw [hjoin, Option.bind_some]
    have hfil : optFilter norm (((deps ×ˢ recs).filter fun x => x.1.row.1 = x.2.row.1).map narrowRow) (kyDataEq v) =
        some ((((deps ×ˢ recs).filter fun x => x.1.row.1 = x.2.row.1).filter fun x => x.2.val = x.1.val).map narrowRow) := by
      refine optFilter_map fun x hx => ?_
      obtain ⟨h1, h2⟩ := List.mem_product.1 (List.mem_filter.1 hx).1
      have h1 := hd _ h1
      have h2 := hr _ h2
      have := dataEq_holds (norm := norm) (env := [(narrowRow x).1, (narrowRow x).2]) (A := []) (a := x.2.val) (B := []) (b := x.1.val) (C := x.2.chain ++ x.1.chain ++ [x.1.q]) (p := 0) (q := v) (n := v)
        (by simp [narrowRow]) rfl (by simp [h2.2.1]) h2.2.1 h1.1
      simpa only [kyDataEq, Nat.zero_add] using this
    rw [hfil, Option.bind_some]
    rw [dfProject_map (row' := wideRow), Option.bind_some, timeLe_strip, traced_of_filter]
    · intro x
      simp only [Demand.row, Record.row, tuple_inj]
      constructor
      · rintro ⟨h, h'⟩; exact ⟨h.symm, fun _ _ => h'⟩
      · rintro ⟨h, h'⟩; exact ⟨h.symm, h' hmin trivial⟩
    · intro x hx; exact hr _ (List.mem_product.1 (List.mem_filter.1 (List.mem_filter.1 hx).1).1).2
    · intro x hx; exact (hd _ (List.mem_product.1 (List.mem_filter.1 (List.mem_filter.1 hx).1).1).1).2
    · intro x hx
      obtain ⟨h1, h2⟩ := List.mem_product.1 (List.mem_filter.1 (List.mem_filter.1 hx).1).1
      have h1 := hd _ h1
      have h2 := hr _ h2
      rw [wideRow]
      refine evalProj_tuple ?_ (.append (.append (.append ?_ ?_) ?_) ?_)
      · exact builds_fidx x.2.key (A := []) (C := []) (by simp [narrowRow]) rfl (by simp [h2.1])
      · exact builds_fidx x.2.val (A := []) (C := x.1.val ++ x.2.chain ++ x.1.chain ++ [x.1.q]) (by simp [narrowRow]) rfl (by simp [h2.2.1])
      · exact builds_fidx x.2.chain (A := x.2.val ++ x.1.val) (C := x.1.chain ++ [x.1.q]) (by simp [narrowRow]) (by simp [h1.1, h2.2.1]) (by simp [h2.2.2])
      · exact builds_fidx x.1.chain (A := x.2.val ++ x.1.val ++ x.2.chain) (C := [x.1.q]) (by simp [narrowRow]) (by simp [h1.1, h2.2.1, h2.2.2]; omega) (by simp [h1.2])
      · exact builds_f (s := 1) rfl rfl (last_getElem (by simp [h1.1, h1.2, h2.2.1, h2.2.2]; omega))
  · simp only [hm]
    rw [dfJoin_map (row := wideRow)]
    · simp only [Option.bind_some]
      rw [if_neg (by simp), Option.bind_some, timeLe_strip, traced_of_filter_one]
      · intro x hx
        obtain ⟨h1, h2⟩ := List.mem_product.1 hx
        have h1 := hd _ h1
        have h2 := hr _ h2
        simp only [Demand.row, Record.row, tuple_inj]
        constructor
        · intro h
          refine ⟨h.symm, fun hmin hvw => ?_⟩
          have hv : v = 0 := by
            by_contra hv
            exact hm (by simp [hmin, hvw]; omega)
          have e1 : x.2.val = [] := List.length_eq_zero_iff.1 (by rw [h2.2.1, hv])
          have e2 : x.1.val = [] := List.length_eq_zero_iff.1 (by rw [h1.1, ← hvw, hv])
          rw [e1, e2]
        · intro h; exact h.1.symm
      · intro x hx; exact hr _ (List.mem_product.1 (List.mem_filter.1 hx).1).2
      · intro x hx; exact (hd _ (List.mem_product.1 (List.mem_filter.1 hx).1).1).2
    · intro d h1 r h2 hk
      have h1 := hd _ h1
      have h2 := hr _ h2
      simp only [Demand.row, Record.row, tuple_inj] at hk
      simp only [wideRow, kyJoin, Bool.false_eq_true, if_false, List.append_nil]
      refine evalProj_tuple ?_ (.append (.append (.append ?_ ?_) ?_) ?_)
      · rw [← hk]; exact builds_fidx d.key (A := []) (C := []) (by simp [Demand.row]) rfl (by rw [hk, h2.1]; simp)
      · exact builds_fidx r.val (A := []) (C := r.chain) (by simp [Record.row]) rfl (by simp [h2.2.1])
      · exact builds_fidx r.chain (A := r.val) (C := []) (by simp [Record.row]) h2.2.1.symm (by simp [h2.2.2])
      · exact builds_fidx d.chain (A := d.val) (C := [d.q]) (by simp [Demand.row]) h1.1.symm (by simp [h1.2])
      · exact builds_f (s := 1) rfl rfl (last_getElem (by simp [h1.1, h1.2]))

end DD.Ir.Ex
