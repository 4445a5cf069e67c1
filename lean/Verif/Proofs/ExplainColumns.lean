import Verif.Proofs.Scalar
import Verif.Proofs.ScalarOrder
import Verif.Spec.Explain

/-!
# Proofs: terms that read columns only, on rows with more columns
-/

namespace DD.Ir.Ex

variable {norm : Overflow}

/-- `rows'` has the columns of `rows`, and perhaps more. -/
def Wider (arities : List Nat) (rows rows' : List Value) : Prop :=
  rows.length = arities.length ∧ rows'.length = arities.length ∧
    ∀ r < arities.length, ∃ xs cs : List Value, rows[r]? = some (.tuple xs) ∧ rows'[r]? = some (.tuple (xs ++ cs)) ∧ arities[r]? = some xs.length

variable {arities : List Nat} {rows rows' : List Value}

theorem Wider.column (h : Wider arities rows rows') {r c : Nat} (hc : c < (arities[r]?).getD 0) (bs : List Value) :
    denote norm rows' (.proj (.var r) c) bs = denote norm rows (.proj (.var r) c) bs := by
  have hr : r < arities.length := by
    by_contra hr
    rw [List.getElem?_eq_none (Nat.le_of_not_lt hr)] at hc
    exact absurd hc (Nat.not_lt_zero _)
  obtain ⟨xs, cs, h1, h2, h3⟩ := h.2.2 r hr
  rw [h3] at hc
  simp only [denote, h1, h2, Option.bind_some, Value.fields]
  exact List.getElem?_append_left hc

mutual
theorem columns_scoped : ∀ (t : Term) (b : Nat), Columns arities t b → Scoped arities.length t b
  | .var i, b, h => by simp only [Columns] at h
  | .bound k, b, h => by simp only [Columns] at h; simp only [Scoped]; exact h
  | .int _, b, h => by simp only [Scoped]
  | .tuple fs, b, h => by simp only [Columns] at h; simp only [Scoped]; exact allColumns_scoped fs b h
  | .list fs, b, h => by simp only [Columns] at h; simp only [Scoped]; exact allColumns_scoped fs b h
  | .spread t, b, h => by simp only [Columns] at h; simp only [Scoped]; exact columns_scoped t b h
  | .proj t i, b, h => by
    have ih := columns_scoped t b
    cases t with
    | var r =>
      simp only [Columns] at h
      simp only [Scoped]
      by_contra hr
      rw [List.getElem?_eq_none (Nat.le_of_not_lt hr)] at h
      exact absurd h (Nat.not_lt_zero _)
    | _ => first | (simp only [Columns] at h ih; simp only [Scoped] at ih ⊢; exact ih h) | (simp only [Columns] at h ih; simp only [Scoped] at ih ⊢)
  | .inject tag t, b, h => by simp only [Columns] at h; simp only [Scoped]; exact ⟨columns_scoped tag b h.1, columns_scoped t b h.2⟩
  | .case s arms d, b, h => by
    simp only [Columns] at h; simp only [Scoped]
    exact ⟨columns_scoped s b h.1, allColumns_scoped arms (b + 1) h.2.1, optionColumns_scoped d b h.2.2⟩
  | .fold l i s, b, h => by
    simp only [Columns] at h; simp only [Scoped]
    exact ⟨columns_scoped l b h.1, columns_scoped i b h.2.1, columns_scoped s (b + 2) h.2.2⟩
  | .ite c x y, b, h => by
    simp only [Columns] at h; simp only [Scoped]
    exact ⟨columns_scoped c b h.1, columns_scoped x b h.2.1, columns_scoped y b h.2.2⟩
  | .unary op t, b, h => by simp only [Columns] at h; simp only [Scoped]; exact columns_scoped t b h
  | .binary op l r, b, h => by simp only [Columns] at h; simp only [Scoped]; exact ⟨columns_scoped l b h.1, columns_scoped r b h.2⟩
  | .hash args, b, h => by simp only [Columns] at h; simp only [Scoped]; exact allColumns_scoped args b h
theorem allColumns_scoped : ∀ (ts : List Term) (b : Nat), AllColumns arities ts b → AllScoped arities.length ts b
  | [], b, h => by simp only [AllScoped]
  | t :: ts, b, h => by simp only [AllColumns] at h; simp only [AllScoped]; exact ⟨columns_scoped t b h.1, allColumns_scoped ts b h.2⟩
theorem optionColumns_scoped : ∀ (t : Option Term) (b : Nat), OptionColumns arities t b → OptionScoped arities.length t b
  | none, b, h => by simp only [OptionScoped]
  | some t, b, h => by simp only [OptionColumns] at h; simp only [OptionScoped]; exact columns_scoped t b h
end

mutual
theorem denote_wider (hw : Wider arities rows rows') : ∀ (t : Term) (bs : List Value) (b : Nat), Columns arities t b → denote norm rows' t bs = denote norm rows t bs
  | .var i, bs, b, h => by simp only [Columns] at h
  | .bound k, bs, b, h => by simp only [denote]
  | .int _, bs, b, h => by simp only [denote]
  | .tuple fs, bs, b, h => by simp only [Columns] at h; simp only [denote, denoteFields_wider hw fs bs b h]
  | .list fs, bs, b, h => by simp only [Columns] at h; simp only [denote, denoteFields_wider hw fs bs b h]
  | .spread _, bs, b, h => by simp only [denote]
  | .proj t i, bs, b, h => by
    have ih := denote_wider hw t bs b
    cases t with
    | var r => simp only [Columns] at h; exact hw.column h bs
    | _ => first | (simp only [Columns] at h ih; simp only [denote] at ih ⊢; simp only [ih h]) | (simp only [Columns] at h ih; simp only [denote] at ih ⊢)
  | .inject tag t, bs, b, h => by simp only [Columns] at h; simp only [denote, denote_wider hw tag bs b h.1, denote_wider hw t bs b h.2]
  | .case s arms d, bs, b, h => by
    simp only [Columns] at h
    simp only [denote, denote_wider hw s bs b h.1, denoteOption_wider hw d bs b h.2.2]
    congr 1
    funext v
    cases v with
    | variant tag payload => simp only [denoteEach_wider hw arms (payload :: bs) (b + 1) h.2.1]
    | _ => rfl
  | .fold l i s, bs, b, h => by
    simp only [Columns] at h
    simp only [denote, denote_wider hw l bs b h.1, denote_wider hw i bs b h.2.1]
    congr 1
    funext v
    cases v with
    | list items =>
      have : (fun acc item => denote norm rows' s (item :: acc :: bs)) = fun acc item => denote norm rows s (item :: acc :: bs) := by
        funext acc item
        exact denote_wider hw s (item :: acc :: bs) (b + 2) h.2.2
      simp only [this]
    | _ => rfl
  | .ite c x y, bs, b, h => by
    simp only [Columns] at h
    simp only [denote, denote_wider hw c bs b h.1, denote_wider hw x bs b h.2.1, denote_wider hw y bs b h.2.2]
  | .unary op t, bs, b, h => by simp only [Columns] at h; simp only [denote, denote_wider hw t bs b h]
  | .binary op l r, bs, b, h => by
    simp only [Columns] at h
    simp only [denote, denote_wider hw l bs b h.1, denote_wider hw r bs b h.2]
  | .hash args, bs, b, h => by simp only [Columns] at h; simp only [denote, denoteEach_wider hw args bs b h]
theorem denoteFields_wider (hw : Wider arities rows rows') : ∀ (fs : List Term) (bs : List Value) (b : Nat), AllColumns arities fs b → denoteFields norm rows' fs bs = denoteFields norm rows fs bs
  | [], bs, b, h => by simp only [denoteFields]
  | f :: fs, bs, b, h => by
    simp only [AllColumns] at h
    have hf := denote_wider hw f
    have hfs := denoteFields_wider hw fs bs b h.2
    cases f with
    | spread t =>
      have ht := denote_wider hw t
      have h1 := h.1
      simp only [Columns] at h1
      simp only [denoteFields, ht bs b h1, hfs]
    | _ => simp only [denoteFields, hf bs b h.1, hfs]
theorem denoteEach_wider (hw : Wider arities rows rows') : ∀ (ts : List Term) (bs : List Value) (b : Nat), AllColumns arities ts b → denoteEach norm rows' ts bs = denoteEach norm rows ts bs
  | [], bs, b, h => by simp only [denoteEach]
  | t :: ts, bs, b, h => by
    simp only [AllColumns] at h
    simp only [denoteEach, denote_wider hw t bs b h.1, denoteEach_wider hw ts bs b h.2]
theorem denoteOption_wider (hw : Wider arities rows rows') : ∀ (t : Option Term) (bs : List Value) (b : Nat), OptionColumns arities t b → denoteOption norm rows' t bs = denoteOption norm rows t bs
  | none, bs, b, h => by simp only [denoteOption]
  | some t, bs, b, h => by
    simp only [OptionColumns] at h
    simp only [denoteOption, denote_wider hw t bs b h]
end

/-- A term that reads columns only evaluates on wider rows to what it means on the rows. -/
theorem eval_wider (hw : Wider arities rows rows') {t : Term} (h : Columns arities t 0) : eval norm t rows' = (denote norm rows t []).map fun v => (v, rows') := by
  have hs : Scoped rows'.length t ([] : List Value).length := by rw [hw.2.1]; exact columns_scoped t 0 h
  have := eval_denote (norm := norm) (rows := rows') t [] hs
  simp only [List.reverse_nil, List.append_nil] at this
  rw [this, denote_wider hw t [] 0 h]

/-! ### Lists of fields -/

/-- The fields evaluate to values, and leave the environment alone. -/
def BuildsTo (norm : Overflow) (ts : List Term) (env : List Value) (vs : List Value) : Prop := buildSeq norm ts env = some (vs, env)

theorem buildSeq_append (ts us : List Term) (env : List Value) : buildSeq norm (ts ++ us) env = (buildSeq norm ts env).bind fun p => (buildSeq norm us p.2).map fun q => (p.1 ++ q.1, q.2) := by
  induction ts generalizing env with
  | nil => simp only [List.nil_append, buildSeq, Option.bind_some, List.nil_append]; cases buildSeq norm us env <;> rfl
  | cons t ts ih =>
    cases t with
    | spread t =>
      simp only [List.cons_append, buildSeq, ih]
      cases eval norm t env with
      | none => rfl
      | some p =>
        simp only [Option.bind_some]
        cases p.1.fields with
        | none => rfl
        | some xs =>
          simp only [Option.bind_some]
          cases buildSeq norm ts p.2 with
          | none => rfl
          | some p =>
            simp only [Option.bind_some, Option.map_some]
            cases buildSeq norm us p.2 <;> simp
    | _ =>
      simp only [List.cons_append, buildSeq, ih]
      generalize eval norm _ env = e
      cases e with
      | none => rfl
      | some p =>
        simp only [Option.bind_some]
        cases buildSeq norm ts p.2 with
        | none => rfl
        | some p =>
          simp only [Option.bind_some, Option.map_some]
          cases buildSeq norm us p.2 <;> simp

theorem BuildsTo.append {ts us : List Term} {env vs ws : List Value} (h : BuildsTo norm ts env vs) (h' : BuildsTo norm us env ws) : BuildsTo norm (ts ++ us) env (vs ++ ws) := by
  unfold BuildsTo at *
  rw [buildSeq_append, h]
  simp only [Option.bind_some, h', Option.map_some]

theorem builds_nil {env : List Value} : BuildsTo norm [] env [] := by simp only [BuildsTo, buildSeq]

theorem builds_one {t : Term} {env : List Value} {v : Value} (hs : ∀ x, t ≠ .spread x) (h : eval norm t env = some (v, env)) : BuildsTo norm [t] env [v] := by
  unfold BuildsTo
  cases t with
  | spread t => exact absurd rfl (hs t)
  | _ => simp only [buildSeq, h, Option.bind_some, Option.map_some]

theorem eval_f {s i : Nat} {env xs : List Value} {v x : Value} (h : env[s]? = some v) (hv : v.fields = some xs) (hx : xs[i]? = some x) : eval norm (f s i) env = some (x, env) := by
  rw [f, eval_proj]
  simp only [eval, h, Option.map_some, Option.bind_some, hv, hx]

theorem builds_f {s i : Nat} {env xs : List Value} {v x : Value} (h : env[s]? = some v) (hv : v.fields = some xs) (hx : xs[i]? = some x) : BuildsTo norm [f s i] env [x] :=
  builds_one (fun _ h => by cases h) (eval_f h hv hx)

/-- A range of the fields of a slot. -/
theorem builds_fidx {s : Nat} {env : List Value} (B : List Value) : ∀ {A C : List Value} {lo hi : Nat}, env[s]? = some (.tuple (A ++ B ++ C)) → lo = A.length → hi = lo + B.length → BuildsTo norm (fidx s lo hi) env B := by
  induction B with
  | nil => intro A C lo hi _ _ h; subst h; simp [fidx, builds_nil]
  | cons b B ih =>
    intro A C lo hi h hlo hhi
    have h1 : BuildsTo norm [f s lo] env [b] := by
      refine builds_f h rfl ?_
      subst hlo
      simp
    have h2 : BuildsTo norm (fidx s (lo + 1) hi) env B := by
      refine ih (A := A ++ [b]) (C := C) ?_ ?_ ?_
      · simpa using h
      · simp [hlo]
      · simp only [List.length_cons] at hhi; omega
    have h3 : fidx s lo hi = [f s lo] ++ fidx s (lo + 1) hi := by
      simp only [fidx]
      have : hi - lo = (hi - (lo + 1)) + 1 := by simp only [List.length_cons] at hhi; omega
      rw [this, List.range'_succ]
      rfl
    rw [h3]
    exact h1.append h2

theorem eval_tuple {ts : List Term} {env vs : List Value} (h : BuildsTo norm ts env vs) : eval norm (.tuple ts) env = some (.tuple vs, env) := by
  unfold BuildsTo at h
  simp only [eval, h, Option.map_some]

/-- A projection of two tuples. -/
theorem evalProj_tuple {ks vs : List Term} {env kv vv : List Value} (hk : BuildsTo norm ks env kv) (hv : BuildsTo norm vs env vv) : evalProj norm ⟨.tuple ks, .tuple vs⟩ env = some (.tuple kv, .tuple vv) := by
  simp only [evalProj, eval_tuple hk, Option.bind_some, eval_tuple hv, Option.map_some]

/-- The expanded side of a projection evaluates on wider rows to what the side means. -/
theorem expand_wider (hw : Wider arities rows rows') : ∀ {fields : List Term}, (∀ x ∈ fields, (∃ r, r < arities.length ∧ x = .spread (.var r)) ∨ Columns arities x 0) → ∀ {vs : List Value},
    denoteFields norm rows fields [] = some vs → BuildsTo norm (fields.flatMap (expandField arities)) rows' vs := by
  intro fields
  induction fields with
  | nil => intro _ vs h; simp only [denoteFields, Option.some.injEq] at h; subst h; exact builds_nil
  | cons x fields ih =>
    intro hp vs h
    have hp' := @ih fun y hy => hp y (List.mem_cons_of_mem _ hy)
    rw [List.flatMap_cons]
    rcases hp x (List.mem_cons_self ..) with ⟨r, hr, rfl⟩ | hc
    · obtain ⟨xs, cs, h1, h2, h3⟩ := hw.2.2 r hr
      simp only [denoteFields, denote, h1, Option.bind_some, Value.fields] at h
      cases hd : denoteFields norm rows fields [] with
      | none => simp [hd] at h
      | some ys =>
        simp only [hd, Option.map_some, Option.some.injEq] at h
        subst h
        refine BuildsTo.append ?_ (hp' hd)
        simp only [expandField, h3, Option.getD_some]
        exact builds_fidx xs (A := []) (C := cs) (by simpa using h2) rfl (by simp)
    · have he : expandField arities x = [x] := by
        unfold expandField
        split
        · simp only [Columns] at hc
        · rfl
      rw [he]
      cases x with
      | spread t =>
        simp only [Columns] at hc
        have ht := eval_wider (norm := norm) hw hc
        simp only [denoteFields] at h
        cases hv : denote norm rows t [] with
        | none => simp [hv] at h
        | some v =>
          simp only [hv, Option.bind_some] at h
          cases hx : v.fields with
          | none => simp [hx] at h
          | some xs =>
            simp only [hx, Option.bind_some] at h
            cases hd : denoteFields norm rows fields [] with
            | none => simp [hd] at h
            | some ys =>
              simp only [hd, Option.map_some, Option.some.injEq] at h
              subst h
              refine BuildsTo.append ?_ (hp' hd)
              simp only [BuildsTo, buildSeq, ht, hv, Option.map_some, Option.bind_some, hx, List.append_nil]
      | _ =>
        have ht := eval_wider (norm := norm) hw hc
        simp only [denoteFields] at h
        generalize hv : denote norm rows _ [] = dv at h ht
        cases dv with
        | none => simp at h
        | some v =>
          simp only [Option.bind_some] at h
          cases hd : denoteFields norm rows fields [] with
          | none => simp [hd] at h
          | some ys =>
            simp only [hd, Option.map_some, Option.some.injEq] at h
            subst h
            exact BuildsTo.append (vs := [v]) (builds_one (fun _ h => by cases h) ht) (hp' hd)

/-- A side of a projection. -/
theorem plain_wider (hw : Wider arities rows rows') {t : Term} (hp : Plain arities t) {v : Value} (h : denote norm rows t [] = some v) :
    ∃ vs, v = .tuple vs ∧ BuildsTo norm (expandValueFields t arities) rows' vs := by
  obtain ⟨fields, rfl, hf⟩ := hp
  simp only [denote] at h
  cases hd : denoteFields norm rows fields [] with
  | none => simp [hd] at h
  | some vs =>
    simp only [hd, Option.map_some, Option.some.injEq] at h
    subst h
    exact ⟨vs, rfl, expand_wider hw hf hd⟩

end DD.Ir.Ex
