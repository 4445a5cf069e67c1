import Verif.Proofs.ScalarOrder

/-!
# Evaluation computes what terms mean
-/

namespace DD.Ir
variable {norm : Overflow} {rows : List Value}

theorem truth_iff {p : Prop} {b : Bool} (h : b = true ↔ p) : Value.ofBool b = Value.truth p := by
  unfold Value.ofBool Value.truth
  by_cases hp : p
  · rw [if_pos hp, h.2 hp]; rfl
  · rw [if_neg hp, show b = false by simpa [hp] using h]; rfl

theorem evalUnary_eq (op : UnOp) (v : Value) : evalUnary norm op v = unaryMeans norm op v := by
  cases op with
  | neg => cases v <;> rfl
  | not => simp only [evalUnary, unaryMeans]; rw [truth_iff]; simp
  | isTag t =>
    simp only [evalUnary, unaryMeans]
    rw [truth_iff]
    cases v with
    | variant tag p => exact ⟨fun h => ⟨p, by rw [beq_iff_eq.1 h]⟩, fun ⟨q, h⟩ => by cases h; simp⟩
    | _ => simp
  | len => cases v <;> rfl

theorem evalBinary_eq (op : BinOp) (l r : Value) : evalBinary norm op l r = binaryMeans norm op l r := by
  cases op with
  | add => cases l <;> cases r <;> rfl
  | sub => cases l <;> cases r <;> rfl
  | mul => cases l <;> cases r <;> rfl
  | and => rfl
  | or => rfl
  | eq => simp only [evalBinary, binaryMeans]; rw [truth_iff]; simp [Value.cmp_eq]
  | ne => simp only [evalBinary, binaryMeans]; rw [truth_iff]; simp [Value.cmp_eq]
  | lt => simp only [evalBinary, binaryMeans]; rw [truth_iff]; simp [Value.cmp_lt]
  | gt => simp only [evalBinary, binaryMeans]; rw [truth_iff]; simp [Value.cmp_gt]
  | le =>
    simp only [evalBinary, binaryMeans]
    rw [truth_iff]
    rw [← Value.cmp_lt, ← Value.cmp_eq]
    cases l.cmp r <;> simp
  | ge =>
    simp only [evalBinary, binaryMeans]
    rw [truth_iff]
    rw [← Value.cmp_gt, ← Value.cmp_eq]
    cases l.cmp r <;> simp

/-! ### Places -/

theorem evalRef_eval : ∀ (t : Term) (env : List Value) (v : Value), evalRef t env = some v → eval norm t env = some (v, env)
  | .var i, env, v, h => by simp only [evalRef] at h; simp [eval, h]
  | .bound k, env, v, h => by
    simp only [evalRef] at h
    by_cases hk : 1 + k ≤ env.length
    · rw [if_pos hk, Nat.sub_add_eq] at h
      simp [eval, hk, h]
    · rw [if_neg hk] at h
      cases h
  | .proj t i, env, v, h => by
    simp only [evalRef] at h
    obtain ⟨p, h1, h2⟩ := Option.bind_eq_some_iff.1 h
    obtain ⟨xs, h3, h4⟩ := Option.bind_eq_some_iff.1 h2
    simp [eval, h1, h3, h4]
  | .int _, _, _, h => by cases h
  | .tuple _, _, _, h => by cases h
  | .list _, _, _, h => by cases h
  | .spread _, _, _, h => by cases h
  | .inject _ _, _, _, h => by cases h
  | .case _ _ _, _, _, h => by cases h
  | .fold _ _ _, _, _, h => by cases h
  | .ite _ _ _, _, _, h => by cases h
  | .unary _ _, _, _, h => by cases h
  | .binary _ _ _, _, _, h => by cases h
  | .hash _, _, _, h => by cases h

/-- The shortcut for places does not matter. -/
theorem eval_proj (t : Term) (i : Nat) (env : List Value) : eval norm (.proj t i) env = (eval norm t env).bind fun p => p.1.fields.bind fun xs => (xs[i]?).map fun v => (v, p.2) := by
  simp only [eval]
  cases h : evalRef t env with
  | none => rfl
  | some v => rw [evalRef_eval t env v h]; rfl

/-! ### The environment on return -/

theorem foldLoop_env {step : List Value → Option (Value × List Value)} (hs : ∀ env v env', step env = some (v, env') → env' = env) : ∀ (items : List Value) (acc : Value) (env : List Value) (v : Value)
    (env' : List Value), foldLoop step items acc env = some (v, env') → env' = env
  | [], acc, env, v, env', h => by cases h; rfl
  | item :: items, acc, env, v, env', h => by
    simp only [foldLoop] at h
    obtain ⟨⟨x, e⟩, h1, h2⟩ := Option.bind_eq_some_iff.1 h
    cases hs _ _ _ h1
    have := foldLoop_env hs items x _ v env' h2
    rw [this, List.dropLast_concat, List.dropLast_concat]

mutual
theorem eval_env : ∀ (t : Term) (env : List Value) (v : Value) (env' : List Value), eval norm t env = some (v, env') → env' = env
  | .var i, env, v, env', h => by simp only [eval] at h; obtain ⟨x, -, h2⟩ := Option.map_eq_some_iff.1 h; cases h2; rfl
  | .bound k, env, v, env', h => by
    simp only [eval] at h
    by_cases hk : 1 + k ≤ env.length
    · rw [if_pos hk] at h; obtain ⟨x, -, h2⟩ := Option.map_eq_some_iff.1 h; cases h2; rfl
    · rw [if_neg hk] at h; cases h
  | .int n, env, v, env', h => by simp only [eval] at h; cases h; rfl
  | .tuple fields, env, v, env', h => by
    simp only [eval] at h; obtain ⟨⟨x, e⟩, h1, h2⟩ := Option.map_eq_some_iff.1 h; cases h2; exact buildSeq_env fields _ _ _ h1
  | .list fields, env, v, env', h => by
    simp only [eval] at h; obtain ⟨⟨x, e⟩, h1, h2⟩ := Option.map_eq_some_iff.1 h; cases h2; exact buildSeq_env fields _ _ _ h1
  | .spread _, env, v, env', h => by simp only [eval] at h; cases h
  | .proj t i, env, v, env', h => by
    rw [eval_proj] at h
    obtain ⟨⟨x, e⟩, h1, h2⟩ := Option.bind_eq_some_iff.1 h
    obtain ⟨xs, -, h3⟩ := Option.bind_eq_some_iff.1 h2
    obtain ⟨y, -, h4⟩ := Option.map_eq_some_iff.1 h3
    cases h4
    exact eval_env t _ _ _ h1
  | .inject tag t, env, v, env', h => by
    simp only [eval] at h
    obtain ⟨⟨x, e⟩, h1, h2⟩ := Option.bind_eq_some_iff.1 h
    obtain ⟨n, -, h3⟩ := Option.bind_eq_some_iff.1 h2
    obtain ⟨⟨y, e'⟩, h4, h5⟩ := Option.map_eq_some_iff.1 h3
    cases h5
    rw [eval_env t _ _ _ h4, eval_env tag _ _ _ h1]
  | .case scrutinee arms default, env, v, env', h => by
    simp only [eval] at h
    obtain ⟨⟨x, e⟩, h1, h2⟩ := Option.bind_eq_some_iff.1 h
    cases eval_env scrutinee _ _ _ h1
    cases x with
    | variant tag payload => exact evalArms_env arms tag payload _ _ v env' (fun v e h => evalDefault_env default _ v e h) h2
    | _ => cases h2
  | .fold list init step, env, v, env', h => by
    simp only [eval] at h
    obtain ⟨⟨x, e⟩, h1, h2⟩ := Option.bind_eq_some_iff.1 h
    cases eval_env list _ _ _ h1
    cases x with
    | list items =>
      obtain ⟨⟨y, e'⟩, h3, h4⟩ := Option.bind_eq_some_iff.1 h2
      cases eval_env init _ _ _ h3
      exact foldLoop_env (fun env v env' => eval_env step env v env') items y _ v env' h4
    | _ => cases h2
  | .ite cond thn els, env, v, env', h => by
    simp only [eval] at h
    obtain ⟨⟨x, e⟩, h1, h2⟩ := Option.bind_eq_some_iff.1 h
    cases eval_env cond _ _ _ h1
    by_cases hx : x.truthy = true
    · simp only [hx, if_true] at h2; exact eval_env thn _ _ _ h2
    · simp only [hx] at h2; exact eval_env els _ _ _ h2
  | .hash args, env, v, env', h => by
    cases args with
    | nil => simp only [eval] at h; cases h
    | cons a as =>
      simp only [eval] at h
      obtain ⟨⟨x, e⟩, h1, h2⟩ := Option.bind_eq_some_iff.1 h
      obtain ⟨n, -, h3⟩ := Option.bind_eq_some_iff.1 h2
      obtain ⟨⟨y, e'⟩, h4, h5⟩ := Option.map_eq_some_iff.1 h3
      cases h5
      rw [evalHash_env as _ _ _ _ h4, eval_env a _ _ _ h1]
  | .unary op t, env, v, env', h => by
    simp only [eval] at h
    obtain ⟨⟨x, e⟩, h1, h2⟩ := Option.bind_eq_some_iff.1 h
    obtain ⟨y, -, h4⟩ := Option.map_eq_some_iff.1 h2
    cases h4
    exact eval_env t _ _ _ h1
  | .binary op l r, env, v, env', h => by
    simp only [eval] at h
    obtain ⟨⟨x, e⟩, h1, h2⟩ := Option.bind_eq_some_iff.1 h
    cases eval_env l _ _ _ h1
    have hr : ∀ {f : Value × List Value → Option (Value × List Value)}, (∀ p q, f p = some q → q.2 = p.2) → (eval norm r env).bind f = some (v, env') → env' = env := by
      intro f hf h
      obtain ⟨⟨y, e'⟩, h3, h4⟩ := Option.bind_eq_some_iff.1 h
      cases eval_env r _ _ _ h3
      exact hf _ _ h4
    have hm : ∀ {f : Value × List Value → Value × List Value}, (∀ p, (f p).2 = p.2) → (eval norm r env).map f = some (v, env') → env' = env := by
      intro f hf h
      obtain ⟨⟨y, e'⟩, h3, h4⟩ := Option.map_eq_some_iff.1 h
      cases eval_env r _ _ _ h3
      have := hf (y, env)
      rw [h4] at this
      exact this
    have ho : ∀ op, ((eval norm r env).bind fun q => (evalBinary norm op x q.1).map fun v => (v, q.2)) = some (v, env') → env' = env := by
      intro op
      refine hr fun p q hq => ?_
      obtain ⟨y, -, h4⟩ := Option.map_eq_some_iff.1 hq
      rw [← h4]
    cases op with
    | and =>
      by_cases hx : x.truthy = true
      · simp only [hx, if_true] at h2; exact hm (f := fun q => (Value.ofBool q.1.truthy, q.2)) (fun _ => rfl) h2
      · simp only [hx] at h2; cases h2; rfl
    | or =>
      by_cases hx : x.truthy = true
      · simp only [hx, if_true] at h2; cases h2; rfl
      · simp only [hx, Bool.false_eq_true, if_false] at h2; exact hm (f := fun q => (Value.ofBool q.1.truthy, q.2)) (fun _ => rfl) h2
    | add => exact ho _ h2
    | sub => exact ho _ h2
    | mul => exact ho _ h2
    | eq => exact ho _ h2
    | ne => exact ho _ h2
    | lt => exact ho _ h2
    | le => exact ho _ h2
    | gt => exact ho _ h2
    | ge => exact ho _ h2
theorem buildSeq_env : ∀ (fs : List Term) (env : List Value) (vs : List Value) (env' : List Value), buildSeq norm fs env = some (vs, env') → env' = env
  | [], env, vs, env', h => by simp only [buildSeq] at h; cases h; rfl
  | f :: fs, env, vs, env', h => by
    have hf := eval_env f
    cases f with
    | spread t =>
      have ht := eval_env t
      simp only [buildSeq] at h
      obtain ⟨⟨x, e⟩, h1, h2⟩ := Option.bind_eq_some_iff.1 h
      obtain ⟨n, -, h3⟩ := Option.bind_eq_some_iff.1 h2
      obtain ⟨⟨y, e'⟩, h4, h5⟩ := Option.map_eq_some_iff.1 h3
      cases h5
      rw [buildSeq_env fs _ _ _ h4, ht _ _ _ h1]
    | _ =>
      simp only [buildSeq] at h
      obtain ⟨⟨x, e⟩, h1, h2⟩ := Option.bind_eq_some_iff.1 h
      obtain ⟨⟨y, e'⟩, h4, h5⟩ := Option.map_eq_some_iff.1 h2
      cases h5
      rw [buildSeq_env fs _ _ _ h4, hf _ _ _ h1]
theorem evalArms_env : ∀ (arms : List Term) (tag : Nat) (payload : Value) (env : List Value) (dflt : Option (Value × List Value)) (v : Value) (env' : List Value),
    (∀ v e, dflt = some (v, e) → e = env) → evalArms norm arms tag payload env dflt = some (v, env') → env' = env
  | [], tag, payload, env, dflt, v, env', hd, h => by simp only [evalArms] at h; exact hd v env' h
  | arm :: arms, 0, payload, env, dflt, v, env', hd, h => by
    simp only [evalArms] at h
    obtain ⟨⟨y, e'⟩, h4, h5⟩ := Option.map_eq_some_iff.1 h
    cases h5
    rw [eval_env arm _ _ _ h4, List.dropLast_concat]
  | arm :: arms, tag + 1, payload, env, dflt, v, env', hd, h => by
    simp only [evalArms] at h
    exact evalArms_env arms tag payload env dflt v env' hd h
theorem evalDefault_env : ∀ (d : Option Term) (env : List Value) (v : Value) (env' : List Value), evalDefault norm d env = some (v, env') → env' = env
  | none, env, v, env', h => by simp only [evalDefault] at h; cases h
  | some d, env, v, env', h => by simp only [evalDefault] at h; exact eval_env d _ _ _ h
theorem evalHash_env : ∀ (as : List Term) (acc : UInt64) (env : List Value) (r : UInt64) (env' : List Value), evalHash norm as acc env = some (r, env') → env' = env
  | [], acc, env, r, env', h => by simp only [evalHash] at h; cases h; rfl
  | a :: as, acc, env, r, env', h => by
    simp only [evalHash] at h
    obtain ⟨⟨x, e⟩, h1, h2⟩ := Option.bind_eq_some_iff.1 h
    obtain ⟨n, -, h3⟩ := Option.bind_eq_some_iff.1 h2
    rw [evalHash_env as _ _ _ _ h3, eval_env a _ _ _ h1]
end

/-! ### Evaluation and meaning -/

theorem reverse_cons_env {bs : List Value} {v : Value} : rows ++ bs.reverse ++ [v] = rows ++ (v :: bs).reverse := by simp

theorem foldLoop_denote {step : List Value → Option (Value × List Value)} {d : Value → Value → Option Value} {env : List Value}
    (hs : ∀ acc item, step (env ++ [acc] ++ [item]) = (d acc item).map fun v => (v, env ++ [acc] ++ [item])) : ∀ (items : List Value) (acc : Value),
    foldLoop step items acc env = (items.foldlM d acc).map fun v => (v, env)
  | [], acc => rfl
  | item :: items, acc => by
    simp only [foldLoop, hs, List.foldlM_cons]
    cases d acc item with
    | none => rfl
    | some v =>
      simp only [Option.map_some, Option.bind_some, List.dropLast_concat, foldLoop_denote hs items v]
      rfl

theorem mapM_id_cons {A : Type*} (o : Option A) (os : List (Option A)) : (o :: os).mapM id = o.bind fun v => (os.mapM id).map fun vs => v :: vs := by
  rw [List.mapM_cons]
  cases o with
  | none => rfl
  | some v => cases os.mapM id <;> rfl

mutual
theorem eval_denote : ∀ (t : Term) (bs : List Value), Scoped rows.length t bs.length → eval norm t (rows ++ bs.reverse) = (denote norm rows t bs).map fun v => (v, rows ++ bs.reverse)
  | .var i, bs, h => by
    simp only [Scoped] at h
    simp only [eval, denote, List.getElem?_append_left h]
  | .bound k, bs, h => by
    simp only [Scoped] at h
    have h1 : 1 + k ≤ (rows ++ bs.reverse).length := by simp; omega
    have h2 : (rows ++ bs.reverse)[(rows ++ bs.reverse).length - 1 - k]? = bs[k]? := by
      rw [List.getElem?_append_right (by simp; omega), List.getElem?_reverse (by simp; omega)]
      congr 1
      simp
      omega
    simp only [eval, denote, h1, if_true, h2]
  | .int n, bs, h => by simp only [eval, denote, Option.map_some]
  | .tuple fields, bs, h => by
    simp only [Scoped] at h
    simp only [eval, denote, buildSeq_denote fields bs h, Option.map_map]
    rfl
  | .list fields, bs, h => by
    simp only [Scoped] at h
    simp only [eval, denote, buildSeq_denote fields bs h, Option.map_map]
    rfl
  | .spread _, bs, h => by simp only [eval, denote, Option.map_none]
  | .proj t i, bs, h => by
    simp only [Scoped] at h
    rw [eval_proj, eval_denote t bs h]
    simp only [denote]
    cases denote norm rows t bs with
    | none => rfl
    | some v => cases hf : v.fields with
      | none => simp [hf]
      | some xs => simp [hf]
  | .inject tag t, bs, h => by
    simp only [Scoped] at h
    simp only [eval, denote, eval_denote tag bs h.1]
    cases denote norm rows tag bs with
    | none => rfl
    | some v =>
      simp only [Option.map_some, Option.bind_some]
      cases v.asInt with
      | none => rfl
      | some n => simp only [Option.bind_some, eval_denote t bs h.2, Option.map_map]; rfl
  | .case scrutinee arms default, bs, h => by
    simp only [Scoped] at h
    simp only [eval, denote, eval_denote scrutinee bs h.1]
    cases denote norm rows scrutinee bs with
    | none => rfl
    | some v =>
      simp only [Option.map_some, Option.bind_some]
      cases v with
      | variant tag payload => exact evalArms_denote arms tag payload bs _ _ h.2.1 (evalDefault_denote default bs h.2.2)
      | _ => rfl
  | .fold list init step, bs, h => by
    simp only [Scoped] at h
    simp only [eval, denote, eval_denote list bs h.1]
    cases denote norm rows list bs with
    | none => rfl
    | some v =>
      simp only [Option.map_some, Option.bind_some]
      cases v with
      | list items =>
        simp only [eval_denote init bs h.2.1]
        cases denote norm rows init bs with
        | none => rfl
        | some acc =>
          simp only [Option.map_some, Option.bind_some]
          refine foldLoop_denote (fun acc item => ?_) items acc
          rw [reverse_cons_env, reverse_cons_env]
          exact eval_denote step (item :: acc :: bs) h.2.2
      | _ => rfl
  | .ite cond thn els, bs, h => by
    simp only [Scoped] at h
    simp only [eval, denote, eval_denote cond bs h.1]
    cases denote norm rows cond bs with
    | none => rfl
    | some c =>
      simp only [Option.map_some, Option.bind_some, eval_denote thn bs h.2.1, eval_denote els bs h.2.2]
      split_ifs <;> rfl
  | .hash args, bs, h => by
    simp only [Scoped] at h
    cases args with
    | nil => simp only [eval, denote, denoteEach]; rfl
    | cons a as =>
      simp only [AllScoped] at h
      simp only [eval, denote, denoteEach, eval_denote a bs h.1, mapM_id_cons]
      cases denote norm rows a bs with
      | none => rfl
      | some v =>
        simp only [Option.map_some, Option.bind_some, evalHash_denote as _ bs h.2]
        cases hn : v.asInt with
        | none => cases (denoteEach norm rows as bs).mapM id <;> simp [allInts, hn]
        | some n =>
          simp only [Option.bind_some, Option.bind_map, Option.map_map, Option.map_bind, Function.comp_def, allInts, hn]
          congr 1
          funext vs
          cases allInts vs <;> simp [hashMeans]
  | .unary op t, bs, h => by
    simp only [Scoped] at h
    simp only [eval, denote, eval_denote t bs h, evalUnary_eq]
    cases denote norm rows t bs with
    | none => rfl
    | some v => rfl
  | .binary op l r, bs, h => by
    simp only [Scoped] at h
    simp only [eval, denote, eval_denote l bs h.1]
    cases denote norm rows l bs with
    | none => rfl
    | some v =>
      simp only [Option.map_some, Option.bind_some]
      have hr := eval_denote r bs h.2
      have ht : ∀ w : Value, Value.ofBool w.truthy = Value.truth (w.truthy = true) := fun w => truth_iff Iff.rfl
      have ho : ∀ op, ((eval norm r (rows ++ bs.reverse)).bind fun q => (evalBinary norm op v q.1).map fun v => (v, q.2)) =
          ((denote norm rows r bs).bind fun w => binaryMeans norm op v w).map fun v => (v, rows ++ bs.reverse) := by
        intro op
        rw [hr]
        simp only [evalBinary_eq]
        cases denote norm rows r bs <;> rfl
      cases op with
      | and =>
        simp only [hr, ht, Option.map_map]
        split_ifs <;> simp [Value.ofBool, Option.map_map, Function.comp_def]
      | or =>
        simp only [hr, ht, Option.map_map]
        split_ifs <;> simp [Value.ofBool, Option.map_map, Function.comp_def]
      | add => exact ho _
      | sub => exact ho _
      | mul => exact ho _
      | eq => exact ho _
      | ne => exact ho _
      | lt => exact ho _
      | le => exact ho _
      | gt => exact ho _
      | ge => exact ho _
theorem buildSeq_denote : ∀ (fs : List Term) (bs : List Value), AllScoped rows.length fs bs.length →
    buildSeq norm fs (rows ++ bs.reverse) = (denoteFields norm rows fs bs).map fun vs => (vs, rows ++ bs.reverse)
  | [], bs, h => by simp only [buildSeq, denoteFields, Option.map_some]
  | f :: fs, bs, h => by
    simp only [AllScoped] at h
    have hf := eval_denote f
    have hfs := buildSeq_denote fs bs h.2
    cases f with
    | spread t =>
      have ht := eval_denote t
      have h1 := h.1
      simp only [Scoped] at h1
      simp only [buildSeq, denoteFields, ht bs h1]
      cases denote norm rows t bs with
      | none => rfl
      | some v =>
        simp only [Option.map_some, Option.bind_some]
        cases v.fields with
        | none => rfl
        | some xs => rw [Option.bind_some, hfs]; simp only [Option.bind_some, Option.map_map]; rfl
    | _ =>
      simp only [buildSeq, denoteFields, hf bs h.1]
      generalize denote norm rows _ bs = o
      cases o with
      | none => rfl
      | some v => rw [Option.map_some, Option.bind_some, hfs]; simp only [Option.bind_some, Option.map_map]; rfl
theorem evalArms_denote : ∀ (arms : List Term) (tag : Nat) (payload : Value) (bs : List Value) (dflt : Option (Value × List Value)) (d : Option Value), AllScoped rows.length arms (bs.length + 1) →
    dflt = d.map (fun v => (v, rows ++ bs.reverse)) →
    evalArms norm arms tag payload (rows ++ bs.reverse) dflt = (((denoteEach norm rows arms (payload :: bs))[tag]?).getD d).map fun v => (v, rows ++ bs.reverse)
  | [], tag, payload, bs, dflt, d, h, hd => by simp only [evalArms, denoteEach]; exact hd
  | arm :: arms, 0, payload, bs, dflt, d, h, hd => by
    simp only [AllScoped] at h
    simp only [evalArms, denoteEach, reverse_cons_env, eval_denote arm (payload :: bs) h.1, List.getElem?_cons_zero, Option.getD_some, Option.map_map]
    congr 1
    funext v
    simp only [Function.comp, ← reverse_cons_env, List.dropLast_concat]
  | arm :: arms, tag + 1, payload, bs, dflt, d, h, hd => by
    simp only [AllScoped] at h
    simp only [evalArms, denoteEach, List.getElem?_cons_succ]
    exact evalArms_denote arms tag payload bs dflt d h.2 hd
theorem evalDefault_denote : ∀ (d : Option Term) (bs : List Value), OptionScoped rows.length d bs.length →
    evalDefault norm d (rows ++ bs.reverse) = (denoteOption norm rows d bs).map fun v => (v, rows ++ bs.reverse)
  | none, bs, h => by simp only [evalDefault, denoteOption, Option.map_none]
  | some d, bs, h => by
    simp only [OptionScoped] at h
    simp only [evalDefault, denoteOption]
    exact eval_denote d bs h
theorem evalHash_denote : ∀ (as : List Term) (acc : UInt64) (bs : List Value), AllScoped rows.length as bs.length →
    evalHash norm as acc (rows ++ bs.reverse) = (((denoteEach norm rows as bs).mapM id).bind allInts).map fun ns => (ns.foldl (fun acc n => hashU64 (acc ^^^ asU64 n)) acc, rows ++ bs.reverse)
  | [], acc, bs, h => by simp [evalHash, denoteEach, allInts]
  | a :: as, acc, bs, h => by
    simp only [AllScoped] at h
    simp only [evalHash, denoteEach, eval_denote a bs h.1, mapM_id_cons]
    cases denote norm rows a bs with
    | none => rfl
    | some v =>
      simp only [Option.map_some, Option.bind_some]
      cases hn : v.asInt with
      | none => cases (denoteEach norm rows as bs).mapM id <;> simp only [allInts, hn, Option.bind_none, Option.map_none, Option.bind_some, Option.map_some]
      | some n =>
        simp only [Option.bind_some, evalHash_denote as _ bs h.2, Option.bind_map, Function.comp_def, allInts, hn]
        cases (denoteEach norm rows as bs).mapM id with
        | none => simp only [Option.bind_none, Option.map_none]
        | some vs => simp only [Option.bind_some, Option.map_some]; cases allInts vs <;> simp only [Option.map_some, Option.map_none, List.foldl_cons]
end

/-! ### Depth -/

mutual
theorem denote_deep : ∀ (t : Term) (bs extra : List Value) (n : Nat), Scoped n t bs.length → denote norm rows t (bs ++ extra) = denote norm rows t bs
  | .var i, bs, extra, n, h => by simp only [denote]
  | .bound k, bs, extra, n, h => by simp only [Scoped] at h; simp only [denote, List.getElem?_append_left h]
  | .int _, bs, extra, n, h => by simp only [denote]
  | .tuple fs, bs, extra, n, h => by simp only [Scoped] at h; simp only [denote, denoteFields_deep fs bs extra n h]
  | .list fs, bs, extra, n, h => by simp only [Scoped] at h; simp only [denote, denoteFields_deep fs bs extra n h]
  | .spread _, bs, extra, n, h => by simp only [denote]
  | .proj t i, bs, extra, n, h => by simp only [Scoped] at h; simp only [denote, denote_deep t bs extra n h]
  | .inject tag t, bs, extra, n, h => by simp only [Scoped] at h; simp only [denote, denote_deep tag bs extra n h.1, denote_deep t bs extra n h.2]
  | .case s arms d, bs, extra, n, h => by
    simp only [Scoped] at h
    simp only [denote, denote_deep s bs extra n h.1, denoteOption_deep d bs extra n h.2.2, ← List.cons_append]
    congr 1
    funext v
    cases v with
    | variant tag payload => simp only [denoteEach_deep arms (payload :: bs) extra n h.2.1]
    | _ => rfl
  | .fold l i s, bs, extra, n, h => by
    simp only [Scoped] at h
    simp only [denote, denote_deep l bs extra n h.1, denote_deep i bs extra n h.2.1, ← List.cons_append]
    congr 1
    funext v
    cases v with
    | list items =>
      have : (fun acc item => denote norm rows s (item :: acc :: bs ++ extra)) = fun acc item => denote norm rows s (item :: acc :: bs) := by
        funext acc item
        exact denote_deep s (item :: acc :: bs) extra n h.2.2
      simp only [this]
    | _ => rfl
  | .ite c a b, bs, extra, n, h => by
    simp only [Scoped] at h
    simp only [denote, denote_deep c bs extra n h.1, denote_deep a bs extra n h.2.1, denote_deep b bs extra n h.2.2]
  | .unary op t, bs, extra, n, h => by simp only [Scoped] at h; simp only [denote, denote_deep t bs extra n h]
  | .binary op l r, bs, extra, n, h => by
    simp only [Scoped] at h
    simp only [denote, denote_deep l bs extra n h.1, denote_deep r bs extra n h.2]
  | .hash args, bs, extra, n, h => by simp only [Scoped] at h; simp only [denote, denoteEach_deep args bs extra n h]
theorem denoteFields_deep : ∀ (fs : List Term) (bs extra : List Value) (n : Nat), AllScoped n fs bs.length → denoteFields norm rows fs (bs ++ extra) = denoteFields norm rows fs bs
  | [], bs, extra, n, h => by simp only [denoteFields]
  | f :: fs, bs, extra, n, h => by
    simp only [AllScoped] at h
    have hf := denote_deep f
    have hfs := denoteFields_deep fs bs extra n h.2
    cases f with
    | spread t =>
      have ht := denote_deep t
      have h1 := h.1
      simp only [Scoped] at h1
      simp only [denoteFields, ht bs extra n h1, hfs]
    | _ => simp only [denoteFields, hf bs extra n h.1, hfs]
theorem denoteEach_deep : ∀ (ts : List Term) (bs extra : List Value) (n : Nat), AllScoped n ts bs.length → denoteEach norm rows ts (bs ++ extra) = denoteEach norm rows ts bs
  | [], bs, extra, n, h => by simp only [denoteEach]
  | t :: ts, bs, extra, n, h => by
    simp only [AllScoped] at h
    simp only [denoteEach, denote_deep t bs extra n h.1, denoteEach_deep ts bs extra n h.2]
theorem denoteOption_deep : ∀ (t : Option Term) (bs extra : List Value) (n : Nat), OptionScoped n t bs.length → denoteOption norm rows t (bs ++ extra) = denoteOption norm rows t bs
  | none, bs, extra, n, h => by simp only [denoteOption]
  | some t, bs, extra, n, h => by
    simp only [OptionScoped] at h
    simp only [denoteOption, denote_deep t bs extra n h]
end

mutual
theorem scoped_mono : ∀ (t : Term) (n b b' : Nat), b ≤ b' → Scoped n t b → Scoped n t b'
  | .var i, n, b, b', hb, h => by simp only [Scoped] at h ⊢; exact h
  | .bound k, n, b, b', hb, h => by simp only [Scoped] at h ⊢; omega
  | .int _, n, b, b', hb, h => by simp only [Scoped]
  | .tuple fs, n, b, b', hb, h => by simp only [Scoped] at h ⊢; exact allScoped_mono fs n b b' hb h
  | .list fs, n, b, b', hb, h => by simp only [Scoped] at h ⊢; exact allScoped_mono fs n b b' hb h
  | .spread t, n, b, b', hb, h => by simp only [Scoped] at h ⊢; exact scoped_mono t n b b' hb h
  | .proj t i, n, b, b', hb, h => by simp only [Scoped] at h ⊢; exact scoped_mono t n b b' hb h
  | .inject tag t, n, b, b', hb, h => by simp only [Scoped] at h ⊢; exact ⟨scoped_mono tag n b b' hb h.1, scoped_mono t n b b' hb h.2⟩
  | .case s arms d, n, b, b', hb, h => by
    simp only [Scoped] at h ⊢
    exact ⟨scoped_mono s n b b' hb h.1, allScoped_mono arms n _ _ (Nat.add_le_add_right hb 1) h.2.1, optionScoped_mono d n b b' hb h.2.2⟩
  | .fold l i s, n, b, b', hb, h => by
    simp only [Scoped] at h ⊢
    exact ⟨scoped_mono l n b b' hb h.1, scoped_mono i n b b' hb h.2.1, scoped_mono s n _ _ (Nat.add_le_add_right hb 2) h.2.2⟩
  | .ite c x y, n, b, b', hb, h => by
    simp only [Scoped] at h ⊢
    exact ⟨scoped_mono c n b b' hb h.1, scoped_mono x n b b' hb h.2.1, scoped_mono y n b b' hb h.2.2⟩
  | .unary op t, n, b, b', hb, h => by simp only [Scoped] at h ⊢; exact scoped_mono t n b b' hb h
  | .binary op l r, n, b, b', hb, h => by simp only [Scoped] at h ⊢; exact ⟨scoped_mono l n b b' hb h.1, scoped_mono r n b b' hb h.2⟩
  | .hash args, n, b, b', hb, h => by simp only [Scoped] at h ⊢; exact allScoped_mono args n b b' hb h
theorem allScoped_mono : ∀ (ts : List Term) (n b b' : Nat), b ≤ b' → AllScoped n ts b → AllScoped n ts b'
  | [], n, b, b', hb, h => by simp only [AllScoped]
  | t :: ts, n, b, b', hb, h => by simp only [AllScoped] at h ⊢; exact ⟨scoped_mono t n b b' hb h.1, allScoped_mono ts n b b' hb h.2⟩
theorem optionScoped_mono : ∀ (t : Option Term) (n b b' : Nat), b ≤ b' → OptionScoped n t b → OptionScoped n t b'
  | none, n, b, b', hb, h => by simp only [OptionScoped]
  | some t, n, b, b', hb, h => by simp only [OptionScoped] at h ⊢; exact scoped_mono t n b b' hb h
end

end DD.Ir
