import Verif.Spec.Applicative
import Mathlib.Data.List.Basic

/-! # What the applicative parser returns is spelled by the tokens it took -/

namespace DD.Ir.App

theorem expect_some {t : Tok} {ts r : List Tok} (h : expect t ts = some r) : ts = t :: r := by
  cases ts with
  | nil => cases h
  | cons x ts =>
    simp only [expect] at h
    split at h
    · next hx => cases h; rw [hx]
    · cases h

theorem takeInt_some {ts : List Tok} {p : Nat × List Tok} (h : takeInt ts = some p) : ts = .int p.1 :: p.2 := by
  unfold takeInt at h
  split at h <;> cases h
  rfl

theorem takeIdent_some {ts : List Tok} {p : List Char × List Tok} (h : takeIdent ts = some p) : ts = .ident p.1 :: p.2 := by
  unfold takeIdent at h
  split at h <;> cases h
  rfl

theorem takeStr_some {ts : List Tok} {p : List Char × List Tok} (h : takeStr ts = some p) : ts = .str p.1 :: p.2 := by
  unfold takeStr at h
  split at h <;> cases h
  rfl

theorem takeReducer_some {ts : List Tok} {p : Reducer × List Tok} (h : takeReducer ts = some p) : ∃ x, ts = x :: p.2 ∧ (x, p.1) ∈ reducers := by
  unfold takeReducer at h
  split at h <;> cases h <;> exact ⟨_, rfl, by simp [reducers]⟩

theorem cmpOp_some {x : Tok} {op : BinOp} : cmpOp x = some op ↔ (x, op) ∈ comparisons := by
  cases x <;> simp [cmpOp, comparisons, eq_comm]

theorem addOp_some {x : Tok} {op : BinOp} : addOp x = some op ↔ (x, op) ∈ sums := by
  cases x <;> simp [addOp, sums, eq_comm]

theorem intArg_some {t : Term} {i : Int} (h : intArg t = some i) : t = .int i := by
  unfold intArg at h
  split at h <;> cases h
  rfl

theorem builtin_sound {name : List Char} {l : List Term} {t : Term} (h : buildBuiltin name l = some t) : Builds name l t := by
  unfold buildBuiltin at h
  by_cases hn : name = "tuple".toList
  · rw [if_pos hn] at h
    cases h; subst hn; exact .tuple _
  rw [if_neg hn] at h; clear hn
  by_cases hn : name = "list".toList
  · rw [if_pos hn] at h
    cases h; subst hn; exact .list _
  rw [if_neg hn] at h; clear hn
  by_cases hn : name = "inject".toList ∨ name = "variant".toList
  · rw [if_pos hn] at h
    split at h <;> cases h
    rcases hn with hn | hn <;> subst hn
    · exact .inject _ _
    · exact .variant _ _
  rw [if_neg hn] at h; clear hn
  by_cases hn : name = "case".toList
  · rw [if_pos hn] at h
    split at h <;> cases h; subst hn; exact .case _ _ (by simp)
  rw [if_neg hn] at h; clear hn
  by_cases hn : name = "fold".toList
  · rw [if_pos hn] at h
    split at h <;> cases h; subst hn; exact .fold _ _ _
  rw [if_neg hn] at h; clear hn
  by_cases hn : name = "proj".toList
  · rw [if_pos hn] at h
    split at h
    · obtain ⟨i, hi, rfl⟩ := Option.map_eq_some_iff.1 h
      rw [intArg_some hi]; subst hn; exact .proj _ _
    · cases h
  rw [if_neg hn] at h; clear hn
  by_cases hn : name = "len".toList
  · rw [if_pos hn] at h
    split at h <;> cases h; subst hn; exact .len _
  rw [if_neg hn] at h; clear hn
  by_cases hn : name = "istag".toList
  · rw [if_pos hn] at h
    split at h
    · obtain ⟨i, hi, rfl⟩ := Option.map_eq_some_iff.1 h
      rw [intArg_some hi]; subst hn; exact .istag _ _
    · cases h
  rw [if_neg hn] at h; clear hn
  by_cases hn : name = "not".toList
  · rw [if_pos hn] at h
    split at h <;> cases h; subst hn; exact .not _
  rw [if_neg hn] at h; clear hn
  by_cases hn : name = "or".toList
  · rw [if_pos hn] at h
    split at h <;> cases h; subst hn; exact .or _ _
  rw [if_neg hn] at h; clear hn
  by_cases hn : name = "if".toList
  · rw [if_pos hn] at h
    split at h <;> cases h; subst hn; exact .ite _ _ _
  rw [if_neg hn] at h; clear hn
  by_cases hn : name = "hash".toList
  · rw [if_pos hn] at h
    split at h <;> cases h; subst hn; exact .hash _ _ (by simp)
  rw [if_neg hn] at h; clear hn
  cases h

theorem builtin_complete {name : List Char} {l : List Term} {t : Term} (h : Builds name l t) : buildBuiltin name l = some t := by
  cases h with
  | case t arms hne => cases arms with
    | nil => exact absurd rfl hne
    | cons _ _ => simp [buildBuiltin]
  | hash bound keys hne => cases keys with
    | nil => exact absurd rfl hne
    | cons _ _ => simp [buildBuiltin]
  | _ => simp [buildBuiltin, intArg]

/-- What each function takes, for one number. -/
structure Sound (f : Nat) : Prop where
  logic : ∀ ts p, App.logic f ts = some p → ∃ a, ts = a ++ p.2 ∧ Spells .logic a p.1
  logicLoop : ∀ l ts p a0, App.logicLoop f l ts = some p → Spells .logic a0 l → ∃ a, ts = a ++ p.2 ∧ Spells .logic (a0 ++ a) p.1
  cmp : ∀ ts p, App.cmp f ts = some p → ∃ a, ts = a ++ p.2 ∧ Spells .cmp a p.1
  add : ∀ ts p, App.add f ts = some p → ∃ a, ts = a ++ p.2 ∧ Spells .add a p.1
  addLoop : ∀ l ts p a0, App.addLoop f l ts = some p → Spells .add a0 l → ∃ a, ts = a ++ p.2 ∧ Spells .add (a0 ++ a) p.1
  mul : ∀ ts p, App.mul f ts = some p → ∃ a, ts = a ++ p.2 ∧ Spells .mul a p.1
  mulLoop : ∀ l ts p a0, App.mulLoop f l ts = some p → Spells .mul a0 l → ∃ a, ts = a ++ p.2 ∧ Spells .mul (a0 ++ a) p.1
  unary : ∀ ts p, App.unary f ts = some p → ∃ a, ts = a ++ p.2 ∧ Spells .unary a p.1
  primary : ∀ ts p, App.primary f ts = some p → ∃ a, ts = a ++ p.2 ∧ Spells .primary a p.1
  postLoop : ∀ l ts p a0, App.postLoop f l ts = some p → Spells .primary a0 l → ∃ a, ts = a ++ p.2 ∧ Spells .primary (a0 ++ a) p.1
  args : ∀ ts p, App.args f ts = some p → ∃ a, ts = .lparen :: (a ++ .rparen :: p.2) ∧ SpellsAll a p.1
  terms : ∀ ts p, App.terms f ts = some p → ∃ a, ts = a ++ p.2 ∧ SpellsAll a p.1 ∧ p.1 ≠ []

theorem sound (f : Nat) : Sound f := by
  induction f with
  | zero =>
    constructor <;> intros <;> simp_all [App.logic, App.logicLoop, App.cmp, App.add, App.addLoop, App.mul, App.mulLoop, App.unary, App.primary, App.postLoop, App.args, App.terms]
  | succ f ih =>
    constructor
    · intro ts p h
      replace h := Option.bind_eq_some_iff.1 (show (App.cmp f ts).bind _ = _ from h)
      obtain ⟨q, hq, h⟩ := h
      obtain ⟨a, rfl, ha⟩ := ih.cmp _ _ hq
      obtain ⟨b, hb, hs⟩ := ih.logicLoop _ _ _ a h (.logic ha)
      exact ⟨a ++ b, by rw [hb, List.append_assoc], hs⟩
    · intro l ts p a0 h h0
      cases ts with
      | nil => cases h
      | cons x ts =>
        simp only [App.logicLoop] at h
        split at h
        · next hx =>
          subst hx
          replace h := Option.bind_eq_some_iff.1 h
          obtain ⟨q, hq, h⟩ := h
          obtain ⟨a, rfl, ha⟩ := ih.cmp _ _ hq
          obtain ⟨b, hb, hs⟩ := ih.logicLoop _ _ _ (a0 ++ .andand :: a) h (.and h0 ha)
          exact ⟨.andand :: (a ++ b), by rw [hb]; simp, by simpa using hs⟩
        · cases h
          exact ⟨[], rfl, by simpa using h0⟩
    · intro ts p h
      replace h := Option.bind_eq_some_iff.1 (show (App.add f ts).bind _ = _ from h)
      obtain ⟨q, hq, h⟩ := h
      obtain ⟨a, rfl, ha⟩ := ih.add _ _ hq
      obtain ⟨t, r⟩ := q
      cases r with
      | nil => cases h
      | cons x r =>
        dsimp only at h
        split at h
        · next op hop =>
          obtain ⟨q, hq, rfl⟩ := Option.map_eq_some_iff.1 h
          obtain ⟨b, rfl, hb⟩ := ih.add _ _ hq
          exact ⟨a ++ x :: b, by simp, .compare ha hb (cmpOp_some.1 hop)⟩
        · cases h
          exact ⟨a, rfl, .cmp ha⟩
    · intro ts p h
      replace h := Option.bind_eq_some_iff.1 (show (App.mul f ts).bind _ = _ from h)
      obtain ⟨q, hq, h⟩ := h
      obtain ⟨a, rfl, ha⟩ := ih.mul _ _ hq
      obtain ⟨b, hb, hs⟩ := ih.addLoop _ _ _ a h (.add ha)
      exact ⟨a ++ b, by rw [hb, List.append_assoc], hs⟩
    · intro l ts p a0 h h0
      cases ts with
      | nil => cases h
      | cons x ts =>
        simp only [App.addLoop] at h
        split at h
        · next op hx =>
          replace h := Option.bind_eq_some_iff.1 h
          obtain ⟨q, hq, h⟩ := h
          obtain ⟨a, rfl, ha⟩ := ih.mul _ _ hq
          obtain ⟨b, hb, hs⟩ := ih.addLoop _ _ _ (a0 ++ x :: a) h (.sum h0 ha (addOp_some.1 hx))
          exact ⟨x :: (a ++ b), by rw [hb]; simp, by simpa using hs⟩
        · cases h
          exact ⟨[], rfl, by simpa using h0⟩
    · intro ts p h
      replace h := Option.bind_eq_some_iff.1 (show (App.unary f ts).bind _ = _ from h)
      obtain ⟨q, hq, h⟩ := h
      obtain ⟨a, rfl, ha⟩ := ih.unary _ _ hq
      obtain ⟨b, hb, hs⟩ := ih.mulLoop _ _ _ a h (.mul ha)
      exact ⟨a ++ b, by rw [hb, List.append_assoc], hs⟩
    · intro l ts p a0 h h0
      cases ts with
      | nil => cases h
      | cons x ts =>
        simp only [App.mulLoop] at h
        split at h
        · next hx =>
          subst hx
          replace h := Option.bind_eq_some_iff.1 h
          obtain ⟨q, hq, h⟩ := h
          obtain ⟨a, rfl, ha⟩ := ih.unary _ _ hq
          obtain ⟨b, hb, hs⟩ := ih.mulLoop _ _ _ (a0 ++ .star :: a) h (.product h0 ha)
          exact ⟨.star :: (a ++ b), by rw [hb]; simp, by simpa using hs⟩
        · cases h
          exact ⟨[], rfl, by simpa using h0⟩
    · intro ts p h
      cases ts with
      | nil => cases h
      | cons x ts =>
        simp only [App.unary] at h
        split at h
        · next hx =>
          subst hx
          obtain ⟨q, hq, rfl⟩ := Option.map_eq_some_iff.1 h
          obtain ⟨a, rfl, ha⟩ := ih.unary _ _ hq
          exact ⟨.minus :: a, rfl, .neg ha⟩
        · obtain ⟨a, ha, hs⟩ := ih.primary _ _ h
          exact ⟨a, ha, .unary hs⟩
    · intro ts p h
      unfold App.primary at h
      split at h
      · cases h
      · replace h := Option.bind_eq_some_iff.1 h
        obtain ⟨q, hq, h⟩ := h
        obtain rfl := takeInt_some hq
        next f' _ heq =>
        cases heq
        obtain ⟨b, hb, hs⟩ := ih.postLoop _ _ _ _ h (.row _)
        exact ⟨_, by rw [hb]; rfl, hs⟩
      · replace h := Option.bind_eq_some_iff.1 h
        obtain ⟨q, hq, h⟩ := h
        obtain rfl := takeInt_some hq
        next heq =>
        cases heq
        obtain ⟨b, hb, hs⟩ := ih.postLoop _ _ _ _ h (.binder _)
        exact ⟨_, by rw [hb]; rfl, hs⟩
      · next heq =>
        cases heq
        obtain ⟨b, rfl, hs⟩ := ih.postLoop _ _ _ _ h (.int _)
        exact ⟨_, rfl, hs⟩
      · replace h := Option.bind_eq_some_iff.1 h
        obtain ⟨q, hq, h⟩ := h
        replace h := Option.bind_eq_some_iff.1 h
        obtain ⟨r, hr, h⟩ := h
        next heq =>
        cases heq
        obtain ⟨a, rfl, ha⟩ := ih.logic _ _ hq
        obtain ⟨b, hb, hs⟩ := ih.postLoop _ _ _ _ h (.paren ha)
        exact ⟨_, by rw [expect_some hr, hb]; simp, hs⟩
      · replace h := Option.bind_eq_some_iff.1 h
        obtain ⟨q, hq, h⟩ := h
        replace h := Option.bind_eq_some_iff.1 h
        obtain ⟨r, hr, h⟩ := h
        next heq =>
        cases heq
        obtain ⟨a, rfl, ha⟩ := ih.args _ _ hq
        obtain ⟨b, hb, hs⟩ := ih.postLoop _ _ _ _ h (.call ha (builtin_sound hr))
        exact ⟨_, by rw [hb]; simp, hs⟩
      · cases h
    · intro l ts p a0 h h0
      cases ts with
      | nil => cases h
      | cons x ts =>
        simp only [App.postLoop] at h
        split at h
        · next hx =>
          subst hx
          replace h := Option.bind_eq_some_iff.1 h
          obtain ⟨q, hq, h⟩ := h
          replace h := Option.bind_eq_some_iff.1 h
          obtain ⟨r, hr, h⟩ := h
          obtain ⟨b, rfl, hs⟩ := ih.postLoop _ _ _ _ h (.index q.1 h0)
          exact ⟨.lbracket :: .int q.1 :: .rbracket :: b, by rw [takeInt_some hq, expect_some hr]; simp, by simpa using hs⟩
        · cases h
          exact ⟨[], rfl, by simpa using h0⟩
    · intro ts p h
      replace h := Option.bind_eq_some_iff.1 (show (expect .lparen ts).bind _ = _ from h)
      obtain ⟨r, hr, h⟩ := h
      obtain rfl := expect_some hr
      cases r with
      | nil => cases h
      | cons x r =>
        dsimp only at h
        split at h
        · next hx =>
          subst hx
          cases h
          exact ⟨[], rfl, .nil⟩
        · replace h := Option.bind_eq_some_iff.1 h
          obtain ⟨q, hq, h⟩ := h
          obtain ⟨r', hr', rfl⟩ := Option.map_eq_some_iff.1 h
          obtain ⟨a, ha, hs, _⟩ := ih.terms _ _ hq
          exact ⟨a, by rw [ha, expect_some hr'], hs⟩
    · intro ts p h
      replace h := Option.bind_eq_some_iff.1 (show (App.logic f ts).bind _ = _ from h)
      obtain ⟨q, hq, h⟩ := h
      obtain ⟨a, rfl, ha⟩ := ih.logic _ _ hq
      obtain ⟨t, r⟩ := q
      cases r with
      | nil => cases h
      | cons x r =>
        dsimp only at h
        split at h
        · next hx =>
          subst hx
          obtain ⟨q, hq, rfl⟩ := Option.map_eq_some_iff.1 h
          obtain ⟨b, rfl, hb, hne⟩ := ih.terms _ _ hq
          exact ⟨a ++ .comma :: b, by simp, .more ha hb hne, by simp⟩
        · cases h
          exact ⟨a, rfl, .one ha, by simp⟩

theorem field_sound {f : Nat} {ts : List Tok} {p : Term × List Tok} (h : field f ts = some p) (hr : p.2.head? ≠ some .lbracket) : ∃ a, ts = a ++ p.2 ∧ SpellsField a p.1 := by
  unfold field at h
  split at h
  · next n rest =>
    split at h
    · next hb =>
      obtain ⟨a, ha, hs⟩ := (sound f).logic _ _ h
      refine ⟨a, ha, .term hs fun m r har => ?_⟩
      subst har
      simp only [List.cons_append, List.cons.injEq] at ha
      cases r with
      | nil =>
        rw [ha.2.2] at hb
        exact absurd hb hr
      | cons y r =>
        rw [ha.2.2] at hb
        simpa using hb
    · cases h
      exact ⟨[.dollar, .int n], rfl, .splice n⟩
  · next hn =>
    obtain ⟨a, ha, hs⟩ := (sound f).logic _ _ h
    refine ⟨a, ha, .term hs fun m r har => ?_⟩
    subst har
    exact absurd ha (hn _ _)

theorem fieldsLoop_sound {f : Nat} {ts : List Tok} {p : List Term × List Tok} (h : fieldsLoop f ts = some p) (hr : p.2.head? ≠ some .lbracket) : ∃ a, ts = a ++ p.2 ∧ SpellsFields a p.1 ∧ p.1 ≠ [] := by
  induction f generalizing ts p with
  | zero => cases h
  | succ f ih =>
    replace h := Option.bind_eq_some_iff.1 (show (field f ts).bind _ = _ from h)
    obtain ⟨⟨t, r⟩, hq, h⟩ := h
    cases r with
    | nil => cases h
    | cons x r =>
      dsimp only at h
      split at h
      · next hx =>
        subst hx
        obtain ⟨a, rfl, ha⟩ := field_sound hq (by simp)
        obtain ⟨q, hq, rfl⟩ := Option.map_eq_some_iff.1 h
        obtain ⟨b, rfl, hb, hne⟩ := ih hq hr
        exact ⟨a ++ .comma :: b, by simp, .more ha hb hne, by simp⟩
      · cases h
        obtain ⟨a, rfl, ha⟩ := field_sound hq hr
        exact ⟨a, rfl, .one ha, by simp⟩

theorem fields_sound {f : Nat} {stop ts : List Tok} {p : List Term × List Tok} (h : fields f stop ts = some p) (hr : p.2.head? ≠ some .lbracket) : ∃ a, ts = a ++ p.2 ∧ SpellsFields a p.1 := by
  cases ts with
  | nil => cases h
  | cons x ts =>
    simp only [fields] at h
    split at h
    · cases h
      exact ⟨[], rfl, .nil⟩
    · obtain ⟨a, ha, hs, _⟩ := fieldsLoop_sound h hr
      exact ⟨a, ha, hs⟩

theorem projection_sound {f : Nat} {ts : List Tok} {p : (Term × Term) × List Tok} (h : projection f ts = some p) : ∃ a, ts = a ++ p.2 ∧ SpellsProj a p.1 := by
  unfold projection at h
  replace h := Option.bind_eq_some_iff.1 h
  obtain ⟨r, hr, h⟩ := h
  replace h := Option.bind_eq_some_iff.1 h
  obtain ⟨⟨key, r'⟩, hk, h⟩ := h
  obtain rfl := expect_some hr
  cases r' with
  | nil => cases h
  | cons x r' =>
    dsimp only at h
    replace h := Option.bind_eq_some_iff.1 h
    obtain ⟨⟨val, r''⟩, hv, h⟩ := h
    obtain ⟨r3, hr3, rfl⟩ := Option.map_eq_some_iff.1 h
    obtain rfl := expect_some hr3
    split at hv
    · next hx =>
      subst hx
      obtain ⟨a, rfl, ha⟩ := fields_sound hk (by simp)
      obtain ⟨b, rfl, hb⟩ := fields_sound hv (by simp)
      exact ⟨.lparen :: (a ++ .semi :: (b ++ [.rparen])), by simp, .both ha hb⟩
    · cases hv
      obtain ⟨a, rfl, ha⟩ := fields_sound hk (by simp)
      exact ⟨.lparen :: (a ++ [.rparen]), by simp, .key ha⟩

theorem expr_sound (f : Nat) : (∀ ts p, expr f ts = some p → ∃ a, ts = a ++ p.2 ∧ SpellsExpr a p.1) ∧ (∀ ts p, exprs f ts = some p → ∃ a, ts = a ++ p.2 ∧ SpellsExprs a p.1) := by
  induction f with
  | zero => exact ⟨fun _ _ h => by simp [expr] at h, fun _ _ h => by simp [exprs] at h⟩
  | succ f ih =>
    refine ⟨fun ts p h => ?_, fun ts p h => ?_⟩
    · unfold expr at h
      split at h
      · cases h
      · obtain ⟨q, hq, rfl⟩ := Option.map_eq_some_iff.1 h
        exact ⟨[.inputK, .int q.1], by rw [takeInt_some hq]; rfl, .input _⟩
      · obtain ⟨q, hq, rfl⟩ := Option.map_eq_some_iff.1 h
        exact ⟨[.importK, .str q.1], by rw [takeStr_some hq]; rfl, .imported _⟩
      · next heq =>
        cases heq
        replace h := Option.bind_eq_some_iff.1 h
        obtain ⟨r1, h1, h⟩ := h
        replace h := Option.bind_eq_some_iff.1 h
        obtain ⟨i, hi, h⟩ := h
        replace h := Option.bind_eq_some_iff.1 h
        obtain ⟨r2, h2, h⟩ := h
        replace h := Option.bind_eq_some_iff.1 h
        obtain ⟨q, hq, h⟩ := h
        obtain ⟨r3, h3, rfl⟩ := Option.map_eq_some_iff.1 h
        obtain ⟨a, rfl, ha⟩ := ih.1 _ _ hi
        obtain ⟨b, rfl, hb⟩ := projection_sound hq
        exact ⟨_, by rw [expect_some h1, expect_some h2, expect_some h3]; simp, .map ha hb⟩
      · next heq =>
        cases heq
        replace h := Option.bind_eq_some_iff.1 h
        obtain ⟨r1, h1, h⟩ := h
        replace h := Option.bind_eq_some_iff.1 h
        obtain ⟨i, hi, h⟩ := h
        replace h := Option.bind_eq_some_iff.1 h
        obtain ⟨r2, h2, h⟩ := h
        replace h := Option.bind_eq_some_iff.1 h
        obtain ⟨j, hj, h⟩ := h
        replace h := Option.bind_eq_some_iff.1 h
        obtain ⟨r4, h4, h⟩ := h
        replace h := Option.bind_eq_some_iff.1 h
        obtain ⟨q, hq, h⟩ := h
        obtain ⟨r3, h3, rfl⟩ := Option.map_eq_some_iff.1 h
        obtain ⟨a, rfl, ha⟩ := ih.1 _ _ hi
        obtain ⟨c, rfl, hc⟩ := ih.1 _ _ hj
        obtain ⟨b, rfl, hb⟩ := projection_sound hq
        exact ⟨_, by rw [expect_some h1, expect_some h2, expect_some h4, expect_some h3]; simp, .join ha hc hb⟩
      · next heq =>
        cases heq
        replace h := Option.bind_eq_some_iff.1 h
        obtain ⟨r1, h1, h⟩ := h
        replace h := Option.bind_eq_some_iff.1 h
        obtain ⟨i, hi, h⟩ := h
        replace h := Option.bind_eq_some_iff.1 h
        obtain ⟨r2, h2, h⟩ := h
        replace h := Option.bind_eq_some_iff.1 h
        obtain ⟨q, hq, h⟩ := h
        obtain ⟨r3, h3, rfl⟩ := Option.map_eq_some_iff.1 h
        obtain ⟨a, rfl, ha⟩ := ih.1 _ _ hi
        obtain ⟨x, rfl, hx⟩ := takeReducer_some hq
        exact ⟨_, by rw [expect_some h1, expect_some h2, expect_some h3]; simp, .reduce ha hx⟩
      · next heq =>
        cases heq
        replace h := Option.bind_eq_some_iff.1 h
        obtain ⟨r1, h1, h⟩ := h
        replace h := Option.bind_eq_some_iff.1 h
        obtain ⟨i, hi, h⟩ := h
        replace h := Option.bind_eq_some_iff.1 h
        obtain ⟨r2, h2, h⟩ := h
        replace h := Option.bind_eq_some_iff.1 h
        obtain ⟨q, hq, h⟩ := h
        obtain ⟨r3, h3, rfl⟩ := Option.map_eq_some_iff.1 h
        obtain ⟨a, rfl, ha⟩ := ih.1 _ _ hi
        obtain ⟨b, rfl, hb⟩ := (sound f).logic _ _ hq
        exact ⟨_, by rw [expect_some h1, expect_some h2, expect_some h3]; simp, .filter ha hb⟩
      · next heq =>
        cases heq
        replace h := Option.bind_eq_some_iff.1 h
        obtain ⟨r1, h1, h⟩ := h
        replace h := Option.bind_eq_some_iff.1 h
        obtain ⟨i, hi, h⟩ := h
        obtain ⟨r3, h3, rfl⟩ := Option.map_eq_some_iff.1 h
        obtain ⟨a, rfl, ha⟩ := ih.1 _ _ hi
        exact ⟨_, by rw [expect_some h1, expect_some h3]; simp, .negate ha⟩
      · next heq =>
        cases heq
        replace h := Option.bind_eq_some_iff.1 h
        obtain ⟨r1, h1, h⟩ := h
        replace h := Option.bind_eq_some_iff.1 h
        obtain ⟨i, hi, h⟩ := h
        replace h := Option.bind_eq_some_iff.1 h
        obtain ⟨r2, h2, h⟩ := h
        replace h := Option.bind_eq_some_iff.1 h
        obtain ⟨q, hq, h⟩ := h
        obtain ⟨r3, h3, rfl⟩ := Option.map_eq_some_iff.1 h
        obtain ⟨a, rfl, ha⟩ := ih.1 _ _ hi
        obtain ⟨b, rfl, hb⟩ := (sound f).logic _ _ hq
        exact ⟨_, by rw [expect_some h1, expect_some h2, expect_some h3]; simp, .enterAt ha hb⟩
      · next heq =>
        cases heq
        replace h := Option.bind_eq_some_iff.1 h
        obtain ⟨r1, h1, h⟩ := h
        replace h := Option.bind_eq_some_iff.1 h
        obtain ⟨i, hi, h⟩ := h
        obtain ⟨r3, h3, rfl⟩ := Option.map_eq_some_iff.1 h
        obtain ⟨a, rfl, ha⟩ := ih.1 _ _ hi
        exact ⟨_, by rw [expect_some h1, expect_some h3]; simp, .liftIter ha⟩
      · next heq =>
        cases heq
        replace h := Option.bind_eq_some_iff.1 h
        obtain ⟨r1, h1, h⟩ := h
        replace h := Option.bind_eq_some_iff.1 h
        obtain ⟨i, hi, h⟩ := h
        replace h := Option.bind_eq_some_iff.1 h
        obtain ⟨r2, h2, h⟩ := h
        replace h := Option.bind_eq_some_iff.1 h
        obtain ⟨q, hq, h⟩ := h
        obtain ⟨r3, h3, rfl⟩ := Option.map_eq_some_iff.1 h
        obtain ⟨a, rfl, ha⟩ := ih.1 _ _ hi
        obtain ⟨b, rfl, hb⟩ := (sound f).logic _ _ hq
        exact ⟨_, by rw [expect_some h1, expect_some h2, expect_some h3]; simp, .flatMap ha hb⟩
      · next heq =>
        cases heq
        replace h := Option.bind_eq_some_iff.1 h
        obtain ⟨r1, h1, h⟩ := h
        replace h := Option.bind_eq_some_iff.1 h
        obtain ⟨i, hi, h⟩ := h
        replace h := Option.bind_eq_some_iff.1 h
        obtain ⟨r2, h2, h⟩ := h
        replace h := Option.bind_eq_some_iff.1 h
        obtain ⟨q, hq, h⟩ := h
        obtain ⟨r3, h3, rfl⟩ := Option.map_eq_some_iff.1 h
        obtain ⟨a, rfl, ha⟩ := ih.1 _ _ hi
        exact ⟨_, by rw [expect_some h1, expect_some h2, takeIdent_some hq, expect_some h3]; simp, .inspect q.1 ha⟩
      · next heq =>
        cases heq
        replace h := Option.bind_eq_some_iff.1 h
        obtain ⟨r1, h1, h⟩ := h
        replace h := Option.bind_eq_some_iff.1 h
        obtain ⟨i, hi, h⟩ := h
        obtain ⟨r3, h3, rfl⟩ := Option.map_eq_some_iff.1 h
        obtain ⟨a, rfl, ha⟩ := ih.2 _ _ hi
        exact ⟨_, by rw [expect_some h1, expect_some h3]; simp, .concat ha⟩
      · next heq =>
        cases heq
        replace h := Option.bind_eq_some_iff.1 h
        obtain ⟨r1, h1, h⟩ := h
        replace h := Option.bind_eq_some_iff.1 h
        obtain ⟨i, hi, h⟩ := h
        obtain ⟨r3, h3, rfl⟩ := Option.map_eq_some_iff.1 h
        obtain ⟨a, rfl, ha⟩ := ih.1 _ _ hi
        exact ⟨_, by rw [expect_some h1, expect_some h3]; simp, .arrange ha⟩
      · split at h
        · cases h
        · split at h
          · next hx =>
            subst hx
            obtain ⟨q, hq, rfl⟩ := Option.map_eq_some_iff.1 h
            exact ⟨_, by rw [takeIdent_some hq]; rfl, .qualified _ q.1⟩
          · cases h
            exact ⟨_, rfl, .name _⟩
      · cases h
    · replace h := Option.bind_eq_some_iff.1 (show (expr f ts).bind _ = _ from h)
      obtain ⟨⟨t, r⟩, hq, h⟩ := h
      obtain ⟨a, rfl, ha⟩ := ih.1 _ _ hq
      cases r with
      | nil => cases h
      | cons x r =>
        dsimp only at h
        split at h
        · next hx =>
          subst hx
          obtain ⟨q, hq, rfl⟩ := Option.map_eq_some_iff.1 h
          obtain ⟨b, rfl, hb⟩ := ih.2 _ _ hq
          exact ⟨a ++ .comma :: b, by simp, .more ha hb⟩
        · cases h
          exact ⟨a, rfl, .one ha⟩

theorem program_sound (f : Nat) : (∀ ts p, program f ts = some p → (∃ a, ts = a ++ p.2 ∧ SpellsProgram a p.1) ∧ (p.2.head? = some .eof ∨ p.2.head? = some .rbrace)) ∧
    (∀ ts p, stmt f ts = some p → ∃ a, ts = a ++ p.2 ∧ SpellsStmt a p.1) := by
  induction f with
  | zero => exact ⟨fun _ _ h => by simp [program] at h, fun _ _ h => by simp [stmt] at h⟩
  | succ f ih =>
    refine ⟨fun ts p h => ?_, fun ts p h => ?_⟩
    · cases ts with
      | nil => simp [program] at h
      | cons x ts =>
        simp only [program] at h
        split at h
        · next hx =>
          cases h
          exact ⟨⟨[], rfl, .nil⟩, by simpa using hx⟩
        · replace h := Option.bind_eq_some_iff.1 h
          obtain ⟨q, hq, h⟩ := h
          obtain ⟨r, hr, rfl⟩ := Option.map_eq_some_iff.1 h
          obtain ⟨a, ha, hs⟩ := ih.2 _ _ hq
          obtain ⟨⟨b, hb, hp⟩, he⟩ := ih.1 _ _ hr
          exact ⟨⟨a ++ b, by rw [ha, hb, List.append_assoc], .cons hs hp⟩, he⟩
    · unfold stmt at h
      split at h
      · cases h
      · next heq =>
        cases heq
        replace h := Option.bind_eq_some_iff.1 h
        obtain ⟨n, hn, h⟩ := h
        replace h := Option.bind_eq_some_iff.1 h
        obtain ⟨r1, h1, h⟩ := h
        replace h := Option.bind_eq_some_iff.1 h
        obtain ⟨e, he, h⟩ := h
        obtain ⟨r2, h2, rfl⟩ := Option.map_eq_some_iff.1 h
        obtain ⟨a, rfl, ha⟩ := (expr_sound f).1 _ _ he
        exact ⟨_, by rw [takeIdent_some hn, expect_some h1, expect_some h2]; simp, .letS (n := n.1) ha⟩
      · next heq =>
        cases heq
        replace h := Option.bind_eq_some_iff.1 h
        obtain ⟨n, hn, h⟩ := h
        replace h := Option.bind_eq_some_iff.1 h
        obtain ⟨r1, h1, h⟩ := h
        replace h := Option.bind_eq_some_iff.1 h
        obtain ⟨e, he, h⟩ := h
        obtain ⟨r2, h2, rfl⟩ := Option.map_eq_some_iff.1 h
        obtain ⟨a, rfl, ha⟩ := (expr_sound f).1 _ _ he
        exact ⟨_, by rw [takeIdent_some hn, expect_some h1, expect_some h2]; simp, .varS (n := n.1) ha⟩
      · next heq =>
        cases heq
        replace h := Option.bind_eq_some_iff.1 h
        obtain ⟨n, hn, h⟩ := h
        replace h := Option.bind_eq_some_iff.1 h
        obtain ⟨r1, h1, h⟩ := h
        replace h := Option.bind_eq_some_iff.1 h
        obtain ⟨e, he, h⟩ := h
        obtain ⟨r2, h2, rfl⟩ := Option.map_eq_some_iff.1 h
        obtain ⟨a, rfl, ha⟩ := (expr_sound f).1 _ _ he
        exact ⟨_, by rw [takeStr_some hn, expect_some h1, expect_some h2]; simp, .exportS (n := n.1) ha⟩
      · next heq =>
        cases heq
        replace h := Option.bind_eq_some_iff.1 h
        obtain ⟨r1, h1, h⟩ := h
        obtain rfl := expect_some h1
        split at h
        · cases h
        · replace h := Option.bind_eq_some_iff.1 h
          obtain ⟨r2, h2, h⟩ := h
          replace h := Option.bind_eq_some_iff.1 h
          obtain ⟨b, hb, h⟩ := h
          obtain ⟨r3, h3, rfl⟩ := Option.map_eq_some_iff.1 h
          obtain ⟨⟨a, rfl, ha⟩, _⟩ := ih.1 _ _ hb
          replace h2 := expect_some h2
          split at h2
          · next hx =>
            subst hx
            exact ⟨_, by rw [h2, expect_some h3]; simp, .scopeK ha⟩
          · exact ⟨_, by rw [h2, expect_some h3]; simp, .scopeS ha⟩
      · cases h

end DD.Ir.App
