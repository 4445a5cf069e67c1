import Verif.Proofs.ApplicativeSound

/-! # The applicative parser returns what tokens spell -/

namespace DD.Ir.App

/-- From some number on. -/
def Ev (P : Nat → Prop) : Prop := ∃ F, ∀ f, F ≤ f → P f

theorem Ev.and {P Q : Nat → Prop} (hp : Ev P) (hq : Ev Q) : Ev fun f => P f ∧ Q f := by
  obtain ⟨F, hF⟩ := hp
  obtain ⟨G, hG⟩ := hq
  exact ⟨max F G, fun f hf => ⟨hF f (by omega), hG f (by omega)⟩⟩

theorem Ev.succ {P Q : Nat → Prop} (hp : Ev P) (h : ∀ f, P f → Q (f + 1)) : Ev Q := by
  obtain ⟨F, hF⟩ := hp
  refine ⟨F + 1, fun f hf => ?_⟩
  obtain ⟨g, rfl⟩ : ∃ g, f = g + 1 := ⟨f - 1, by omega⟩
  exact h g (hF g (by omega))

theorem Ev.imp {P Q : Nat → Prop} (hp : Ev P) (h : ∀ f, P f → Q f) : Ev Q := by
  obtain ⟨F, hF⟩ := hp
  exact ⟨F, fun f hf => h f (hF f hf)⟩

theorem Ev.now {Q : Nat → Prop} (h : ∀ f, Q (f + 1)) : Ev Q := by
  refine ⟨1, fun f hf => ?_⟩
  obtain ⟨g, rfl⟩ : ∃ g, f = g + 1 := ⟨f - 1, by omega⟩
  exact h g

theorem Ev.exists {P : Nat → Prop} (hp : Ev P) : ∃ f, P f := by
  obtain ⟨F, hF⟩ := hp
  exact ⟨F, hF F (Nat.le_refl _)⟩

/-- Which level goes on with a token. -/
def Tok.rank : Tok → Nat
  | .lbracket => 1
  | .star => 2
  | .plus | .minus => 3
  | .eqeq | .noteq | .lt | .lteq | .gt | .gteq => 4
  | .andand => 5
  | _ => 6

/-- There are tokens left, and levels up to `k` stop at the next. -/
def Stop (k : Nat) (rest : List Tok) : Prop := ∃ x r, rest = x :: r ∧ k < x.rank

theorem Stop.mono {k m : Nat} {rest : List Tok} (h : Stop m rest) (hk : k ≤ m) : Stop k rest := by
  obtain ⟨x, r, rfl, hx⟩ := h
  exact ⟨x, r, rfl, by omega⟩

theorem logicLoop_stop {t : Term} {rest : List Tok} (h : Stop 5 rest) : Ev fun f => logicLoop f t rest = some (t, rest) := by
  obtain ⟨x, r, rfl, hx⟩ := h
  refine .now fun f => ?_
  simp only [logicLoop]
  rw [if_neg (by rintro rfl; simp [Tok.rank] at hx)]

theorem addOp_none {x : Tok} (h : 3 < x.rank) : addOp x = none := by
  cases x <;> first | rfl | (simp [Tok.rank] at h)

theorem cmpOp_none {x : Tok} (h : 4 < x.rank) : cmpOp x = none := by
  cases x <;> first | rfl | (simp [Tok.rank] at h)

theorem comparison_rank {x : Tok} {op : BinOp} (h : (x, op) ∈ comparisons) : x.rank = 4 := by
  have h := cmpOp_some.2 h
  cases x <;> first | rfl | (cases h)

theorem sum_rank {x : Tok} {op : BinOp} (h : (x, op) ∈ sums) : x.rank = 3 := by
  have h := addOp_some.2 h
  cases x <;> first | rfl | (cases h)

theorem addLoop_stop {t : Term} {rest : List Tok} (h : Stop 3 rest) : Ev fun f => addLoop f t rest = some (t, rest) := by
  obtain ⟨x, r, rfl, hx⟩ := h
  refine .now fun f => ?_
  simp only [addLoop, addOp_none hx]

theorem mulLoop_stop {t : Term} {rest : List Tok} (h : Stop 2 rest) : Ev fun f => mulLoop f t rest = some (t, rest) := by
  obtain ⟨x, r, rfl, hx⟩ := h
  refine .now fun f => ?_
  simp only [mulLoop]
  rw [if_neg (by rintro rfl; simp [Tok.rank] at hx)]

theorem postLoop_stop {t : Term} {rest : List Tok} (h : Stop 1 rest) : Ev fun f => postLoop f t rest = some (t, rest) := by
  obtain ⟨x, r, rfl, hx⟩ := h
  refine .now fun f => ?_
  simp only [postLoop]
  rw [if_neg (by rintro rfl; simp [Tok.rank] at hx)]

theorem expect_self (t : Tok) (ts : List Tok) : expect t (t :: ts) = some ts := by simp [expect]

/-- Tokens that can begin a term. -/
def Tok.opens : Tok → Prop
  | .minus | .dollar | .caret | .int _ | .lparen | .ident _ => True
  | _ => False

/-- How terms begin. -/
def Head (L : Level) (a : List Tok) : Prop := ∃ x r, a = x :: r ∧ x.opens ∧ (L = .primary → x ≠ .minus) ∧ (x = .dollar → ∃ n s, r = .int n :: s)

theorem Head.append {L M : Level} {a : List Tok} (h : Head L a) (hm : M = .primary → L = .primary) (b : List Tok) : Head M (a ++ b) := by
  obtain ⟨x, r, rfl, h1, h2, h3⟩ := h
  refine ⟨x, r ++ b, rfl, h1, fun hM => h2 (hm hM), fun hx => ?_⟩
  obtain ⟨n, s, rfl⟩ := h3 hx
  exact ⟨n, s ++ b, rfl⟩

theorem Head.up {L M : Level} {a : List Tok} (h : Head L a) (hm : M = .primary → L = .primary) : Head M a := by
  have := h.append hm []
  rwa [List.append_nil] at this

theorem head_of {L : Level} {a : List Tok} {t : Term} (h : Spells L a t) : Head L a := by
  refine Spells.rec (motive_1 := fun L a _ _ => Head L a) (motive_2 := fun _ _ _ => True)
    ?_ ?_ ?_ ?_ ?_ ?_ ?_ ?_ ?_ ?_ ?_ ?_ ?_ ?_ ?_ ?_ ?_ ?_ ?_ h
  · intro a b l r _ _ h _; exact h.append (by simp) _
  · intro a t _ h; exact h.up (by simp)
  · intro a b l r y op _ _ _ h _; exact h.append (by simp) _
  · intro a t _ h; exact h.up (by simp)
  · intro a b l r y op _ _ _ h _; exact h.append (by simp) _
  · intro a t _ h; exact h.up (by simp)
  · intro a b l r _ _ h _; exact h.append (by simp) _
  · intro a t _ h; exact h.up (by simp)
  · intros; exact ⟨_, _, rfl, trivial, by simp, by simp⟩
  · intro a t _ h; exact h.up (by simp)
  · intro n; exact ⟨_, _, rfl, trivial, by simp, fun _ => ⟨n, [], rfl⟩⟩
  · intros; exact ⟨_, _, rfl, trivial, by simp, by simp⟩
  · intros; exact ⟨_, _, rfl, trivial, by simp, by simp⟩
  · intros; exact ⟨_, _, rfl, trivial, by simp, by simp⟩
  · intros; exact ⟨_, _, rfl, trivial, by simp, by simp⟩
  · intro a t i _ h; exact h.append (by simp) _
  · trivial
  · intros; trivial
  · intros; trivial

theorem spells_head {L : Level} {a : List Tok} {t : Term} (h : Spells L a t) : ∃ x r, a = x :: r ∧ x.opens ∧ (L = .primary → x ≠ .minus) := by
  obtain ⟨x, r, h1, h2, h3, _⟩ := head_of h
  exact ⟨x, r, h1, h2, h3⟩

/-- What each function returns on tokens of its level. -/
def Returns : Level → List Tok → Term → Prop
  | .logic, a, t => ∀ rest p, Stop 4 rest → (Ev fun f => logicLoop f t rest = some p) → Ev fun f => logic f (a ++ rest) = some p
  | .cmp, a, t => ∀ rest, Stop 4 rest → Ev fun f => cmp f (a ++ rest) = some (t, rest)
  | .add, a, t => ∀ rest p, Stop 2 rest → (Ev fun f => addLoop f t rest = some p) → Ev fun f => add f (a ++ rest) = some p
  | .mul, a, t => ∀ rest p, Stop 1 rest → (Ev fun f => mulLoop f t rest = some p) → Ev fun f => mul f (a ++ rest) = some p
  | .unary, a, t => ∀ rest, Stop 1 rest → Ev fun f => unary f (a ++ rest) = some (t, rest)
  | .primary, a, t => ∀ rest p, Stop 0 rest → (Ev fun f => postLoop f t rest = some p) → Ev fun f => primary f (a ++ rest) = some p

theorem complete {L : Level} {a : List Tok} {t : Term} (h : Spells L a t) : Returns L a t := by
  refine Spells.rec (motive_1 := fun L a t _ => Returns L a t) (motive_2 := fun a l _ => l ≠ [] → ∀ rest, Ev fun f => terms f (a ++ .rparen :: rest) = some (l, .rparen :: rest))
    ?_ ?_ ?_ ?_ ?_ ?_ ?_ ?_ ?_ ?_ ?_ ?_ ?_ ?_ ?_ ?_ ?_ ?_ ?_ h
  · intro a b l r _ _ ihl ihr rest p hs hp
    rw [List.append_assoc]
    refine ihl _ p ⟨_, _, rfl, by simp [Tok.rank]⟩ (((ihr rest hs).and hp).succ ?_)
    rintro f ⟨h1, h2⟩
    simp [logicLoop, h1, h2]
  · intro a t _ ih rest p hs hp
    refine ((ih rest hs).and hp).succ ?_
    rintro f ⟨h1, h2⟩
    simp [logic, h1, h2]
  · intro a b l r x op _ _ hx ihl ihr rest hs
    rw [List.append_assoc]
    have hr := comparison_rank hx
    have hl := ihl (x :: b ++ rest) (l, x :: b ++ rest) ⟨x, _, rfl, by omega⟩ (addLoop_stop ⟨x, _, rfl, by omega⟩)
    have hr := ihr rest (r, rest) (hs.mono (by omega)) (addLoop_stop (hs.mono (by omega)))
    refine (hl.and hr).succ ?_
    rintro f ⟨h1, h2⟩
    simp only [List.cons_append] at h1
    simp [cmp, h1, h2, cmpOp_some.2 hx]
  · intro a t _ ih rest hs
    have hl := ih rest (t, rest) (hs.mono (by omega)) (addLoop_stop (hs.mono (by omega)))
    obtain ⟨x, r, rfl, hx⟩ := hs
    refine hl.succ ?_
    intro f h1
    simp [cmp, h1, cmpOp_none hx]
  · intro a b l r x op _ _ hx ihl ihr rest p hs hp
    rw [List.append_assoc]
    have hr := sum_rank hx
    have hb := ihr rest (r, rest) (hs.mono (by omega)) (mulLoop_stop hs)
    refine ihl _ p ⟨_, _, rfl, by omega⟩ ((hb.and hp).succ ?_)
    rintro f ⟨h1, h2⟩
    simp [addLoop, addOp_some.2 hx, h1, h2]
  · intro a t _ ih rest p hs hp
    refine ((ih rest (t, rest) (hs.mono (by omega)) (mulLoop_stop hs)).and hp).succ ?_
    rintro f ⟨h1, h2⟩
    simp [add, h1, h2]
  · intro a b l r _ _ ihl ihr rest p hs hp
    rw [List.append_assoc]
    refine ihl _ p ⟨_, _, rfl, by simp [Tok.rank]⟩ (((ihr rest hs).and hp).succ ?_)
    rintro f ⟨h1, h2⟩
    simp [mulLoop, h1, h2]
  · intro a t _ ih rest p hs hp
    refine ((ih rest hs).and hp).succ ?_
    rintro f ⟨h1, h2⟩
    simp [mul, h1, h2]
  · intro a t _ ih rest hs
    refine (ih rest hs).succ ?_
    intro f h1
    simp [unary, h1]
  · intro a t hsp ih rest hs
    obtain ⟨x, r, rfl, _, hx⟩ := spells_head hsp
    refine (ih rest (t, rest) (hs.mono (by omega)) (postLoop_stop hs)).succ ?_
    intro f h1
    simp only [List.cons_append] at h1
    simp [unary, hx rfl, h1]
  · intro n rest p hs hp
    refine hp.succ ?_
    intro f h1
    simp [primary, takeInt, h1]
  · intro n rest p hs hp
    refine hp.succ ?_
    intro f h1
    simp [primary, takeInt, h1]
  · intro n rest p hs hp
    refine hp.succ ?_
    intro f h1
    simp [primary, h1]
  · intro a t _ ih rest p hs hp
    have h5 : Stop 5 (.rparen :: rest) := ⟨_, _, rfl, by simp [Tok.rank]⟩
    refine ((ih (.rparen :: rest) (t, .rparen :: rest) (h5.mono (by omega)) (logicLoop_stop h5)).and hp).succ ?_
    rintro f ⟨h1, h2⟩
    simp [primary, h1, expect_self, h2]
  · intro name a l t hl hb ih rest p hs hp
    have hargs : Ev fun f => args f (.lparen :: (a ++ .rparen :: rest)) = some (l, rest) := by
      cases hl with
      | nil => exact .now fun f => by simp [args, expect_self]
      | one h1 =>
        obtain ⟨x, r, rfl, ho, _⟩ := spells_head h1
        refine (ih (by simp) rest).succ ?_
        intro f h1
        simp only [List.cons_append] at h1
        have hx : x ≠ .rparen := by rintro rfl; exact ho
        simp [args, expect_self, h1, hx]
      | more h1 h2 hne =>
        obtain ⟨x, r, rfl, ho, _⟩ := spells_head h1
        refine (ih (by simp) rest).succ ?_
        intro f h1
        simp only [List.cons_append, List.append_assoc] at h1
        have hx : x ≠ .rparen := by rintro rfl; exact ho
        simp [args, expect_self, h1, hx]
    refine (hargs.and hp).succ ?_
    rintro f ⟨h1, h2⟩
    simp [primary, h1, builtin_complete hb, h2]
  · intro a t i _ ih rest p hs hp
    rw [List.append_assoc]
    refine ih _ p ⟨_, _, rfl, by simp [Tok.rank]⟩ (hp.succ ?_)
    intro f h1
    simp [postLoop, takeInt, expect_self, h1]
  · intro h; exact absurd rfl h
  · intro a t _ ih _ rest
    have h5 : Stop 5 (.rparen :: rest) := ⟨_, _, rfl, by simp [Tok.rank]⟩
    refine (ih (.rparen :: rest) (t, .rparen :: rest) (h5.mono (by omega)) (logicLoop_stop h5)).succ ?_
    intro f h1
    simp [terms, h1]
  · intro a b t l _ _ hne ih1 ih2 _ rest
    rw [List.append_assoc]
    have h5 : Stop 5 (.comma :: b ++ .rparen :: rest) := ⟨_, _, rfl, by simp [Tok.rank]⟩
    refine ((ih1 _ (t, .comma :: b ++ .rparen :: rest) (h5.mono (by omega)) (logicLoop_stop h5)).and (ih2 hne rest)).succ ?_
    rintro f ⟨h1, h2⟩
    simp only [List.cons_append] at h1
    simp [terms, h1, h2]

theorem logic_complete {a rest : List Tok} {t : Term} (h : Spells .logic a t) (hs : Stop 5 rest) : Ev fun f => logic f (a ++ rest) = some (t, rest) :=
  complete h rest (t, rest) (hs.mono (by omega)) (logicLoop_stop hs)

theorem field_complete {a rest : List Tok} {t : Term} (h : SpellsField a t) (hs : Stop 5 rest) : Ev fun f => field f (a ++ rest) = some (t, rest) := by
  cases h with
  | splice n =>
    refine .now fun f => ?_
    obtain ⟨x, r, rfl, hx⟩ := hs
    simp only [field, List.cons_append, List.nil_append, List.head?_cons, Option.some.injEq]
    rw [if_neg (by rintro rfl; simp [Tok.rank] at hx)]
  | term h hb =>
    refine (logic_complete h hs).imp fun f hf => ?_
    unfold field
    split
    · next n r heq =>
      rw [if_pos ?_]
      · exact hf
      · obtain ⟨x, r', rfl, _, _, hd⟩ := head_of h
        simp only [List.cons_append, List.cons.injEq] at heq
        obtain ⟨rfl, heq⟩ := heq
        obtain ⟨m, s, rfl⟩ := hd rfl
        simp only [List.cons_append, List.cons.injEq] at heq
        obtain ⟨_, rfl⟩ := heq
        have := hb m s rfl
        cases s with
        | nil => simp at this
        | cons z s => simpa using this
    · exact hf

theorem fieldsLoop_complete {a rest : List Tok} {l : List Term} (h : SpellsFields a l) (hne : l ≠ []) (hs : Stop 5 rest) (hc : rest.head? ≠ some .comma) :
    Ev fun f => fieldsLoop f (a ++ rest) = some (l, rest) := by
  induction h with
  | nil => exact absurd rfl hne
  | one h =>
    have := field_complete h hs
    obtain ⟨x, r, rfl, hx⟩ := hs
    refine this.succ fun f hf => ?_
    simp only [fieldsLoop, hf, Option.bind_some]
    rw [if_neg (by simpa using hc)]
  | @more a b t l h _ hne' ih =>
    rw [List.append_assoc]
    refine ((field_complete h (rest := .comma :: (b ++ rest)) ⟨_, _, rfl, by simp [Tok.rank]⟩).and (ih hne')).succ ?_
    rintro f ⟨h1, h2⟩
    rw [List.cons_append]
    simp [fieldsLoop, h1, h2]

theorem field_head {a : List Tok} {t : Term} (h : SpellsField a t) : ∃ x r, a = x :: r ∧ x.opens := by
  cases h with
  | splice n => exact ⟨_, _, rfl, trivial⟩
  | term h _ =>
    obtain ⟨x, r, h1, h2, _⟩ := spells_head h
    exact ⟨x, r, h1, h2⟩

theorem fields_complete {a rest : List Tok} {l : List Term} (stop : List Tok) (hstop : ∀ x ∈ stop, ¬ x.opens) (h : SpellsFields a l) (hs : Stop 5 rest) (hc : rest.head? ≠ some .comma)
    (hr : ∀ x r, rest = x :: r → x ∈ stop) : Ev fun f => fields f stop (a ++ rest) = some (l, rest) := by
  by_cases hl : l = []
  · subst hl
    cases h
    obtain ⟨x, r, rfl, _⟩ := hs
    exact ⟨0, fun f _ => by simp [fields, hr x r rfl]⟩
  · have hhead : ∃ x r, a = x :: r ∧ x.opens := by
      cases h with
      | nil => exact absurd rfl hl
      | one h => exact field_head h
      | more h _ _ =>
        obtain ⟨x, r, rfl, ho⟩ := field_head h
        exact ⟨x, _, rfl, ho⟩
    refine (fieldsLoop_complete h hl hs hc).imp fun f hf => ?_
    obtain ⟨x, r, rfl, ho⟩ := hhead
    rw [List.cons_append] at hf ⊢
    simp only [fields]
    rw [if_neg fun hx => hstop x hx ho, hf]

theorem projection_complete {a rest : List Tok} {p : Term × Term} (h : SpellsProj a p) : Ev fun f => projection f (a ++ rest) = some (p, rest) := by
  cases h with
  | key h =>
    have := fields_complete (rest := .rparen :: rest) [.semi, .rparen] (by simp [Tok.opens]) h ⟨_, _, rfl, by simp [Tok.rank]⟩ (by simp) (by simp)
    refine this.imp fun f hf => ?_
    simp [projection, expect_self, hf]
  | both h h' =>
    next a b l m =>
    have h1 := fields_complete (rest := .semi :: (b ++ .rparen :: rest)) [.semi, .rparen] (by simp [Tok.opens]) h ⟨_, _, rfl, by simp [Tok.rank]⟩ (by simp) (by simp)
    have h2 := fields_complete (rest := .rparen :: rest) [.rparen] (by simp [Tok.opens]) h' ⟨_, _, rfl, by simp [Tok.rank]⟩ (by simp) (by simp)
    refine (h1.and h2).imp ?_
    rintro f ⟨h1, h2⟩
    simp [projection, expect_self, h1, h2]

/-- What may follow an expression. -/
def Follows (rest : List Tok) : Prop := ∃ x r, rest = x :: r ∧ x ≠ .coloncolon

theorem expr_complete {a : List Tok} {e : Exp} (h : SpellsExpr a e) : ∀ rest, Follows rest → Ev fun f => expr f (a ++ rest) = some (e, rest) := by
  have ht : ∀ {b : List Tok} {t : Term} (rest : List Tok), Spells .logic b t → Ev fun f => logic f (b ++ .rparen :: rest) = some (t, .rparen :: rest) := fun rest h =>
    logic_complete h ⟨_, _, rfl, by simp [Tok.rank]⟩
  refine SpellsExpr.rec (motive_1 := fun a e _ => ∀ rest, Follows rest → Ev fun f => expr f (a ++ rest) = some (e, rest))
    (motive_2 := fun a l _ => ∀ rest, Ev fun f => exprs f (a ++ .rparen :: rest) = some (l, .rparen :: rest))
    ?_ ?_ ?_ ?_ ?_ ?_ ?_ ?_ ?_ ?_ ?_ ?_ ?_ ?_ ?_ ?_ ?_ h
  · intro n rest _; exact .now fun f => by simp [expr, takeInt]
  · intro n rest _; exact .now fun f => by simp [expr, takeStr]
  · rintro n rest ⟨x, r, rfl, hx⟩; exact .now fun f => by simp [expr, hx]
  · intro n m rest _; exact .now fun f => by simp [expr, takeIdent]
  · intro a e b p _ hp ih rest _
    refine ((ih (.comma :: (b ++ .rparen :: rest)) ⟨_, _, rfl, by simp⟩).and (projection_complete (rest := .rparen :: rest) hp)).succ ?_
    rintro f ⟨h1, h2⟩
    simp [expr, expect_self, h1, h2]
  · intro a e b e' c p _ _ hp ih1 ih2 rest _
    refine ((ih1 (.comma :: (b ++ .comma :: (c ++ .rparen :: rest))) ⟨_, _, rfl, by simp⟩).and ((ih2 (.comma :: (c ++ .rparen :: rest)) ⟨_, _, rfl, by simp⟩).and
      (projection_complete (rest := .rparen :: rest) hp))).succ ?_
    rintro f ⟨h1, h2, h3⟩
    simp [expr, expect_self, h1, h2, h3]
  · intro a e x r _ hx ih rest _
    refine (ih (.comma :: x :: .rparen :: rest) ⟨_, _, rfl, by simp⟩).succ ?_
    intro f h1
    simp only [reducers, List.mem_cons, Prod.mk.injEq, List.not_mem_nil, or_false] at hx
    rcases hx with ⟨rfl, rfl⟩ | ⟨rfl, rfl⟩ | ⟨rfl, rfl⟩ | ⟨rfl, rfl⟩ <;> simp [expr, expect_self, h1, takeReducer]
  · intro a e b t _ hb ih rest _
    refine ((ih (.comma :: (b ++ .rparen :: rest)) ⟨_, _, rfl, by simp⟩).and (ht rest hb)).succ ?_
    rintro f ⟨h1, h2⟩
    simp [expr, expect_self, h1, h2]
  · intro a e _ ih rest _
    refine (ih (.rparen :: rest) ⟨_, _, rfl, by simp⟩).succ ?_
    intro f h1
    simp [expr, expect_self, h1]
  · intro a e b t _ hb ih rest _
    refine ((ih (.comma :: (b ++ .rparen :: rest)) ⟨_, _, rfl, by simp⟩).and (ht rest hb)).succ ?_
    rintro f ⟨h1, h2⟩
    simp [expr, expect_self, h1, h2]
  · intro a e _ ih rest _
    refine (ih (.rparen :: rest) ⟨_, _, rfl, by simp⟩).succ ?_
    intro f h1
    simp [expr, expect_self, h1]
  · intro a e b t _ hb ih rest _
    refine ((ih (.comma :: (b ++ .rparen :: rest)) ⟨_, _, rfl, by simp⟩).and (ht rest hb)).succ ?_
    rintro f ⟨h1, h2⟩
    simp [expr, expect_self, h1, h2]
  · intro a e l _ ih rest _
    refine (ih (.comma :: .ident l :: .rparen :: rest) ⟨_, _, rfl, by simp⟩).succ ?_
    intro f h1
    simp [expr, expect_self, h1, takeIdent]
  · intro a l _ ih rest _
    refine (ih rest).succ ?_
    intro f h1
    simp [expr, expect_self, h1]
  · intro a e _ ih rest _
    refine (ih (.rparen :: rest) ⟨_, _, rfl, by simp⟩).succ ?_
    intro f h1
    simp [expr, expect_self, h1]
  · intro a e _ ih rest
    refine (ih (.rparen :: rest) ⟨_, _, rfl, by simp⟩).succ ?_
    intro f h1
    simp [exprs, h1]
  · intro a b e l _ _ ih1 ih2 rest
    refine ((ih1 (.comma :: (b ++ .rparen :: rest)) ⟨_, _, rfl, by simp⟩).and (ih2 rest)).succ ?_
    rintro f ⟨h1, h2⟩
    simp [exprs, h1, h2]

theorem stmt_head {a : List Tok} {s : St} (h : SpellsStmt a s) : ∃ x r, a = x :: r ∧ x ≠ .eof ∧ x ≠ .rbrace := by
  cases h <;> exact ⟨_, _, rfl, by simp, by simp⟩

theorem program_complete {a : List Tok} {p : List St} (h : SpellsProgram a p) : ∀ rest, rest.head? = some .eof ∨ rest.head? = some .rbrace → Ev fun f => program f (a ++ rest) = some (p, rest) := by
  have he : ∀ {b : List Tok} {e : Exp} (rest : List Tok), SpellsExpr b e → Ev fun f => expr f (b ++ .semi :: rest) = some (e, .semi :: rest) := fun rest h =>
    expr_complete h _ ⟨_, _, rfl, by simp⟩
  refine SpellsProgram.rec (motive_1 := fun a s _ => ∀ rest, Ev fun f => stmt f (a ++ rest) = some (s, rest))
    (motive_2 := fun a p _ => ∀ rest, rest.head? = some .eof ∨ rest.head? = some .rbrace → Ev fun f => program f (a ++ rest) = some (p, rest)) ?_ ?_ ?_ ?_ ?_ ?_ ?_ h
  · intro n a e h rest
    refine (he rest h).succ fun f hf => ?_
    simp [stmt, takeIdent, expect_self, hf]
  · intro n a e h rest
    refine (he rest h).succ fun f hf => ?_
    simp [stmt, takeIdent, expect_self, hf]
  · intro n a e h rest
    refine (he rest h).succ fun f hf => ?_
    simp [stmt, takeStr, expect_self, hf]
  · intro n a b _ ih rest
    refine (ih (.rbrace :: rest) (by simp)).succ fun f hf => ?_
    simp [stmt, expect_self, hf]
  · intro n a b _ ih rest
    refine (ih (.rbrace :: rest) (by simp)).succ fun f hf => ?_
    simp [stmt, expect_self, hf]
  · intro rest hr
    cases rest with
    | nil => simp at hr
    | cons x r => exact .now fun f => by simp only [List.nil_append, program]; rw [if_pos (by simpa using hr)]
  · intro a s b p hst _ ih1 ih2 rest hr
    obtain ⟨x, r, rfl, h1, h2⟩ := stmt_head hst
    refine ((ih1 (b ++ rest)).and (ih2 rest hr)).succ ?_
    rintro f ⟨h3, h4⟩
    simp only [List.cons_append] at h3
    simp [program, h1, h2, h3, h4]

end DD.Ir.App
