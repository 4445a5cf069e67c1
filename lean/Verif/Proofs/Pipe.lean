import Verif.Spec.Pipe
import Verif.Proofs.Applicative

/-! # The parser of the pipe syntax returns what tokens spell -/

namespace DD.Ir.Pipe

open App (Tok Exp St Ev takeInt_some takeStr_some takeIdent_some expect_some expect_self projection_sound projection_complete logic_complete takeInt takeStr takeIdent Follows SpellsProj Spells)

/-! ### What is returned is spelled -/

/-- What the functions return is spelled by the tokens they took. -/
structure Sound (f : Nat) : Prop where
  expr : ∀ ts p, expr f ts = some p → ∃ a, ts = a ++ p.2 ∧ SpellsExpr a p.1
  pipes : ∀ e ts p, pipes f e ts = some p → ∃ b, ts = b ++ p.2 ∧ (∀ a, SpellsExpr a e → SpellsExpr (a ++ b) p.1) ∧ (∀ a, SpellsArg a e → SpellsArg (a ++ b) p.1)
  sum : ∀ ts p, sum f ts = some p → ∃ a, ts = a ++ p.2 ∧ SpellsExpr a p.1
  parts : ∀ ts p, parts f ts = some p → ∃ a, ts = a ++ p.2 ∧ SpellsParts a p.1
  atom : ∀ ts p, atom f ts = some p → ∃ a, ts = a ++ p.2 ∧ SpellsAtom a p.1
  joinArg : ∀ ts p, joinArg f ts = some p → ∃ a, ts = a ++ p.2 ∧ SpellsArg a p.1
  pipeOp : ∀ e ts p, pipeOp f e ts = some p → ∃ a, ts = a ++ p.2 ∧ SpellsOp a e p.1

theorem op_proj {f : Nat} {e : Exp} {ts : List Tok} {p : Exp × List Tok} (h : ((App.projection f ts).map fun p => ((Expr.linear e (.project p.1.1 p.1.2) : Exp), p.2)) = some p) :
    ∃ a q, ts = a ++ p.2 ∧ SpellsProj a q ∧ p.1 = .linear e (.project q.1 q.2) := by
  obtain ⟨q, hq, rfl⟩ := Option.map_eq_some_iff.1 h
  obtain ⟨a, ha, hs⟩ := projection_sound hq
  exact ⟨a, q.1, ha, hs, rfl⟩

theorem op_term {f : Nat} {mk : Term → Exp} {ts : List Tok} {p : Exp × List Tok}
    (h : ((App.expect .lparen ts).bind fun ts => (App.logic f ts).bind fun t => (App.expect .rparen t.2).map fun ts => (mk t.1, ts)) = some p) :
    ∃ a t, ts = .lparen :: (a ++ .rparen :: p.2) ∧ Spells .logic a t ∧ p.1 = mk t := by
  replace h := Option.bind_eq_some_iff.1 h
  obtain ⟨r1, h1, h⟩ := h
  replace h := Option.bind_eq_some_iff.1 h
  obtain ⟨t, ht, h⟩ := h
  obtain ⟨r2, h2, rfl⟩ := Option.map_eq_some_iff.1 h
  obtain ⟨a, rfl, ha⟩ := (App.sound f).logic _ _ ht
  exact ⟨a, t.1, by rw [expect_some h1, expect_some h2], ha, rfl⟩

theorem sound (f : Nat) : Sound f := by
  induction f with
  | zero =>
    exact ⟨fun _ _ h => by simp [expr] at h, fun _ _ _ h => by simp [pipes] at h, fun _ _ h => by simp [sum] at h, fun _ _ h => by simp [parts] at h, fun _ _ h => by simp [atom] at h,
      fun _ _ h => by simp [joinArg] at h, fun _ _ _ h => by simp [pipeOp] at h⟩
  | succ f ih =>
    refine ⟨fun ts p h => ?_, fun e ts p h => ?_, fun ts p h => ?_, fun ts p h => ?_, fun ts p h => ?_, fun ts p h => ?_, fun e ts p h => ?_⟩
    · replace h := Option.bind_eq_some_iff.1 (show (Pipe.sum f ts).bind _ = _ from by simpa only [expr] using h)
      obtain ⟨q, hq, h⟩ := h
      obtain ⟨a, rfl, ha⟩ := ih.sum _ _ hq
      obtain ⟨b, hb, h1, _⟩ := ih.pipes _ _ _ h
      exact ⟨a ++ b, by rw [hb, List.append_assoc], h1 a ha⟩
    · cases ts with
      | nil => simp [pipes] at h
      | cons x ts =>
        simp only [pipes] at h
        split at h
        · next hx =>
          subst hx
          replace h := Option.bind_eq_some_iff.1 h
          obtain ⟨q, hq, h⟩ := h
          obtain ⟨b, rfl, hb⟩ := ih.pipeOp _ _ _ hq
          obtain ⟨c, hc, h1, h2⟩ := ih.pipes _ _ _ h
          refine ⟨.pipe :: b ++ c, by simp [hc], fun a ha => ?_, fun a ha => ?_⟩
          · have := h1 _ (SpellsExpr.op ha hb)
            simpa using this
          · have := h2 _ (SpellsArg.op ha hb)
            simpa using this
        · cases h
          exact ⟨[], rfl, fun a ha => by simpa using ha, fun a ha => by simpa using ha⟩
    · replace h := Option.bind_eq_some_iff.1 (show (Pipe.atom f ts).bind _ = _ from by simpa only [Pipe.sum] using h)
      obtain ⟨q, hq, h⟩ := h
      obtain ⟨r, hr, rfl⟩ := Option.map_eq_some_iff.1 h
      obtain ⟨a, rfl, ha⟩ := ih.atom _ _ hq
      obtain ⟨b, hb, hp⟩ := ih.parts _ _ hr
      obtain ⟨l, r2⟩ := r
      cases l with
      | nil =>
        cases hp
        exact ⟨a, by rw [hb]; rfl, .atom ha⟩
      | cons e' l => exact ⟨a ++ b, by rw [hb, List.append_assoc], .sum ha hp⟩
    · cases ts with
      | nil => simp [parts] at h
      | cons x ts =>
        simp only [parts] at h
        split at h
        · next hx =>
          subst hx
          replace h := Option.bind_eq_some_iff.1 h
          obtain ⟨q, hq, h⟩ := h
          obtain ⟨r, hr, rfl⟩ := Option.map_eq_some_iff.1 h
          obtain ⟨a, rfl, ha⟩ := ih.atom _ _ hq
          obtain ⟨b, hb, hp⟩ := ih.parts _ _ hr
          exact ⟨.plus :: (a ++ b), by rw [hb]; simp, .plus ha hp⟩
        · split at h
          · next hx =>
            subst hx
            replace h := Option.bind_eq_some_iff.1 h
            obtain ⟨q, hq, h⟩ := h
            obtain ⟨r, hr, rfl⟩ := Option.map_eq_some_iff.1 h
            obtain ⟨a, rfl, ha⟩ := ih.atom _ _ hq
            obtain ⟨b, hb, hp⟩ := ih.parts _ _ hr
            exact ⟨.minus :: (a ++ b), by rw [hb]; simp, .minus ha hp⟩
          · cases h
            exact ⟨[], rfl, .nil⟩
    · unfold Pipe.atom at h
      split at h
      · cases h
      · obtain ⟨q, hq, rfl⟩ := Option.map_eq_some_iff.1 h
        exact ⟨[.inputK, .int q.1], by rw [takeInt_some hq]; rfl, .input _⟩
      · obtain ⟨q, hq, rfl⟩ := Option.map_eq_some_iff.1 h
        exact ⟨[.importK, .str q.1], by rw [takeStr_some hq]; rfl, .imported _⟩
      · split at h
        · cases h
        · split at h
          · next hx =>
            subst hx
            obtain ⟨q, hq, rfl⟩ := Option.map_eq_some_iff.1 h
            exact ⟨_, by rw [takeIdent_some hq]; rfl, .qualified _ q.1⟩
          · cases h
            exact ⟨_, rfl, .name _⟩
      · next heq =>
        cases heq
        replace h := Option.bind_eq_some_iff.1 h
        obtain ⟨q, hq, h⟩ := h
        obtain ⟨r, hr, rfl⟩ := Option.map_eq_some_iff.1 h
        obtain ⟨a, rfl, ha⟩ := ih.expr _ _ hq
        exact ⟨_, by rw [expect_some hr]; simp, .paren ha⟩
      · cases h
    · replace h := Option.bind_eq_some_iff.1 (show (Pipe.atom f ts).bind _ = _ from by simpa only [Pipe.joinArg] using h)
      obtain ⟨q, hq, h⟩ := h
      obtain ⟨a, rfl, ha⟩ := ih.atom _ _ hq
      obtain ⟨b, hb, _, h1⟩ := ih.pipes _ _ _ h
      exact ⟨a ++ b, by rw [hb, List.append_assoc], h1 a (.atom ha)⟩
    · unfold Pipe.pipeOp at h
      split at h
      · cases h
      · next heq _ =>
        obtain ⟨a, q, rfl, hs, h1⟩ := op_proj h
        rw [h1]
        exact ⟨_, rfl, .key hs⟩
      · next heq _ =>
        obtain ⟨a, q, rfl, hs, h1⟩ := op_proj h
        rw [h1]
        exact ⟨_, rfl, .map hs⟩
      · next heq =>
        cases heq
        replace h := Option.bind_eq_some_iff.1 h
        obtain ⟨r1, h1, h⟩ := h
        replace h := Option.bind_eq_some_iff.1 h
        obtain ⟨i, hi, h⟩ := h
        replace h := Option.bind_eq_some_iff.1 h
        obtain ⟨r2, h2, h⟩ := h
        replace h := Option.bind_eq_some_iff.1 h
        obtain ⟨q, hq, h⟩ := h
        obtain ⟨r3, h3, rfl⟩ := Option.map_eq_some_iff.1 h
        obtain ⟨a, rfl, ha⟩ := ih.joinArg _ _ hi
        obtain ⟨b, rfl, hb⟩ := projection_sound hq
        exact ⟨_, by rw [expect_some h1, expect_some h2, expect_some h3]; simp, .join ha hb⟩
      · cases h
        exact ⟨_, rfl, .reduce (by simp [App.reducers])⟩
      · cases h
        exact ⟨_, rfl, .reduce (by simp [App.reducers])⟩
      · cases h
        exact ⟨_, rfl, .reduce (by simp [App.reducers])⟩
      · cases h
        exact ⟨_, rfl, .reduce (by simp [App.reducers])⟩
      · obtain ⟨a, t, rfl, hs, h1⟩ := op_term (mk := fun t => .linear _ (.flatMap t)) h
        rw [h1]
        exact ⟨_, by simp, .flatMap hs⟩
      · cases h
        exact ⟨_, rfl, .arrange⟩
      · cases h
        exact ⟨_, rfl, .negate⟩
      · obtain ⟨a, t, rfl, hs, h1⟩ := op_term (mk := fun t => .linear _ (.filter t)) h
        rw [h1]
        exact ⟨_, by simp, .filter hs⟩
      · obtain ⟨a, t, rfl, hs, h1⟩ := op_term (mk := fun t => .linear _ (.enterAt t)) h
        rw [h1]
        exact ⟨_, by simp, .enterAt hs⟩
      · cases h
        exact ⟨_, rfl, .liftIter⟩
      · next heq =>
        cases heq
        replace h := Option.bind_eq_some_iff.1 h
        obtain ⟨r1, h1, h⟩ := h
        replace h := Option.bind_eq_some_iff.1 h
        obtain ⟨i, hi, h⟩ := h
        obtain ⟨r3, h3, rfl⟩ := Option.map_eq_some_iff.1 h
        exact ⟨_, by rw [expect_some h1, takeIdent_some hi, expect_some h3]; simp, .inspect i.1⟩
      · cases h

theorem program_sound (f : Nat) : (∀ ts p, program f ts = some p → (∃ a, ts = a ++ p.2 ∧ SpellsProgram a p.1) ∧ (p.2.head? = some .eof ∨ p.2.head? = some .rbrace)) ∧
    (∀ ts p, stmt f ts = some p → ∃ a, ts = a ++ p.2 ∧ SpellsStmt a p.1) := by
  induction f with
  | zero => exact ⟨fun _ _ h => by simp [program] at h, fun _ _ h => by simp [stmt] at h⟩
  | succ f ih =>
    refine ⟨fun ts p h => ?_, fun ts p h => ?_⟩
    · cases ts with
      | nil => simp [program] at h
      | cons x ts =>
        simp only [program] at h
        split at h
        · next hx =>
          cases h
          exact ⟨⟨[], rfl, .nil⟩, by simpa using hx⟩
        · replace h := Option.bind_eq_some_iff.1 h
          obtain ⟨q, hq, h⟩ := h
          obtain ⟨r, hr, rfl⟩ := Option.map_eq_some_iff.1 h
          obtain ⟨a, ha, hs⟩ := ih.2 _ _ hq
          obtain ⟨⟨b, hb, hp⟩, he⟩ := ih.1 _ _ hr
          exact ⟨⟨a ++ b, by rw [ha, hb, List.append_assoc], .cons hs hp⟩, he⟩
    · unfold stmt at h
      split at h
      · cases h
      · next heq =>
        cases heq
        replace h := Option.bind_eq_some_iff.1 h
        obtain ⟨n, hn, h⟩ := h
        replace h := Option.bind_eq_some_iff.1 h
        obtain ⟨r1, h1, h⟩ := h
        replace h := Option.bind_eq_some_iff.1 h
        obtain ⟨e, he, h⟩ := h
        obtain ⟨r2, h2, rfl⟩ := Option.map_eq_some_iff.1 h
        obtain ⟨a, rfl, ha⟩ := (sound f).expr _ _ he
        exact ⟨_, by rw [takeIdent_some hn, expect_some h1, expect_some h2]; simp, .letS (n := n.1) ha⟩
      · next heq =>
        cases heq
        replace h := Option.bind_eq_some_iff.1 h
        obtain ⟨n, hn, h⟩ := h
        replace h := Option.bind_eq_some_iff.1 h
        obtain ⟨r1, h1, h⟩ := h
        replace h := Option.bind_eq_some_iff.1 h
        obtain ⟨e, he, h⟩ := h
        obtain ⟨r2, h2, rfl⟩ := Option.map_eq_some_iff.1 h
        obtain ⟨a, rfl, ha⟩ := (sound f).expr _ _ he
        exact ⟨_, by rw [takeIdent_some hn, expect_some h1, expect_some h2]; simp, .varS (n := n.1) ha⟩
      · next heq =>
        cases heq
        replace h := Option.bind_eq_some_iff.1 h
        obtain ⟨n, hn, h⟩ := h
        replace h := Option.bind_eq_some_iff.1 h
        obtain ⟨r1, h1, h⟩ := h
        replace h := Option.bind_eq_some_iff.1 h
        obtain ⟨e, he, h⟩ := h
        obtain ⟨r2, h2, rfl⟩ := Option.map_eq_some_iff.1 h
        obtain ⟨a, rfl, ha⟩ := (sound f).expr _ _ he
        exact ⟨_, by rw [takeStr_some hn, expect_some h1, expect_some h2]; simp, .exportS (n := n.1) ha⟩
      · next heq =>
        cases heq
        replace h := Option.bind_eq_some_iff.1 h
        obtain ⟨r1, h1, h⟩ := h
        replace h := Option.bind_eq_some_iff.1 h
        obtain ⟨r2, h2, h⟩ := h
        replace h := Option.bind_eq_some_iff.1 h
        obtain ⟨b, hb, h⟩ := h
        obtain ⟨r3, h3, rfl⟩ := Option.map_eq_some_iff.1 h
        obtain ⟨⟨a, rfl, ha⟩, _⟩ := ih.1 _ _ hb
        exact ⟨_, by rw [expect_some h1, expect_some h2, expect_some h3]; simp, .scopeS ha⟩
      · cases h

/-! ### What is spelled is returned -/

/-- A sum does not go on with these tokens. -/
def Ends (rest : List Tok) : Prop := ∃ x r, rest = x :: r ∧ x ≠ .coloncolon ∧ x ≠ .plus ∧ x ≠ .minus

theorem Ends.follows {rest : List Tok} (h : Ends rest) : Follows rest := by
  obtain ⟨x, r, rfl, h, _⟩ := h
  exact ⟨x, r, rfl, h⟩

theorem parts_follows {b rest : List Tok} {l : List Exp} (h : SpellsParts b l) (hr : Ends rest) : Follows (b ++ rest) := by
  cases h with
  | nil => exact hr.follows
  | plus _ _ => exact ⟨_, _, rfl, by simp⟩
  | minus _ _ => exact ⟨_, _, rfl, by simp⟩

/-- Tokens of a sum that has nothing more. -/
theorem parts_ends {rest : List Tok} (h : Ends rest) : Ev fun f => parts f rest = some ([], rest) := by
  obtain ⟨x, r, rfl, _, h1, h2⟩ := h
  exact .now fun f => by simp [parts, h1, h2]

theorem pipes_ends {e : Exp} {x : Tok} {r : List Tok} (h : x ≠ .pipe) : Ev fun f => pipes f e (x :: r) = some (e, x :: r) := .now fun f => by simp [pipes, h]

theorem ht {b : List Tok} {t : Term} (rest : List Tok) (h : Spells .logic b t) : Ev fun f => App.logic f (b ++ .rparen :: rest) = some (t, .rparen :: rest) :=
  logic_complete h ⟨_, _, rfl, by simp [Tok.rank]⟩

theorem case_paren {a : List Tok} {e : Exp} (ih : ∀ rest p, Ends rest → (Ev fun f => pipes f e rest = some p) → Ev fun f => expr f (a ++ rest) = some p) (rest : List Tok) :
    Ev fun f => atom f (.lparen :: (a ++ [.rparen]) ++ rest) = some (e, rest) := by
  refine (ih (.rparen :: rest) (e, .rparen :: rest) ⟨_, _, rfl, by simp⟩ (pipes_ends (by simp))).succ fun f hf => ?_
  simp [atom, hf, expect_self]

theorem case_sum {a : List Tok} {e : Exp} {b : List Tok} {l : List Exp} (hb : SpellsParts b l) (ih1 : ∀ rest, Follows rest → Ev fun f => atom f (a ++ rest) = some (e, rest))
    (ih2 : ∀ rest, Ends rest → Ev fun f => parts f (b ++ rest) = some (l, rest)) (rest : List Tok) (p : Exp × List Tok) (hr : Ends rest) (hp : Ev fun f => pipes f (concatOf e l) rest = some p) :
    Ev fun f => expr f (a ++ b ++ rest) = some p := by
  rw [List.append_assoc]
  have hs : Ev fun f => sum f (a ++ (b ++ rest)) = some (concatOf e l, rest) := by
    refine ((ih1 _ (parts_follows hb hr)).and (ih2 rest hr)).succ ?_
    rintro f ⟨h1, h2⟩
    simp [sum, h1, h2]
  refine (hs.and hp).succ ?_
  rintro f ⟨h1, h2⟩
  simp [expr, h1, h2]

theorem case_op {e e' : Exp} {b : List Tok} (ih : ∀ rest, Ev fun f => pipeOp f e (b ++ rest) = some (e', rest)) (rest : List Tok) (p : Exp × List Tok) (hp : Ev fun f => pipes f e' rest = some p) :
    Ev fun f => pipes f e (.pipe :: (b ++ rest)) = some p := by
  refine ((ih rest).and hp).succ ?_
  rintro f ⟨h1, h2⟩
  simp [pipes, h1, h2]

theorem case_join {a b : List Tok} {e r : Exp} {p : Term × Term} (ih : ∀ rest p, Follows rest → (Ev fun f => pipes f r rest = some p) → Ev fun f => joinArg f (a ++ rest) = some p)
    (hp : SpellsProj b p) (rest : List Tok) : Ev fun f => pipeOp f e (.joinK :: .lparen :: (a ++ .comma :: (b ++ [.rparen])) ++ rest) = some (.join e r p, rest) := by
  have h1 := ih (.comma :: (b ++ .rparen :: rest)) (r, .comma :: (b ++ .rparen :: rest)) ⟨_, _, rfl, by simp⟩ (pipes_ends (by simp))
  refine (h1.and (projection_complete (rest := .rparen :: rest) hp)).succ ?_
  rintro f ⟨h1, h2⟩
  simp [pipeOp, h1, h2, expect_self]

theorem case_reduce {e : Exp} {x : Tok} {r : Reducer} (h : (x, r) ∈ App.reducers) (rest : List Tok) : Ev fun f => pipeOp f e ([x] ++ rest) = some (.reduce e r, rest) := by
  simp only [App.reducers, List.mem_cons, Prod.mk.injEq, List.not_mem_nil, or_false] at h
  refine .now fun f => ?_
  rcases h with ⟨rfl, rfl⟩ | ⟨rfl, rfl⟩ | ⟨rfl, rfl⟩ | ⟨rfl, rfl⟩ <;> simp [pipeOp]

theorem case_term {e : Exp} {a : List Tok} {t : Term} {k : Tok} {mk : Term → Exp} (h : Spells .logic a t)
    (hk : ∀ f ts, pipeOp (f + 1) e (k :: ts) = (App.expect .lparen ts).bind fun ts => (App.logic f ts).bind fun t => (App.expect .rparen t.2).map fun ts => (mk t.1, ts)) (rest : List Tok) :
    Ev fun f => pipeOp f e (k :: .lparen :: (a ++ [.rparen]) ++ rest) = some (mk t, rest) := by
  refine (ht rest h).succ fun f hf => ?_
  simp [hk, expect_self, hf]

theorem expr_complete {a : List Tok} {e : Exp} (h : SpellsExpr a e) : ∀ rest p, Ends rest → (Ev fun f => pipes f e rest = some p) → Ev fun f => expr f (a ++ rest) = some p := by
  refine SpellsExpr.rec (motive_1 := fun a e _ => ∀ rest, Follows rest → Ev fun f => atom f (a ++ rest) = some (e, rest))
    (motive_2 := fun a l _ => ∀ rest, Ends rest → Ev fun f => parts f (a ++ rest) = some (l, rest))
    (motive_3 := fun a e _ => ∀ rest p, Ends rest → (Ev fun f => pipes f e rest = some p) → Ev fun f => expr f (a ++ rest) = some p)
    (motive_4 := fun a e _ => ∀ rest p, Follows rest → (Ev fun f => pipes f e rest = some p) → Ev fun f => joinArg f (a ++ rest) = some p)
    (motive_5 := fun a e e' _ => ∀ rest, Ev fun f => pipeOp f e (a ++ rest) = some (e', rest))
    ?_ ?_ ?_ ?_ ?_ ?_ ?_ ?_ ?_ ?_ ?_ ?_ ?_ ?_ ?_ ?_ ?_ ?_ ?_ ?_ ?_ ?_ ?_ ?_ h
  · intro n rest _; exact .now fun f => by simp [atom, takeInt]
  · intro n rest _; exact .now fun f => by simp [atom, takeStr]
  · rintro n rest ⟨x, r, rfl, hx⟩; exact .now fun f => by simp [atom, hx]
  · intro n m rest _; exact .now fun f => by simp [atom, takeIdent]
  · intro a e _ ih rest _; exact case_paren ih rest
  · intro rest hr; exact parts_ends hr
  · intro a e b l _ hb ih1 ih2 rest hr
    refine ((ih1 _ (parts_follows hb hr)).and (ih2 rest hr)).succ ?_
    rintro f ⟨h1, h2⟩
    simp [parts, h1, h2]
  · intro a e b l _ hb ih1 ih2 rest hr
    refine ((ih1 _ (parts_follows hb hr)).and (ih2 rest hr)).succ ?_
    rintro f ⟨h1, h2⟩
    simp [parts, h1, h2]
  · intro a e _ ih rest p hr hp
    have := case_sum (b := []) .nil ih (fun rest hr => parts_ends hr) rest p hr hp
    rwa [List.append_nil] at this
  · intro a e b e' l _ hb ih1 ih2 rest p hr hp
    exact case_sum hb ih1 ih2 rest p hr hp
  · intro a e b e' _ _ ih1 ih2 rest p hr hp
    rw [List.append_assoc]
    exact ih1 _ p ⟨_, _, rfl, by simp⟩ (case_op ih2 rest p hp)
  · intro a e _ ih rest p hr hp
    refine ((ih rest hr).and hp).succ ?_
    rintro f ⟨h1, h2⟩
    simp [joinArg, h1, h2]
  · intro a e b e' _ _ ih1 ih2 rest p hr hp
    rw [List.append_assoc]
    exact ih1 _ p ⟨_, _, rfl, by simp⟩ (case_op ih2 rest p hp)
  · intro e a p hp rest
    refine (projection_complete (rest := rest) hp).succ fun f hf => ?_
    simp [pipeOp, hf]
  · intro e a p hp rest
    refine (projection_complete (rest := rest) hp).succ fun f hf => ?_
    simp [pipeOp, hf]
  · intro e a r b p _ hp ih rest; exact case_join ih hp rest
  · intro e x r h rest; exact case_reduce h rest
  · intro e a t h rest; exact case_term (mk := fun t => .linear e (.flatMap t)) h (fun f ts => by simp only [pipeOp]) rest
  · intro e rest; exact .now fun f => by simp [pipeOp]
  · intro e rest; exact .now fun f => by simp [pipeOp]
  · intro e a t h rest; exact case_term (mk := fun t => .linear e (.filter t)) h (fun f ts => by simp only [pipeOp]) rest
  · intro e a t h rest; exact case_term (mk := fun t => .linear e (.enterAt t)) h (fun f ts => by simp only [pipeOp]) rest
  · intro e rest; exact .now fun f => by simp [pipeOp]
  · intro e l rest; exact .now fun f => by simp [pipeOp, expect_self, takeIdent]

theorem expr_before {a r : List Tok} {x : Tok} {e : Exp} (h : SpellsExpr a e) (hx : x ∉ [.pipe, .plus, .minus, .coloncolon]) : Ev fun f => expr f (a ++ x :: r) = some (e, x :: r) := by
  simp only [List.mem_cons, List.not_mem_nil, or_false, not_or] at hx
  exact expr_complete h _ _ ⟨x, r, rfl, hx.2.2.2, hx.2.1, hx.2.2.1⟩ (pipes_ends hx.1)

theorem stmt_head {a : List Tok} {s : St} (h : SpellsStmt a s) : ∃ x r, a = x :: r ∧ x ≠ .eof ∧ x ≠ .rbrace := by
  cases h <;> exact ⟨_, _, rfl, by simp, by simp⟩

theorem program_complete {a : List Tok} {p : List St} (h : SpellsProgram a p) : ∀ rest, rest.head? = some .eof ∨ rest.head? = some .rbrace → Ev fun f => program f (a ++ rest) = some (p, rest) := by
  have he : ∀ {b : List Tok} {e : Exp} (rest : List Tok), SpellsExpr b e → Ev fun f => expr f (b ++ .semi :: rest) = some (e, .semi :: rest) := fun rest h => expr_before h (by simp)
  refine SpellsProgram.rec (motive_1 := fun a s _ => ∀ rest, Ev fun f => stmt f (a ++ rest) = some (s, rest))
    (motive_2 := fun a p _ => ∀ rest, rest.head? = some .eof ∨ rest.head? = some .rbrace → Ev fun f => program f (a ++ rest) = some (p, rest)) ?_ ?_ ?_ ?_ ?_ ?_ h
  · intro n a e h rest
    refine (he rest h).succ fun f hf => ?_
    simp [stmt, takeIdent, expect_self, hf]
  · intro n a e h rest
    refine (he rest h).succ fun f hf => ?_
    simp [stmt, takeIdent, expect_self, hf]
  · intro n a e h rest
    refine (he rest h).succ fun f hf => ?_
    simp [stmt, takeStr, expect_self, hf]
  · intro n a b _ ih rest
    refine (ih (.rbrace :: rest) (by simp)).succ fun f hf => ?_
    simp [stmt, expect_self, hf]
  · intro rest hr
    cases rest with
    | nil => simp at hr
    | cons x r => exact .now fun f => by simp only [List.nil_append, program]; rw [if_pos (by simpa using hr)]
  · intro a s b p hst _ ih1 ih2 rest hr
    obtain ⟨x, r, rfl, h1, h2⟩ := stmt_head hst
    refine ((ih1 (b ++ rest)).and (ih2 rest hr)).succ ?_
    rintro f ⟨h3, h4⟩
    simp only [List.cons_append] at h3
    simp [program, h1, h2, h3, h4]

theorem parse_iff {ts : List Tok} {p : List St} : (∃ f, parse f ts = some p) ↔ ∃ a rest, ts = a ++ rest ∧ SpellsProgram a p ∧ (rest.head? = some .eof ∨ rest.head? = some .rbrace) := by
  constructor
  · rintro ⟨f, h⟩
    obtain ⟨q, hq, rfl⟩ := Option.map_eq_some_iff.1 h
    obtain ⟨⟨a, ha, hs⟩, he⟩ := (program_sound f).1 _ _ hq
    exact ⟨a, q.2, ha, hs, he⟩
  · rintro ⟨a, rest, rfl, ha, he⟩
    obtain ⟨f, hf⟩ := (program_complete ha rest he).exists
    exact ⟨f, by simp [parse, hf]⟩

/-! ### Braces -/

theorem expr_braceless {a : List Tok} {e : Exp} (h : SpellsExpr a e) : App.Braceless a := by
  have hr : App.Braceless [.rparen] := by simp [App.Braceless]
  refine SpellsExpr.rec (motive_1 := fun a _ _ => App.Braceless a) (motive_2 := fun a _ _ => App.Braceless a) (motive_3 := fun a _ _ => App.Braceless a)
    (motive_4 := fun a _ _ => App.Braceless a) (motive_5 := fun a _ _ _ => App.Braceless a)
    ?_ ?_ ?_ ?_ ?_ ?_ ?_ ?_ ?_ ?_ ?_ ?_ ?_ ?_ ?_ ?_ ?_ ?_ ?_ ?_ ?_ ?_ ?_ ?_ h
  · intro n; simp [App.Braceless]
  · intro n; simp [App.Braceless]
  · intro n; simp [App.Braceless]
  · intro n m; simp [App.Braceless]
  · intro a e _ h; exact (h.append hr).cons (by simp) (by simp)
  · exact App.braceless_nil
  · intro a e b l _ _ h1 h2; exact (h1.append h2).cons (by simp) (by simp)
  · intro a e b l _ _ h1 h2; exact (h1.append h2).cons (by simp) (by simp)
  · intro a e _ h; exact h
  · intro a e b e' l _ _ h1 h2; exact h1.append h2
  · intro a e b e' _ _ h1 h2; exact h1.append (h2.cons (by simp) (by simp))
  · intro a e _ h; exact h
  · intro a e b e' _ _ h1 h2; exact h1.append (h2.cons (by simp) (by simp))
  · intro e a p hp; exact (App.proj_braceless hp).cons (by simp) (by simp)
  · intro e a p hp; exact (App.proj_braceless hp).cons (by simp) (by simp)
  · intro e a r b p _ hp h; exact ((h.append (((App.proj_braceless hp).append hr).cons (by simp) (by simp))).cons (by simp) (by simp)).cons (by simp) (by simp)
  · intro e x r hx; exact App.braceless_nil.cons (App.reducer_brace hx).1 (App.reducer_brace hx).2
  · intro e a t ht; exact (((App.spells_braceless ht).append hr).cons (by simp) (by simp)).cons (by simp) (by simp)
  · intro e; simp [App.Braceless]
  · intro e; simp [App.Braceless]
  · intro e a t ht; exact (((App.spells_braceless ht).append hr).cons (by simp) (by simp)).cons (by simp) (by simp)
  · intro e a t ht; exact (((App.spells_braceless ht).append hr).cons (by simp) (by simp)).cons (by simp) (by simp)
  · intro e; simp [App.Braceless]
  · intro e l; simp [App.Braceless]

/-- Programs have as many closing braces as opening ones. -/
theorem program_even {a : List Tok} {p : List St} (h : SpellsProgram a p) : a.count .rbrace = a.count .lbrace := by
  have semi : ∀ {b : List Tok} {e : Exp}, SpellsExpr b e → App.Braceless (b ++ [.semi]) := fun h => (expr_braceless h).append (by simp [App.Braceless])
  have : App.Even a := by
    refine SpellsProgram.rec (motive_1 := fun a _ _ => App.Even a) (motive_2 := fun a _ _ => App.Even a) ?_ ?_ ?_ ?_ ?_ ?_ h
    · intro n a e h; exact (((semi h).cons (by simp) (by simp)).cons (by simp) (by simp)).cons (by simp) (by simp) |>.even
    · intro n a e h; exact (((semi h).cons (by simp) (by simp)).cons (by simp) (by simp)).cons (by simp) (by simp) |>.even
    · intro n a e h; exact (((semi h).cons (by simp) (by simp)).cons (by simp) (by simp)).cons (by simp) (by simp) |>.even
    · intro n a b _ ih
      simp only [App.Even] at ih
      simp [App.Even, List.count_cons, ih]
    · rfl
    · intro a s b p _ _ h1 h2; exact h1.append h2
  exact this.symm

end DD.Ir.Pipe
