import Verif.Proofs.ApplicativeComplete
import Verif.Proofs.ApplicativeLex

/-! # Texts, tokens and programs of the applicative syntax together -/

namespace DD.Ir.App

theorem Ev.unique {α : Type*} {g : Nat → Option α} {a b : α} (ha : Ev fun f => g f = some a) (hb : Ev fun f => g f = some b) : a = b := by
  obtain ⟨f, h1, h2⟩ := (ha.and hb).exists
  rw [h1] at h2
  exact Option.some.inj h2

/-- The end of the text is the last token, and no other. -/
theorem reads_eof {s : List Char} {ts : List Tok} (h : Reads s ts) : ∃ a, ts = a ++ [.eof] ∧ .eof ∉ a := by
  have hsym : ∀ p ∈ symbols, p.2 ≠ .eof := by decide +kernel
  have hkey : ∀ p ∈ keywords, p.2 ≠ .eof := by decide +kernel
  have step : ∀ {t : Tok} {ts : List Tok}, t ≠ .eof → (∃ a, ts = a ++ [.eof] ∧ .eof ∉ a) → ∃ a, t :: ts = a ++ [.eof] ∧ .eof ∉ a := by
    rintro t ts ht ⟨a, rfl, ha⟩
    exact ⟨t :: a, rfl, by simp only [List.mem_cons, not_or]; exact ⟨fun e => ht e.symm, ha⟩⟩
  induction h with
  | done => exact ⟨[], rfl, by simp⟩
  | blank _ _ ih => exact ih
  | comment _ _ ih => exact ih
  | lastComment _ => exact ⟨[], rfl, by simp⟩
  | symbol hm _ _ ih => exact step (hsym _ hm) ih
  | str _ _ ih => exact step (by simp) ih
  | int _ _ _ _ _ ih => exact step (by simp) ih
  | keyword hm _ _ ih => exact step (hkey _ hm) ih
  | ident _ _ _ _ _ ih => exact step (by simp) ih

/-- What is left after a program is the end of the text or begins with a closing brace. -/
theorem reads_rest {s : List Char} {a rest : List Tok} (h : Reads s (a ++ rest)) (hr : rest.head? = some .eof ∨ rest.head? = some .rbrace) : rest = [.eof] ∨ ∃ r, rest = .rbrace :: r := by
  cases rest with
  | nil => simp at hr
  | cons x r =>
    simp only [List.head?_cons, Option.some.injEq] at hr
    rcases hr with rfl | rfl
    · obtain ⟨b, hb, hn⟩ := reads_eof h
      left
      rcases List.append_eq_append_iff.1 hb with ⟨c, rfl, hc⟩ | ⟨c, rfl, hc⟩
      · cases c with
        | nil => simpa using hc
        | cons y c =>
          rw [List.cons_append, List.cons.injEq] at hc
          exact absurd (by rw [← hc.1]; simp) hn
      · cases c with
        | nil => simpa using hc.symm
        | cons y c =>
          rw [List.cons_append, List.cons.injEq] at hc
          have := congrArg List.length hc.2
          simp at this
    · exact Or.inr ⟨r, rfl⟩

theorem parse_iff {s : List Char} {p : List St} : (∃ f, parse f s = some p) ↔ ∃ a rest, Reads s (a ++ rest) ∧ SpellsProgram a p ∧ (rest = [.eof] ∨ ∃ r, rest = .rbrace :: r) := by
  constructor
  · rintro ⟨f, h⟩
    obtain ⟨ts, hts, h⟩ := Option.bind_eq_some_iff.1 (show (tokenize s).bind _ = _ from h)
    obtain ⟨q, hq, rfl⟩ := Option.map_eq_some_iff.1 h
    obtain ⟨⟨a, rfl, ha⟩, he⟩ := (program_sound f).1 _ _ hq
    exact ⟨a, q.2, tokenize_iff.1 hts, ha, reads_rest (tokenize_iff.1 hts) he⟩
  · rintro ⟨a, rest, hr, ha, he⟩
    obtain ⟨f, hf⟩ := (program_complete ha rest (by rcases he with rfl | ⟨r, rfl⟩ <;> simp)).exists
    exact ⟨f, by simp [parse, tokenize_iff.2 hr, hf]⟩

theorem parse_unique {s : List Char} {p q : List St} {f g : Nat} (hp : parse f s = some p) (hq : parse g s = some q) : p = q := by
  obtain ⟨ts, hts, h⟩ := Option.bind_eq_some_iff.1 (show (tokenize s).bind _ = _ from hp)
  obtain ⟨u, hu, rfl⟩ := Option.map_eq_some_iff.1 h
  obtain ⟨ts', hts', h⟩ := Option.bind_eq_some_iff.1 (show (tokenize s).bind _ = _ from hq)
  obtain ⟨v, hv, rfl⟩ := Option.map_eq_some_iff.1 h
  rw [hts] at hts'
  cases hts'
  obtain ⟨⟨a, ha, hsa⟩, hea⟩ := (program_sound f).1 _ _ hu
  obtain ⟨⟨b, hb, hsb⟩, heb⟩ := (program_sound g).1 _ _ hv
  have h1 := program_complete hsa _ hea
  have h2 := program_complete hsb _ heb
  rw [← ha] at h1
  rw [← hb] at h2
  exact congrArg Prod.fst (Ev.unique h1 h2)

/-! ### Braces -/

/-- No braces. -/
def Braceless (a : List Tok) : Prop := .lbrace ∉ a ∧ .rbrace ∉ a

theorem Braceless.append {a b : List Tok} (ha : Braceless a) (hb : Braceless b) : Braceless (a ++ b) := by
  simp only [Braceless, List.mem_append, not_or]
  exact ⟨⟨ha.1, hb.1⟩, ha.2, hb.2⟩

theorem Braceless.cons {x : Tok} {a : List Tok} (h1 : x ≠ .lbrace) (h2 : x ≠ .rbrace) (ha : Braceless a) : Braceless (x :: a) := by
  simp only [Braceless, List.mem_cons, not_or]
  exact ⟨⟨h1.symm, ha.1⟩, h2.symm, ha.2⟩

theorem braceless_nil : Braceless [] := ⟨by simp, by simp⟩

theorem comparison_brace {x : Tok} {op : BinOp} (h : (x, op) ∈ comparisons) : x ≠ .lbrace ∧ x ≠ .rbrace := by
  have : ∀ p ∈ comparisons, p.1 ≠ .lbrace ∧ p.1 ≠ .rbrace := by decide
  exact this _ h

theorem sum_brace {x : Tok} {op : BinOp} (h : (x, op) ∈ sums) : x ≠ .lbrace ∧ x ≠ .rbrace := by
  have : ∀ p ∈ sums, p.1 ≠ .lbrace ∧ p.1 ≠ .rbrace := by decide
  exact this _ h

theorem reducer_brace {x : Tok} {r : Reducer} (h : (x, r) ∈ reducers) : x ≠ .lbrace ∧ x ≠ .rbrace := by
  have : ∀ p ∈ reducers, p.1 ≠ .lbrace ∧ p.1 ≠ .rbrace := by decide
  exact this _ h

theorem spells_braceless {L : Level} {a : List Tok} {t : Term} (h : Spells L a t) : Braceless a := by
  refine Spells.rec (motive_1 := fun _ a _ _ => Braceless a) (motive_2 := fun a _ _ => Braceless a)
    ?_ ?_ ?_ ?_ ?_ ?_ ?_ ?_ ?_ ?_ ?_ ?_ ?_ ?_ ?_ ?_ ?_ ?_ ?_ h
  · intro a b l r _ _ h1 h2; exact h1.append (h2.cons (by simp) (by simp))
  · intro a t _ h; exact h
  · intro a b l r y op _ _ hx h1 h2; exact h1.append (h2.cons (comparison_brace hx).1 (comparison_brace hx).2)
  · intro a t _ h; exact h
  · intro a b l r y op _ _ hx h1 h2; exact h1.append (h2.cons (sum_brace hx).1 (sum_brace hx).2)
  · intro a t _ h; exact h
  · intro a b l r _ _ h1 h2; exact h1.append (h2.cons (by simp) (by simp))
  · intro a t _ h; exact h
  · intro a t _ h; exact h.cons (by simp) (by simp)
  · intro a t _ h; exact h
  · intro n; simp [Braceless]
  · intro n; simp [Braceless]
  · intro n; simp [Braceless]
  · intro a t _ h; exact (h.append (by simp [Braceless])).cons (by simp) (by simp)
  · intro name a l t _ _ h; exact ((h.append (by simp [Braceless])).cons (by simp) (by simp)).cons (by simp) (by simp)
  · intro a t i _ h; exact h.append (by simp [Braceless])
  · exact braceless_nil
  · intro a t _ h; exact h
  · intro a b t l _ _ _ h1 h2; exact h1.append (h2.cons (by simp) (by simp))

theorem field_braceless {a : List Tok} {t : Term} (h : SpellsField a t) : Braceless a := by
  cases h with
  | splice n => simp [Braceless]
  | term h _ => exact spells_braceless h

theorem fields_braceless {a : List Tok} {l : List Term} (h : SpellsFields a l) : Braceless a := by
  induction h with
  | nil => exact braceless_nil
  | one h => exact field_braceless h
  | more h _ _ ih => exact (field_braceless h).append (ih.cons (by simp) (by simp))

theorem proj_braceless {a : List Tok} {p : Term × Term} (h : SpellsProj a p) : Braceless a := by
  cases h with
  | key h => exact ((fields_braceless h).append (by simp [Braceless])).cons (by simp) (by simp)
  | both h h' => exact ((fields_braceless h).append (((fields_braceless h').append (by simp [Braceless])).cons (by simp) (by simp))).cons (by simp) (by simp)

theorem expr_braceless {a : List Tok} {e : Exp} (h : SpellsExpr a e) : Braceless a := by
  have two : ∀ {x y : Tok} {a : List Tok}, Braceless [x, y] → Braceless a → Braceless (x :: y :: a) := fun h1 h2 => Braceless.append h1 h2
  have hr : Braceless [.rparen] := by simp [Braceless]
  refine SpellsExpr.rec (motive_1 := fun a _ _ => Braceless a) (motive_2 := fun a _ _ => Braceless a) ?_ ?_ ?_ ?_ ?_ ?_ ?_ ?_ ?_ ?_ ?_ ?_ ?_ ?_ ?_ ?_ ?_ h
  · intro n; simp [Braceless]
  · intro n; simp [Braceless]
  · intro n; simp [Braceless]
  · intro n m; simp [Braceless]
  · intro a e b p _ hp ih; exact two (by simp [Braceless]) (ih.append (((proj_braceless hp).append hr).cons (by simp) (by simp)))
  · intro a e b e' c p _ _ hp ih1 ih2; exact two (by simp [Braceless]) (ih1.append ((ih2.append (((proj_braceless hp).append hr).cons (by simp) (by simp))).cons (by simp) (by simp)))
  · intro a e x r _ hx ih; exact two (by simp [Braceless]) (ih.append ((hr.cons (reducer_brace hx).1 (reducer_brace hx).2).cons (by simp) (by simp)))
  · intro a e b t _ hb ih; exact two (by simp [Braceless]) (ih.append (((spells_braceless hb).append hr).cons (by simp) (by simp)))
  · intro a e _ ih; exact two (by simp [Braceless]) (ih.append hr)
  · intro a e b t _ hb ih; exact two (by simp [Braceless]) (ih.append (((spells_braceless hb).append hr).cons (by simp) (by simp)))
  · intro a e _ ih; exact two (by simp [Braceless]) (ih.append hr)
  · intro a e b t _ hb ih; exact two (by simp [Braceless]) (ih.append (((spells_braceless hb).append hr).cons (by simp) (by simp)))
  · intro a e l _ ih; exact two (by simp [Braceless]) (ih.append (by simp [Braceless]))
  · intro a l _ ih; exact two (by simp [Braceless]) (ih.append hr)
  · intro a e _ ih; exact two (by simp [Braceless]) (ih.append hr)
  · intro a e _ ih; exact ih
  · intro a b e l _ _ ih1 ih2; exact ih1.append (ih2.cons (by simp) (by simp))

/-- As many closing braces as opening ones. -/
def Even (a : List Tok) : Prop := a.count .lbrace = a.count .rbrace

theorem Braceless.even {a : List Tok} (h : Braceless a) : Even a := by
  rw [Even, List.count_eq_zero_of_not_mem h.1, List.count_eq_zero_of_not_mem h.2]

theorem Even.append {a b : List Tok} (ha : Even a) (hb : Even b) : Even (a ++ b) := by
  rw [Even, List.count_append, List.count_append, ha, hb]

theorem program_even {a : List Tok} {p : List St} (h : SpellsProgram a p) : Even a := by
  have semi : ∀ {b : List Tok} {e : Exp}, SpellsExpr b e → Braceless (b ++ [.semi]) := fun h => (expr_braceless h).append (by simp [Braceless])
  refine SpellsProgram.rec (motive_1 := fun a _ _ => Even a) (motive_2 := fun a _ _ => Even a) ?_ ?_ ?_ ?_ ?_ ?_ ?_ h
  · intro n a e h; exact (((semi h).cons (by simp) (by simp)).cons (by simp) (by simp)).cons (by simp) (by simp) |>.even
  · intro n a e h; exact (((semi h).cons (by simp) (by simp)).cons (by simp) (by simp)).cons (by simp) (by simp) |>.even
  · intro n a e h; exact (((semi h).cons (by simp) (by simp)).cons (by simp) (by simp)).cons (by simp) (by simp) |>.even
  · intro n a b _ ih
    simp only [Even] at ih
    simp [Even, List.count_cons, ih]
  · intro n a b _ ih
    simp only [Even] at ih
    simp [Even, List.count_cons, ih]
  · rfl
  · intro a s b p _ _ h1 h2; exact h1.append h2

end DD.Ir.App
