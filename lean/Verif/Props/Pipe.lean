import Verif.Proofs.PipeApplicative
import Verif.Proofs.PipeLex

/-!
# C79: programs in the pipe syntax mean what the grammar says

The grammar is in `Spec/Pipe.lean`.
-/

namespace DD

open Ir
open Ir.App (Tok Exp St)

/-- Before a token that does not continue a collection, the parser takes tokens as a collection if they spell it, with the precedence of the grammar. -/
theorem C79_expr {a r : List Tok} {x : Tok} {e : Exp} (hx : x ∉ [.pipe, .plus, .minus, .coloncolon]) : (∃ f, Pipe.expr f (a ++ x :: r) = some (e, x :: r)) ↔ Pipe.SpellsExpr a e := by
  constructor
  · rintro ⟨f, hf⟩
    obtain ⟨b, hb, hs⟩ := (Pipe.sound f).expr _ _ hf
    rw [List.append_cancel_right hb]
    exact hs
  · intro h
    exact (Pipe.expr_before h hx).exists

/-- `a - b | distinct | negate;`: the operators apply to the difference, the first first. -/
example : Pipe.expr 20 [.ident ['a'], .minus, .ident ['b'], .pipe, .distinctK, .pipe, .negateK, .semi] =
    some (.linear (.reduce (.concat [.name ['a'], .linear (.name ['b']) .negate]) .distinct) .negate, [.semi]) := rfl

/-- `a - (b | distinct);` -/
example : Pipe.expr 20 [.ident ['a'], .minus, .lparen, .ident ['b'], .pipe, .distinctK, .rparen, .semi] =
    some (.concat [.name ['a'], .linear (.reduce (.name ['b']) .distinct) .negate], [.semi]) := rfl

/-- The operators of a join's argument apply to it: `a | join(b | distinct, ($0))`. -/
example : Pipe.expr 20 [.ident ['a'], .pipe, .joinK, .lparen, .ident ['b'], .pipe, .distinctK, .comma, .lparen, .dollar, .int 0, .rparen, .rparen, .semi] =
    some (.join (.name ['a']) (.reduce (.name ['b']) .distinct) (.tuple [.spread (.var 0)], .tuple []), [.semi]) := rfl

/-- A sum in a join's argument needs parentheses. -/
example : Pipe.expr 20 [.ident ['a'], .pipe, .joinK, .lparen, .ident ['b'], .plus, .ident ['c'], .comma, .lparen, .rparen, .rparen, .semi] = none := rfl

/-- The grammar of collections is not ambiguous. -/
theorem C79_one_expr {a : List Tok} {e e' : Exp} (h : Pipe.SpellsExpr a e) (h' : Pipe.SpellsExpr a e') : e = e' :=
  congrArg Prod.fst (App.Ev.unique (Pipe.expr_before (x := .eof) (r := []) h (by simp)) (Pipe.expr_before h' (by simp)))

example : Pipe.SpellsExpr [.ident ['a'], .minus, .ident ['b'], .pipe, .distinctK] (.reduce (.concat [.name ['a'], .linear (.name ['b']) .negate]) .distinct) :=
  .op (a := [.ident ['a'], .minus, .ident ['b']]) (.sum (a := [.ident ['a']]) (.name _) (.minus (a := [.ident ['b']]) (b := []) (.name _) .nil)) (.reduce (by simp [App.reducers]))

/-- The parser takes all tokens up to the end as a program if they spell it. -/
theorem C79_program {a : List Tok} {p : List St} : (∃ f, Pipe.program f (a ++ [.eof]) = some (p, [.eof])) ↔ Pipe.SpellsProgram a p := by
  constructor
  · rintro ⟨f, hf⟩
    obtain ⟨⟨b, hb, hs⟩, _⟩ := (Pipe.program_sound f).1 _ _ hf
    rw [List.append_cancel_right hb]
    exact hs
  · intro h
    exact (Pipe.program_complete h _ (by simp)).exists

/-- The tokens of `s: { var x = a + x | distinct; } export "y" = s::x;`. -/
def tokens79 : List Tok :=
  [.ident ['s'], .colon, .lbrace, .varK, .ident ['x'], .eq, .ident ['a'], .plus, .ident ['x'], .pipe, .distinctK, .semi, .rbrace, .exportK, .str ['y'], .eq, .ident ['s'], .coloncolon, .ident ['x'], .semi]

/-- The program they spell. -/
def program79 : List St := [.scopeS ['s'] [.varS ['x'] (.reduce (.concat [.name ['a'], .name ['x']]) .distinct)], .exportS ['y'] (.qualified ['s'] ['x'])]

theorem spelled79 : Pipe.SpellsProgram tokens79 program79 := C79_program.1 ⟨30, rfl⟩

/-- The grammar of programs is not ambiguous. -/
theorem C79_one_program {a : List Tok} {p p' : List St} (h : Pipe.SpellsProgram a p) (h' : Pipe.SpellsProgram a p') : p = p' :=
  congrArg Prod.fst (App.Ev.unique (Pipe.program_complete h [.eof] (by simp)) (Pipe.program_complete h' [.eof] (by simp)))

example {p : List St} (h : Pipe.SpellsProgram tokens79 p) : p = program79 := C79_one_program h spelled79

/-- Tokens that spell a program are parsed as this program. -/
theorem C79_accepts {a : List Tok} {p : List St} (h : Pipe.SpellsProgram a p) : ∃ f, Pipe.parse f (a ++ [.eof]) = some p := Pipe.parse_iff.2 ⟨a, [.eof], rfl, h, Or.inl rfl⟩

example : ∃ f, Pipe.parse f (tokens79 ++ [.eof]) = some program79 := C79_accepts spelled79

/-- What is parsed does not depend on how deep the recursion may be. -/
theorem C79_one_parse {ts : List Tok} {p q : List St} {f g : Nat} (hp : Pipe.parse f ts = some p) (hq : Pipe.parse g ts = some q) : p = q := by
  obtain ⟨u, hu, rfl⟩ := Option.map_eq_some_iff.1 hp
  obtain ⟨v, hv, rfl⟩ := Option.map_eq_some_iff.1 hq
  obtain ⟨⟨a, ha, hsa⟩, hea⟩ := (Pipe.program_sound f).1 _ _ hu
  obtain ⟨⟨b, hb, hsb⟩, heb⟩ := (Pipe.program_sound g).1 _ _ hv
  have h1 := Pipe.program_complete hsa _ hea
  have h2 := Pipe.program_complete hsb _ heb
  rw [← ha] at h1
  rw [← hb] at h2
  exact congrArg Prod.fst (App.Ev.unique h1 h2)

example : Pipe.parse 30 (tokens79 ++ [.eof]) = some program79 := rfl

/-- Tokens without a closing brace outside of a scope (any prefix has as many opening braces at least) are accepted only if all of them spell the program. What is missing: with a stray closing brace, only
those before it need to. -/
theorem C79_parse_partial {ts : List Tok} {p : List St} (he : .eof ∉ ts) (hb : ∀ a r, ts = a ++ .rbrace :: r → a.count .rbrace < a.count .lbrace) : (∃ f, Pipe.parse f (ts ++ [.eof]) = some p) ↔ Pipe.SpellsProgram ts p := by
  constructor
  · intro h
    obtain ⟨a, rest, hts, hs, hr⟩ := Pipe.parse_iff.1 h
    cases rest with
    | nil => simp at hr
    | cons x r =>
      have hcase : r = [] ∧ a = ts ∨ ∃ r', ts = a ++ x :: r' := by
        rcases List.eq_nil_or_concat r with rfl | ⟨r', y, rfl⟩
        · left
          exact ⟨rfl, (List.append_inj_left' hts rfl).symm⟩
        · right
          have : ts ++ [.eof] = (a ++ x :: r') ++ [y] := by rw [hts]; simp
          exact ⟨r', List.append_inj_left' this rfl⟩
      rcases hcase with ⟨_, rfl⟩ | ⟨r', hr'⟩
      · exact hs
      · simp only [List.head?_cons, Option.some.injEq] at hr
        rcases hr with rfl | rfl
        · exact absurd (by rw [hr']; simp) he
        · have := hb a r' hr'
          have hev := Pipe.program_even hs
          omega
  · exact C79_accepts

/-- `s: { } let x = a`: an unfinished program is not accepted. -/
example (p : List St) : ¬ Pipe.SpellsProgram [.ident ['s'], .colon, .lbrace, .rbrace, .letK, .ident ['x'], .eq, .ident ['a']] p := by
  intro h
  obtain ⟨f, hf⟩ := (Pipe.program_complete h [.eof] (by simp))
  have hs : Pipe.program (f + 20) [.ident ['s'], .colon, .lbrace, .rbrace, .letK, .ident ['x'], .eq, .ident ['a'], .eof] = none := by
    simp [Pipe.program, Pipe.stmt, Pipe.expr, Pipe.sum, Pipe.atom, Pipe.parts, Pipe.pipes, App.takeIdent, App.expect, Pipe.concatOf]
  have := hf (f + 20) (by omega)
  simp only [List.cons_append, List.nil_append] at this
  rw [hs] at this
  cases this

/-- Its braces are as the theorem asks. -/
example (a r : List Tok) (h : [.ident ['s'], .colon, .lbrace, .rbrace, .letK, .ident ['x'], .eq, .ident ['a']] = a ++ Tok.rbrace :: r) : a.count .rbrace < a.count .lbrace := by
  rcases a with _ | ⟨_, _ | ⟨_, _ | ⟨_, _ | ⟨_, _ | ⟨_, _ | ⟨_, _ | ⟨_, _ | ⟨_, _⟩⟩⟩⟩⟩⟩⟩⟩ <;> simp_all <;> obtain ⟨rfl, rfl, rfl, _⟩ := h <;> decide

/-- What comes after a stray closing brace is dropped, whatever it is. -/
theorem C79_stray_brace_defect {a r : List Tok} {p : List St} (h : Pipe.SpellsProgram a p) : ∃ f, Pipe.parse f (a ++ .rbrace :: r) = some p := Pipe.parse_iff.2 ⟨a, .rbrace :: r, rfl, h, Or.inr rfl⟩

/-- Another export is lost. -/
example : ∃ f, Pipe.parse f (tokens79 ++ .rbrace :: [.exportK, .str ['z'], .eq, .ident ['a'], .semi, .eof]) = some program79 := C79_stray_brace_defect spelled79

/-- The tokenizer accepts a text if it can be read as tokens, and returns these tokens. -/
theorem C79_tokens (s : List Char) (ts : List Tok) : Pipe.tokenize s = some ts ↔ Pipe.Reads s ts := Pipe.tokenize_iff

/-- Comments and blanks are skipped, and symbols are as long as possible. -/
example : Pipe.tokenize "a|key($0)-- |\n ==b:map".toList = some [.ident ['a'], .pipe, .keyK, .lparen, .dollar, .int 0, .rparen, .eqeq, .ident ['b'], .colon, .mapK, .eof] := by decide +kernel

/-- A text has one reading. -/
theorem C79_one_reading {s : List Char} {ts ts' : List Tok} (h : Pipe.Reads s ts) (h' : Pipe.Reads s ts') : ts = ts' := by
  rw [← Pipe.tokenize_iff] at h h'
  rw [h] at h'
  exact Option.some.inj h'

/-- The text of the examples. -/
def text79 : List Char := "s: { var x = a + x | distinct; } -- reach\nexport \"y\" = s::x;".toList

theorem reads79 : Pipe.Reads text79 (tokens79 ++ [.eof]) := Pipe.tokenize_iff.1 (by decide +kernel)

/-- A text that can be read as tokens that spell a program is parsed as this program. -/
theorem C79_text {s : List Char} {a : List Tok} {p : List St} (hr : Pipe.Reads s (a ++ [.eof])) (hp : Pipe.SpellsProgram a p) : ∃ f, Pipe.parseText f s = some p := by
  obtain ⟨f, hf⟩ := C79_accepts hp
  exact ⟨f, by simp [Pipe.parseText, Pipe.tokenize_iff.2 hr, hf]⟩

example : ∃ f, Pipe.parseText f text79 = some program79 := C79_text reads79 spelled79

/-- A text in which no closing brace comes before its opening one is parsed as a program exactly if it can be read as tokens that spell it. What is missing: stray closing braces, after which the rest is
dropped. -/
theorem C79_text_partial {s : List Char} {p : List St} (hb : ∀ a r, Pipe.Reads s (a ++ .rbrace :: r) → a.count .rbrace < a.count .lbrace) :
    (∃ f, Pipe.parseText f s = some p) ↔ ∃ a, Pipe.Reads s (a ++ [.eof]) ∧ Pipe.SpellsProgram a p := by
  constructor
  · rintro ⟨f, h⟩
    obtain ⟨ts, hts, h⟩ := Option.bind_eq_some_iff.1 (show (Pipe.tokenize s).bind _ = _ from h)
    have hts := Pipe.tokenize_iff.1 hts
    obtain ⟨a, rfl, ha⟩ := Pipe.reads_eof hts
    refine ⟨a, hts, (C79_parse_partial ha fun b r e => hb b (r ++ [.eof]) ?_).1 ⟨f, h⟩⟩
    rw [e] at hts
    simpa using hts
  · rintro ⟨a, hr, hp⟩
    exact C79_text hr hp

/-- The braces of the example are as the theorem asks. -/
example (a r : List Tok) (h : Pipe.Reads text79 (a ++ .rbrace :: r)) : a.count .rbrace < a.count .lbrace := by
  have h := C79_one_reading h reads79
  have hs : a = tokens79.take 12 := by
    have hn : ∀ i, (tokens79 ++ [.eof])[i]? = some Tok.rbrace → i = 12 := by
      intro i hi
      by_cases hi' : i < 21
      · have : ∀ i < 21, (tokens79 ++ [.eof])[i]? = some Tok.rbrace → i = 12 := by decide +kernel
        exact this i hi' hi
      · rw [List.getElem?_eq_none (by show 21 ≤ i; omega)] at hi
        cases hi
    have hl := hn a.length (by rw [← h]; simp)
    have := congrArg (List.take 12) h
    rw [← hl, List.take_left, hl] at this
    exact this
  rw [hs]
  decide +kernel

/-- What can be written in the pipe syntax can be written in the applicative syntax. -/
theorem C79_to_applicative {a : List Tok} {p : List St} (h : Pipe.SpellsProgram a p) : ∃ b, App.SpellsProgram b p := Pipe.program_applicative h

example : ∃ b, App.SpellsProgram b program79 := C79_to_applicative spelled79

/-- What can be written in the applicative syntax can be written in the pipe syntax, but for sums of one collection, for which the collection is written. -/
theorem C79_from_applicative {a : List Tok} {p : List St} (h : App.SpellsProgram a p) : ∃ b, Pipe.SpellsProgram b (Pipe.plainProgram p) := Pipe.program_of_applicative h

/-- `let x = CONCAT(NEGATE(a));` -/
example : App.SpellsProgram [.letK, .ident ['x'], .eq, .concatK, .lparen, .negateK, .lparen, .ident ['a'], .rparen, .rparen, .semi] [.letS ['x'] (.concat [.linear (.name ['a']) .negate])] :=
  .cons (b := []) (.letS (a := [.concatK, .lparen, .negateK, .lparen, .ident ['a'], .rparen, .rparen]) (.concat (.one (.negate (.name _))))) .nil

/-- `let x = a | negate;` -/
example : Pipe.plainProgram [.letS ['x'] (.concat [.linear (.name ['a']) .negate])] = [.letS ['x'] (.linear (.name ['a']) .negate)] := rfl

end DD
