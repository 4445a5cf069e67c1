import Verif.Proofs.Applicative

/-!
# C78: programs in the applicative syntax mean what the grammar says

The grammar is in `Spec/Applicative.lean`.
-/

namespace DD

open Ir Ir.App

/-- The tokenizer accepts a text if it can be read as tokens, and returns these tokens. -/
theorem C78_tokens (s : List Char) (ts : List Tok) : tokenize s = some ts ↔ Reads s ts := tokenize_iff

/-- Comments and blanks are skipped, and symbols are as long as possible. -/
example : tokenize "a<=-- x\n b::c :\"--\"".toList = some [.ident ['a'], .lteq, .ident ['b'], .coloncolon, .ident ['c'], .colon, .str ['-', '-'], .eof] := by decide +kernel

/-- A text has one reading. -/
theorem C78_one_reading {s : List Char} {ts ts' : List Tok} (h : Reads s ts) (h' : Reads s ts') : ts = ts' := by
  rw [← tokenize_iff] at h h'
  rw [h] at h'
  exact Option.some.inj h'

example : Reads "x1 (".toList [.ident ['x', '1'], .lparen, .eof] := tokenize_iff.1 (by decide +kernel)

/-- Before a token that does not continue a term, the parser takes tokens as a term if they spell it, with the precedence of the grammar. -/
theorem C78_term {a r : List Tok} {x : Tok} {t : Term} (hx : x ∉ [.lbracket, .star, .plus, .minus, .eqeq, .noteq, .lt, .lteq, .gt, .gteq, .andand]) :
    (∃ f, logic f (a ++ x :: r) = some (t, x :: r)) ↔ Spells .logic a t := by
  constructor
  · rintro ⟨f, hf⟩
    obtain ⟨b, hb, hs⟩ := (sound f).logic _ _ hf
    rw [List.append_cancel_right hb]
    exact hs
  · intro h
    refine (logic_complete h ⟨x, r, rfl, ?_⟩).exists
    cases x <;> simp_all [Tok.rank]

/-- `1 - 2 - 3 * $0[4]` is `(1 - 2) - (3 * ($0[4]))`. -/
example : logic 20 [.int 1, .minus, .int 2, .minus, .int 3, .star, .dollar, .int 0, .lbracket, .int 4, .rbracket, .rparen] =
    some (.binary .sub (.binary .sub (.int 1) (.int 2)) (.binary .mul (.int 3) (.proj (.var 0) 4)), [.rparen]) := rfl

/-- Comparisons do not associate: after `1 < 2` the parser stops. -/
example : logic 20 [.int 1, .lt, .int 2, .lt, .int 3, .rparen] = some (.binary .lt (.int 1) (.int 2), [.lt, .int 3, .rparen]) := rfl

/-- The grammar of terms is not ambiguous. -/
theorem C78_one_term {a : List Tok} {t t' : Term} (h : Spells .logic a t) (h' : Spells .logic a t') : t = t' := by
  have hs : Stop 5 [.eof] := ⟨_, _, rfl, by simp [Tok.rank]⟩
  exact congrArg Prod.fst (Ev.unique (logic_complete h hs) (logic_complete h' hs))

/-- `-$0 * 2` is `(-$0) * 2`. -/
example : Spells .logic [.minus, .dollar, .int 0, .star, .int 2] (.binary .mul (.unary .neg (.var 0)) (.int 2)) :=
  .logic (.cmp (.add (.product (a := [.minus, .dollar, .int 0]) (.mul (.neg (.unary (.row 0)))) (.unary (.int 2)))))

/-- Nor is the grammar of expressions. -/
theorem C78_one_expr {a : List Tok} {e e' : Exp} (h : SpellsExpr a e) (h' : SpellsExpr a e') : e = e' := by
  have hs : Follows [.eof] := ⟨_, _, rfl, by simp⟩
  exact congrArg Prod.fst (Ev.unique (expr_complete h _ hs) (expr_complete h' _ hs))

example : SpellsExpr [.negateK, .lparen, .ident ['x'], .coloncolon, .ident ['y'], .rparen] (.linear (.qualified ['x'] ['y']) .negate) := .negate (.qualified _ _)

/-- Nor is that of programs. -/
theorem C78_one_program {a : List Tok} {p p' : List St} (h : SpellsProgram a p) (h' : SpellsProgram a p') : p = p' :=
  congrArg Prod.fst (Ev.unique (program_complete h [.eof] (by simp)) (program_complete h' [.eof] (by simp)))

/-- The program of the examples: `let x = MAP(INPUT 0, ($1 ; $0[0] + 1)); export "y" = x;`. -/
def program78 : List St := [.letS ['x'] (.linear (.input 0) (.project (.tuple [.spread (.var 1)]) (.tuple [.binary .add (.proj (.var 0) 0) (.int 1)]))), .exportS ['y'] (.name ['x'])]

/-- Its tokens. -/
def tokens78 : List Tok :=
  [.letK, .ident ['x'], .eq, .mapK, .lparen, .inputK, .int 0, .comma, .lparen, .dollar, .int 1, .semi, .dollar, .int 0, .lbracket, .int 0, .rbracket, .plus, .int 1, .rparen, .rparen, .semi,
   .exportK, .str ['y'], .eq, .ident ['x'], .semi]

theorem spelled78 : SpellsProgram tokens78 program78 := by
  have hp : SpellsProj [.lparen, .dollar, .int 1, .semi, .dollar, .int 0, .lbracket, .int 0, .rbracket, .plus, .int 1, .rparen] (.tuple [.spread (.var 1)], .tuple [.binary .add (.proj (.var 0) 0) (.int 1)]) := by
    refine .both (a := [.dollar, .int 1]) (b := [.dollar, .int 0, .lbracket, .int 0, .rbracket, .plus, .int 1]) (.one (.splice 1)) (.one (.term ?_ ?_))
    · exact .logic (.cmp (.sum (a := [.dollar, .int 0, .lbracket, .int 0, .rbracket]) (.add (.mul (.unary (.index (a := [.dollar, .int 0]) 0 (.row 0))))) (.mul (.unary (.int 1))) (by simp [sums])))
    · intro n r h
      simp only [List.cons.injEq] at h
      rw [← h.2.2]
      rfl
  exact .cons (a := tokens78.take 22) (.letS (.map (a := [.inputK, .int 0]) (.input 0) hp)) (.cons (a := tokens78.drop 22) (b := []) (.exportS (a := [.ident ['x']]) (.name ['x'])) .nil)

/-- A text that can be read as tokens that spell a program is parsed as this program. -/
theorem C78_accepts {s : List Char} {a : List Tok} {p : List St} (hr : Reads s (a ++ [.eof])) (hp : SpellsProgram a p) : ∃ f, parse f s = some p :=
  parse_iff.2 ⟨a, [.eof], hr, hp, Or.inl rfl⟩

/-- What is parsed does not depend on how deep the recursion may be. -/
theorem C78_one_parse {s : List Char} {p q : List St} {f g : Nat} (hp : parse f s = some p) (hq : parse g s = some q) : p = q := parse_unique hp hq

example : ∃ f, parse f "let x = MAP(INPUT 0, ($1 ; $0[0] + 1)); -- one\nexport \"y\" = x;".toList = some program78 :=
  C78_accepts (tokenize_iff.1 (by decide +kernel)) spelled78

/-- If no closing brace comes before its opening brace, a text is parsed as a program only if its tokens spell the program. Missing: texts with a stray closing brace. -/
theorem C78_parse_partial {s : List Char} {ts : List Tok} {p : List St} (hr : Reads s (ts ++ [.eof])) (hb : ∀ a r, ts = a ++ .rbrace :: r → a.count .rbrace < a.count .lbrace) :
    (∃ f, parse f s = some p) ↔ SpellsProgram ts p := by
  constructor
  · intro h
    obtain ⟨a, rest, hr', ha, he⟩ := parse_iff.1 h
    have heq := C78_one_reading hr hr'
    rcases he with rfl | ⟨r, rfl⟩
    · rw [List.append_cancel_right heq]
      exact ha
    · exfalso
      have hts : ∃ r', ts = a ++ .rbrace :: r' := by
        rcases List.append_eq_append_iff.1 heq with ⟨c, hc, h2⟩ | ⟨c, hc, h2⟩
        · cases c with
          | nil => simp at h2
          | cons y c =>
            rw [List.cons_append, List.cons.injEq] at h2
            have := congrArg List.length h2.2
            simp at this
        · cases c with
          | nil => simp at h2
          | cons y c =>
            rw [List.cons_append, List.cons.injEq] at h2
            exact ⟨c, by rw [hc, ← h2.1]⟩
      obtain ⟨r', hts⟩ := hts
      have := hb a r' hts
      have he := program_even ha
      unfold Even at he
      omega
  · exact fun h => C78_accepts hr h

/-- A program with a scope: no closing brace comes first. -/
example : let ts := [Tok.ident ['s'], .colon, .lbrace, .rbrace]
    Reads "s : { }".toList (ts ++ [.eof]) ∧ (∀ a r, ts = a ++ .rbrace :: r → a.count .rbrace < a.count .lbrace) ∧ SpellsProgram ts [.scopeS ['s'] []] := by
  refine ⟨tokenize_iff.1 (by decide +kernel), ?_, .cons (a := [.ident ['s'], .colon, .lbrace, .rbrace]) (.scopeS (a := []) .nil) .nil⟩
  intro a r h
  match a, h with
  | [_, _, _], h =>
    simp only [List.cons_append, List.nil_append, List.cons.injEq] at h
    obtain ⟨rfl, rfl, rfl, _⟩ := h
    decide
  | [], h => simp at h
  | [_], h => simp at h
  | [_, _], h => simp at h
  | _ :: _ :: _ :: _ :: a, h => exact absurd h (by simp)

/-- What comes after a stray closing brace is dropped, whatever it is. -/
theorem C78_stray_brace_defect {s : List Char} {a r : List Tok} {p : List St} (hr : Reads s (a ++ .rbrace :: r)) (hp : SpellsProgram a p) : ∃ f, parse f s = some p :=
  parse_iff.2 ⟨a, .rbrace :: r, hr, hp, Or.inr ⟨r, rfl⟩⟩

/-- Only the first statement is left, and the rest need not be a program. -/
example : ∃ f, parse f "export \"y\" = x; } let MAP = export; ((".toList = some [.exportS ['y'] (.name ['x'])] :=
  C78_stray_brace_defect (a := [.exportK, .str ['y'], .eq, .ident ['x'], .semi]) (r := [.letK, .mapK, .eq, .exportK, .semi, .lparen, .lparen, .eof]) (tokenize_iff.1 (by decide +kernel))
    (.cons (a := [.exportK, .str ['y'], .eq, .ident ['x'], .semi]) (b := []) (.exportS (a := [.ident ['x']]) (.name ['x'])) .nil)

end DD
