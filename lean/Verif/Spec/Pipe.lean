import Verif.Spec.Applicative
import Verif.Model.Pipe

/-!
# The grammar of collections in the pipe syntax

Operators apply to all that is before them: `a + b | op` is `op` of the sum. In the argument of a `join` a sum must be in parentheses. Terms, projections and reducers are those of `Spec/Applicative.lean`.
-/

namespace DD.Ir.Pipe

open App

/-! ### Texts and tokens -/

/-- The tokens that are spelled by symbols. -/
def symbols : List (List Char × Tok) := ("|".toList, .pipe) :: App.symbols

/-- The words with a meaning of their own. -/
def keywords : List (List Char × Tok) :=
  [("let".toList, .letK), ("var".toList, .varK), ("export".toList, .exportK), ("input".toList, .inputK), ("import".toList, .importK), ("key".toList, .keyK), ("map".toList, .mapK), ("join".toList, .joinK),
   ("min".toList, .minK), ("distinct".toList, .distinctK), ("count".toList, .countK), ("collect".toList, .collectK), ("flatmap".toList, .flatMapK), ("arrange".toList, .arrangeK), ("negate".toList, .negateK),
   ("filter".toList, .filterK), ("enter_at".toList, .enterAtK), ("inspect".toList, .inspectK), ("lift_iter".toList, .liftIterK)]

/-- The words of constructors, patterns and folds, which are not in this grammar. -/
def excluded : List (List Char) := ["con".toList, "case".toList, "fold".toList]

/-- What a symbol must not be the beginning of: a comment, an arrow of a pattern (not in this grammar), or a longer symbol. -/
def longer : List (List Char) := "--".toList :: "=>".toList :: symbols.map Prod.fst

/-- A text is read as these tokens: symbols are as long as possible, as are numbers and words; `--` begins a comment up to the end of the line. -/
inductive Reads : List Char → List Tok → Prop
  | done : Reads [] [.eof]
  | blank {c s ts} : c ∈ [' ', '\t', '\n', '\r'] → Reads s ts → Reads (c :: s) ts
  | comment {l s ts} : '\n' ∉ l → Reads s ts → Reads ('-' :: '-' :: (l ++ '\n' :: s)) ts
  | lastComment {l} : '\n' ∉ l → Reads ('-' :: '-' :: l) [.eof]
  | symbol {w t s ts} : (w, t) ∈ symbols → (∀ l ∈ longer, l <+: w ++ s → l.length ≤ w.length) → Reads s ts → Reads (w ++ s) (t :: ts)
  | str {w s ts} : '"' ∉ w → Reads s ts → Reads ('"' :: (w ++ '"' :: s)) (.str w :: ts)
  | int {w s ts} : w ≠ [] → (∀ c ∈ w, c.isDigit) → (∀ c ∈ s.head?, c.isDigit = false) → decimal w < 2 ^ 63 → Reads s ts → Reads (w ++ s) (.int (decimal w) :: ts)
  | keyword {w t s ts} : (w, t) ∈ keywords → (∀ c ∈ s.head?, (c.isAlphanum || c = '_') = false) → Reads s ts → Reads (w ++ s) (t :: ts)
  | ident {w s ts} : (∃ c ∈ w.head?, c.isAlpha ∨ c = '_') → (∀ c ∈ w, (c.isAlphanum || c = '_') = true) → (∀ c ∈ s.head?, (c.isAlphanum || c = '_') = false) → w ∉ keywords.map Prod.fst → w ∉ excluded →
      Reads s ts → Reads (w ++ s) (.ident w :: ts)

/-! ### Collections and programs -/

mutual
/-- These tokens spell this collection, and it needs no parentheses in sums. -/
inductive SpellsAtom : List Tok → Exp → Prop
  | input (n) : SpellsAtom [.inputK, .int n] (.input n)
  | imported (s) : SpellsAtom [.importK, .str s] (.imported s)
  | name (n) : SpellsAtom [.ident n] (.name n)
  | qualified (n m) : SpellsAtom [.ident n, .coloncolon, .ident m] (.qualified n m)
  | paren {a e} : SpellsExpr a e → SpellsAtom (.lparen :: (a ++ [.rparen])) e
/-- What may follow the first part of a sum: collections that are added, and others that are subtracted. -/
inductive SpellsParts : List Tok → List Exp → Prop
  | nil : SpellsParts [] []
  | plus {a e b l} : SpellsAtom a e → SpellsParts b l → SpellsParts (.plus :: (a ++ b)) (e :: l)
  | minus {a e b l} : SpellsAtom a e → SpellsParts b l → SpellsParts (.minus :: (a ++ b)) (.linear e .negate :: l)
/-- These tokens spell this collection. -/
inductive SpellsExpr : List Tok → Exp → Prop
  | atom {a e} : SpellsAtom a e → SpellsExpr a e
  | sum {a e b e' l} : SpellsAtom a e → SpellsParts b (e' :: l) → SpellsExpr (a ++ b) (.concat (e :: e' :: l))
  | op {a e b e'} : SpellsExpr a e → SpellsOp b e e' → SpellsExpr (a ++ .pipe :: b) e'
/-- These tokens spell this argument of a join. -/
inductive SpellsArg : List Tok → Exp → Prop
  | atom {a e} : SpellsAtom a e → SpellsArg a e
  | op {a e b e'} : SpellsArg a e → SpellsOp b e e' → SpellsArg (a ++ .pipe :: b) e'
/-- These tokens spell an operator that makes of the first collection the second. -/
inductive SpellsOp : List Tok → Exp → Exp → Prop
  | key {e a p} : SpellsProj a p → SpellsOp (.keyK :: a) e (.linear e (.project p.1 p.2))
  | map {e a p} : SpellsProj a p → SpellsOp (.mapK :: a) e (.linear e (.project p.1 p.2))
  | join {e a r b p} : SpellsArg a r → SpellsProj b p → SpellsOp (.joinK :: .lparen :: (a ++ .comma :: (b ++ [.rparen]))) e (.join e r p)
  | reduce {e x r} : (x, r) ∈ reducers → SpellsOp [x] e (.reduce e r)
  | flatMap {e a t} : Spells .logic a t → SpellsOp (.flatMapK :: .lparen :: (a ++ [.rparen])) e (.linear e (.flatMap t))
  | arrange {e} : SpellsOp [.arrangeK] e (.arrange e)
  | negate {e} : SpellsOp [.negateK] e (.linear e .negate)
  | filter {e a t} : Spells .logic a t → SpellsOp (.filterK :: .lparen :: (a ++ [.rparen])) e (.linear e (.filter t))
  | enterAt {e a t} : Spells .logic a t → SpellsOp (.enterAtK :: .lparen :: (a ++ [.rparen])) e (.linear e (.enterAt t))
  | liftIter {e} : SpellsOp [.liftIterK] e (.linear e .liftIter)
  | inspect {e} (l) : SpellsOp [.inspectK, .lparen, .ident l, .rparen] e (.inspect e l)
end

mutual
/-- These tokens spell this statement. -/
inductive SpellsStmt : List Tok → St → Prop
  | letS {n a e} : SpellsExpr a e → SpellsStmt (.letK :: .ident n :: .eq :: (a ++ [.semi])) (.letS n e)
  | varS {n a e} : SpellsExpr a e → SpellsStmt (.varK :: .ident n :: .eq :: (a ++ [.semi])) (.varS n e)
  | exportS {n a e} : SpellsExpr a e → SpellsStmt (.exportK :: .str n :: .eq :: (a ++ [.semi])) (.exportS n e)
  | scopeS {n a b} : SpellsProgram a b → SpellsStmt (.ident n :: .colon :: .lbrace :: (a ++ [.rbrace])) (.scopeS n b)
/-- These tokens spell this program. -/
inductive SpellsProgram : List Tok → List St → Prop
  | nil : SpellsProgram [] []
  | cons {a s b p} : SpellsStmt a s → SpellsProgram b p → SpellsProgram (a ++ b) (s :: p)
end

/-! ### Sums of one collection

The applicative syntax can write the sum of one collection, `CONCAT(e)`. The pipe syntax cannot, and writes the collection itself. -/

/-- A sum of these collections, where that of one is the collection. -/
def sumOf : List Exp → Exp
  | [e] => e
  | es => .concat es

mutual
/-- The collection without sums of one collection. -/
def plain : Exp → Exp
  | .input n => .input n
  | .imported n => .imported n
  | .name n => .name n
  | .qualified n m => .qualified n m
  | .linear e op => .linear (plain e) op
  | .join l r p => .join (plain l) (plain r) p
  | .reduce e q => .reduce (plain e) q
  | .inspect e l => .inspect (plain e) l
  | .concat es => sumOf (plainAll es)
  | .arrange e => .arrange (plain e)
/-- The collections without sums of one collection. -/
def plainAll : List Exp → List Exp
  | [] => []
  | e :: es => plain e :: plainAll es
end

mutual
/-- The statement without sums of one collection. -/
def plainStmt : St → St
  | .letS n e => .letS n (plain e)
  | .varS n e => .varS n (plain e)
  | .exportS n e => .exportS n (plain e)
  | .scopeS n b => .scopeS n (plainProgram b)
/-- The program without sums of one collection. -/
def plainProgram : List St → List St
  | [] => []
  | s :: p => plainStmt s :: plainProgram p
end

end DD.Ir.Pipe
