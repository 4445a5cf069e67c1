import Verif.Model.Applicative

/-!
# Specification of the applicative syntax: how texts are read as tokens, and a grammar with precedence for terms, expressions and programs

The grammar says which lists of tokens spell which trees; it does not mention the parser.
-/

namespace DD.Ir.App

/-! ### Texts and tokens -/

/-- The tokens that are spelled by symbols. -/
def symbols : List (List Char × Tok) :=
  [("(".toList, .lparen), (")".toList, .rparen), ("{".toList, .lbrace), ("}".toList, .rbrace), ("[".toList, .lbracket), ("]".toList, .rbracket), (",".toList, .comma), (";".toList, .semi),
   ("=".toList, .eq), ("==".toList, .eqeq), ("!=".toList, .noteq), ("<".toList, .lt), ("<=".toList, .lteq), (">".toList, .gt), (">=".toList, .gteq), ("&&".toList, .andand),
   ("+".toList, .plus), ("-".toList, .minus), ("*".toList, .star), ("$".toList, .dollar), ("^".toList, .caret), (":".toList, .colon), ("::".toList, .coloncolon)]

/-- The words with a meaning of their own. -/
def keywords : List (List Char × Tok) :=
  [("let".toList, .letK), ("var".toList, .varK), ("scope".toList, .scopeK), ("export".toList, .exportK), ("INPUT".toList, .inputK), ("IMPORT".toList, .importK), ("MAP".toList, .mapK), ("JOIN".toList, .joinK),
   ("REDUCE".toList, .reduceK), ("CONCAT".toList, .concatK), ("ARRANGE".toList, .arrangeK), ("FILTER".toList, .filterK), ("NEGATE".toList, .negateK), ("ENTER_AT".toList, .enterAtK),
   ("INSPECT".toList, .inspectK), ("MIN".toList, .minK), ("DISTINCT".toList, .distinctK), ("COUNT".toList, .countK), ("COLLECT".toList, .collectK), ("LIFT_ITER".toList, .liftIterK), ("FLATMAP".toList, .flatMapK)]

/-- The value of decimal digits. -/
def decimal (w : List Char) : Nat := w.foldl (fun n c => n * 10 + (c.toNat - 48)) 0

/-- A text is read as these tokens: symbols are as long as possible, as are numbers and words; `--` begins a comment up to the end of the line. -/
inductive Reads : List Char → List Tok → Prop
  | done : Reads [] [.eof]
  | blank {c s ts} : c ∈ [' ', '\t', '\n', '\r'] → Reads s ts → Reads (c :: s) ts
  | comment {l s ts} : '\n' ∉ l → Reads s ts → Reads ('-' :: '-' :: (l ++ '\n' :: s)) ts
  | lastComment {l} : '\n' ∉ l → Reads ('-' :: '-' :: l) [.eof]
  | symbol {w t s ts} : (w, t) ∈ symbols → (∀ l ∈ "--".toList :: symbols.map Prod.fst, l <+: w ++ s → l.length ≤ w.length) → Reads s ts → Reads (w ++ s) (t :: ts)
  | str {w s ts} : '"' ∉ w → Reads s ts → Reads ('"' :: (w ++ '"' :: s)) (.str w :: ts)
  | int {w s ts} : w ≠ [] → (∀ c ∈ w, c.isDigit) → (∀ c ∈ s.head?, c.isDigit = false) → decimal w < 2 ^ 63 → Reads s ts → Reads (w ++ s) (.int (decimal w) :: ts)
  | keyword {w t s ts} : (w, t) ∈ keywords → (∀ c ∈ s.head?, (c.isAlphanum || c = '_') = false) → Reads s ts → Reads (w ++ s) (t :: ts)
  | ident {w s ts} : (∃ c ∈ w.head?, c.isAlpha ∨ c = '_') → (∀ c ∈ w, (c.isAlphanum || c = '_') = true) → (∀ c ∈ s.head?, (c.isAlphanum || c = '_') = false) → w ∉ keywords.map Prod.fst →
      Reads s ts → Reads (w ++ s) (.ident w :: ts)

/-! ### Terms -/

/-- Levels of precedence, the loosest first. -/
inductive Level where
  | logic | cmp | add | mul | unary | primary

/-- Comparisons. -/
def comparisons : List (Tok × BinOp) := [(.eqeq, .eq), (.noteq, .ne), (.lt, .lt), (.lteq, .le), (.gt, .gt), (.gteq, .ge)]

/-- Sums and differences. -/
def sums : List (Tok × BinOp) := [(.plus, .add), (.minus, .sub)]

/-- What a call of a function is, by its name and arguments. -/
inductive Builds : List Char → List Term → Term → Prop
  | tuple (l) : Builds "tuple".toList l (.tuple l)
  | list (l) : Builds "list".toList l (.list l)
  | inject (tag t) : Builds "inject".toList [tag, t] (.inject tag t)
  | variant (tag t) : Builds "variant".toList [tag, t] (.inject tag t)
  | case (t arms) : arms ≠ [] → Builds "case".toList (t :: arms) (.case t arms none)
  | fold (list init step) : Builds "fold".toList [list, init, step] (.fold list init step)
  | proj (t) (i : Int) : Builds "proj".toList [t, .int i] (.proj t (i % 2 ^ 64).toNat)
  | len (t) : Builds "len".toList [t] (.unary .len t)
  | istag (tag : Int) (t) : Builds "istag".toList [.int tag, t] (.unary (.isTag (tag % 2 ^ 32).toNat) t)
  | not (t) : Builds "not".toList [t] (.unary .not t)
  | or (a b) : Builds "or".toList [a, b] (.binary .or a b)
  | ite (cond thn els) : Builds "if".toList [cond, thn, els] (.ite cond thn els)
  | hash (bound keys) : keys ≠ [] → Builds "hash".toList (bound :: keys) (.hash (bound :: keys))

mutual
/-- These tokens spell this term. `&&`, sums and products associate to the left, and comparisons do not associate. -/
inductive Spells : Level → List Tok → Term → Prop
  | and {a b l r} : Spells .logic a l → Spells .cmp b r → Spells .logic (a ++ .andand :: b) (.binary .and l r)
  | logic {a t} : Spells .cmp a t → Spells .logic a t
  | compare {a b l r x op} : Spells .add a l → Spells .add b r → (x, op) ∈ comparisons → Spells .cmp (a ++ x :: b) (.binary op l r)
  | cmp {a t} : Spells .add a t → Spells .cmp a t
  | sum {a b l r x op} : Spells .add a l → Spells .mul b r → (x, op) ∈ sums → Spells .add (a ++ x :: b) (.binary op l r)
  | add {a t} : Spells .mul a t → Spells .add a t
  | product {a b l r} : Spells .mul a l → Spells .unary b r → Spells .mul (a ++ .star :: b) (.binary .mul l r)
  | mul {a t} : Spells .unary a t → Spells .mul a t
  | neg {a t} : Spells .unary a t → Spells .unary (.minus :: a) (.unary .neg t)
  | unary {a t} : Spells .primary a t → Spells .unary a t
  | row (n) : Spells .primary [.dollar, .int n] (.var n)
  | binder (k) : Spells .primary [.caret, .int k] (.bound k)
  | int (n) : Spells .primary [.int n] (.int n)
  | paren {a t} : Spells .logic a t → Spells .primary (.lparen :: (a ++ [.rparen])) t
  | call {name a l t} : SpellsAll a l → Builds name l t → Spells .primary (.ident name :: .lparen :: (a ++ [.rparen])) t
  | index {a t} (i) : Spells .primary a t → Spells .primary (a ++ [.lbracket, .int i, .rbracket]) (.proj t i)
/-- Arguments, with commas between them. -/
inductive SpellsAll : List Tok → List Term → Prop
  | nil : SpellsAll [] []
  | one {a t} : Spells .logic a t → SpellsAll a [t]
  | more {a b t l} : Spells .logic a t → SpellsAll b l → l ≠ [] → SpellsAll (a ++ .comma :: b) (t :: l)
end

/-- The field of a projection: `$n` alone is spliced; no other field begins with `$n` without an index. -/
inductive SpellsField : List Tok → Term → Prop
  | splice (n) : SpellsField [.dollar, .int n] (.spread (.var n))
  | term {a t} : Spells .logic a t → (∀ n r, a = .dollar :: .int n :: r → r.head? = some .lbracket) → SpellsField a t

/-- Fields, with commas between them. -/
inductive SpellsFields : List Tok → List Term → Prop
  | nil : SpellsFields [] []
  | one {a t} : SpellsField a t → SpellsFields a [t]
  | more {a b t l} : SpellsField a t → SpellsFields b l → l ≠ [] → SpellsFields (a ++ .comma :: b) (t :: l)

/-- Projections: fields of the key, and after a semicolon those of the value. -/
inductive SpellsProj : List Tok → Term × Term → Prop
  | key {a l} : SpellsFields a l → SpellsProj (.lparen :: (a ++ [.rparen])) (.tuple l, .tuple [])
  | both {a b l m} : SpellsFields a l → SpellsFields b m → SpellsProj (.lparen :: (a ++ .semi :: (b ++ [.rparen]))) (.tuple l, .tuple m)

/-! ### Expressions and programs -/

/-- Reducers. -/
def reducers : List (Tok × Reducer) := [(.minK, .min), (.distinctK, .distinct), (.countK, .count), (.collectK, .collect)]

mutual
/-- These tokens spell this expression. -/
inductive SpellsExpr : List Tok → Exp → Prop
  | input (n) : SpellsExpr [.inputK, .int n] (.input n)
  | imported (s) : SpellsExpr [.importK, .str s] (.imported s)
  | name (n) : SpellsExpr [.ident n] (.name n)
  | qualified (n m) : SpellsExpr [.ident n, .coloncolon, .ident m] (.qualified n m)
  | map {a e b p} : SpellsExpr a e → SpellsProj b p → SpellsExpr (.mapK :: .lparen :: (a ++ .comma :: (b ++ [.rparen]))) (.linear e (.project p.1 p.2))
  | join {a e b e' c p} : SpellsExpr a e → SpellsExpr b e' → SpellsProj c p → SpellsExpr (.joinK :: .lparen :: (a ++ .comma :: (b ++ .comma :: (c ++ [.rparen])))) (.join e e' p)
  | reduce {a e x r} : SpellsExpr a e → (x, r) ∈ reducers → SpellsExpr (.reduceK :: .lparen :: (a ++ [.comma, x, .rparen])) (.reduce e r)
  | filter {a e b t} : SpellsExpr a e → Spells .logic b t → SpellsExpr (.filterK :: .lparen :: (a ++ .comma :: (b ++ [.rparen]))) (.linear e (.filter t))
  | negate {a e} : SpellsExpr a e → SpellsExpr (.negateK :: .lparen :: (a ++ [.rparen])) (.linear e .negate)
  | enterAt {a e b t} : SpellsExpr a e → Spells .logic b t → SpellsExpr (.enterAtK :: .lparen :: (a ++ .comma :: (b ++ [.rparen]))) (.linear e (.enterAt t))
  | liftIter {a e} : SpellsExpr a e → SpellsExpr (.liftIterK :: .lparen :: (a ++ [.rparen])) (.linear e .liftIter)
  | flatMap {a e b t} : SpellsExpr a e → Spells .logic b t → SpellsExpr (.flatMapK :: .lparen :: (a ++ .comma :: (b ++ [.rparen]))) (.linear e (.flatMap t))
  | inspect {a e} (l) : SpellsExpr a e → SpellsExpr (.inspectK :: .lparen :: (a ++ [.comma, .ident l, .rparen])) (.inspect e l)
  | concat {a l} : SpellsExprs a l → SpellsExpr (.concatK :: .lparen :: (a ++ [.rparen])) (.concat l)
  | arrange {a e} : SpellsExpr a e → SpellsExpr (.arrangeK :: .lparen :: (a ++ [.rparen])) (.arrange e)
/-- One or more expressions, with commas between them. -/
inductive SpellsExprs : List Tok → List Exp → Prop
  | one {a e} : SpellsExpr a e → SpellsExprs a [e]
  | more {a b e l} : SpellsExpr a e → SpellsExprs b l → SpellsExprs (a ++ .comma :: b) (e :: l)
end

mutual
/-- These tokens spell this statement. -/
inductive SpellsStmt : List Tok → St → Prop
  | letS {n a e} : SpellsExpr a e → SpellsStmt (.letK :: .ident n :: .eq :: (a ++ [.semi])) (.letS n e)
  | varS {n a e} : SpellsExpr a e → SpellsStmt (.varK :: .ident n :: .eq :: (a ++ [.semi])) (.varS n e)
  | exportS {n a e} : SpellsExpr a e → SpellsStmt (.exportK :: .str n :: .eq :: (a ++ [.semi])) (.exportS n e)
  | scopeS {n a b} : SpellsProgram a b → SpellsStmt (.ident n :: .colon :: .lbrace :: (a ++ [.rbrace])) (.scopeS n b)
  | scopeK {n a b} : SpellsProgram a b → SpellsStmt (.ident n :: .colon :: .scopeK :: .lbrace :: (a ++ [.rbrace])) (.scopeS n b)
/-- These tokens spell this program. -/
inductive SpellsProgram : List Tok → List St → Prop
  | nil : SpellsProgram [] []
  | cons {a s b p} : SpellsStmt a s → SpellsProgram b p → SpellsProgram (a ++ b) (s :: p)
end

end DD.Ir.App
