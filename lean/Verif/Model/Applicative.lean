import Verif.Model.Scalar
import Verif.Model.SourceAst

/-!
# Model of the applicative front-end of `interactive`: `interactive/src/parse/applicative.rs`, `build_builtin` in `interactive/src/parse/mod.rs`

Strings are lists of characters, and the parser's position in its tokens is the list of tokens that are left. A panic is `none`; so is reading past the last token. The functions that call each other count down a
number: where the code returns, some number is large enough. Loops that push to a vector are recursions that put the first element in front.
-/

namespace DD.Ir.App

/-- `Token` (applicative.rs:7-16). An integer has no sign. The last two are tokens of the pipe syntax (pipe.rs:63, 67), which this tokenizer does not return. -/
inductive Tok where
  | letK | varK | scopeK | exportK
  | inputK | importK | mapK | joinK | reduceK | concatK | arrangeK | filterK | negateK | enterAtK | liftIterK | flatMapK | inspectK
  | minK | distinctK | countK | collectK
  | ident (s : List Char) | int (n : Nat) | str (s : List Char)
  | dollar | caret | lparen | rparen | lbrace | rbrace | lbracket | rbracket
  | comma | semi | colon | coloncolon | eq | eqeq | noteq | lt | lteq | gt | gteq | andand
  | plus | minus | star | eof
  | keyK | pipe
deriving DecidableEq

/-! ### Tokens -/

/-- The rest of a line, with its end (applicative.rs:25). -/
def dropLine : List Char → List Char
  | [] => []
  | c :: s => if c = '\n' then s else dropLine s

/-- A string literal up to its closing quote (applicative.rs:50-54). -/
def quoted : List Char → Option (List Char × List Char)
  | [] => none
  | c :: s => if c = '"' then some ([], s) else (quoted s).map fun p => (c :: p.1, p.2)

/-- `num.parse()` for an `i64`, one digit at a time (applicative.rs:62). -/
def number (w : List Char) : Option Nat := w.foldlM (fun acc c => if acc * 10 + (c.toNat - 48) < 2 ^ 63 then some (acc * 10 + (c.toNat - 48)) else none) 0

/-- Characters of identifiers (applicative.rs:66). -/
def wordChar (c : Char) : Bool := c.isAlphanum || c = '_'

/-- Keywords (applicative.rs:67-78). -/
def word (w : List Char) : Tok :=
  if w = "let".toList then .letK else if w = "var".toList then .varK else if w = "scope".toList then .scopeK else if w = "export".toList then .exportK
  else if w = "INPUT".toList then .inputK else if w = "IMPORT".toList then .importK else if w = "MAP".toList then .mapK else if w = "JOIN".toList then .joinK
  else if w = "REDUCE".toList then .reduceK else if w = "CONCAT".toList then .concatK else if w = "ARRANGE".toList then .arrangeK
  else if w = "FILTER".toList then .filterK else if w = "NEGATE".toList then .negateK else if w = "ENTER_AT".toList then .enterAtK else if w = "INSPECT".toList then .inspectK
  else if w = "MIN".toList then .minK else if w = "DISTINCT".toList then .distinctK else if w = "COUNT".toList then .countK else if w = "COLLECT".toList then .collectK
  else if w = "LIFT_ITER".toList then .liftIterK else if w = "FLATMAP".toList then .flatMapK
  else .ident w

/-- What follows a character that may begin two tokens (applicative.rs:35-39, 58): with the next character, without it. -/
def pair (d : Char) (two : Tok) (one : Option Tok) (s : List Char) : Option (Option Tok × List Char) :=
  match s with
  | x :: s' => if x = d then some (some two, s') else one.map fun t => (some t, s)
  | [] => one.map fun t => (some t, s)

/-- One turn of `tokenize` (applicative.rs:22-81): the token, if any, and the characters left. -/
def lex (c : Char) (s : List Char) : Option (Option Tok × List Char) :=
  if c = ' ' ∨ c = '\t' ∨ c = '\n' ∨ c = '\r' then some (none, s)
  else if c = '-' ∧ s.head? = some '-' then some (none, dropLine s)
  else if c = '(' then some (some .lparen, s)
  else if c = ')' then some (some .rparen, s)
  else if c = '{' then some (some .lbrace, s)
  else if c = '}' then some (some .rbrace, s)
  else if c = '[' then some (some .lbracket, s)
  else if c = ']' then some (some .rbracket, s)
  else if c = ',' then some (some .comma, s)
  else if c = ';' then some (some .semi, s)
  else if c = '=' then pair '=' .eqeq (some .eq) s
  else if c = '!' then pair '=' .noteq none s
  else if c = '<' then pair '=' .lteq (some .lt) s
  else if c = '>' then pair '=' .gteq (some .gt) s
  else if c = '&' then pair '&' .andand none s
  else if c = '+' then some (some .plus, s)
  else if c = '*' then some (some .star, s)
  else if c = '$' then some (some .dollar, s)
  else if c = '^' then some (some .caret, s)
  else if c = '"' then (quoted s).map fun p => (some (.str p.1), p.2)
  else if c = '-' then some (some .minus, s)
  else if c = ':' then pair ':' .coloncolon (some .colon) s
  else if c.isDigit then (number ((c :: s).takeWhile Char.isDigit)).map fun n => (some (.int n), (c :: s).dropWhile Char.isDigit)
  else if c.isAlpha ∨ c = '_' then some (some (word ((c :: s).takeWhile wordChar)), (c :: s).dropWhile wordChar)
  else none

/-- The loop of `tokenize` (applicative.rs:21-83). -/
def scan : Nat → List Char → Option (List Tok)
  | _, [] => some [.eof]
  | 0, _ :: _ => none
  | f + 1, c :: s => (lex c s).bind fun p => (scan f p.2).map fun ts => p.1.toList ++ ts

/-- `tokenize` (applicative.rs:18-85): each turn takes a character at least. -/
def tokenize (s : List Char) : Option (List Tok) := scan s.length s

/-! ### The parser -/

/-- `expect` (applicative.rs:93). -/
def expect (t : Tok) : List Tok → Option (List Tok)
  | [] => none
  | x :: ts => if x = t then some ts else none

/-- An integer, or a panic. -/
def takeInt : List Tok → Option (Nat × List Tok)
  | .int n :: ts => some (n, ts)
  | _ => none

/-- `parse_ident` (applicative.rs:125). -/
def takeIdent : List Tok → Option (List Char × List Tok)
  | .ident s :: ts => some (s, ts)
  | _ => none

/-- A string, or a panic. -/
def takeStr : List Tok → Option (List Char × List Tok)
  | .str s :: ts => some (s, ts)
  | _ => none

/-- `int_arg` (parse/mod.rs:145-147). -/
def intArg : Term → Option Int
  | .int n => some n
  | _ => none

/-- `build_builtin` (parse/mod.rs:144-163). -/
def buildBuiltin (name : List Char) (args : List Term) : Option Term :=
  if name = "tuple".toList then some (.tuple args)
  else if name = "list".toList then some (.list args)
  else if name = "inject".toList ∨ name = "variant".toList then match args with | [tag, t] => some (.inject tag t) | _ => none
  else if name = "case".toList then match args with | scrutinee :: arm :: arms => some (.case scrutinee (arm :: arms) none) | _ => none
  else if name = "fold".toList then match args with | [list, init, step] => some (.fold list init step) | _ => none
  else if name = "proj".toList then match args with | [t, i] => (intArg i).map fun i => .proj t (i % 2 ^ 64).toNat | _ => none
  else if name = "len".toList then match args with | [t] => some (.unary .len t) | _ => none
  else if name = "istag".toList then match args with | [tag, t] => (intArg tag).map fun tag => .unary (.isTag (tag % 2 ^ 32).toNat) t | _ => none
  else if name = "not".toList then match args with | [t] => some (.unary .not t) | _ => none
  else if name = "or".toList then match args with | [a, b] => some (.binary .or a b) | _ => none
  else if name = "if".toList then match args with | [cond, thn, els] => some (.ite cond thn els) | _ => none
  else if name = "hash".toList then match args with | bound :: key :: keys => some (.hash (bound :: key :: keys)) | _ => none
  else none

/-- The operators of `parse_cmp` (applicative.rs:198-203). -/
def cmpOp : Tok → Option BinOp
  | .eqeq => some .eq
  | .noteq => some .ne
  | .lt => some .lt
  | .lteq => some .le
  | .gt => some .gt
  | .gteq => some .ge
  | _ => none

/-- The operators of `parse_add` (applicative.rs:211). -/
def addOp : Tok → Option BinOp
  | .plus => some .add
  | .minus => some .sub
  | _ => none

mutual
/-- `parse_term` and `parse_logic` (applicative.rs:185-194). -/
def logic : Nat → List Tok → Option (Term × List Tok)
  | 0, _ => none
  | f + 1, ts => (cmp f ts).bind fun p => logicLoop f p.1 p.2
/-- The loop of `parse_logic` (applicative.rs:189-192). -/
def logicLoop : Nat → Term → List Tok → Option (Term × List Tok)
  | 0, _, _ => none
  | _ + 1, _, [] => none
  | f + 1, left, x :: ts => if x = .andand then (cmp f ts).bind fun p => logicLoop f (.binary .and left p.1) p.2 else some (left, x :: ts)
/-- `parse_cmp` (applicative.rs:196-206). -/
def cmp : Nat → List Tok → Option (Term × List Tok)
  | 0, _ => none
  | f + 1, ts => (add f ts).bind fun p => match p.2 with
    | [] => none
    | x :: ts => match cmpOp x with
      | some op => (add f ts).map fun q => (.binary op p.1 q.1, q.2)
      | none => some (p.1, x :: ts)
/-- `parse_add` (applicative.rs:208-216). -/
def add : Nat → List Tok → Option (Term × List Tok)
  | 0, _ => none
  | f + 1, ts => (mul f ts).bind fun p => addLoop f p.1 p.2
/-- The loop of `parse_add` (applicative.rs:210-214). -/
def addLoop : Nat → Term → List Tok → Option (Term × List Tok)
  | 0, _, _ => none
  | _ + 1, _, [] => none
  | f + 1, left, x :: ts => match addOp x with
    | some op => (mul f ts).bind fun p => addLoop f (.binary op left p.1) p.2
    | none => some (left, x :: ts)
/-- `parse_mul` (applicative.rs:218-225). -/
def mul : Nat → List Tok → Option (Term × List Tok)
  | 0, _ => none
  | f + 1, ts => (unary f ts).bind fun p => mulLoop f p.1 p.2
/-- The loop of `parse_mul` (applicative.rs:220-223). -/
def mulLoop : Nat → Term → List Tok → Option (Term × List Tok)
  | 0, _, _ => none
  | _ + 1, _, [] => none
  | f + 1, left, x :: ts => if x = .star then (unary f ts).bind fun p => mulLoop f (.binary .mul left p.1) p.2 else some (left, x :: ts)
/-- `parse_unary` (applicative.rs:227-230). -/
def unary : Nat → List Tok → Option (Term × List Tok)
  | 0, _ => none
  | _ + 1, [] => none
  | f + 1, x :: ts => if x = .minus then (unary f ts).map fun p => (.unary .neg p.1, p.2) else primary f (x :: ts)
/-- `parse_primary_term` (applicative.rs:232-258), without the case of a minus sign, which `parse_unary` takes before. -/
def primary : Nat → List Tok → Option (Term × List Tok)
  | 0, _ => none
  | f + 1, .dollar :: ts => (takeInt ts).bind fun p => postLoop f (.var p.1) p.2
  | f + 1, .caret :: ts => (takeInt ts).bind fun p => postLoop f (.bound p.1) p.2
  | f + 1, .int n :: ts => postLoop f (.int n) ts
  | f + 1, .lparen :: ts => (logic f ts).bind fun p => (expect .rparen p.2).bind fun ts => postLoop f p.1 ts
  | f + 1, .ident name :: ts => (args f ts).bind fun p => (buildBuiltin name p.1).bind fun t => postLoop f t p.2
  | _ + 1, _ => none
/-- The loop of `parse_primary_term` (applicative.rs:251-256). -/
def postLoop : Nat → Term → List Tok → Option (Term × List Tok)
  | 0, _, _ => none
  | _ + 1, _, [] => none
  | f + 1, base, x :: ts => if x = .lbracket then (takeInt ts).bind fun p => (expect .rbracket p.2).bind fun ts => postLoop f (.proj base p.1) ts else some (base, x :: ts)
/-- `parse_args` (applicative.rs:260-269). -/
def args : Nat → List Tok → Option (List Term × List Tok)
  | 0, _ => none
  | f + 1, ts => (expect .lparen ts).bind fun ts => match ts with
    | [] => none
    | x :: ts => if x = .rparen then some ([], ts) else (terms f (x :: ts)).bind fun p => (expect .rparen p.2).map fun ts => (p.1, ts)
/-- The loop of `parse_args` (applicative.rs:264-265). -/
def terms : Nat → List Tok → Option (List Term × List Tok)
  | 0, _ => none
  | f + 1, ts => (logic f ts).bind fun p => match p.2 with
    | [] => none
    | x :: ts => if x = .comma then (terms f ts).map fun q => (p.1 :: q.1, q.2) else some ([p.1], x :: ts)
end

/-- `parse_proj_field` (applicative.rs:171-181): `$n` without an index is spliced. -/
def field (f : Nat) (ts : List Tok) : Option (Term × List Tok) :=
  match ts with
  | .dollar :: .int n :: rest => if rest.head? = some .lbracket then logic f ts else some (.spread (.var n), rest)
  | ts => logic f ts

/-- `parse_field_list_until` after the terminators are tested (applicative.rs:165-167). -/
def fieldsLoop : Nat → List Tok → Option (List Term × List Tok)
  | 0, _ => none
  | f + 1, ts => (field f ts).bind fun p => match p.2 with
    | [] => none
    | x :: ts => if x = .comma then (fieldsLoop f ts).map fun q => (p.1 :: q.1, q.2) else some ([p.1], x :: ts)

/-- `parse_field_list_until` (applicative.rs:163-168). -/
def fields (f : Nat) (terminators : List Tok) : List Tok → Option (List Term × List Tok)
  | [] => none
  | x :: ts => if x ∈ terminators then some ([], x :: ts) else fieldsLoop f (x :: ts)

/-- `parse_projection` (applicative.rs:150-161). -/
def projection (f : Nat) (ts : List Tok) : Option ((Term × Term) × List Tok) :=
  (expect .lparen ts).bind fun ts => (fields f [.semi, .rparen] ts).bind fun key => match key.2 with
    | [] => none
    | x :: ts => (if x = .semi then fields f [.rparen] ts else some ([], x :: ts)).bind fun val => (expect .rparen val.2).map fun ts => ((.tuple key.1, .tuple val.1), ts)

/-- `parse_reducer` (applicative.rs:276). -/
def takeReducer : List Tok → Option (Reducer × List Tok)
  | .minK :: ts => some (.min, ts)
  | .distinctK :: ts => some (.distinct, ts)
  | .countK :: ts => some (.count, ts)
  | .collectK :: ts => some (.collect, ts)
  | _ => none

/-- Expressions with concrete operators. -/
abbrev Exp := Expr (LinearOp Term) (Term × Term) Reducer (List Char)

/-- Statements with concrete operators. -/
abbrev St := Stmt (LinearOp Term) (Term × Term) Reducer (List Char)

mutual
/-- `parse_expr` (applicative.rs:127-145). -/
def expr : Nat → List Tok → Option (Exp × List Tok)
  | 0, _ => none
  | _ + 1, .inputK :: ts => (takeInt ts).map fun p => (.input p.1, p.2)
  | _ + 1, .importK :: ts => (takeStr ts).map fun p => (.imported p.1, p.2)
  | f + 1, .mapK :: ts => (expect .lparen ts).bind fun ts => (expr f ts).bind fun i => (expect .comma i.2).bind fun ts => (projection f ts).bind fun p =>
    (expect .rparen p.2).map fun ts => (.linear i.1 (.project p.1.1 p.1.2), ts)
  | f + 1, .joinK :: ts => (expect .lparen ts).bind fun ts => (expr f ts).bind fun l => (expect .comma l.2).bind fun ts => (expr f ts).bind fun r => (expect .comma r.2).bind fun ts =>
    (projection f ts).bind fun p => (expect .rparen p.2).map fun ts => (.join l.1 r.1 p.1, ts)
  | f + 1, .reduceK :: ts => (expect .lparen ts).bind fun ts => (expr f ts).bind fun i => (expect .comma i.2).bind fun ts => (takeReducer ts).bind fun r =>
    (expect .rparen r.2).map fun ts => (.reduce i.1 r.1, ts)
  | f + 1, .filterK :: ts => (expect .lparen ts).bind fun ts => (expr f ts).bind fun i => (expect .comma i.2).bind fun ts => (logic f ts).bind fun c =>
    (expect .rparen c.2).map fun ts => (.linear i.1 (.filter c.1), ts)
  | f + 1, .negateK :: ts => (expect .lparen ts).bind fun ts => (expr f ts).bind fun i => (expect .rparen i.2).map fun ts => (.linear i.1 .negate, ts)
  | f + 1, .enterAtK :: ts => (expect .lparen ts).bind fun ts => (expr f ts).bind fun i => (expect .comma i.2).bind fun ts => (logic f ts).bind fun c =>
    (expect .rparen c.2).map fun ts => (.linear i.1 (.enterAt c.1), ts)
  | f + 1, .liftIterK :: ts => (expect .lparen ts).bind fun ts => (expr f ts).bind fun i => (expect .rparen i.2).map fun ts => (.linear i.1 .liftIter, ts)
  | f + 1, .flatMapK :: ts => (expect .lparen ts).bind fun ts => (expr f ts).bind fun i => (expect .comma i.2).bind fun ts => (logic f ts).bind fun c =>
    (expect .rparen c.2).map fun ts => (.linear i.1 (.flatMap c.1), ts)
  | f + 1, .inspectK :: ts => (expect .lparen ts).bind fun ts => (expr f ts).bind fun i => (expect .comma i.2).bind fun ts => (takeIdent ts).bind fun l =>
    (expect .rparen l.2).map fun ts => (.inspect i.1 l.1, ts)
  | f + 1, .concatK :: ts => (expect .lparen ts).bind fun ts => (exprs f ts).bind fun v => (expect .rparen v.2).map fun ts => (.concat v.1, ts)
  | f + 1, .arrangeK :: ts => (expect .lparen ts).bind fun ts => (expr f ts).bind fun i => (expect .rparen i.2).map fun ts => (.arrange i.1, ts)
  | _ + 1, .ident n :: ts => match ts with
    | [] => none
    | x :: ts => if x = .coloncolon then (takeIdent ts).map fun p => (.qualified n p.1, p.2) else some (.name n, x :: ts)
  | _ + 1, _ => none
/-- The loop of `CONCAT` (applicative.rs:140). -/
def exprs : Nat → List Tok → Option (List Exp × List Tok)
  | 0, _ => none
  | f + 1, ts => (expr f ts).bind fun p => match p.2 with
    | [] => none
    | x :: ts => if x = .comma then (exprs f ts).map fun q => (p.1 :: q.1, q.2) else some ([p.1], x :: ts)
end

mutual
/-- `parse_program` (applicative.rs:95-99). -/
def program : Nat → List Tok → Option (List St × List Tok)
  | 0, _ => none
  | _ + 1, [] => none
  | f + 1, x :: ts => if x = .eof ∨ x = .rbrace then some ([], x :: ts) else (stmt f (x :: ts)).bind fun p => (program f p.2).map fun q => (p.1 :: q.1, q.2)
/-- `parse_stmt` (applicative.rs:101-123). -/
def stmt : Nat → List Tok → Option (St × List Tok)
  | 0, _ => none
  | f + 1, .letK :: ts => (takeIdent ts).bind fun n => (expect .eq n.2).bind fun ts => (expr f ts).bind fun e => (expect .semi e.2).map fun ts => (.letS n.1 e.1, ts)
  | f + 1, .varK :: ts => (takeIdent ts).bind fun n => (expect .eq n.2).bind fun ts => (expr f ts).bind fun e => (expect .semi e.2).map fun ts => (.varS n.1 e.1, ts)
  | f + 1, .exportK :: ts => (takeStr ts).bind fun n => (expect .eq n.2).bind fun ts => (expr f ts).bind fun e => (expect .semi e.2).map fun ts => (.exportS n.1 e.1, ts)
  | f + 1, .ident n :: ts => (expect .colon ts).bind fun ts => match ts with
    | [] => none
    | x :: ts => (expect .lbrace (if x = .scopeK then ts else x :: ts)).bind fun ts => (program f ts).bind fun b => (expect .rbrace b.2).map fun ts => (.scopeS n b.1, ts)
  | _ + 1, _ => none
end

/-- `parse` (applicative.rs:279): what is left after the program is not looked at. -/
def parse (f : Nat) (s : List Char) : Option (List St) := (tokenize s).bind fun ts => (program f ts).map Prod.fst

end DD.Ir.App
