import Verif.Model.Applicative

/-!
# Model of the collection language of the pipe syntax of `interactive`: `interactive/src/parse/pipe.rs`

The tokens, the terms and the projections are those of the applicative syntax, whose functions are the same in both files (pipe.rs:271-408, 478-495). Programs have no constructors: without `con`, `case` and names
of binders, which are in `Model/Surface.lean`, and without `fold`, the terms of both syntaxes are parsed alike. A panic is `none`.
-/

namespace DD.Ir.Pipe

open App

/-! ### Tokens -/

/-- The words that only programs with constructors and patterns or folds have (pipe.rs:119); the model refuses them. -/
def reserved : List (List Char) := ["con".toList, "case".toList, "fold".toList]

/-- Keywords (pipe.rs:117-129). -/
def word (w : List Char) : Tok :=
  if w = "let".toList then .letK else if w = "var".toList then .varK else if w = "export".toList then .exportK
  else if w = "input".toList then .inputK else if w = "import".toList then .importK else if w = "key".toList then .keyK else if w = "map".toList then .mapK
  else if w = "join".toList then .joinK else if w = "min".toList then .minK else if w = "distinct".toList then .distinctK else if w = "count".toList then .countK else if w = "collect".toList then .collectK
  else if w = "flatmap".toList then .flatMapK else if w = "arrange".toList then .arrangeK else if w = "negate".toList then .negateK
  else if w = "filter".toList then .filterK else if w = "enter_at".toList then .enterAtK else if w = "inspect".toList then .inspectK else if w = "lift_iter".toList then .liftIterK
  else .ident w

/-- One turn of `tokenize` (pipe.rs:71-131): the token, if any, and the characters left. Simplified: `=>` and the reserved words are refused. -/
def lex (c : Char) (s : List Char) : Option (Option Tok × List Char) :=
  if c = ' ' ∨ c = '\t' ∨ c = '\n' ∨ c = '\r' then some (none, s)
  else if c = '-' ∧ s.head? = some '-' then some (none, dropLine s)
  else if c = '(' then some (some .lparen, s)
  else if c = ')' then some (some .rparen, s)
  else if c = '{' then some (some .lbrace, s)
  else if c = '}' then some (some .rbrace, s)
  else if c = '[' then some (some .lbracket, s)
  else if c = ']' then some (some .rbracket, s)
  else if c = ',' then some (some .comma, s)
  else if c = ';' then some (some .semi, s)
  else if c = '|' then some (some .pipe, s)
  else if c = '&' then pair '&' .andand none s
  else if c = '+' then some (some .plus, s)
  else if c = '*' then some (some .star, s)
  else if c = '^' then some (some .caret, s)
  else if c = '=' then (if s.head? = some '>' then none else pair '=' .eqeq (some .eq) s)
  else if c = '!' then pair '=' .noteq none s
  else if c = '<' then pair '=' .lteq (some .lt) s
  else if c = '>' then pair '=' .gteq (some .gt) s
  else if c = '$' then some (some .dollar, s)
  else if c = '"' then (quoted s).map fun p => (some (.str p.1), p.2)
  else if c = '-' then some (some .minus, s)
  else if c = ':' then pair ':' .coloncolon (some .colon) s
  else if c.isDigit then (number ((c :: s).takeWhile Char.isDigit)).map fun n => (some (.int n), (c :: s).dropWhile Char.isDigit)
  else if c.isAlpha ∨ c = '_' then (if (c :: s).takeWhile wordChar ∈ reserved then none else some (some (word ((c :: s).takeWhile wordChar)), (c :: s).dropWhile wordChar))
  else none

/-- The loop of `tokenize` (pipe.rs:70-133). -/
def scan : Nat → List Char → Option (List Tok)
  | _, [] => some [.eof]
  | 0, _ :: _ => none
  | f + 1, c :: s => (lex c s).bind fun p => (scan f p.2).map fun ts => p.1.toList ++ ts

/-- `tokenize` (pipe.rs:67-136): each turn takes a character at least. -/
def tokenize (s : List Char) : Option (List Tok) := scan s.length s

/-! ### The parser -/

/-- `parse_concat_expr` at its end (pipe.rs:232). -/
def concatOf : Exp → List Exp → Exp
  | first, [] => first
  | first, e :: es => .concat (first :: e :: es)

mutual
/-- `parse_pipe_expr` (pipe.rs:213-220). -/
def expr : Nat → List Tok → Option (Exp × List Tok)
  | 0, _ => none
  | f + 1, ts => (sum f ts).bind fun p => pipes f p.1 p.2
/-- The loops of `parse_pipe_expr` and `parse_join_arg` (pipe.rs:215-218, 247). -/
def pipes : Nat → Exp → List Tok → Option (Exp × List Tok)
  | 0, _, _ => none
  | _ + 1, _, [] => none
  | f + 1, e, x :: ts => if x = .pipe then (pipeOp f e ts).bind fun p => pipes f p.1 p.2 else some (e, x :: ts)
/-- `parse_concat_expr` (pipe.rs:222-233). -/
def sum : Nat → List Tok → Option (Exp × List Tok)
  | 0, _ => none
  | f + 1, ts => (atom f ts).bind fun p => (parts f p.2).map fun q => (concatOf p.1 q.1, q.2)
/-- The loop of `parse_concat_expr` (pipe.rs:225-231). -/
def parts : Nat → List Tok → Option (List Exp × List Tok)
  | 0, _ => none
  | _ + 1, [] => none
  | f + 1, x :: ts =>
    if x = .plus then (atom f ts).bind fun p => (parts f p.2).map fun q => (p.1 :: q.1, q.2)
    else if x = .minus then (atom f ts).bind fun p => (parts f p.2).map fun q => (.linear p.1 .negate :: q.1, q.2)
    else some ([], x :: ts)
/-- `parse_atom` (pipe.rs:235-243). -/
def atom : Nat → List Tok → Option (Exp × List Tok)
  | 0, _ => none
  | _ + 1, .inputK :: ts => (takeInt ts).map fun p => (.input p.1, p.2)
  | _ + 1, .importK :: ts => (takeStr ts).map fun p => (.imported p.1, p.2)
  | _ + 1, .ident n :: ts => match ts with
    | [] => none
    | x :: ts => if x = .coloncolon then (takeIdent ts).map fun p => (.qualified n p.1, p.2) else some (.name n, x :: ts)
  | f + 1, .lparen :: ts => (expr f ts).bind fun p => (expect .rparen p.2).map fun ts => (p.1, ts)
  | _ + 1, _ => none
/-- `parse_join_arg` (pipe.rs:245-249). -/
def joinArg : Nat → List Tok → Option (Exp × List Tok)
  | 0, _ => none
  | f + 1, ts => (atom f ts).bind fun p => pipes f p.1 p.2
/-- `parse_pipe_op` (pipe.rs:251-269). -/
def pipeOp : Nat → Exp → List Tok → Option (Exp × List Tok)
  | 0, _, _ => none
  | f + 1, lhs, .keyK :: ts => (projection f ts).map fun p => (.linear lhs (.project p.1.1 p.1.2), p.2)
  | f + 1, lhs, .mapK :: ts => (projection f ts).map fun p => (.linear lhs (.project p.1.1 p.1.2), p.2)
  | f + 1, lhs, .joinK :: ts => (expect .lparen ts).bind fun ts => (joinArg f ts).bind fun r => (expect .comma r.2).bind fun ts => (projection f ts).bind fun p =>
    (expect .rparen p.2).map fun ts => (.join lhs r.1 p.1, ts)
  | _ + 1, lhs, .minK :: ts => some (.reduce lhs .min, ts)
  | _ + 1, lhs, .distinctK :: ts => some (.reduce lhs .distinct, ts)
  | _ + 1, lhs, .countK :: ts => some (.reduce lhs .count, ts)
  | _ + 1, lhs, .collectK :: ts => some (.reduce lhs .collect, ts)
  | f + 1, lhs, .flatMapK :: ts => (expect .lparen ts).bind fun ts => (logic f ts).bind fun t => (expect .rparen t.2).map fun ts => (.linear lhs (.flatMap t.1), ts)
  | _ + 1, lhs, .arrangeK :: ts => some (.arrange lhs, ts)
  | _ + 1, lhs, .negateK :: ts => some (.linear lhs .negate, ts)
  | f + 1, lhs, .filterK :: ts => (expect .lparen ts).bind fun ts => (logic f ts).bind fun t => (expect .rparen t.2).map fun ts => (.linear lhs (.filter t.1), ts)
  | f + 1, lhs, .enterAtK :: ts => (expect .lparen ts).bind fun ts => (logic f ts).bind fun t => (expect .rparen t.2).map fun ts => (.linear lhs (.enterAt t.1), ts)
  | _ + 1, lhs, .liftIterK :: ts => some (.linear lhs .liftIter, ts)
  | _ + 1, lhs, .inspectK :: ts => (expect .lparen ts).bind fun ts => (takeIdent ts).bind fun l => (expect .rparen l.2).map fun ts => (.inspect lhs l.1, ts)
  | _ + 1, _, _ => none
end

mutual
/-- `parse_program` (pipe.rs:160-179), without declarations of constructors. -/
def program : Nat → List Tok → Option (List St × List Tok)
  | 0, _ => none
  | _ + 1, [] => none
  | f + 1, x :: ts => if x = .eof ∨ x = .rbrace then some ([], x :: ts) else (stmt f (x :: ts)).bind fun p => (program f p.2).map fun q => (p.1 :: q.1, q.2)
/-- `parse_stmt` (pipe.rs:188-209). -/
def stmt : Nat → List Tok → Option (St × List Tok)
  | 0, _ => none
  | f + 1, .letK :: ts => (takeIdent ts).bind fun n => (expect .eq n.2).bind fun ts => (expr f ts).bind fun e => (expect .semi e.2).map fun ts => (.letS n.1 e.1, ts)
  | f + 1, .varK :: ts => (takeIdent ts).bind fun n => (expect .eq n.2).bind fun ts => (expr f ts).bind fun e => (expect .semi e.2).map fun ts => (.varS n.1 e.1, ts)
  | f + 1, .exportK :: ts => (takeStr ts).bind fun n => (expect .eq n.2).bind fun ts => (expr f ts).bind fun e => (expect .semi e.2).map fun ts => (.exportS n.1 e.1, ts)
  | f + 1, .ident n :: ts => (expect .colon ts).bind fun ts => (expect .lbrace ts).bind fun ts => (program f ts).bind fun b => (expect .rbrace b.2).map fun ts => (.scopeS n b.1, ts)
  | _ + 1, _ => none
end

/-- `parse` after `tokenize` (pipe.rs:498): what is left after the program is not looked at. -/
def parse (f : Nat) (ts : List Tok) : Option (List St) := (program f ts).map Prod.fst

/-- `parse` (pipe.rs:498). -/
def parseText (f : Nat) (s : List Char) : Option (List St) := (tokenize s).bind (parse f)

end DD.Ir.Pipe
