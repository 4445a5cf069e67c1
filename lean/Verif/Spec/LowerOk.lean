import Verif.Spec.Lower

/-!
# Which programs make sense

Every name that is used has a value, every field that is used is a name inside its scope, inputs, named traces and exports are at the root, and `let`s and nested scopes do not depend on each other
in a cycle.
-/

namespace DD.Ir
variable {L P Q N : Type*}

mutual
/-- An expression mentions a name, as `m` or as `m::f`. -/
def Expr.Mentions (m : N) : Expr L P Q N → Prop
  | .input _ => False
  | .imported _ => False
  | .name n => m = n
  | .qualified s _ => m = s
  | .linear e _ => e.Mentions m
  | .join l r _ => l.Mentions m ∨ r.Mentions m
  | .reduce e _ => e.Mentions m
  | .inspect e _ => e.Mentions m
  | .concat es => ExprsMention m es
  | .arrange e => e.Mentions m
/-- One of the expressions mentions a name. -/
def ExprsMention (m : N) : List (Expr L P Q N) → Prop
  | [] => False
  | e :: es => e.Mentions m ∨ ExprsMention m es
end

mutual
/-- A statement mentions a name of the scope that it is in. -/
def StmtMentions (m : N) : Stmt L P Q N → Prop
  | .letS _ e => e.Mentions m
  | .varS _ e => e.Mentions m
  | .scopeS _ body => m ∉ localNames body ∧ StmtsMention m body
  | .exportS _ e => e.Mentions m
/-- One of the statements mentions a name. -/
def StmtsMention (m : N) : List (Stmt L P Q N) → Prop
  | [] => False
  | s :: ss => StmtMentions m s ∨ StmtsMention m ss
end

/-- A `let` or `var` of the scope. -/
def IsValue (body : List (Stmt L P Q N)) (m : N) : Prop := (∃ e, .letS m e ∈ body) ∨ ∃ e, .varS m e ∈ body

/-- The names that have a value in a scope, given those that have one outside. -/
def Inside (body : List (Stmt L P Q N)) (outer : N → Prop) (m : N) : Prop := IsValue body m ∨ m ∉ localNames body ∧ outer m

/-- The fields of the scopes nested in a scope: names defined in them, or outer names mentioned in them. -/
def FieldOf (body : List (Stmt L P Q N)) (s f : N) : Prop := ∃ b, .scopeS s b ∈ body ∧ Inside b (fun m => StmtsMention m b) f

/-- The name of a `let` or nested scope. -/
def Stmt.item? : Stmt L P Q N → Option N
  | .letS n _ => some n
  | .scopeS n _ => some n
  | _ => none

/-- The `let`s and nested scopes of a scope can be ordered so that they mention only earlier ones. -/
def Acyclic (body : List (Stmt L P Q N)) : Prop :=
  ∃ rank : N → Nat, ∀ s ∈ body, ∀ n, s.item? = some n → ∀ s' ∈ body, ∀ m, s'.item? = some m → StmtMentions m s → rank m < rank n

mutual
/-- All that an expression uses is there: `val` are the names that have a value, `field` the fields of scopes. -/
def ExprOk (root : Bool) (val : N → Prop) (field : N → N → Prop) : Expr L P Q N → Prop
  | .input _ => root = true
  | .imported _ => root = true
  | .name n => val n
  | .qualified s f => field s f
  | .linear e _ => ExprOk root val field e
  | .join l r _ => ExprOk root val field l ∧ ExprOk root val field r
  | .reduce e _ => ExprOk root val field e
  | .inspect e _ => ExprOk root val field e
  | .concat es => ExprsOk root val field es
  | .arrange e => ExprOk root val field e
/-- All that expressions use is there. -/
def ExprsOk (root : Bool) (val : N → Prop) (field : N → N → Prop) : List (Expr L P Q N) → Prop
  | [] => True
  | e :: es => ExprOk root val field e ∧ ExprsOk root val field es
end

mutual
/-- A statement makes sense. -/
def StmtOk (root : Bool) (val : N → Prop) (field : N → N → Prop) : Stmt L P Q N → Prop
  | .letS _ e => ExprOk root val field e
  | .varS _ e => ExprOk root val field e
  | .scopeS _ body => Acyclic body ∧ StmtsOk false (Inside body val) (FieldOf body) body
  | .exportS _ e => root = true ∧ ExprOk root val field e
/-- Statements make sense. -/
def StmtsOk (root : Bool) (val : N → Prop) (field : N → N → Prop) : List (Stmt L P Q N) → Prop
  | [] => True
  | s :: ss => StmtOk root val field s ∧ StmtsOk root val field ss
end

/-- A scope makes sense, given the names that have a value outside. -/
def BodyOk (root : Bool) (outer : N → Prop) (body : List (Stmt L P Q N)) : Prop := Acyclic body ∧ StmtsOk root (Inside body outer) (FieldOf body) body

/-- A program makes sense. -/
def ProgramOk (body : List (Stmt L P Q N)) : Prop := BodyOk true (fun _ => False) body

mutual
/-- There are no exports inside the scopes of a statement. -/
def StmtExportsAtRoot : Stmt L P Q N → Prop
  | .letS _ _ => True
  | .varS _ _ => True
  | .scopeS _ body => exportsIn body = [] ∧ ExportsAtRoot body
  | .exportS _ _ => True
/-- There are no exports inside nested scopes. -/
def ExportsAtRoot : List (Stmt L P Q N) → Prop
  | [] => True
  | s :: ss => StmtExportsAtRoot s ∧ ExportsAtRoot ss
end

end DD.Ir
