import Verif.Model.SourceAst
import Verif.Model.ScopeIr

/-!
# What a program means, whatever the order of its statements

A scope is a set of equations. Each name has a value: that of a `let` is what its expression computes, that of a `var` is what its expression computes fed back to the next iteration, and a name
that the scope does not define has the value it has outside, entered. A field `s::f` is the value of `f` in the scope `s`, as it leaves.
-/

namespace DD.Ir
variable {L P Q N : Type*}

/-- The name a statement defines. -/
def Stmt.name? : Stmt L P Q N → Option N
  | .letS n _ => some n
  | .varS n _ => some n
  | .scopeS n _ => some n
  | .exportS _ _ => none

/-- The names a scope defines. -/
def localNames (body : List (Stmt L P Q N)) : List N := body.filterMap Stmt.name?

mutual
/-- No name is defined twice in the scopes of a statement. -/
def StmtDistinct : Stmt L P Q N → Prop
  | .letS _ _ => True
  | .varS _ _ => True
  | .scopeS _ body => (localNames body).Nodup ∧ StmtsDistinct body
  | .exportS _ _ => True
/-- No name is defined twice in the scopes of statements. -/
def StmtsDistinct : List (Stmt L P Q N) → Prop
  | [] => True
  | s :: ss => StmtDistinct s ∧ StmtsDistinct ss
end

/-- No name is defined twice in the same scope. -/
def Distinct (body : List (Stmt L P Q N)) : Prop := (localNames body).Nodup ∧ StmtsDistinct body

/-- The same statements, in another order, in the scope and in those nested in it. -/
inductive Reordered : List (Stmt L P Q N) → List (Stmt L P Q N) → Prop where
  | perm {body body' : List (Stmt L P Q N)} : body.Perm body' → Reordered body body'
  | inside (before after : List (Stmt L P Q N)) (n : N) {body body' : List (Stmt L P Q N)} : Reordered body body' → Reordered (before ++ .scopeS n body :: after) (before ++ .scopeS n body' :: after)
  | trans {a b c : List (Stmt L P Q N)} : Reordered a b → Reordered b c → Reordered a c

section
variable {Col Arr : Type*} (sem : Sem L P Q N Col Arr)

mutual
/-- What an expression computes, at some depth: `ext` are the inputs and named traces, `env` the values of the names, `fields` those of the fields of scopes. -/
def exprSem (depth : Nat) (ext : Source N → Option Col) (env : N → Option (Rendered Col Arr)) (fields : N → N → Option (Rendered Col Arr)) : Expr L P Q N → Option (Rendered Col Arr)
  | .input n => (ext (.input n)).map .coll
  | .imported name => (ext (.trace name)).map .coll
  | .name n => env n
  | .qualified s f => fields s f
  | .linear e op => (exprSem depth ext env fields e).map fun x => .coll (sem.linear depth [op] (x.collection sem))
  | .join l r p => (exprSem depth ext env fields l).bind fun x => (exprSem depth ext env fields r).map fun y => .coll (sem.join (x.arrange sem) (y.arrange sem) p)
  | .reduce e q => (exprSem depth ext env fields e).map fun x => .arr (sem.reduce (x.arrange sem) q)
  | .inspect e label => (exprSem depth ext env fields e).map fun x => .coll (sem.inspect label (x.collection sem))
  | .concat es => (exprsSem depth ext env fields es).bind fun xs => match xs with
    | [] => none
    | x :: xs => some (.coll (xs.foldl (fun c y => sem.concat c (y.collection sem)) (x.collection sem)))
  | .arrange e => (exprSem depth ext env fields e).map fun x => .arr (x.arrange sem)
/-- What expressions compute. -/
def exprsSem (depth : Nat) (ext : Source N → Option Col) (env : N → Option (Rendered Col Arr)) (fields : N → N → Option (Rendered Col Arr)) :
    List (Expr L P Q N) → Option (List (Rendered Col Arr))
  | [] => some []
  | e :: es => (exprSem depth ext env fields e).bind fun x => (exprsSem depth ext env fields es).map fun xs => x :: xs
end

/-- The values names have inside a scope, from those outside. -/
def entered (env : N → Option (Rendered Col Arr)) (n : N) : Option (Rendered Col Arr) := (env n).map fun x => .coll (sem.enter (x.collection sem))

/-- The value of a field of a scope whose inside is at a depth, from the values of its names. -/
def leaving (depth : Nat) (inner : N → Option (Rendered Col Arr)) (f : N) : Option (Rendered Col Arr) :=
  (inner f).map fun x => .coll (sem.leaveDynamic depth (sem.leave (x.collection sem)))

mutual
/-- The equation of a statement. -/
def StmtSem (depth : Nat) (ext : Source N → Option Col) (env : N → Option (Rendered Col Arr)) (fields : N → N → Option (Rendered Col Arr)) : Stmt L P Q N → Prop
  | .letS n e => ∃ x, exprSem sem depth ext env fields e = some x ∧ env n = some x
  | .varS n e => ∃ x, exprSem sem depth ext env fields e = some x ∧ env n = some (.coll (sem.feedback depth (x.collection sem)))
  | .scopeS n body => env n = none ∧ ∃ inner innerFields, (∀ m, m ∉ localNames body → inner m = entered sem env m) ∧
      StmtsSem (depth + 1) (fun _ => none) inner innerFields body ∧ ∀ f, fields n f = leaving sem (depth + 1) inner f
  | .exportS _ _ => True
/-- The equations of statements. -/
def StmtsSem (depth : Nat) (ext : Source N → Option Col) (env : N → Option (Rendered Col Arr)) (fields : N → N → Option (Rendered Col Arr)) : List (Stmt L P Q N) → Prop
  | [] => True
  | s :: ss => StmtSem depth ext env fields s ∧ StmtsSem depth ext env fields ss
end

/-- The equations of a scope: `outer` are the values of names from outside. -/
def BodySem (depth : Nat) (ext : Source N → Option Col) (outer env : N → Option (Rendered Col Arr)) (fields : N → N → Option (Rendered Col Arr)) (body : List (Stmt L P Q N)) : Prop :=
  (∀ m, m ∉ localNames body → env m = outer m) ∧ StmtsSem sem depth ext env fields body

/-- The name and expression of an `export`. -/
def Stmt.export? : Stmt L P Q N → Option (N × Expr L P Q N)
  | .exportS n e => some (n, e)
  | _ => none

/-- The exports of a program, in the order they are written. -/
def exportsIn (body : List (Stmt L P Q N)) : List (N × Expr L P Q N) := body.filterMap Stmt.export?

/-- The inputs and named traces of a program. -/
def external (inputs : Nat → Col) (traces : N → Col) : Source N → Option Col
  | .input n => some (inputs n)
  | .trace name => some (traces name)
  | .parent _ => none

/-- From these inputs and named traces the program can export these collections. -/
def ProgramSem (body : List (Stmt L P Q N)) (inputs : Nat → Col) (traces : N → Col) (outs : List (N × Col)) : Prop :=
  ∃ env fields, BodySem sem 0 (external inputs traces) (fun _ => none) env fields body ∧
    List.Forall₂ (fun p o => o.1 = p.1 ∧ ∃ x, exprSem sem 0 (external inputs traces) env fields p.2 = some x ∧ o.2 = x.collection sem) (exportsIn body) outs
end

end DD.Ir
