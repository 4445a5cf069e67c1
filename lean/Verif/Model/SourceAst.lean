import Mathlib.Data.List.Basic

/-!
# Model of the syntax of programs of the `interactive` crate (`interactive/src/parse/mod.rs`)

`L` are the linear operators, `P` the projections, `Q` the reducers and `N` the names.
-/

namespace DD.Ir

/-- `Expr` (parse/mod.rs:99-131). Simplified: `Map`, `Filter`, `Negate`, `EnterAt`, `LiftIter` and `FlatMap` are all `linear`, with the linear operator they are lowered to (lower.rs:143-148). -/
inductive Expr (L P Q N : Type*) where
  | input (n : Nat)
  | imported (name : N)
  | name (n : N)
  | qualified (scope field : N)
  | linear (e : Expr L P Q N) (op : L)
  | join (l r : Expr L P Q N) (p : P)
  | reduce (e : Expr L P Q N) (q : Q)
  | inspect (e : Expr L P Q N) (label : N)
  | concat (es : List (Expr L P Q N))
  | arrange (e : Expr L P Q N)

/-- `Stmt` (parse/mod.rs:133-141). -/
inductive Stmt (L P Q N : Type*) where
  | letS (n : N) (e : Expr L P Q N)
  | varS (n : N) (e : Expr L P Q N)
  | scopeS (n : N) (body : List (Stmt L P Q N))
  | exportS (n : N) (e : Expr L P Q N)

end DD.Ir
