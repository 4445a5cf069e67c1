import Verif.Model.Scalar

/-!
# Model of names in scalar terms of `interactive`: constructors, `case` patterns and binders in `interactive/src/parse/pipe.rs`

A term as it is written, after tokens are grouped: the recursive descent over tokens is not modelled. A panic is `none`. `cons` are the declared constructors, with tag and arity.
-/

namespace DD.Ir

universe u

mutual
/-- A scalar term as it is written (pipe.rs:34-54). -/
inductive Surface (N : Type u) where
  | var (i : Nat)
  | bound (k : Nat)
  | int (n : Int)
  | name (x : N)
  | tuple (fields : List (Surface N))
  | list (fields : List (Surface N))
  | spread (t : Surface N)
  | proj (t : Surface N) (i : Nat)
  | inject (tag t : Surface N)
  | con (c : N) (args : List (Surface N))
  | case (scrutinee : Surface N) (arms : Arms N)
  | fold (list init step : Surface N)
  | ite (cond thn els : Surface N)
  | unary (op : UnOp) (t : Surface N)
  | binary (op : BinOp) (l r : Surface N)
  | hash (args : List (Surface N))
/-- The arms of a `case`: `_ => t` and `c(names) => t`, in any order. -/
inductive Arms (N : Type u) where
  | nil
  | default (t : Surface N) (rest : Arms N)
  | con (c : N) (names : List N) (t : Surface N) (rest : Arms N)
end

variable {N : Type*} [DecidableEq N]

/-- `resolve_binder` (pipe.rs:182-186): the name, the depth at which it was bound and the field. -/
def resolveBinder (binders : List (N × Nat × Nat)) (depth : Nat) (x : N) : Option Term :=
  (binders.reverse.find? fun p => p.1 = x).map fun p => .proj (.bound (depth - p.2.1)) p.2.2

/-- The arms in the order of tags, with gaps filled by the default (pipe.rs:464-474). -/
def fillArms (tagged : List (Nat × Term)) (default : Option Term) : Option (List Term) :=
  (List.range ((tagged.map fun p => p.1 + 1).foldr max 0)).mapM fun t => ((tagged.find? fun p => p.1 = t).map Prod.snd).or default

variable (cons : N → Option (Nat × Nat))

mutual
/-- `parse_term` and what it calls (pipe.rs:302-407, 411-423, 427-476), as far as names are concerned. -/
def elaborate (binders : List (N × Nat × Nat)) (depth : Nat) : Surface N → Option Term
  | .var i => some (.var i)
  | .bound k => some (.bound k)
  | .int n => some (.int n)
  | .name x => resolveBinder binders depth x
  | .tuple fields => (elaborates binders depth fields).map .tuple
  | .list fields => (elaborates binders depth fields).map .list
  | .spread t => (elaborate binders depth t).map .spread
  | .proj t i => (elaborate binders depth t).map fun t => .proj t i
  | .inject tag t => (elaborate binders depth tag).bind fun tag => (elaborate binders depth t).map fun t => .inject tag t
  | .con c args => (cons c).bind fun p => (elaborates binders depth args).bind fun args => if args.length = p.2 then some (.inject (.int p.1) (.tuple args)) else none
  | .case scrutinee arms => (elaborate binders depth scrutinee).bind fun scrutinee => (elaborateArms binders depth arms [] none).bind fun p =>
    (fillArms p.1 p.2).map fun arms => .case scrutinee arms p.2
  | .fold list init step => (elaborate binders depth list).bind fun list => (elaborate binders depth init).bind fun init =>
    (elaborate binders (depth + 2) step).map fun step => .fold list init step
  | .ite cond thn els => (elaborate binders depth cond).bind fun cond => (elaborate binders depth thn).bind fun thn => (elaborate binders depth els).map fun els => .ite cond thn els
  | .unary op t => (elaborate binders depth t).map fun t => .unary op t
  | .binary op l r => (elaborate binders depth l).bind fun l => (elaborate binders depth r).map fun r => .binary op l r
  | .hash args => (elaborates binders depth args).map .hash
/-- `parse_args`, `parse_field_list_until` (pipe.rs:479-488, 294-299). -/
def elaborates (binders : List (N × Nat × Nat)) (depth : Nat) : List (Surface N) → Option (List Term)
  | [] => some []
  | t :: ts => (elaborate binders depth t).bind fun t => (elaborates binders depth ts).map fun ts => t :: ts
/-- The loop of `parse_pattern_case` (pipe.rs:433-460), with `tagged` and `default`. -/
def elaborateArms (binders : List (N × Nat × Nat)) (depth : Nat) : Arms N → List (Nat × Term) → Option Term → Option (List (Nat × Term) × Option Term)
  | .nil, tagged, default => some (tagged, default)
  | .default t rest, tagged, _ => (elaborate binders depth t).bind fun t => elaborateArms binders depth rest tagged (some t)
  | .con c names t rest, tagged, default => (cons c).bind fun p =>
    if names.length = p.2 then
      (elaborate (binders ++ names.zipIdx.map fun q => (q.1, depth + 1, q.2)) (depth + 1) t).bind fun t => elaborateArms binders depth rest (tagged ++ [(p.1, t)]) default
    else none
end

end DD.Ir
