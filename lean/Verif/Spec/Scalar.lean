import Verif.Model.Scalar

/-!
# What scalar terms mean

`rows` are the operator's input rows, which `var` reads, and `bs` the values bound by enclosing `case`s and `fold`s, innermost first, which `bound` reads. There is no stack, and no shortcut.
-/

namespace DD.Ir

mutual
/-- The order of values: integers, tuples, variants, lists. -/
inductive Value.Less : Value → Value → Prop where
  | int {a b : Int} : a < b → Less (.int a) (.int b)
  | intTuple {a : Int} {ys : List Value} : Less (.int a) (.tuple ys)
  | intVariant {a : Int} {t : Nat} {b : Value} : Less (.int a) (.variant t b)
  | intList {a : Int} {ys : List Value} : Less (.int a) (.list ys)
  | tuple {xs ys : List Value} : Lesses xs ys → Less (.tuple xs) (.tuple ys)
  | tupleVariant {xs : List Value} {t : Nat} {b : Value} : Less (.tuple xs) (.variant t b)
  | tupleList {xs ys : List Value} : Less (.tuple xs) (.list ys)
  | tag {s t : Nat} {a b : Value} : s < t → Less (.variant s a) (.variant t b)
  | payload {t : Nat} {a b : Value} : Less a b → Less (.variant t a) (.variant t b)
  | variantList {t : Nat} {a : Value} {ys : List Value} : Less (.variant t a) (.list ys)
  | list {xs ys : List Value} : Lesses xs ys → Less (.list xs) (.list ys)
/-- The lexicographic order of sequences of values. -/
inductive Value.Lesses : List Value → List Value → Prop where
  | nil {y : Value} {ys : List Value} : Lesses [] (y :: ys)
  | head {x y : Value} {xs ys : List Value} : Less x y → Lesses (x :: xs) (y :: ys)
  | tail {x : Value} {xs ys : List Value} : Lesses xs ys → Lesses (x :: xs) (x :: ys)
end

open Classical in
/-- A truth value. -/
noncomputable def Value.truth (p : Prop) : Value := .int (if p then 1 else 0)

/-- What an operator on one value means. -/
noncomputable def unaryMeans (norm : Overflow) : UnOp → Value → Option Value
  | .neg, .int n => (norm (-n)).map .int
  | .neg, _ => none
  | .not, v => some (.truth (v.truthy = false))
  | .isTag t, v => some (.truth (∃ payload, v = .variant t payload))
  | .len, .tuple xs => some (.int xs.length)
  | .len, .list xs => some (.int xs.length)
  | .len, _ => none

/-- What an operator on two values means, if it needs both. -/
noncomputable def binaryMeans (norm : Overflow) : BinOp → Value → Value → Option Value
  | .add, .int a, .int b => (norm (a + b)).map .int
  | .sub, .int a, .int b => (norm (a - b)).map .int
  | .mul, .int a, .int b => (norm (a * b)).map .int
  | .eq, l, r => some (.truth (l = r))
  | .ne, l, r => some (.truth (l ≠ r))
  | .lt, l, r => some (.truth (l.Less r))
  | .le, l, r => some (.truth (l.Less r ∨ l = r))
  | .gt, l, r => some (.truth (r.Less l))
  | .ge, l, r => some (.truth (r.Less l ∨ l = r))
  | _, _, _ => none

/-- The integers in a list of values, if all are. -/
def allInts : List Value → Option (List Int)
  | [] => some []
  | v :: vs => v.asInt.bind fun n => (allInts vs).map fun ns => n :: ns

/-- The draw of a hash: mix the keys one by one, drop a bit, and reduce to the bound. -/
def hashMeans (bound : Int) (keys : List Int) : Int := hashDraw bound (keys.foldl (fun acc n => hashU64 (acc ^^^ asU64 n)) 0xcbf29ce484222325)

mutual
/-- What a term means. -/
noncomputable def denote (norm : Overflow) (rows : List Value) : Term → List Value → Option Value
  | .var i, _ => rows[i]?
  | .bound k, bs => bs[k]?
  | .int n, _ => some (.int n)
  | .tuple fields, bs => (denoteFields norm rows fields bs).map .tuple
  | .list fields, bs => (denoteFields norm rows fields bs).map .list
  | .spread _, _ => none
  | .proj t i, bs => (denote norm rows t bs).bind fun v => v.fields.bind fun xs => xs[i]?
  | .inject tag t, bs => (denote norm rows tag bs).bind fun n => n.asInt.bind fun n => (denote norm rows t bs).map fun v => .variant (asU32 n) v
  | .case scrutinee arms default, bs => (denote norm rows scrutinee bs).bind fun v =>
    match v with
    | .variant tag payload => ((denoteEach norm rows arms (payload :: bs))[tag]?).getD (denoteOption norm rows default bs)
    | _ => none
  | .fold list init step, bs => (denote norm rows list bs).bind fun v =>
    match v with
    | .list items => (denote norm rows init bs).bind fun acc => items.foldlM (fun acc item => denote norm rows step (item :: acc :: bs)) acc
    | _ => none
  | .ite cond thn els, bs => (denote norm rows cond bs).bind fun c => if c.truthy then denote norm rows thn bs else denote norm rows els bs
  | .unary op t, bs => (denote norm rows t bs).bind fun v => unaryMeans norm op v
  | .binary op l r, bs => (denote norm rows l bs).bind fun v =>
    match op with
    | .and => if v.truthy then (denote norm rows r bs).map fun w => .truth (w.truthy = true) else some (.int 0)
    | .or => if v.truthy then some (.int 1) else (denote norm rows r bs).map fun w => .truth (w.truthy = true)
    | op => (denote norm rows r bs).bind fun w => binaryMeans norm op v w
  | .hash args, bs => ((denoteEach norm rows args bs).mapM id).bind fun vs => (allInts vs).bind fun ns =>
    match ns with
    | [] => none
    | bound :: keys => some (.int (hashMeans bound keys))
/-- What a list of fields means: a splice gives all the fields of its value. -/
noncomputable def denoteFields (norm : Overflow) (rows : List Value) : List Term → List Value → Option (List Value)
  | [], _ => some []
  | .spread t :: fs, bs => (denote norm rows t bs).bind fun v => v.fields.bind fun xs => (denoteFields norm rows fs bs).map fun ys => xs ++ ys
  | t :: fs, bs => (denote norm rows t bs).bind fun v => (denoteFields norm rows fs bs).map fun ys => v :: ys
/-- What each of a list of terms means. -/
noncomputable def denoteEach (norm : Overflow) (rows : List Value) : List Term → List Value → List (Option Value)
  | [], _ => []
  | t :: ts, bs => denote norm rows t bs :: denoteEach norm rows ts bs
/-- What an optional term means. -/
noncomputable def denoteOption (norm : Overflow) (rows : List Value) : Option Term → List Value → Option Value
  | none, _ => none
  | some t, bs => denote norm rows t bs
end

mutual
/-- A term reads only the first `n` rows and the first `b` bound values. -/
def Scoped (n : Nat) : Term → Nat → Prop
  | .var i, _ => i < n
  | .bound k, b => k < b
  | .int _, _ => True
  | .tuple fields, b => AllScoped n fields b
  | .list fields, b => AllScoped n fields b
  | .spread t, b => Scoped n t b
  | .proj t _, b => Scoped n t b
  | .inject tag t, b => Scoped n tag b ∧ Scoped n t b
  | .case scrutinee arms default, b => Scoped n scrutinee b ∧ AllScoped n arms (b + 1) ∧ OptionScoped n default b
  | .fold list init step, b => Scoped n list b ∧ Scoped n init b ∧ Scoped n step (b + 2)
  | .ite cond thn els, b => Scoped n cond b ∧ Scoped n thn b ∧ Scoped n els b
  | .unary _ t, b => Scoped n t b
  | .binary _ l r, b => Scoped n l b ∧ Scoped n r b
  | .hash args, b => AllScoped n args b
/-- All terms do. -/
def AllScoped (n : Nat) : List Term → Nat → Prop
  | [], _ => True
  | t :: ts, b => Scoped n t b ∧ AllScoped n ts b
/-- An optional term does. -/
def OptionScoped (n : Nat) : Option Term → Nat → Prop
  | none, _ => True
  | some t, b => Scoped n t b
end

end DD.Ir
