import Verif.Model.VecLinear

/-!
# Model of scalar terms of `interactive`: `eval` in `interactive/src/ir.rs`, terms in `interactive/src/parse/mod.rs`, reducers in `interactive/src/backend/vec.rs`

A panic is `none`. Integers are unbounded, with a function `norm` for what arithmetic does with a result that does not fit an `i64`: panic, or wrap, depending on how the code is built.
-/

namespace DD.Ir

/-- `UnOp` (parse/mod.rs:66-75). -/
inductive UnOp where
  | neg
  | not
  | isTag (t : Nat)
  | len
deriving DecidableEq

/-- `BinOp` (parse/mod.rs:78-82). -/
inductive BinOp where
  | add | sub | mul
  | eq | ne | lt | le | gt | ge
  | and | or
deriving DecidableEq

/-- `Term` (parse/mod.rs:28-63). -/
inductive Term where
  | var (i : Nat)
  | bound (k : Nat)
  | int (n : Int)
  | tuple (fields : List Term)
  | list (fields : List Term)
  | spread (t : Term)
  | proj (t : Term) (i : Nat)
  | inject (tag t : Term)
  | case (scrutinee : Term) (arms : List Term) (default : Option Term)
  | fold (list init step : Term)
  | ite (cond thn els : Term)
  | unary (op : UnOp) (t : Term)
  | binary (op : BinOp) (l r : Term)
  | hash (args : List Term)

/-- What arithmetic does with a result: `none` for a panic. -/
abbrev Overflow := Int → Option Int

/-- With overflow checks. -/
def checked : Overflow := fun n => if -2 ^ 63 ≤ n ∧ n < 2 ^ 63 then some n else none

/-- Without. -/
def wrapping : Overflow := fun n => some (Int.bmod n (2 ^ 64))

mutual
/-- The `Ord` derived for `Value` (ir.rs:18-25): by constructor, then by fields, sequences in lexicographic order. -/
def Value.cmp : Value → Value → Ordering
  | .int a, .int b => compare a b
  | .int _, _ => .lt
  | .tuple _, .int _ => .gt
  | .tuple a, .tuple b => Value.cmps a b
  | .tuple _, _ => .lt
  | .variant _ _, .int _ => .gt
  | .variant _ _, .tuple _ => .gt
  | .variant s a, .variant t b => (compare s t).then (Value.cmp a b)
  | .variant _ _, .list _ => .lt
  | .list a, .list b => Value.cmps a b
  | .list _, _ => .gt
/-- The `Ord` of vectors of values. -/
def Value.cmps : List Value → List Value → Ordering
  | [], [] => .eq
  | [], _ :: _ => .lt
  | _ :: _, [] => .gt
  | x :: xs, y :: ys => (Value.cmp x y).then (Value.cmps xs ys)
end

/-- A truth value. -/
def Value.ofBool (b : Bool) : Value := .int (if b then 1 else 0)

/-- The fields of a tuple or list (the patterns `Value::Tuple(xs) | Value::List(xs)`, ir.rs:75, 83, 158, 171, 187). -/
def Value.fields : Value → Option (List Value)
  | .tuple xs => some xs
  | .list xs => some xs
  | _ => none

/-- `as u32`. -/
def asU32 (n : Int) : Nat := (n % 2 ^ 32).toNat

/-- `as u64`. -/
def asU64 (n : Int) : UInt64 := UInt64.ofNat (n % 2 ^ 64).toNat

/-- `hash_u64` (lib.rs:57-62). -/
def hashU64 (index : UInt64) : UInt64 :=
  let x := index * 0x9e3779b97f4a7c15
  let x := (x ^^^ (x >>> 30)) * 0xbf58476d1ce4e5b9
  let x := (x ^^^ (x >>> 27)) * 0x94d049bb133111eb
  x ^^^ (x >>> 31)

/-- The value of a hash, from the accumulator (ir.rs:134-135). -/
def hashDraw (bound : Int) (acc : UInt64) : Int :=
  let h : Int := (acc >>> 1).toNat
  if bound > 0 then h % bound else h

/-- `eval_unary` (ir.rs:181-191). -/
def evalUnary (norm : Overflow) (op : UnOp) (v : Value) : Option Value :=
  match op with
  | .neg => v.asInt.bind fun n => (norm (-n)).map .int
  | .not => some (.ofBool (!v.truthy))
  | .isTag t => some (.ofBool (match v with
    | .variant tag _ => tag == t
    | _ => false))
  | .len => v.fields.map fun xs => .int xs.length

/-- `eval_binary` (ir.rs:193-208). -/
def evalBinary (norm : Overflow) (op : BinOp) (l r : Value) : Option Value :=
  match op with
  | .add => l.asInt.bind fun a => r.asInt.bind fun b => (norm (a + b)).map .int
  | .sub => l.asInt.bind fun a => r.asInt.bind fun b => (norm (a - b)).map .int
  | .mul => l.asInt.bind fun a => r.asInt.bind fun b => (norm (a * b)).map .int
  | .eq => some (.ofBool (l.cmp r == .eq))
  | .ne => some (.ofBool (l.cmp r != .eq))
  | .lt => some (.ofBool (l.cmp r == .lt))
  | .le => some (.ofBool (l.cmp r != .gt))
  | .gt => some (.ofBool (l.cmp r == .gt))
  | .ge => some (.ofBool (l.cmp r != .lt))
  | .and => none
  | .or => none

/-- `eval_ref` (ir.rs:153-162). -/
def evalRef : Term → List Value → Option Value
  | .var i, env => env[i]?
  | .bound k, env => if 1 + k ≤ env.length then env[env.length - (1 + k)]? else none
  | .proj t i, env => (evalRef t env).bind fun v => v.fields.bind fun xs => xs[i]?
  | _, _ => none

/-- The loop of `Fold` (ir.rs:112-119). -/
def foldLoop (step : List Value → Option (Value × List Value)) : List Value → Value → List Value → Option (Value × List Value)
  | [], acc, env => some (acc, env)
  | item :: items, acc, env => (step ((env ++ [acc]) ++ [item])).bind fun p => foldLoop step items p.1 p.2.dropLast.dropLast

mutual
/-- `eval` (ir.rs:61-148), with the environment as it is on return. -/
def eval (norm : Overflow) : Term → List Value → Option (Value × List Value)
  | .var i, env => (env[i]?).map fun v => (v, env)
  | .bound k, env => if 1 + k ≤ env.length then (env[env.length - 1 - k]?).map fun v => (v, env) else none
  | .int n, env => some (.int n, env)
  | .tuple fields, env => (buildSeq norm fields env).map fun p => (.tuple p.1, p.2)
  | .list fields, env => (buildSeq norm fields env).map fun p => (.list p.1, p.2)
  | .spread _, _ => none
  | .proj t i, env =>
    match evalRef t env with
    | some place => place.fields.bind fun xs => (xs[i]?).map fun v => (v, env)
    | none => (eval norm t env).bind fun p => p.1.fields.bind fun xs => (xs[i]?).map fun v => (v, p.2)
  | .inject tag t, env => (eval norm tag env).bind fun p => p.1.asInt.bind fun n => (eval norm t p.2).map fun q => (.variant (asU32 n) q.1, q.2)
  | .case scrutinee arms default, env => (eval norm scrutinee env).bind fun p =>
    match p.1 with
    | .variant tag payload => evalArms norm arms tag payload p.2 (evalDefault norm default p.2)
    | _ => none
  | .fold list init step, env => (eval norm list env).bind fun p =>
    match p.1 with
    | .list items => (eval norm init p.2).bind fun q => foldLoop (fun e => eval norm step e) items q.1 q.2
    | _ => none
  | .ite cond thn els, env => (eval norm cond env).bind fun p => if p.1.truthy then eval norm thn p.2 else eval norm els p.2
  | .hash args, env =>
    match args with
    | [] => none
    | a :: as => (eval norm a env).bind fun p => p.1.asInt.bind fun bound => (evalHash norm as 0xcbf29ce484222325 p.2).map fun q => (.int (hashDraw bound q.1), q.2)
  | .unary op t, env => (eval norm t env).bind fun p => (evalUnary norm op p.1).map fun v => (v, p.2)
  | .binary op l r, env => (eval norm l env).bind fun p =>
    match op with
    | .and => if p.1.truthy then (eval norm r p.2).map fun q => (.ofBool q.1.truthy, q.2) else some (.ofBool false, p.2)
    | .or => if p.1.truthy then some (.ofBool true, p.2) else (eval norm r p.2).map fun q => (.ofBool q.1.truthy, q.2)
    | op => (eval norm r p.2).bind fun q => (evalBinary norm op p.1 q.1).map fun v => (v, q.2)
/-- `build_seq` (ir.rs:166-179). -/
def buildSeq (norm : Overflow) : List Term → List Value → Option (List Value × List Value)
  | [], env => some ([], env)
  | .spread inner :: fs, env => (eval norm inner env).bind fun p => p.1.fields.bind fun xs => (buildSeq norm fs p.2).map fun q => (xs ++ q.1, q.2)
  | f :: fs, env => (eval norm f env).bind fun p => (buildSeq norm fs p.2).map fun q => (p.1 :: q.1, q.2)
/-- The arm for a tag, or what the default gives (ir.rs:96-107). -/
def evalArms (norm : Overflow) : List Term → Nat → Value → List Value → Option (Value × List Value) → Option (Value × List Value)
  | [], _, _, _, default => default
  | arm :: _, 0, payload, env, _ => (eval norm arm (env ++ [payload])).map fun p => (p.1, p.2.dropLast)
  | _ :: arms, tag + 1, payload, env, default => evalArms norm arms tag payload env default
/-- The default (ir.rs:103-106). -/
def evalDefault (norm : Overflow) : Option Term → List Value → Option (Value × List Value)
  | some d, env => eval norm d env
  | none, _ => none
/-- The loop of `Hash` (ir.rs:130-133). -/
def evalHash (norm : Overflow) : List Term → UInt64 → List Value → Option (UInt64 × List Value)
  | [], acc, env => some (acc, env)
  | a :: as, acc, env => (eval norm a env).bind fun p => p.1.asInt.bind fun n => evalHash norm as (hashU64 (acc ^^^ asU64 n)) p.2
end

/-- `Reducer` (parse/mod.rs:89-97). -/
inductive Reducer where
  | min | distinct | count | collect
deriving DecidableEq

/-- The least of values, the first of them if there are several (`Iterator::min`). -/
def Value.least : List Value → Option Value
  | [] => none
  | v :: vs => some (vs.foldl (fun m x => if x.cmp m == .lt then x else m) v)

/-- The functions of `reduce` (vec.rs:135-148). The sum of `Count` is not bounded. -/
def reducer (r : Reducer) (vals : List (Value × Int)) : List (Value × Int) :=
  match r with
  | .min => ((Value.least (vals.map Prod.fst)).map fun m => (m, 1)).toList
  | .distinct => [(.tuple [], 1)]
  | .count => if (vals.map Prod.snd).sum > 0 then [(.tuple [.int (vals.map Prod.snd).sum], 1)] else []
  | .collect => [(.list (vals.flatMap fun p => List.replicate p.2.toNat p.1), 1)]

end DD.Ir
