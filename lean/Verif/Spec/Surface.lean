import Verif.Model.Surface
import Verif.Spec.Scalar

/-!
# What scalar terms mean as they are written

`bs` are the values bound by enclosing `case`s and `fold`s, innermost first, which `^k` counts, and `names` the values of the names bound by patterns: there are no numbers for names.
-/

namespace DD.Ir
variable {N : Type*} [DecidableEq N]

/-- The names of a pattern bound to the fields of a payload: the last of equal names counts, and a name of a missing field has no value. -/
def bindNames (env : N → Option Value) (payload : Value) (names : List N) : N → Option Value :=
  names.zipIdx.foldl (fun env p => Function.update env p.1 (payload.fields.bind fun xs => xs[p.2]?)) env

variable (norm : Overflow) (cons : N → Option (Nat × Nat)) (rows : List Value)

mutual
/-- What a term means. -/
noncomputable def means : Surface N → List Value → (N → Option Value) → Option Value
  | .var i, _, _ => rows[i]?
  | .bound k, bs, _ => bs[k]?
  | .int n, _, _ => some (.int n)
  | .name x, _, env => env x
  | .tuple fields, bs, env => (meansFields fields bs env).map .tuple
  | .list fields, bs, env => (meansFields fields bs env).map .list
  | .spread _, _, _ => none
  | .proj t i, bs, env => (means t bs env).bind fun v => v.fields.bind fun xs => xs[i]?
  | .inject tag t, bs, env => (means tag bs env).bind fun n => n.asInt.bind fun n => (means t bs env).map fun v => .variant (asU32 n) v
  | .con c args, bs, env => (cons c).bind fun p => (meansFields args bs env).map fun vs => .variant p.1 (.tuple vs)
  | .case scrutinee arms, bs, env => (means scrutinee bs env).bind fun v =>
    match v with
    | .variant tag payload => ((armMeans arms tag payload bs env).or (defaultMeans arms bs env)).join
    | _ => none
  | .fold list init step, bs, env => (means list bs env).bind fun v =>
    match v with
    | .list items => (means init bs env).bind fun acc => items.foldlM (fun acc item => means step (item :: acc :: bs) env) acc
    | _ => none
  | .ite cond thn els, bs, env => (means cond bs env).bind fun c => if c.truthy then means thn bs env else means els bs env
  | .unary op t, bs, env => (means t bs env).bind fun v => unaryMeans norm op v
  | .binary op l r, bs, env => (means l bs env).bind fun v =>
    match op with
    | .and => if v.truthy then (means r bs env).map fun w => .truth (w.truthy = true) else some (.int 0)
    | .or => if v.truthy then some (.int 1) else (means r bs env).map fun w => .truth (w.truthy = true)
    | op => (means r bs env).bind fun w => binaryMeans norm op v w
  | .hash args, bs, env => ((meansEach args bs env).mapM id).bind fun vs => (allInts vs).bind fun ns =>
    match ns with
    | [] => none
    | bound :: keys => some (.int (hashMeans bound keys))
/-- What a list of fields means: a splice gives all the fields of its value. -/
noncomputable def meansFields : List (Surface N) → List Value → (N → Option Value) → Option (List Value)
  | [], _, _ => some []
  | .spread t :: fs, bs, env => (means t bs env).bind fun v => v.fields.bind fun xs => (meansFields fs bs env).map fun ys => xs ++ ys
  | t :: fs, bs, env => (means t bs env).bind fun v => (meansFields fs bs env).map fun ys => v :: ys
/-- What each of a list of terms means. -/
noncomputable def meansEach : List (Surface N) → List Value → (N → Option Value) → List (Option Value)
  | [], _, _ => []
  | t :: ts, bs, env => means t bs env :: meansEach ts bs env
/-- What the first arm for a tag means, if there is one: the payload is bound, and so are the names of its fields. -/
noncomputable def armMeans : Arms N → Nat → Value → List Value → (N → Option Value) → Option (Option Value)
  | .nil, _, _, _, _ => none
  | .default _ rest, tag, payload, bs, env => armMeans rest tag payload bs env
  | .con c names t rest, tag, payload, bs, env =>
    if (cons c).map Prod.fst = some tag then some (means t (payload :: bs) (bindNames env payload names)) else armMeans rest tag payload bs env
/-- What the last default means, if there is one: nothing is bound. -/
noncomputable def defaultMeans : Arms N → List Value → (N → Option Value) → Option (Option Value)
  | .nil, _, _ => none
  | .default t rest, bs, env => (defaultMeans rest bs env).or (some (means t bs env))
  | .con _ _ _ rest, bs, env => defaultMeans rest bs env
end

mutual
/-- A term as it is written reads only the first `n` rows, and its `^k` are for enclosing binders, `b` of which are outside. -/
def Surface.Scoped (n : Nat) : Surface N → Nat → Prop
  | .var i, _ => i < n
  | .bound k, b => k < b
  | .int _, _ => True
  | .name _, _ => True
  | .tuple fields, b => Surface.AllScoped n fields b
  | .list fields, b => Surface.AllScoped n fields b
  | .spread t, b => t.Scoped n b
  | .proj t _, b => t.Scoped n b
  | .inject tag t, b => tag.Scoped n b ∧ t.Scoped n b
  | .con _ args, b => Surface.AllScoped n args b
  | .case scrutinee arms, b => scrutinee.Scoped n b ∧ arms.Scoped n b
  | .fold list init step, b => list.Scoped n b ∧ init.Scoped n b ∧ step.Scoped n (b + 2)
  | .ite cond thn els, b => cond.Scoped n b ∧ thn.Scoped n b ∧ els.Scoped n b
  | .unary _ t, b => t.Scoped n b
  | .binary _ l r, b => l.Scoped n b ∧ r.Scoped n b
  | .hash args, b => Surface.AllScoped n args b
/-- All terms do. -/
def Surface.AllScoped (n : Nat) : List (Surface N) → Nat → Prop
  | [], _ => True
  | t :: ts, b => t.Scoped n b ∧ Surface.AllScoped n ts b
/-- All arms do. -/
def Arms.Scoped (n : Nat) : Arms N → Nat → Prop
  | .nil, _ => True
  | .default t rest, b => t.Scoped n b ∧ rest.Scoped n b
  | .con _ _ t rest, b => t.Scoped n (b + 1) ∧ rest.Scoped n b
end

mutual
/-- A term uses no binder: neither names nor `^k`. -/
def Surface.Plain : Surface N → Prop
  | .var _ => True
  | .bound _ => False
  | .int _ => True
  | .name _ => False
  | .tuple fields => Surface.AllPlain fields
  | .list fields => Surface.AllPlain fields
  | .spread t => t.Plain
  | .proj t _ => t.Plain
  | .inject tag t => tag.Plain ∧ t.Plain
  | .con _ args => Surface.AllPlain args
  | .case scrutinee arms => scrutinee.Plain ∧ arms.Plain
  | .fold list init step => list.Plain ∧ init.Plain ∧ step.Plain
  | .ite cond thn els => cond.Plain ∧ thn.Plain ∧ els.Plain
  | .unary _ t => t.Plain
  | .binary _ l r => l.Plain ∧ r.Plain
  | .hash args => Surface.AllPlain args
/-- No term does. -/
def Surface.AllPlain : List (Surface N) → Prop
  | [] => True
  | t :: ts => t.Plain ∧ Surface.AllPlain ts
/-- No arm does. -/
def Arms.Plain : Arms N → Prop
  | .nil => True
  | .default t rest => t.Plain ∧ rest.Plain
  | .con _ _ t rest => t.Plain ∧ rest.Plain
end

/-- There is an arm for a tag. -/
def Arms.Has : Arms N → Nat → Prop
  | .nil, _ => False
  | .default _ rest, tag => rest.Has tag
  | .con c _ _ rest, tag => (cons c).map Prod.fst = some tag ∨ rest.Has tag

/-- There is a default. -/
def Arms.HasDefault : Arms N → Prop
  | .nil => False
  | .default _ _ => True
  | .con _ _ _ rest => rest.HasDefault

mutual
/-- Names are of enclosing patterns or in `known`, constructors are declared and have as many arguments, or names, as they should, and a `case` whose tags have gaps has a default. -/
def Surface.Known : Surface N → (N → Prop) → Prop
  | .var _, _ => True
  | .bound _, _ => True
  | .int _, _ => True
  | .name x, known => known x
  | .tuple fields, known => Surface.AllKnown fields known
  | .list fields, known => Surface.AllKnown fields known
  | .spread t, known => t.Known known
  | .proj t _, known => t.Known known
  | .inject tag t, known => tag.Known known ∧ t.Known known
  | .con c args, known => (∃ tag, cons c = some (tag, args.length)) ∧ Surface.AllKnown args known
  | .case scrutinee arms, known => scrutinee.Known known ∧ arms.Known known ∧ ((∀ t u, t < u → arms.Has cons u → arms.Has cons t) ∨ arms.HasDefault)
  | .fold list init step, known => list.Known known ∧ init.Known known ∧ step.Known known
  | .ite cond thn els, known => cond.Known known ∧ thn.Known known ∧ els.Known known
  | .unary _ t, known => t.Known known
  | .binary _ l r, known => l.Known known ∧ r.Known known
  | .hash args, known => Surface.AllKnown args known
/-- In all terms. -/
def Surface.AllKnown : List (Surface N) → (N → Prop) → Prop
  | [], _ => True
  | t :: ts, known => t.Known known ∧ Surface.AllKnown ts known
/-- In all arms. -/
def Arms.Known : Arms N → (N → Prop) → Prop
  | .nil, _ => True
  | .default t rest, known => t.Known known ∧ rest.Known known
  | .con c names t rest, known => (∃ tag, cons c = some (tag, names.length)) ∧ t.Known (fun x => known x ∨ x ∈ names) ∧ rest.Known known
end

/-- The defaults use no binder. -/
def Arms.DefaultPlain : Arms N → Prop
  | .nil => True
  | .default t rest => t.Plain ∧ rest.DefaultPlain
  | .con _ _ _ rest => rest.DefaultPlain

mutual
/-- In each `case` inside a term, tags are without gaps, or the default uses no binder. -/
def Surface.Gapless : Surface N → Prop
  | .var _ => True
  | .bound _ => True
  | .int _ => True
  | .name _ => True
  | .tuple fields => Surface.AllGapless fields
  | .list fields => Surface.AllGapless fields
  | .spread t => t.Gapless
  | .proj t _ => t.Gapless
  | .inject tag t => tag.Gapless ∧ t.Gapless
  | .con _ args => Surface.AllGapless args
  | .case scrutinee arms => scrutinee.Gapless ∧ arms.Gapless ∧ ((∀ t u, t < u → arms.Has cons u → arms.Has cons t) ∨ arms.DefaultPlain)
  | .fold list init step => list.Gapless ∧ init.Gapless ∧ step.Gapless
  | .ite cond thn els => cond.Gapless ∧ thn.Gapless ∧ els.Gapless
  | .unary _ t => t.Gapless
  | .binary _ l r => l.Gapless ∧ r.Gapless
  | .hash args => Surface.AllGapless args
/-- In each term. -/
def Surface.AllGapless : List (Surface N) → Prop
  | [] => True
  | t :: ts => t.Gapless ∧ Surface.AllGapless ts
/-- In each arm. -/
def Arms.Gapless : Arms N → Prop
  | .nil => True
  | .default t rest => t.Gapless ∧ rest.Gapless
  | .con _ _ t rest => t.Gapless ∧ rest.Gapless
end

end DD.Ir
