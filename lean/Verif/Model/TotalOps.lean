import Verif.Spec.Cursor

/-!
# Model of `operators/count.rs` and `operators/threshold.rs`

Both operators do the same for the batches they receive in one activation: for each key of the batches, in order, accumulate the history of the
key from the trace through the frontier reached before, then visit the new updates of the key. Cursors are modelled by positions in the contents
they present (`Pos`), which is what C18 shows of `CursorList` over batches. `owned_diff` is a copy. Output is the list of updates given to the
session.
-/

namespace DD
variable {K T R R2 O : Type*} [LinearOrder K] [AddCommMonoid R] [DecidableEq R]

/-- `count.as_mut().map(|c| c.plus_equals(&diff)); if count.is_none() { count = Some(diff) }`
(count.rs:109-110, 122-123; threshold.rs:158-159, 178-184). -/
def addCount (count : Option R) (diff : R) : Option R :=
  match count with
  | some c => some (c + diff)
  | none => some diff

/-- Seek the key in the trace and accumulate its history (count.rs:106-112, threshold.rs:154-161). -/
def traceCount (trace : Pos K Unit T R) (key : K) : Pos K Unit T R × Option R :=
  let trace := trace.seekKey key
  (trace, if trace.key? = some key then ((trace.upds?).getD []).foldl (fun count u => addCount count u.2) none else none)

/-- The updates of one key of the batches (count.rs:114-129, threshold.rs:165-190): `emit` is what is given to the session before the difference
is added to the count. -/
def visitUpdates (emit : Option R → T → R → List O) : Option R → List (T × R) → List O
  | _, [] => []
  | count, u :: us => emit count u.1 u.2 ++ visitUpdates emit (addCount count u.2) us

/-- The loop over keys (count.rs:103-132, threshold.rs:150-193). -/
def visitKeys (emit : K → Option R → T → R → List O) : Contents K Unit T R → Pos K Unit T R → List O
  | [], _ => []
  | kv :: batch, trace =>
    let (trace, count) := traceCount trace kv.1
    visitUpdates (emit kv.1) count ((kv.2.head?.map Prod.snd).getD []) ++ visitKeys emit batch trace

/-- What `count_total` gives to the session for an update (count.rs:116-128); `one` is `R2::from(1i8)` and its negation `R2::from(-1i8)`. -/
def countEmit [AddCommGroup R2] (one : R2) (key : K) (count : Option R) (time : T) (diff : R) : List ((K × R) × T × R2) :=
  (match count with
    | some c => if c = 0 then [] else [((key, c), time, -one)]
    | none => []) ++
  (match addCount count diff with
    | some c => if c = 0 then [] else [((key, c), time, one)]
    | none => [])

/-- What `threshold_semigroup` gives to the session for an update (threshold.rs:167-190). -/
def thresholdEmit [Zero R2] [DecidableEq R2] (thresh : K → R → Option R → Option R2) (key : K) (count : Option R) (time : T) (diff : R) : List (K × T × R2) :=
  let difference :=
    match count with
    | some old => thresh key (old + diff) (some old)
    | none => thresh key diff none
  match difference with
  | some difference => if difference = 0 then [] else [(key, time, difference)]
  | none => []

/-- The closure of `threshold_total` (threshold.rs:44-52). -/
def threshTotal [AddCommGroup R2] [DecidableEq R2] (thresh : K → R → R2) (key : K) (new : R) (old : Option R) : Option R2 :=
  let new :=
    match old with
    | some old => thresh key new + -(thresh key old)
    | none => thresh key new
  if new = 0 then none else some new

/-- The closure of `distinct_total_core` (threshold.rs:83): a constant. -/
def threshDistinct (one : R2) : K → R → R2 := fun _ _ => one

/-- One activation: the contents presented by the cursors over the received batches and over the trace through `lower_limit`. -/
structure TotalRound (K T R : Type*) where
  batches : List (Contents K Unit T R)
  batch : Contents K Unit T R
  trace : Contents K Unit T R

/-- All activations of an operator (count.rs:75-139, threshold.rs:117-200). -/
def totalRun (emit : K → Option R → T → R → List O) (rounds : List (TotalRound K T R)) : List O :=
  rounds.flatMap fun r => visitKeys emit r.batch (Pos.start r.trace)

/-- `count_total_core`. -/
def countTotal [AddCommGroup R2] (one : R2) (rounds : List (TotalRound K T R)) : List ((K × R) × T × R2) := totalRun (countEmit one) rounds
/-- `threshold_total`. -/
def thresholdTotal [AddCommGroup R2] [DecidableEq R2] (thresh : K → R → R2) (rounds : List (TotalRound K T R)) : List (K × T × R2) :=
  totalRun (thresholdEmit (threshTotal thresh)) rounds
/-- `distinct_total_core`. -/
def distinctTotal [AddCommGroup R2] [DecidableEq R2] (one : R2) (rounds : List (TotalRound K T R)) : List (K × T × R2) :=
  thresholdTotal (threshDistinct one) rounds

end DD
