import Verif.Model.Consolidation
import Verif.Spec.Cursor
import Verif.Spec.History

/-!
# Model of `differential-dataflow/src/operators/mod.rs` and of the histories in `operators/common.rs`

`EditList`, `ValueHistory`, `TimeReplay`, `TimeHistory`, and `bilinear_wave`. Indexing out of bounds and `unwrap` of
nothing are `none`. A `Vec` used as a stack (`history`: read through `last()` and `pop()`) is stored back to front: the
head of the list is `last()`.
-/

namespace DD

/-- `(T, D)` elements compared by time under its `Ord` (the elements of `EditList::edits`). -/
def timeLayout (T R : Type*) : Layout (T × R) (Lin T) R :=
  { key := fun x => toLin x.1, diff := fun x => x.2, setDiff := fun x r => (x.1, r) }

/-- `if let Some(m) = meet { t.join_assign(m) }` (operators/mod.rs:52, 191; common.rs:49-51; trace/cursor/mod.rs:154). -/
def joinOpt {T : Type*} [Max T] (meet : Option T) (t : T) : T :=
  match meet with
  | some m => t ⊔ m
  | none => t

/-- `EditList` (operators/mod.rs:24-27). -/
structure EditList (V T R : Type*) where
  values : List (V × Nat)
  edits : List (T × R)

namespace EditList
variable {V T R : Type*}

/-- `EditList::new`, `clear` (operators/mod.rs:32-37, 61-64). -/
def empty : EditList V T R := { values := [], edits := [] }

/-- `EditList::push` (operators/mod.rs:68-71). -/
def push (el : EditList V T R) (time : T) (diff : R) : EditList V T R :=
  { el with edits := el.edits ++ [(time, diff)] }

/-- `EditList::seal` (operators/mod.rs:74-80). -/
def «seal» [LinearOrder (Lin T)] [AddCommMonoid R] [DecidableEq R] (el : EditList V T R) (value : V) :
    Option (EditList V T R) :=
  let prev := (el.values.getLast?.map (·.2)).getD 0
  match consolidateFrom (timeLayout T R) el.edits prev with
  | none => none
  | some edits =>
    if edits.length > prev then some { values := el.values ++ [(value, edits.length)], edits := edits }
    else some { values := el.values, edits := edits }

/-- The body of the loop of `EditList::load` for one value: `map_times` pushing, then `seal` (operators/mod.rs:50-56), also
of `populate_key` (trace/cursor/mod.rs:151-158). -/
def loadVal [Max T] [LinearOrder (Lin T)] [AddCommMonoid R] [DecidableEq R] (meet : Option T)
    (el : EditList V T R) (val : V × List (T × R)) : Option (EditList V T R) :=
  (val.2.foldl (fun el u => el.push (joinOpt meet u.1) u.2) el).«seal» val.1

/-- `EditList::load` (operators/mod.rs:44-58): the cursor's walk of the values of its key is given by what it presents
(C17), the list of values with their updates. -/
def load [Max T] [LinearOrder (Lin T)] [AddCommMonoid R] [DecidableEq R] (meet : Option T)
    (vals : List (V × List (T × R))) : Option (EditList V T R) :=
  vals.foldlM (loadVal meet) empty

/-- `Cursor::populate_key` (trace/cursor/mod.rs:145-161), on what the cursor presents: its keys from its position on; the
`seek_key` drops keys less than `key`. -/
def populateKey {K : Type*} [LinearOrder K] [Max T] [LinearOrder (Lin T)] [AddCommMonoid R] [DecidableEq R]
    (cursor : List (K × List (V × List (T × R)))) (key : K) (meet : Option T) : Option (EditList V T R) :=
  match cursor.dropWhile (fun kv => decide (kv.1 < key)) with
  | [] => some empty
  | kv :: _ => if kv.1 = key then load meet kv.2 else some empty

/-- The start of the edits of the value at an index: `if index == 0 { 0 } else { self.values[index-1].1 }`
(operators/mod.rs:83, 160). -/
def lowerOf (el : EditList V T R) (index : Nat) : Option Nat :=
  if index = 0 then some 0 else (el.values[index - 1]?).map (·.2)

/-- The pairs (value index, edit index) the double loops of `map` and `build` visit (operators/mod.rs:82-85, 159-162). -/
def indexes (el : EditList V T R) : Option (List (Nat × Nat)) :=
  ((List.range el.values.length).mapM fun index =>
    match el.lowerOf index, el.values[index]? with
    | some lower, some value => some ((List.range' lower (value.2 - lower)).map fun edit => (index, edit))
    | _, _ => none).map List.flatten

/-- The value, time and difference of an edit. -/
def at? (el : EditList V T R) (i : Nat × Nat) : Option (V × T × R) :=
  match el.values[i.1]?, el.edits[i.2]? with
  | some value, some edit => some (value.1, edit.1, edit.2)
  | _, _ => none

/-- `EditList::map` (operators/mod.rs:81-89): the calls of `logic`, in order. -/
def map (el : EditList V T R) : Option (Upds V T R) :=
  match el.indexes with
  | none => none
  | some is => is.mapM el.at?

end EditList

/-- `ValueHistory` (operators/mod.rs:97-101); `history` holds (time, meet, value_index, edit_offset), back to front. -/
structure ValueHistory (V T R : Type*) where
  edits : EditList V T R
  history : List (T × T × Nat × Nat)
  buffer : Upds V T R

/-- `iter_mut().reduce(|prev, cur| { cur.1.meet_assign(&prev.1); cur })` on a stack stored back to front
(operators/mod.rs:169): every entry's meet becomes the meet with that of the entry after it. -/
def suffixMeets {T : Type*} [Min T] : List (T × T × Nat × Nat) → List (T × T × Nat × Nat)
  | [] => []
  | [e] => [e]
  | e :: e' :: es =>
    match suffixMeets (e' :: es) with
    | [] => [e]
    | p :: ps => (e.1, e.2.1 ⊓ p.2.1, e.2.2) :: p :: ps

/-- The order of `Ord` on the tuples of `history`: lexicographic. -/
def histKey {T : Type*} (e : T × T × Nat × Nat) : Lin T ×ₗ Lin T ×ₗ Nat ×ₗ Nat :=
  toLex (toLin e.1, toLex (toLin e.2.1, toLex (e.2.2.1, e.2.2.2)))

namespace ValueHistory
variable {V T R : Type*}

/-- `ValueHistory::new`, `clear` (operators/mod.rs:105-117). -/
def empty : ValueHistory V T R := { edits := EditList.empty, history := [], buffer := [] }

/-- `ValueHistory::build` and `replay` (operators/mod.rs:156-176) applied to loaded `edits`. `sort_by(|x,y| y.cmp(x))` sorts
descending, so ascending back to front. -/
def build [Min T] [LinearOrder (Lin T)] (edits : EditList V T R) : Option (ValueHistory V T R) :=
  match edits.indexes with
  | none => none
  | some is =>
    match is.mapM (fun i => (edits.edits[i.2]?).map fun e => (e.1, e.1, i.1, i.2)) with
    | none => none
    | some hs =>
      some { edits := edits, history := suffixMeets (hs.insertionSort (fun x y => histKey x ≤ histKey y)), buffer := [] }

/-- `replay_key` (operators/mod.rs:122-135). -/
def replayKey {K : Type*} [LinearOrder K] [Max T] [Min T] [LinearOrder (Lin T)] [AddCommMonoid R] [DecidableEq R]
    (cursor : List (K × List (V × List (T × R)))) (key : K) (meet : Option T) : Option (ValueHistory V T R) :=
  match EditList.populateKey cursor key meet with
  | none => none
  | some edits => build edits

/-- The loop of `load_iter` (operators/mod.rs:186-193): the state is the edit list and the current value. -/
def loadIterStep [DecidableEq V] [Max T] [LinearOrder (Lin T)] [AddCommMonoid R] [DecidableEq R] (advanceBy : Option T)
    (st : EditList V T R × Option V) (u : V × T × R) : Option (EditList V T R × Option V) :=
  let sealed : Option (EditList V T R) :=
    if st.2 ≠ some u.1 then
      match st.2 with
      | some pv => st.1.«seal» pv
      | none => some st.1
    else some st.1
  match sealed with
  | none => none
  | some el => some (el.push (joinOpt advanceBy u.2.1) u.2.2, some u.1)

/-- `ValueHistory::load_iter` (operators/mod.rs:183-196). -/
def loadIter [DecidableEq V] [Max T] [Min T] [LinearOrder (Lin T)] [AddCommMonoid R] [DecidableEq R]
    (edits : Upds V T R) (advanceBy : Option T) : Option (ValueHistory V T R) :=
  match edits.foldlM (loadIterStep advanceBy) (EditList.empty, none) with
  | none => none
  | some (el, none) => build el
  | some (el, some pv) =>
    match el.«seal» pv with
    | none => none
    | some el => build el

/-- `time` (operators/mod.rs:201). -/
def time (h : ValueHistory V T R) : Option T := h.history.head?.map (·.1)
/-- `meet` (operators/mod.rs:203). -/
def meet (h : ValueHistory V T R) : Option T := h.history.head?.map (·.2.1)
/-- `edit` (operators/mod.rs:205-207); the inner `none` is "no edit left", the outer one an index out of bounds. -/
def edit (h : ValueHistory V T R) : Option (Option (V × T × R)) :=
  match h.history with
  | [] => some none
  | (t, _, v, e) :: _ =>
    match h.edits.values[v]?, h.edits.edits[e]? with
    | some value, some edit => some (some (value.1, t, edit.2))
    | _, _ => none
/-- `is_done` (operators/mod.rs:232). -/
def isDone (h : ValueHistory V T R) : Bool := h.history.isEmpty

/-- `step` (operators/mod.rs:211-214): `none` if nothing is left. -/
def step (h : ValueHistory V T R) : Option (ValueHistory V T R) :=
  match h.history with
  | [] => none
  | (time, _, valueIndex, editOffset) :: rest =>
    match h.edits.values[valueIndex]?, h.edits.edits[editOffset]? with
    | some value, some edit => some { h with history := rest, buffer := h.buffer ++ [(value.1, time, edit.2)] }
    | _, _ => none

/-- The loops of `step_while_time_is` and `step_through` (operators/mod.rs:216-225): step while the next time satisfies `p`. The
fuel is the number of entries left, an upper bound on the number of iterations. -/
def stepWhile (p : T → Bool) : Nat → ValueHistory V T R → Option (Bool × ValueHistory V T R)
  | 0, h => some (false, h)
  | fuel + 1, h =>
    match h.time with
    | none => some (false, h)
    | some t =>
      if p t then
        match h.step with
        | none => none
        | some h' => (stepWhile p fuel h').map fun r => (true, r.2)
      else some (false, h)

/-- `step_while_time_is` (operators/mod.rs:216-220). -/
def stepWhileTimeIs [DecidableEq T] (h : ValueHistory V T R) (time : T) : Option (Bool × ValueHistory V T R) :=
  stepWhile (fun t => decide (t = time)) h.history.length h

/-- `step_through` (operators/mod.rs:223-225): `<=` of the total order. -/
def stepThrough [LinearOrder (Lin T)] (h : ValueHistory V T R) (time : T) : Option (ValueHistory V T R) :=
  (stepWhile (fun t => decide (toLin t ≤ toLin time)) h.history.length h).map (·.2)

/-- `advance_buffer_by` (operators/mod.rs:227-230). The buffer's elements `((V, T), D)` are written `(V, T, D)`;
`consolidate` compares the pair `(V, T)`, which is how `consolidateUpdates` compares triples. -/
def advanceBufferBy [Max T] [LinearOrder V] [LinearOrder (Lin T)] [AddCommMonoid R] [DecidableEq R]
    (h : ValueHistory V T R) (meet : T) : Option (ValueHistory V T R) :=
  match consolidateUpdates (h.buffer.map fun e => (e.1, e.2.1 ⊔ meet, e.2.2)) with
  | none => none
  | some buffer => some { h with buffer := buffer }

/-- `walk` (operators/mod.rs:141-144). -/
def walk (h : ValueHistory V T R) : ValueHistory V T R := { h with buffer := [] }

/-- One call of a method that moves a history or its buffer. -/
def apply [Max T] [DecidableEq T] [LinearOrder V] [LinearOrder (Lin T)] [AddCommMonoid R] [DecidableEq R]
    (h : ValueHistory V T R) : HistOp T → Option (ValueHistory V T R)
  | .step => h.step
  | .whileTimeIs t => (h.stepWhileTimeIs t).map (·.2)
  | .through t => h.stepThrough t
  | .advance m => h.advanceBufferBy m

/-- A sequence of calls. -/
def run [Max T] [DecidableEq T] [LinearOrder V] [LinearOrder (Lin T)] [AddCommMonoid R] [DecidableEq R]
    (h : ValueHistory V T R) : List (HistOp T) → Option (ValueHistory V T R)
  | [] => some h
  | op :: ops =>
    match h.apply op with
    | none => none
    | some h' => h'.run ops

end ValueHistory

/-- `TimeReplay` (operators/mod.rs:261-288) and `TimeHistory` (common.rs:27-95): the times of a history, back to front, with
their meets, and the buffer of replayed times. The two types have the same methods; `TimeReplay` walks a shrinking view
of another history. -/
structure TimeHistory (T : Type*) where
  history : List (T × T)
  buffer : List T

/-- Suffix meets of (time, meet) entries (common.rs:55-58). -/
def timeSuffixMeets {T : Type*} [Min T] : List (T × T) → List (T × T)
  | [] => []
  | [e] => [e]
  | e :: e' :: es =>
    match timeSuffixMeets (e' :: es) with
    | [] => [e]
    | p :: ps => (e.1, e.2 ⊓ p.2) :: p :: ps

/-- `Vec::dedup` on the sorted times (common.rs:88, operators/mod.rs:285): drop each element equal to the one before it. -/
def dedupAdj {T : Type*} [DecidableEq T] : List T → List T
  | [] => []
  | [t] => [t]
  | t :: t' :: ts => if t' = t then dedupAdj (t' :: ts) else t :: dedupAdj (t' :: ts)

/-- `sort(); dedup()` (common.rs:87-88; reduce.rs `sort_dedup`). -/
def sortDedup {T : Type*} [LinearOrder (Lin T)] [DecidableEq T] (ts : List T) : List T :=
  dedupAdj (ts.insertionSort (fun a b => toLin a ≤ toLin b))

namespace TimeHistory
variable {T : Type*}

/-- `TimeHistory::load` (common.rs:45-59). -/
def load [Max T] [Min T] [LinearOrder (Lin T)] (times : List T) (advanceBy : Option T) : TimeHistory T :=
  { history := timeSuffixMeets
      (((times.map (joinOpt advanceBy)).map fun t => (t, t)).insertionSort (fun x y => toLin x.1 ≤ toLin y.1))
    buffer := [] }

/-- `ValueHistory::replay_times` (operators/mod.rs:150-153): the view of a built history, with an empty buffer. -/
def ofHistory {V R : Type*} (h : ValueHistory V T R) : TimeHistory T :=
  { history := h.history.map fun e => (e.1, e.2.1), buffer := [] }

/-- `time` (common.rs:62-64; operators/mod.rs:267). -/
def time (h : TimeHistory T) : Option T := h.history.head?.map (·.1)
/-- `meet` (common.rs:66-68; operators/mod.rs:268). -/
def meet (h : TimeHistory T) : Option T := h.history.head?.map (·.2)

/-- `step_while_time_is` (common.rs:71-79; operators/mod.rs:274-281). -/
def stepWhileTimeIs [DecidableEq T] (h : TimeHistory T) (time : T) : Bool × TimeHistory T :=
  match h with
  | { history := [], buffer := b } => (false, { history := [], buffer := b })
  | { history := e :: es, buffer := b } =>
    if e.1 = time then (true, (stepWhileTimeIs { history := es, buffer := b ++ [e.1] } time).2)
    else (false, { history := e :: es, buffer := b })
termination_by h.history.length

/-- `advance_buffer_by` (common.rs:83-89; operators/mod.rs:282-286). -/
def advanceBufferBy [Max T] [LinearOrder (Lin T)] [DecidableEq T] (h : TimeHistory T) (meet : T) : TimeHistory T :=
  { h with buffer := sortDedup (h.buffer.map (· ⊔ meet)) }

/-- A sequence of calls. -/
def run [Max T] [LinearOrder (Lin T)] [DecidableEq T] (h : TimeHistory T) : List (TimeOp T) → TimeHistory T
  | [] => h
  | .whileTimeIs t :: ops => (h.stepWhileTimeIs t).2.run ops
  | .advance m :: ops => (h.advanceBufferBy m).run ops

end TimeHistory

section
variable {V1 V2 T R1 R2 : Type*} [Lattice T] [LinearOrder V1] [LinearOrder V2] [LinearOrder (Lin T)]
  [AddCommMonoid R1] [DecidableEq R1] [AddCommMonoid R2] [DecidableEq R2]

/-- A call of `results(v1, v2, t1.join(t2), d1, d2)` (join.rs `think`); `bilinear_wave` (common.rs:121) multiplies the two
differences and emits the product. -/
abbrev JoinOut (V1 V2 T R1 R2 : Type*) := List (V1 × V2 × T × R1 × R2)

/-- Advance `h2`'s buffer by `h1`'s meet, pair `h1`'s next edit with it, and step `h1` (common.rs:118-123 and 134-139;
join.rs:627-632 and 645-650). -/
def waveLeft (h1 : ValueHistory V1 T R1) (h2 : ValueHistory V2 T R2) :
    Option (ValueHistory V1 T R1 × ValueHistory V2 T R2 × JoinOut V1 V2 T R1 R2) :=
  match h1.meet with
  | none => none
  | some m =>
    match h2.advanceBufferBy m, h1.edit, h1.step with
    | some h2', some (some (v1, t1, d1)), some h1' =>
      some (h1', h2', h2'.buffer.map fun e => (v1, e.1, t1 ⊔ e.2.1, d1, e.2.2))
    | _, _, _ => none

/-- The mirror image (common.rs:125-130 and 142-147; join.rs:635-640 and 653-658). -/
def waveRight (h1 : ValueHistory V1 T R1) (h2 : ValueHistory V2 T R2) :
    Option (ValueHistory V1 T R1 × ValueHistory V2 T R2 × JoinOut V1 V2 T R1 R2) :=
  match h2.meet with
  | none => none
  | some m =>
    match h1.advanceBufferBy m, h2.edit, h2.step with
    | some h1', some (some (v2, t2, d2)), some h2' =>
      some (h1', h2', h1'.buffer.map fun e => (e.1, v2, e.2.1 ⊔ t2, e.2.2, d2))
    | _, _, _ => none

/-- The three loops of `bilinear_wave` (common.rs:116-148) and of the replay branch of `think` (join.rs:624-659). The fuel is the
number of edits left in both histories, an upper bound on the number of iterations. -/
def waveLoop : Nat → ValueHistory V1 T R1 → ValueHistory V2 T R2 → Option (JoinOut V1 V2 T R1 R2)
  | 0, _, _ => some []
  | fuel + 1, h1, h2 =>
    let next : Option (Option (ValueHistory V1 T R1 × ValueHistory V2 T R2 × JoinOut V1 V2 T R1 R2)) :=
      match h1.time, h2.time with
      | some t1, some t2 => if toLin t1 < toLin t2 then some (waveLeft h1 h2) else some (waveRight h1 h2)
      | some _, none => some (waveLeft h1 h2)
      | none, some _ => some (waveRight h1 h2)
      | none, none => none
    match next with
    | none => some []
    | some none => none
    | some (some (h1', h2', out)) => (waveLoop fuel h1' h2').map (out ++ ·)

/-- `bilinear_wave` (common.rs:106-149), and the replay branch of `JoinThinker::think` (join.rs:615-659). -/
def bilinearWave (h1 : ValueHistory V1 T R1) (h2 : ValueHistory V2 T R2) : Option (JoinOut V1 V2 T R1 R2) :=
  waveLoop (h1.history.length + h2.history.length) h1 h2

/-- The small branch of `think` (join.rs:606-612): the cross product of the edits. -/
def crossProduct (e1 : EditList V1 T R1) (e2 : EditList V2 T R2) : Option (JoinOut V1 V2 T R1 R2) :=
  match e1.map, e2.map with
  | some us1, some us2 =>
    some (us1.flatMap fun u1 => us2.map fun u2 => (u1.1, u2.1, u1.2.1 ⊔ u2.2.1, u1.2.2, u2.2.2))
  | _, _ => none

/-- `JoinThinker::think` (join.rs:603-661), on two loaded edit lists. `limit` is the constant 10. -/
def think (limit : Nat) (e1 : EditList V1 T R1) (e2 : EditList V2 T R2) : Option (JoinOut V1 V2 T R1 R2) :=
  if e1.edits.length < limit ∨ e2.edits.length < limit then crossProduct e1 e2
  else
    match ValueHistory.build e1, ValueHistory.build e2 with
    | some h1, some h2 => bilinearWave h1 h2
    | _, _ => none

/-- The work for one matched key in `DeferredIter::next` (join.rs:545-550): load both sides, and `think`. -/
def joinKey (meet1 meet2 : Option T) (c1 : List (V1 × List (T × R1))) (c2 : List (V2 × List (T × R2))) :
    Option (JoinOut V1 V2 T R1 R2) :=
  match EditList.load meet1 c1, EditList.load meet2 c2 with
  | some e1, some e2 => think 10 e1 e2
  | _, _ => none

end

end DD
