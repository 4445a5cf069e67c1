import Verif.Model.Lattice
import Verif.Model.Consolidation
import Verif.Spec.Cursor
import Mathlib.Data.Prod.Lex

/-!
# Model of `dogsdogsdogs/src/operators/half_join.rs`

The operator for one worker. Capabilities are modelled by their times, hash maps by association lists; the order in which the stash is visited is given by each activation. The cursor
into the arrangement is a position in contents that the environment provides for each activation. The yield function is asked repeatedly, and no more once it said `true`: what it
answers is modelled by the number of calls that return `false`, if any returns `true`. `frontier_func` inserts times into the antichain. `none` is a panic.
-/

namespace DD

/-- The data of a proposal: key, value and time, in the order of tuples. -/
abbrev PropData (K V T : Type*) := K ×ₗ (V ×ₗ Lin T)

variable {K V V2 T R R2 M DOut : Type*}

/-- The key of a proposal. -/
def PropData.key (d : PropData K V T) : K := (ofLex d).1
/-- The value of a proposal. -/
def PropData.val (d : PropData K V T) : V := (ofLex (ofLex d).2).1
/-- The time of a proposal. -/
def PropData.time (d : PropData K V T) : T := (ofLex (ofLex d).2).2

/-- `yielded = yielded || yield_function(timer, work)`; the second component counts the calls still answered `false`. -/
def askYield : Bool × Option Nat → Bool × Option Nat
  | (true, n) => (true, n)
  | (false, none) => (false, none)
  | (false, some 0) => (true, some 0)
  | (false, some (n + 1)) => (false, some n)

/-- `stash.entry(time).or_insert(Vec::new()).append(data)`. -/
def stashAppend [DecidableEq T] {X : Type*} : List (T × List X) → T → List X → List (T × List X)
  | [], time, data => [(time, data)]
  | e :: stash, time, data => if e.1 = time then (e.1, e.2 ++ data) :: stash else e :: stashAppend stash time data

section
variable [LinearOrder K] [LinearOrder V] [LinearOrder V2] [Lattice T] [DecidableLE T] [DecidableEq T] [LinearOrder (Lin T)]
  [AddCommMonoid R] [DecidableEq R] [AddCommMonoid R2] [DecidableEq R2]

/-- The loop over the values of the key (half_join.rs:348-364), with the closure `output_func` of `half_join` (97-103). -/
def answerVals (comparison : T → T → Bool) (logic : K → V → V2 → DOut) (mul : R → R2 → M) (key : K) (val1 : V) (time initial : T) (diff1 : R) :
    List (V2 × List (T × R2)) → Option (Upds (DOut × T) T M)
  | [] => some []
  | (val2, edits) :: vals =>
    let output_buffer := (edits.filter fun td => comparison td.1 initial).map fun td => (toLin (td.1 ⊔ time), td.2)
    match consolidate output_buffer, answerVals comparison logic mul key val1 time initial diff1 vals with
    | some output_buffer, some rest => 
      some ((output_buffer.map fun (td : Lin T × R2) => (((logic key val1 val2, td.1), initial, mul diff1 td.2) : (DOut × T) × T × M)) ++ rest)
    | _, _ => none

/-- Answering one proposal (half_join.rs:343-366): the cursor, and what is sent. -/
def answerProposal (comparison : T → T → Bool) (logic : K → V → V2 → DOut) (mul : R → R2 → M) (cursor : Pos K V2 T R2) (key : K) (val1 : V) (time initial : T) (diff1 : R) :
    Option (Pos K V2 T R2 × Upds (DOut × T) T M) :=
  let cursor := cursor.seekKey key
  if cursor.key? = some key then
    (answerVals comparison logic mul key val1 time initial diff1 cursor.vals).map fun outs => (({ cursor with vals := [] } : Pos K V2 T R2).rewindVals, outs)
  else some (cursor, [])

/-- The loop over the proposals (half_join.rs:337-368): the proposals with the differences of those answered set to zero, the state of the yield function, and what is sent. -/
def answerProposals (comparison : T → T → Bool) (logic : K → V → V2 → DOut) (mul : R → R2 → M) (frontier : List T) :
    Pos K V2 T R2 → Bool × Option Nat → Upds (PropData K V T) T R → Option (Upds (PropData K V T) T R × (Bool × Option Nat) × Upds (DOut × T) T M)
  | _, y, [] => some ([], y, [])
  | cursor, y, (data, initial, diff1) :: proposals =>
    let y := askYield y
    if !y.1 && !frontier.any (fun t => comparison t initial) then
      match answerProposal comparison logic mul cursor data.key data.val data.time initial diff1 with
      | none => none
      | some (cursor, outs) =>
        (answerProposals comparison logic mul frontier cursor y proposals).map fun r => ((data, initial, 0) :: r.1, r.2.1, outs ++ r.2.2)
    else (answerProposals comparison logic mul frontier cursor y proposals).map fun r => ((data, initial, diff1) :: r.1, r.2.1, r.2.2)

/-- `process_proposals` (half_join.rs:303-371). -/
def processProposals (comparison : T → T → Bool) (logic : K → V → V2 → DOut) (mul : R → R2 → M) (contents : Contents K V2 T R2) (frontier : List T) (y : Bool × Option Nat)
    (proposals : Upds (PropData K V T) T R) : Option (Upds (PropData K V T) T R × (Bool × Option Nat) × Upds (DOut × T) T M) :=
  match consolidateUpdates proposals with
  | none => none
  | some proposals => answerProposals comparison logic mul frontier (Pos.start contents) y proposals

/-- `capability.delayed(time)` (timely): a panic if the time is not at or after that of the capability. -/
def delayed [LE T] [DecidableLE T] (capability time : T) : Option T := if capability ≤ time then some time else none

/-- Assigning each proposal to the first element of the antichain at or before its initial time (half_join.rs:250-253). -/
def peelOff (antichain : List T) (proposals : Upds (PropData K V T) T R) : Option (List (Upds (PropData K V T) T R)) :=
  proposals.foldlM (fun additions p =>
    match antichain.findIdx? fun t => t ≤ p.2.1 with
    | none => none
    | some position => some (additions.modify position (· ++ [p]))) (antichain.map fun _ => [])

/-- What becomes of the proposals that remain (half_join.rs:232-261): those that stay under the capability, and the additions to the stash. -/
def restash (capability : T) (proposals : Upds (PropData K V T) T R) (additions : List (T × Upds (PropData K V T) T R)) :
    Option (Upds (PropData K V T) T R × List (T × Upds (PropData K V T) T R)) :=
  let antichain := acExtend [] (proposals.map fun p => p.2.1)
  match antichain with
  | [] => some (proposals, additions)
  | [time] =>
    if !lessEqual antichain capability then (delayed capability time).map fun time => ([], stashAppend additions time proposals)
    else some (proposals, additions)
  | _ =>
    match peelOff antichain proposals with
    | none => none
    | some peeled =>
      ((antichain.zip peeled).foldlM (fun additions (ta : T × _) => (delayed capability ta.1).map fun time => stashAppend additions time ta.2) additions).map fun additions => ([], additions)

/-- The loop over the stash (half_join.rs:206-263): the stash, the additions, the state of the yield function, and what is sent under which capability. -/
def visitStash (comparison : T → T → Bool) (logic : K → V → V2 → DOut) (mul : R → R2 → M) (contents : Contents K V2 T R2) (frontier2 : List T) :
    List (T × Upds (PropData K V T) T R) → List (T × Upds (PropData K V T) T R) → Bool × Option Nat →
    Option (List (T × Upds (PropData K V T) T R) × List (T × Upds (PropData K V T) T R) × (Bool × Option Nat) × List (T × (DOut × T) × T × M))
  | [], additions, y => some ([], additions, y, [])
  | (capability, proposals) :: stash, additions, y =>
    let y := askYield y
    if !y.1 && !lessEqual frontier2 capability then
      match processProposals comparison logic mul contents frontier2 y proposals with
      | none => none
      | some (proposals, y, outs) =>
        match restash capability (proposals.filter fun p => p.2.2 ≠ 0) additions with
        | none => none
        | some (proposals, additions) =>
          (visitStash comparison logic mul contents frontier2 stash additions y).map fun r =>
            ((capability, proposals) :: r.1, r.2.1, r.2.2.1, outs.map (fun u => (capability, u)) ++ r.2.2.2)
    else
      (visitStash comparison logic mul contents frontier2 stash additions y).map fun r => ((capability, proposals) :: r.1, r.2.1, r.2.2.1, r.2.2.2)

/-- The state of the operator between activations: the stash, whether it still holds the trace, and the frontier last passed to `set_logical_compaction`. -/
structure HalfJoin (K V T R : Type*) where
  stash : List (T × Upds (PropData K V T) T R)
  live : Bool
  logical : List T

/-- One activation: the messages, each with its capability; the frontiers of the inputs; what a cursor over the trace presents; the answers of the yield function; and the order in which
the stash is visited. -/
structure HalfJoinAct (K V V2 T R R2 : Type*) where
  msgs : List (T × Upds (PropData K V T) T R)
  frontier1 : List T
  frontier2 : List T
  contents : Contents K V2 T R2
  yields : Option Nat
  order : List (T × Upds (PropData K V T) T R) → List (T × Upds (PropData K V T) T R)

/-- The operator when it is constructed (half_join.rs:167-172); the trace is compacted to the minimal time only. -/
def HalfJoin.init [Bot T] : HalfJoin K V T R := ⟨[], true, [⊥]⟩

/-- One activation of the operator (half_join.rs:182-289). -/
def HalfJoin.activate (comparison : T → T → Bool) (frontier_func : T → List T) (logic : K → V → V2 → DOut) (mul : R → R2 → M) (st : HalfJoin K V T R)
    (act : HalfJoinAct K V V2 T R R2) : Option (HalfJoin K V T R × List (T × (DOut × T) × T × M)) :=
  let stash := act.order (act.msgs.foldl (fun stash m => stashAppend stash m.1 m.2) st.stash)
  let visited := if st.live then visitStash comparison logic mul act.contents act.frontier2 stash [] (false, act.yields) else some (stash, [], (false, act.yields), [])
  match visited with
  | none => none
  | some (stash, additions, _, outs) =>
    let stash := stash.filter fun e => !e.2.isEmpty
    let stash := additions.foldl (fun stash e => stashAppend stash e.1 e.2) stash
    let frontier := act.frontier1.foldl (fun frontier time => acExtend frontier (frontier_func time)) []
    let frontier := stash.foldl (fun frontier e => acExtend frontier (frontier_func e.1)) frontier
    some (⟨stash, st.live && !(act.frontier1.isEmpty && stash.isEmpty), if st.live then frontier else st.logical⟩, outs)

/-- A sequence of activations. -/
def HalfJoin.run (comparison : T → T → Bool) (frontier_func : T → List T) (logic : K → V → V2 → DOut) (mul : R → R2 → M) :
    HalfJoin K V T R → List (HalfJoinAct K V V2 T R R2) → Option (HalfJoin K V T R × List (T × (DOut × T) × T × M))
  | st, [] => some (st, [])
  | st, act :: acts =>
    match st.activate comparison frontier_func logic mul act with
    | none => none
    | some (st, outs) => (HalfJoin.run comparison frontier_func logic mul st acts).map fun r => (r.1, outs ++ r.2)

end

end DD
