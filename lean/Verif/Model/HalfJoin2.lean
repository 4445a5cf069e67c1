import Verif.Model.HalfJoin

/-!
# Model of `dogsdogsdogs/src/operators/half_join2.rs`

The operator for one worker, with the conventions of `Model/HalfJoin.lean`, whose `answerProposal` (half_join.rs:343-366) is the same code as half_join2.rs:279-299. Sets of capabilities are
lists of times, as antichains; a `MutableAntichain` is the list of the times that it counts, and its frontier their antichain. The order of the elements of antichains is that of insertion;
nothing depends on it but which of several capabilities is used.
-/

namespace DD
variable {K V V2 T R R2 M DOut : Type*}

/-- Proposals as stored: `(T, D, R)`. -/
abbrev Stored (K V T R : Type*) := Upds (Lin T) (PropData K V T) R

/-- A time again, not under its total order. -/
def ofLin (t : Lin T) : T := t

/-- `Blob` (half_join2.rs:361-373). -/
structure Blob (K V T R : Type*) where
  caps : List T
  lower : List T
  data : Stored K V T R
  stuck_count : Nat

/-- The order of tuples is total also when they stand where times do. -/
instance [LinearOrder K] [LinearOrder V] [LinearOrder (Lin T)] : LinearOrder (Lin (PropData K V T)) := inferInstanceAs (LinearOrder (PropData K V T))

/-- `frontier` of a `MutableAntichain` (timely): the minimal times that it counts. -/
def mutFrontier [LE T] [DecidableLE T] (lower : List T) : List T := acExtend [] lower

/-- `CapabilitySet::delayed` (timely): a panic if no capability is at or before the time. -/
def capsDelayed [LE T] [DecidableLE T] (caps : List T) (time : T) : Option T := if lessEqual caps time then some time else none

/-- `CapabilitySet::downgrade` (timely). -/
def capsDowngrade [LE T] [DecidableLE T] (caps frontier : List T) : Option (List T) := frontier.mapM (capsDelayed caps)

/-- `eligible` (half_join2.rs:186-194): the least element of the frontier, in the total order, does not compare before the initial time. -/
def eligible [LinearOrder (Lin T)] (comparison : T → T → Bool) (frontier : List T) (initial : T) : Bool :=
  !((frontier.map toLin).min?).any fun min_time => comparison (ofLin min_time) initial

section
variable [LinearOrder K] [LinearOrder V] [LinearOrder V2] [Lattice T] [DecidableLE T] [DecidableEq T] [LinearOrder (Lin T)]
  [AddCommMonoid R] [DecidableEq R] [AddCommMonoid R2] [DecidableEq R2]

/-- `slice[..len].sort_by(|(t1, d1, r1), (t2, d2, r2)| (d1, t1, r1).cmp(&(d2, t2, r2)))` (half_join2.rs:222-224, 249-251). As no two elements have equal `(d, t)`, the last component
is omitted. -/
def sortReady (data : Stored K V T R) (len : Nat) : Stored K V T R :=
  (data.take len).insertionSort (fun x y => (toLex (x.2.1, x.1) : PropData K V T ×ₗ Lin T) ≤ toLex (y.2.1, y.1)) ++ data.drop len

/-- Forming a blob from the consolidated arrivals (half_join2.rs:201-232). -/
def formBlob (comparison : T → T → Bool) (frontier2 caps : List T) (arriving : Stored K V T R) : Option (Blob K V T R) :=
  let lower : List T := arriving.map fun e => ofLin e.1
  match (mutFrontier lower).mapM (capsDelayed caps) with
  | none => none
  | some blob_caps =>
    let stuck_count := (arriving.reverse.takeWhile fun e => !eligible comparison frontier2 (ofLin e.1)).length
    some ⟨acExtend [] blob_caps, lower, sortReady arriving (arriving.length - stuck_count), stuck_count⟩

/-- One step of the loop that promotes stuck records (half_join2.rs:237-258). -/
def nibble (comparison : T → T → Bool) (frontier2 : List T) (blob : Blob K V T R) : Option (Blob K V T R) :=
  if blob.stuck_count = blob.data.length then
    let newly_ready := (blob.data.takeWhile fun e => eligible comparison frontier2 (ofLin e.1)).length
    if newly_ready > 0 then
      let data := sortReady blob.data newly_ready
      let lower : List T := data.map fun e => ofLin e.1
      (capsDowngrade blob.caps (mutFrontier lower)).map fun caps => ⟨caps, lower, data, blob.stuck_count - newly_ready⟩
    else some blob
  else some blob

/-- The loop over the ready elements of a blob (half_join2.rs:271-306): the elements that remain, the times removed, the state of the yield function, and what is sent under which
capability. -/
def drainReady (comparison : T → T → Bool) (logic : K → V → V2 → DOut) (mul : R → R2 → M) (caps : List T) (stuck_count : Nat) :
    Pos K V2 T R2 → Bool × Option Nat → Stored K V T R → Option (Stored K V T R × List T × (Bool × Option Nat) × List (T × (DOut × T) × T × M))
  | _, y, [] => some ([], [], y, [])
  | cursor, y, e :: data =>
    if (e :: data).length > stuck_count then
      let y := askYield y
      if y.1 then some (e :: data, [], y, [])
      else
        match caps.find? fun c => c ≤ ofLin e.1, answerProposal comparison logic mul cursor e.2.1.key e.2.1.val e.2.1.time (ofLin e.1) e.2.2 with
        | some cap, some (cursor, outs) =>
          (drainReady comparison logic mul caps stuck_count cursor y data).map fun r => (r.1, ofLin e.1 :: r.2.1, r.2.2.1, outs.map (fun u => (cap, u)) ++ r.2.2.2)
        | _, _ => none
    else some (e :: data, [], y, [])

/-- The loop that processes ready elements from blobs (half_join2.rs:261-325). -/
def visitBlobs (comparison : T → T → Bool) (logic : K → V → V2 → DOut) (mul : R → R2 → M) (contents : Contents K V2 T R2) :
    Bool × Option Nat → List (Blob K V T R) → Option (List (Blob K V T R) × List (T × (DOut × T) × T × M))
  | _, [] => some ([], [])
  | y, blob :: blobs =>
    if blob.data.length > blob.stuck_count then
      if y.1 then some (blob :: blobs, [])
      else
        match drainReady comparison logic mul blob.caps blob.stuck_count (Pos.start contents) y blob.data with
        | none => none
        | some (data, removals, y, outs) =>
          let blob : Option (Blob K V T R) :=
            if data.isEmpty then some ⟨[], [], [], blob.stuck_count⟩
            else
              let lower := blob.lower.diff removals
              (capsDowngrade blob.caps (mutFrontier lower)).map fun caps => ⟨caps, lower, data, blob.stuck_count⟩
          match blob with
          | none => none
          | some blob => (visitBlobs comparison logic mul contents y blobs).map fun r => (blob :: r.1, outs ++ r.2)
    else (visitBlobs comparison logic mul contents y blobs).map fun r => (blob :: r.1, r.2)

/-- The state of the operator between activations; `wake` says whether it asked to be activated again. -/
structure HalfJoin2 (K V T R : Type*) where
  blobs : List (Blob K V T R)
  live : Bool
  logical : List T
  wake : Bool

/-- The operator when it is constructed (half_join2.rs:142-156). -/
def HalfJoin2.init [Bot T] : HalfJoin2 K V T R := ⟨[], true, [⊥], false⟩

/-- The part of an activation that uses the trace (half_join2.rs:182-329). The order in which an activation of `half_join` visits its stash has no meaning here. -/
def HalfJoin2.work (comparison : T → T → Bool) (logic : K → V → V2 → DOut) (mul : R → R2 → M) (blobs : List (Blob K V T R)) (act : HalfJoinAct K V V2 T R R2) :
    Option (List (Blob K V T R) × List (T × (DOut × T) × T × M)) :=
  let arriving : Stored K V T R := act.msgs.flatMap fun m => m.2.map fun u => (toLin u.2.1, u.1, u.2.2)
  let caps := act.msgs.foldl (fun caps m => acInsert caps m.1) []
  match consolidateUpdates arriving with
  | none => none
  | some arriving =>
    let formed : Option (List (Blob K V T R)) := if arriving.isEmpty then some blobs else (formBlob comparison act.frontier2 caps arriving).map fun blob => blobs ++ [blob]
    match formed with
    | none => none
    | some blobs =>
      match blobs.mapM (nibble comparison act.frontier2) with
      | none => none
      | some blobs => (visitBlobs comparison logic mul act.contents (false, act.yields) blobs).map fun r => (r.1.filter fun b => !b.data.isEmpty, r.2)

/-- One activation of the operator (half_join2.rs:163-352). -/
def HalfJoin2.activate (comparison : T → T → Bool) (frontier_func : T → List T) (logic : K → V → V2 → DOut) (mul : R → R2 → M) (st : HalfJoin2 K V T R)
    (act : HalfJoinAct K V V2 T R R2) : Option (HalfJoin2 K V T R × List (T × (DOut × T) × T × M)) :=
  match if st.live then HalfJoin2.work comparison logic mul st.blobs act else some (st.blobs, []) with
  | none => none
  | some (blobs, outs) =>
    let wake := blobs.any fun b => b.data.length > b.stuck_count
    let frontier := act.frontier1.foldl (fun frontier time => acExtend frontier (frontier_func time)) []
    let frontier := blobs.foldl (fun frontier b => b.caps.foldl (fun frontier cap => acExtend frontier (frontier_func cap)) frontier) frontier
    some (⟨blobs, st.live && !(act.frontier1.isEmpty && blobs.isEmpty), if st.live then frontier else st.logical, wake⟩, outs)

/-- A sequence of activations. -/
def HalfJoin2.run (comparison : T → T → Bool) (frontier_func : T → List T) (logic : K → V → V2 → DOut) (mul : R → R2 → M) :
    HalfJoin2 K V T R → List (HalfJoinAct K V V2 T R R2) → Option (HalfJoin2 K V T R × List (T × (DOut × T) × T × M))
  | st, [] => some (st, [])
  | st, act :: acts =>
    match st.activate comparison frontier_func logic mul act with
    | none => none
    | some (st, outs) => (HalfJoin2.run comparison frontier_func logic mul st acts).map fun r => (r.1, outs ++ r.2)

/-- The proposals that the operator holds. -/
def HalfJoin2.held (st : HalfJoin2 K V T R) : Upds (PropData K V T) T R := st.blobs.flatMap fun b => b.data.map fun e => (e.2.1, ofLin e.1, e.2.2)

end

end DD
