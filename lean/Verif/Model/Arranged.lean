import Verif.Model.Arrange
import Verif.Model.TraceCursor
import Verif.Model.JoinOp
import Verif.Proofs.OrdValSpine
import Verif.Proofs.OrdKeySpine

/-!
# Arrangements and joins of arrangements

This puts together the models of `arrange_core` (operators/arrange/arrangement.rs:352-521), of the builders, batches and cursors of `ord_neu.rs`, of the spine, and of the `join`
operator, as `arrange_by_key`, `arrange_by_self`, `join_map`, `semijoin` and `antijoin` do (collection.rs:1072-1103, 1155-1218). The channel from an arrangement to the operator
that reads it is a queue: it is in the same worker, and on the stream of the arrangement itself. Imported traces are the subject of C21.
-/

namespace DD
variable {B B1 B2 N N1 N2 D D1 D2 K V V1 V2 T R R1 R2 S O M : Type*}

/-- The types a trace is made of: batches `B` with mergers `N` and cursors, and a builder that makes them from updates with data `D`, which are keys and values. -/
structure TraceKind (B N D K V T R : Type*) where
  ops : BatchOps B N T
  desc : B → Description T
  /-- `Builder::seal`. -/
  build : Upds D T R → Description T → Option B
  /-- All that a cursor over some batches presents, as collected by stepping through it. -/
  read : List B → Option (Contents K V T R)
  /-- Keys and values. -/
  split : D ≃ K × V

/-- All that a `CursorList` over some storage presents: `cursor_list` (cursor/mod.rs:53-62) and `to_vec` (cursor/mod.rs:163-184). -/
def readStorage {C : Type*} [LinearOrder K] [LinearOrder V] (cops : CursorOps C S K V T R) (cursor : C) (fuel : Nat) (ss : List S) : Option (Contents K V T R) :=
  match cursorList cops (fun _ => cursor) ss with
  | none => none
  | some (l, ss) => (CursorList.ops cops).toVec ss fuel l

section
variable [LinearOrder K] [LinearOrder V] [Lattice T] [OrderBot T] [DecidableLE T] [DecidableEq T] [LinearOrder (Lin T)] [AddCommMonoid R] [DecidableEq R]

/-- `OrdValSpine`, `RcOrdValBuilder` (ord_neu.rs:23-28). The number of updates bounds the steps of a cursor. -/
def valKind : TraceKind (ValBatch K V T R) (ValMerger K V T R) (K ×ₗ V) K V T R where
  ops := ValBatch.ops
  desc b := b.description
  build us desc := ValBatch.build [us] desc
  read bs := readStorage ValCursor.ops ValCursor.init ((bs.map (·.updates)).sum + 1) (bs.map (·.storage))
  split := ofLex

/-- `OrdKeySpine`, `RcOrdKeyBuilder` (ord_neu.rs:30-35). -/
def keyKind : TraceKind (KeyBatch K T R) (KeyMerger K T R) K K Unit T R where
  ops := KeyBatch.ops
  desc b := b.description
  build us desc := KeyBatch.build [us] desc
  read bs := readStorage KeyCursor.ops KeyCursor.init ((bs.map (·.updates)).sum + 1) (bs.map (·.storage))
  split := (Equiv.prodPUnit K).symm

end

/-- The state of an arrangement: of the operator, of the shared trace, and the messages that the reader has not received. -/
structure Arranged (B N D T R : Type*) where
  arr : ArrState D T R
  spine : Spine B N T
  queue : List (T × B)

section
variable [LinearOrder D] [Lattice T] [OrderBot T] [DecidableLE T] [DecidableEq T] [LinearOrder (Lin T)] [AddCommMonoid R] [DecidableEq R]

/-- `arrange_core` before its first activation (arrangement.rs:371-417). -/
def Arranged.init (effort : Nat) : Arranged B N D T R := ⟨ArrState.init, Spine.init effort, []⟩

/-- `Bu::seal(&mut chain, description)` for each batch sent (arrangement.rs:477-478), with its capability. The chunks of the chain are concatenated in the model of the operator. -/
def Arranged.buildAll (Y : TraceKind B N D K V T R) : List (T × ArrBatch D T R) → Option (List (T × B))
  | [] => some []
  | (c, b) :: rest =>
    match Y.build b.upds b.desc with
    | none => none
    | some v =>
      match Arranged.buildAll Y rest with
      | none => none
      | some vs => some ((c, v) :: vs)

/-- An activation of the operator (arrangement.rs:419-515), with `TraceWriter::insert` inserting into the trace (writer.rs:77-82) each batch that is sent, or `TraceWriter::seal`
inserting an empty batch (writer.rs:87-91) if there is none to send. -/
def Arranged.activate (Y : TraceKind B N D K V T R) (cap : Nat) (a : Arranged B N D T R) (act : ArrAct D T R) : Option (Arranged B N D T R) :=
  match a.arr.activate cap act with
  | none => none
  | some arr =>
    match Arranged.buildAll Y (arr.sent.drop a.arr.sent.length) with
    | none => none
    | some msgs =>
      let inserts : List B :=
        if msgs.isEmpty then (arr.writer.trace.drop a.arr.writer.trace.length).map fun b => Y.ops.empty b.desc.lower b.desc.upper
        else msgs.map Prod.snd
      match a.spine.run Y.ops (inserts.map .insert) with
      | none => none
      | some spine => some ⟨arr, spine, a.queue ++ msgs⟩

/-- `set_logical_compaction` and `set_physical_compaction` of the trace (spine_fueled.rs:193-206). -/
def Arranged.compact (Y : TraceKind B N D K V T R) (a : Arranged B N D T R) (logical physical : List T) : Option (Arranged B N D T R) :=
  match a.spine.run Y.ops [.setLogical logical, .setPhysical physical] with
  | none => none
  | some spine => some { a with spine := spine }

/-- `exert` of the trace (spine_fueled.rs:240-261), called through `TraceWriter::exert` (writer.rs:45-53). -/
def Arranged.exert (Y : TraceKind B N D K V T R) (a : Arranged B N D T R) (effort : Option Nat) : Option (Arranged B N D T R) :=
  match a.spine.run Y.ops [.exert effort] with
  | none => none
  | some spine => some { a with spine := spine }

/-- What a cursor over `batches_through(frontier)` presents; nothing if the call fails. -/
def Arranged.through (Y : TraceKind B N D K V T R) (a : Arranged B N D T R) (frontier : List T) : Contents K V T R :=
  match a.spine.batchesThrough Y.ops frontier with
  | none => []
  | some bs => (Y.read bs).getD []

/-- The batches visited by `map_batches` (spine_fueled.rs:211-223): their descriptions, and whether they are empty. -/
def Arranged.shown (Y : TraceKind B N D K V T R) (a : Arranged B N D T R) : List (Description T × Bool) :=
  a.spine.mapBatches.map fun b => (Y.desc b, Y.ops.len b == 0)

/-- What happens to an arrangement. -/
inductive ArrangedEv (D T R : Type*)
  /-- The operator is activated. -/
  | arrange (act : ArrAct D T R)
  /-- The trace is given permission to compact. -/
  | compact (logical physical : List T)
  /-- The trace is asked to make progress on merges. -/
  | exert (effort : Option Nat)
  /-- The reader takes a message, if there is one. -/
  | take

/-- One event. -/
def Arranged.step (Y : TraceKind B N D K V T R) (cap : Nat) (a : Arranged B N D T R) : ArrangedEv D T R → Option (Arranged B N D T R)
  | .arrange act => a.activate Y cap act
  | .compact logical physical => a.compact Y logical physical
  | .exert effort => a.exert Y effort
  | .take => some { a with queue := a.queue.tail }

/-- A sequence of events. -/
def Arranged.run (Y : TraceKind B N D K V T R) (cap : Nat) : Arranged B N D T R → List (ArrangedEv D T R) → Option (Arranged B N D T R)
  | a, [] => some a
  | a, e :: es =>
    match a.step Y cap e with
    | none => none
    | some a => Arranged.run Y cap a es

end

/-! ## Two arrangements and a join of them -/

/-- What happens in a worker with two arrangements and a join: something to one of the arrangements, where the join takes a batch from its input if it is a `take`; or the join, having
drained its inputs, sees these frontiers. -/
inductive JoinSysEv (D1 D2 T R1 R2 : Type*)
  | side1 (e : ArrangedEv D1 T R1)
  | side2 (e : ArrangedEv D2 T R2)
  | rest (frontier1 frontier2 : List T)

/-- Two arrangements, and `join_core` of them. -/
structure JoinSys (B1 N1 D1 V1 B2 N2 D2 V2 K T R1 R2 S O M : Type*) where
  side1 : Arranged B1 N1 D1 T R1
  side2 : Arranged B2 N2 D2 T R2
  join : JoinOp K V1 V2 T R1 R2 S O M

section
variable [LinearOrder D1] [LinearOrder D2] [LinearOrder K] [LinearOrder V1] [LinearOrder V2] [Lattice T] [OrderBot T] [DecidableLE T] [DecidableEq T] [LinearOrder (Lin T)]
  [AddCommMonoid R1] [DecidableEq R1] [AddCommMonoid R2] [DecidableEq R2]

/-- The construction of the dataflow: the traces have no batches. -/
def JoinSys.init (Y1 : TraceKind B1 N1 D1 K V1 T R1) (OB : OutBuilder S O T M) (effort1 effort2 : Nat) : Option (JoinSys B1 N1 D1 V1 B2 N2 D2 V2 K T R1 R2 S O M) :=
  match JoinOp.start OB [⊥] [⊥] [] [] ((Arranged.init effort1).through Y1) with
  | none => none
  | some join => some ⟨Arranged.init effort1, Arranged.init effort2, join⟩

/-- What the join is given, if the next message of the first arrangement is this. -/
def takes1 (Y1 : TraceKind B1 N1 D1 K V1 T R1) (Y2 : TraceKind B2 N2 D2 K V2 T R2) (other : Arranged B2 N2 D2 T R2) : Option (T × B1) → Option (List (JoinEv K V1 V2 T R1 R2))
  | none => some []
  | some (time, b) =>
    match Y1.read [b] with
    | none => none
    | some batch => some [.batch1 time (Y1.desc b).lower (Y1.desc b).upper batch (other.through Y2)]

/-- What the join is given, if the next message of the second arrangement is this. -/
def takes2 (Y1 : TraceKind B1 N1 D1 K V1 T R1) (Y2 : TraceKind B2 N2 D2 K V2 T R2) (other : Arranged B1 N1 D1 T R1) : Option (T × B2) → Option (List (JoinEv K V1 V2 T R1 R2))
  | none => some []
  | some (time, b) =>
    match Y2.read [b] with
    | none => none
    | some batch => some [.batch2 time (Y2.desc b).lower (Y2.desc b).upper batch (other.through Y1)]

/-- What an event means to the join: the batch taken, with what a cursor over the other trace presents; or the batches of both traces and the frontiers. -/
def joinEvents (Y1 : TraceKind B1 N1 D1 K V1 T R1) (Y2 : TraceKind B2 N2 D2 K V2 T R2) (side1 : Arranged B1 N1 D1 T R1) (side2 : Arranged B2 N2 D2 T R2) :
    JoinSysEv D1 D2 T R1 R2 → Option (List (JoinEv K V1 V2 T R1 R2))
  | .side1 .take => takes1 Y1 Y2 side2 side1.queue.head?
  | .side2 .take => takes2 Y1 Y2 side1 side2.queue.head?
  | .side1 _ => some []
  | .side2 _ => some []
  | .rest frontier1 frontier2 => some [.rest (side1.shown Y1) (side2.shown Y2) frontier1 frontier2]

/-- What an event means to the arrangements. -/
def sidesStep (Y1 : TraceKind B1 N1 D1 K V1 T R1) (Y2 : TraceKind B2 N2 D2 K V2 T R2) (cap : Nat) (side1 : Arranged B1 N1 D1 T R1) (side2 : Arranged B2 N2 D2 T R2) :
    JoinSysEv D1 D2 T R1 R2 → Option (Arranged B1 N1 D1 T R1 × Arranged B2 N2 D2 T R2)
  | .side1 e => (side1.step Y1 cap e).map fun a => (a, side2)
  | .side2 e => (side2.step Y2 cap e).map fun a => (side1, a)
  | .rest _ _ => some (side1, side2)

/-- One event. `cap` is the chunk capacity of the batchers; `rounds` and `budget` are those of the join. -/
def JoinSys.step (Y1 : TraceKind B1 N1 D1 K V1 T R1) (Y2 : TraceKind B2 N2 D2 K V2 T R2) (OB : OutBuilder S O T M) (logic : K → V1 → V2 → T → R1 → R2 → List (O × T × M))
    (cap rounds : Nat) (budget : Int) (s : JoinSys B1 N1 D1 V1 B2 N2 D2 V2 K T R1 R2 S O M) (e : JoinSysEv D1 D2 T R1 R2) :
    Option (JoinSys B1 N1 D1 V1 B2 N2 D2 V2 K T R1 R2 S O M) :=
  match joinEvents Y1 Y2 s.side1 s.side2 e, sidesStep Y1 Y2 cap s.side1 s.side2 e with
  | some evs, some (side1, side2) => (s.join.run OB logic rounds budget evs).map fun join => ⟨side1, side2, join⟩
  | _, _ => none

/-- A sequence of events. -/
def JoinSys.run (Y1 : TraceKind B1 N1 D1 K V1 T R1) (Y2 : TraceKind B2 N2 D2 K V2 T R2) (OB : OutBuilder S O T M) (logic : K → V1 → V2 → T → R1 → R2 → List (O × T × M))
    (cap rounds : Nat) (budget : Int) :
    JoinSys B1 N1 D1 V1 B2 N2 D2 V2 K T R1 R2 S O M → List (JoinSysEv D1 D2 T R1 R2) → Option (JoinSys B1 N1 D1 V1 B2 N2 D2 V2 K T R1 R2 S O M)
  | s, [] => some s
  | s, e :: es =>
    match s.step Y1 Y2 OB logic cap rounds budget e with
    | none => none
    | some s => JoinSys.run Y1 Y2 OB logic cap rounds budget s es

end
end DD
