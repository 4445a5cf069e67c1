import Verif.Model.Consolidation
import Verif.Model.Lattice
import Verif.Model.BatchContainer
import Verif.Model.MergeBatcher

/-!
# Model of `trace/implementations/ord_neu.rs`: `OrdValBatch`, its builder, merger and cursor

Offset containers are lists of naturals: `OffsetList` is proved to behave as one in `C10_offset_list`. `push_ref`, `push_own`,
`into_owned` and `reborrow` on vectors copy values. Out-of-bounds accesses and failed assertions are `none`. Capacities are not modelled.
-/

namespace DD

/-- `layers::Upds` (ord_neu.rs:112-119). -/
structure UpdsLayer (T R : Type*) where
  offs : List Nat
  times : List T
  diffs : List R

/-- `layers::Vals` (ord_neu.rs:53-60). -/
structure ValsLayer (V : Type*) where
  offs : List Nat
  vals : List V

/-- `OrdValStorage` (ord_neu.rs:266-273). -/
structure ValStorage (K V T R : Type*) where
  keys : List K
  vals : ValsLayer V
  upds : UpdsLayer T R

/-- `OrdValBatch` (ord_neu.rs:287-298). -/
structure ValBatch (K V T R : Type*) where
  storage : ValStorage K V T R
  description : Description T
  updates : Nat

/-- `Vals::bounds` (ord_neu.rs:68-70). -/
def ValsLayer.bounds {V : Type*} (l : ValsLayer V) (index : Nat) : Option (Nat × Nat) :=
  match l.offs[index]?, l.offs[index + 1]? with
  | some lower, some upper => some (lower, upper)
  | _, _ => none

/-- `Upds::bounds` (ord_neu.rs:126-141): equal bounds stand for the single preceding element. -/
def UpdsLayer.bounds {T R : Type*} (l : UpdsLayer T R) (index : Nat) : Option (Nat × Nat) :=
  match l.offs[index]?, l.offs[index + 1]? with
  | some lower, some upper =>
    if lower = upper then (if lower > 0 then some (lower - 1, upper) else none) else some (lower, upper)
  | _, _ => none

/-- `Upds::get_abs` (ord_neu.rs:150-152). -/
def UpdsLayer.get_abs {T R : Type*} (l : UpdsLayer T R) (index : Nat) : Option (T × R) :=
  match l.times[index]?, l.diffs[index]? with
  | some t, some r => some (t, r)
  | _, _ => none

/-- `for i in lower .. upper { ... get_abs(i) ... }`: the updates read (ord_neu.rs:553-560, 602-605). -/
def UpdsLayer.range {T R : Type*} (l : UpdsLayer T R) (lower upper : Nat) : Option (List (T × R)) :=
  (List.range' lower (upper - lower)).mapM l.get_abs

/-- `UpdsBuilder` (ord_neu.rs:176-191). The staging containers `time_con`, `diff_con` only serve a comparison. -/
structure UpdsBuilder (T R : Type*) where
  stash : List (T × R)
  total : Nat

section
variable {K V T R : Type*} [LinearOrder K] [LinearOrder V] [DecidableEq T] [LinearOrder (Lin T)] [AddCommMonoid R] [DecidableEq R]

/-- `consolidate` on (time, diff) pairs, sorting times by their total order. -/
def consolidateTimes (l : List (T × R)) : Option (List (T × R)) := consolidate (K := Lin T) l

/-- `UpdsBuilder::seal` (ord_neu.rs:211-236). -/
def UpdsBuilder.seal (b : UpdsBuilder T R) (upds : UpdsLayer T R) : Option (UpdsBuilder T R × UpdsLayer T R × Bool) :=
  match consolidateTimes b.stash with
  | none => none
  | some stash =>
    if stash.isEmpty then some ({ b with stash := stash }, upds, false)
    else
      match stash with
      | [(time, diff)] =>
        if upds.times.getLast? = some time ∧ upds.diffs.getLast? = some diff then
          some ({ stash := [], total := b.total + 1 }, { upds with offs := upds.offs ++ [upds.times.length] }, true)
        else
          let times := upds.times ++ [time]
          some ({ stash := [], total := b.total + 1 },
            { offs := upds.offs ++ [times.length], times := times, diffs := upds.diffs ++ [diff] }, true)
      | stash =>
        let times := upds.times ++ stash.map Prod.fst
        some ({ stash := [], total := b.total + stash.length },
          { offs := upds.offs ++ [times.length], times := times, diffs := upds.diffs ++ stash.map Prod.snd }, true)

/-- `with_capacity` (ord_neu.rs:88-95, 154-162, 667-677): empty layers with the initial offset. -/
def ValStorage.init : ValStorage K V T R := ⟨[], ⟨[0], []⟩, ⟨[0], [], []⟩⟩

/-! ## Builder -/

/-- `OrdValBuilder` (ord_neu.rs:645-652). -/
structure ValBuilder (K V T R : Type*) where
  result : ValStorage K V T R
  staging : UpdsBuilder T R

/-- One iteration of `OrdValBuilder::push` (ord_neu.rs:682-708). -/
def ValBuilder.pushItem (b : ValBuilder K V T R) (item : (K ×ₗ V) × T × R) : Option (ValBuilder K V T R) :=
  let key := (ofLex item.1).1
  let val := (ofLex item.1).2
  let update := (item.2.1, item.2.2)
  if b.result.keys.isEmpty then
    some { result := { b.result with vals := { b.result.vals with vals := b.result.vals.vals ++ [val] }, keys := b.result.keys ++ [key] },
           staging := { b.staging with stash := b.staging.stash ++ [update] } }
  else if b.result.keys.getLast? = some key then
    if b.result.vals.vals.getLast? = some val then
      some { b with staging := { b.staging with stash := b.staging.stash ++ [update] } }
    else
      match b.staging.seal b.result.upds with
      | none => none
      | some (staging, upds, _) =>
        some { result := { b.result with upds := upds, vals := { b.result.vals with vals := b.result.vals.vals ++ [val] } },
               staging := { staging with stash := staging.stash ++ [update] } }
  else
    match b.staging.seal b.result.upds with
    | none => none
    | some (staging, upds, _) =>
      some { result := { upds := upds, keys := b.result.keys ++ [key],
                         vals := { offs := b.result.vals.offs ++ [b.result.vals.vals.length], vals := b.result.vals.vals ++ [val] } },
             staging := { staging with stash := staging.stash ++ [update] } }

/-- `OrdValBuilder::done` (ord_neu.rs:713-721). -/
def ValBuilder.done (b : ValBuilder K V T R) (description : Description T) : Option (ValBatch K V T R) :=
  match b.staging.seal b.result.upds with
  | none => none
  | some (staging, upds, _) =>
    some { updates := staging.total, description := description,
           storage := { b.result with upds := upds,
                                      vals := { b.result.vals with offs := b.result.vals.offs ++ [b.result.vals.vals.length] } } }

/-- `OrdValBuilder::seal` (ord_neu.rs:723-731): a chain of chunks to a batch. -/
def ValBatch.build (chain : Chain (K ×ₗ V) T R) (description : Description T) : Option (ValBatch K V T R) :=
  match chain.foldlM (fun b chunk => chunk.foldlM ValBuilder.pushItem b) ⟨ValStorage.init, ⟨[], 0⟩⟩ with
  | none => none
  | some b => b.done description

/-- `Batch::empty` (ord_neu.rs:333-344). -/
def ValBatch.empty [Bot T] (lower upper : List T) : ValBatch K V T R := ⟨ValStorage.init, ⟨lower, upper, [⊥]⟩, 0⟩

/-! ## Merger -/

/-- `OrdValMerger` (ord_neu.rs:348-359). -/
structure ValMerger (K V T R : Type*) where
  key_cursor1 : Nat
  key_cursor2 : Nat
  result : ValStorage K V T R
  description : Description T
  staging : UpdsBuilder T R

section
variable [Lattice T] [DecidableLE T]

/-- `OrdValMerger::new` (ord_neu.rs:365-388). -/
def ValMerger.new (batch1 batch2 : ValBatch K V T R) (compaction_frontier : List T) : Option (ValMerger K V T R) :=
  if acEq batch1.description.upper batch2.description.lower then
    let since := acJoin batch1.description.since batch2.description.since
    let since := acJoin since compaction_frontier
    some { key_cursor1 := 0, key_cursor2 := 0, result := ValStorage.init,
           description := ⟨batch1.description.lower, batch2.description.upper, since⟩, staging := ⟨[], 0⟩ }
  else none

/-- `stash_updates_for_val` (ord_neu.rs:551-561). -/
def ValMerger.stash (m : ValMerger K V T R) (source : ValStorage K V T R) (index : Nat) : Option (ValMerger K V T R) :=
  match source.upds.bounds index with
  | none => none
  | some (lower, upper) =>
    match source.upds.range lower upper with
    | none => none
    | some us =>
      some { m with staging := { m.staging with
        stash := m.staging.stash ++ us.map fun u => (advanceBy u.1 m.description.since, u.2) } }

/-- `if self.staging.seal(&mut self.result.upds) { self.result.vals.vals.push_ref(val) }` (ord_neu.rs:441-443 and others). -/
def ValMerger.sealVal (m : ValMerger K V T R) (val : Option V) : Option (ValMerger K V T R) :=
  match m.staging.seal m.result.upds with
  | none => none
  | some (staging, upds, true) =>
    match val with
    | none => none
    | some val =>
      some { m with staging := staging,
                    result := { m.result with upds := upds, vals := { m.result.vals with vals := m.result.vals.vals ++ [val] } } }
  | some (staging, upds, false) => some { m with staging := staging, result := { m.result with upds := upds } }

/-- One iteration of the loops that copy a single value (ord_neu.rs:440-444, 501-505, 518-522, 528-532, 535-539). -/
def ValMerger.copyVal (source : ValStorage K V T R) (m : ValMerger K V T R) (index : Nat) : Option (ValMerger K V T R) :=
  match m.stash source index with
  | none => none
  | some m => m.sealVal source.vals.vals[index]?

/-- `if self.result.vals.vals.len() > init_vals { push key and offset }` (ord_neu.rs:448-451, 468-471, 543-547). -/
def ValMerger.pushKey (m : ValMerger K V T R) (init_vals : Nat) (key : Option K) : Option (ValMerger K V T R) :=
  if m.result.vals.vals.length > init_vals then
    match key with
    | none => none
    | some key =>
      some { m with result := { m.result with keys := m.result.keys ++ [key],
                                              vals := { m.result.vals with offs := m.result.vals.offs ++ [m.result.vals.vals.length] } } }
  else some m

/-- `copy_key` (ord_neu.rs:435-452). -/
def ValMerger.copyKey (m : ValMerger K V T R) (source : ValStorage K V T R) (cursor : Nat) : Option (ValMerger K V T R) :=
  let init_vals := m.result.vals.vals.length
  match source.vals.bounds cursor with
  | none => none
  | some (lower, upper) =>
    match (List.range' lower (upper - lower)).foldlM (ValMerger.copyVal source) m with
    | none => none
    | some m => m.pushKey init_vals source.keys[cursor]?

/-- `merge_vals` (ord_neu.rs:486-548); the first argument bounds the iterations of the first loop. -/
def ValMerger.mergeVals (source1 source2 : ValStorage K V T R) (upper1 upper2 : Nat) :
    Nat → ValMerger K V T R → Nat → Nat → Option (ValMerger K V T R)
  | 0, _, _, _ => none
  | fuel + 1, m, lower1, lower2 =>
    if lower1 < upper1 ∧ lower2 < upper2 then
      match source1.vals.vals[lower1]?, source2.vals.vals[lower2]? with
      | some v1, some v2 =>
        if v1 < v2 then
          match m.copyVal source1 lower1 with
          | none => none
          | some m => ValMerger.mergeVals source1 source2 upper1 upper2 fuel m (lower1 + 1) lower2
        else if v1 = v2 then
          match m.stash source1 lower1 with
          | none => none
          | some m =>
            match m.stash source2 lower2 with
            | none => none
            | some m =>
              match m.sealVal (some v1) with
              | none => none
              | some m => ValMerger.mergeVals source1 source2 upper1 upper2 fuel m (lower1 + 1) (lower2 + 1)
        else
          match m.copyVal source2 lower2 with
          | none => none
          | some m => ValMerger.mergeVals source1 source2 upper1 upper2 fuel m lower1 (lower2 + 1)
      | _, _ => none
    else
      match (List.range' lower1 (upper1 - lower1)).foldlM (ValMerger.copyVal source1) m with
      | none => none
      | some m => (List.range' lower2 (upper2 - lower2)).foldlM (ValMerger.copyVal source2) m

/-- `merge_key` (ord_neu.rs:457-481). -/
def ValMerger.mergeKey (m : ValMerger K V T R) (source1 source2 : ValStorage K V T R) : Option (ValMerger K V T R) :=
  match source1.keys[m.key_cursor1]?, source2.keys[m.key_cursor2]? with
  | some k1, some k2 =>
    if k1 < k2 then (m.copyKey source1 m.key_cursor1).map fun m => { m with key_cursor1 := m.key_cursor1 + 1 }
    else if k1 = k2 then
      match source1.vals.bounds m.key_cursor1, source2.vals.bounds m.key_cursor2 with
      | some (lower1, upper1), some (lower2, upper2) =>
        let init_vals := m.result.vals.vals.length
        match ValMerger.mergeVals source1 source2 upper1 upper2 ((upper1 - lower1) + (upper2 - lower2) + 1) m lower1 lower2 with
        | none => none
        | some m =>
          (m.pushKey init_vals (some k1)).map fun m =>
            { m with key_cursor1 := m.key_cursor1 + 1, key_cursor2 := m.key_cursor2 + 1 }
      | _, _ => none
    else (m.copyKey source2 m.key_cursor2).map fun m => { m with key_cursor2 := m.key_cursor2 + 1 }
  | _, _ => none

/-- The first loop of `work` (ord_neu.rs:403-407). -/
def ValMerger.workBoth (s1 s2 : ValStorage K V T R) (starting : Nat) (fuel : Int) :
    Nat → ValMerger K V T R → Int → Option (ValMerger K V T R × Int)
  | 0, m, effort => some (m, effort)
  | n + 1, m, effort =>
    if m.key_cursor1 < s1.keys.length ∧ m.key_cursor2 < s2.keys.length ∧ effort < fuel then
      match m.mergeKey s1 s2 with
      | none => none
      | some m => ValMerger.workBoth s1 s2 starting fuel n m ((m.staging.total : Int) - starting)
    else some (m, effort)

/-- The second loop of `work` (ord_neu.rs:411-415). -/
def ValMerger.workOne (s1 : ValStorage K V T R) (starting : Nat) (fuel : Int) :
    Nat → ValMerger K V T R → Int → Option (ValMerger K V T R × Int)
  | 0, m, effort => some (m, effort)
  | n + 1, m, effort =>
    if m.key_cursor1 < s1.keys.length ∧ effort < fuel then
      match m.copyKey s1 m.key_cursor1 with
      | none => none
      | some m =>
        let m := { m with key_cursor1 := m.key_cursor1 + 1 }
        ValMerger.workOne s1 starting fuel n m ((m.staging.total : Int) - starting)
    else some (m, effort)

/-- The third loop of `work` (ord_neu.rs:416-420). -/
def ValMerger.workTwo (s2 : ValStorage K V T R) (starting : Nat) (fuel : Int) :
    Nat → ValMerger K V T R → Int → Option (ValMerger K V T R × Int)
  | 0, m, effort => some (m, effort)
  | n + 1, m, effort =>
    if m.key_cursor2 < s2.keys.length ∧ effort < fuel then
      match m.copyKey s2 m.key_cursor2 with
      | none => none
      | some m =>
        let m := { m with key_cursor2 := m.key_cursor2 + 1 }
        ValMerger.workTwo s2 starting fuel n m ((m.staging.total : Int) - starting)
    else some (m, effort)

/-- `work` (ord_neu.rs:396-423): returns the merger and the remaining fuel. -/
def ValMerger.work (m : ValMerger K V T R) (source1 source2 : ValBatch K V T R) (fuel : Int) : Option (ValMerger K V T R × Int) :=
  let s1 := source1.storage
  let s2 := source2.storage
  let starting := m.staging.total
  let n := s1.keys.length + s2.keys.length
  match ValMerger.workBoth s1 s2 starting fuel n m 0 with
  | none => none
  | some (m, effort) =>
    match ValMerger.workOne s1 starting fuel n m effort with
    | none => none
    | some (m, effort) =>
      match ValMerger.workTwo s2 starting fuel n m effort with
      | none => none
      | some (m, effort) => some (m, fuel - effort)

/-- `done` (ord_neu.rs:389-395). -/
def ValMerger.done (m : ValMerger K V T R) : ValBatch K V T R := ⟨m.result, m.description, m.staging.total⟩

/-- Repeated `work` with a sequence of fuel amounts; also returns the fuel remaining after each call. -/
def ValMerger.works (m : ValMerger K V T R) (source1 source2 : ValBatch K V T R) : List Int → Option (ValMerger K V T R × List Int)
  | [] => some (m, [])
  | fuel :: fuels =>
    match m.work source1 source2 fuel with
    | none => none
    | some (m, left) =>
      match ValMerger.works m source1 source2 fuels with
      | none => none
      | some (m, lefts) => some (m, left :: lefts)

end

/-! ## Cursor -/

/-- `OrdValCursor` (ord_neu.rs:565-572). -/
structure ValCursor where
  key_cursor : Nat
  val_cursor : Nat

namespace ValCursor
variable (c : ValCursor) (s : ValStorage K V T R)

/-- `cursor` (ord_neu.rs:306-312). -/
def init : ValCursor := ⟨0, 0⟩

/-- `key_valid` (ord_neu.rs:607). -/
def key_valid : Bool := c.key_cursor < s.keys.length

/-- `val_valid` (ord_neu.rs:608): `none` if the key position is past the end. -/
def val_valid : Option Bool := (s.vals.bounds c.key_cursor).map fun b => decide (c.val_cursor < b.2)

/-- `key` (ord_neu.rs:598). -/
def key : Option K := s.keys[c.key_cursor]?

/-- `val` (ord_neu.rs:599). -/
def val : Option V := s.vals.vals[c.val_cursor]?

/-- `map_times` (ord_neu.rs:600-606): the sequence of arguments passed to `logic`. -/
def map_times : Option (List (T × R)) :=
  match s.upds.bounds c.val_cursor with
  | none => none
  | some (lower, upper) => s.upds.range lower upper

/-- `rewind_vals` (ord_neu.rs:639-641). -/
def rewind_vals : Option ValCursor := (s.vals.bounds c.key_cursor).map fun b => { c with val_cursor := b.1 }

/-- `step_key` (ord_neu.rs:609-617). -/
def step_key : Option ValCursor :=
  let c := { c with key_cursor := c.key_cursor + 1 }
  if c.key_valid s then c.rewind_vals s else some { c with key_cursor := s.keys.length }

/-- `seek_key` (ord_neu.rs:618-623). -/
def seek_key (key : K) : Option ValCursor :=
  match advance (fun i => (s.keys[i]?).map fun x => decide (x < key)) c.key_cursor s.keys.length with
  | none => none
  | some n =>
    let c := { c with key_cursor := c.key_cursor + n }
    if c.key_valid s then c.rewind_vals s else some c

/-- `step_val` (ord_neu.rs:624-629). -/
def step_val : Option ValCursor :=
  let c := { c with val_cursor := c.val_cursor + 1 }
  match s.vals.bounds c.key_cursor with
  | none => none
  | some b => if c.val_cursor < b.2 then some c else some { c with val_cursor := b.2 }

/-- `seek_val` (ord_neu.rs:630-632). -/
def seek_val (val : V) : Option ValCursor :=
  match s.vals.bounds c.key_cursor with
  | none => none
  | some b =>
    match advance (fun i => (s.vals.vals[i]?).map fun x => decide (x < val)) c.val_cursor b.2 with
    | none => none
    | some n => some { c with val_cursor := c.val_cursor + n }

/-- `rewind_keys` (ord_neu.rs:633-638). -/
def rewind_keys : Option ValCursor :=
  let c := { c with key_cursor := 0 }
  if c.key_valid s then c.rewind_vals s else some c

end ValCursor

/-! ## Walking a batch -/

/-- `while val_valid { map_times; step_val }` under one key: the (value, updates) read. -/
def walkVals (s : ValStorage K V T R) : Nat → ValCursor → Option (List (V × List (T × R)))
  | 0, _ => none
  | fuel + 1, c =>
    match c.val_valid s with
    | none => none
    | some false => some []
    | some true =>
      match c.val s, c.map_times s, c.step_val s with
      | some v, some us, some c =>
        match walkVals s fuel c with
        | none => none
        | some rest => some ((v, us) :: rest)
      | _, _, _ => none

/-- `while key_valid { while val_valid { .. } step_key }`, as in `Cursor::to_vec` (trace/cursor/mod.rs:159-185). -/
def walkKeys (s : ValStorage K V T R) : Nat → ValCursor → Option (List (K × List (V × List (T × R))))
  | 0, _ => none
  | fuel + 1, c =>
    if c.key_valid s then
      match c.key s, walkVals s (s.vals.vals.length + 1) c, c.step_key s with
      | some k, some vs, some c =>
        match walkKeys s fuel c with
        | none => none
        | some rest => some ((k, vs) :: rest)
      | _, _, _ => none
    else some []

/-- All updates of a walk, as a flat list. -/
def flattenTrie (t : List (K × List (V × List (T × R)))) : Upds (K ×ₗ V) T R :=
  t.flatMap fun kv => kv.2.flatMap fun vu => vu.2.map fun u => (toLex (kv.1, vu.1), u.1, u.2)

/-- Read a whole batch through its cursor. -/
def ValStorage.readAll (s : ValStorage K V T R) : Option (Upds (K ×ₗ V) T R) :=
  (walkKeys s (s.keys.length + 1) ValCursor.init).map flattenTrie

end

end DD
