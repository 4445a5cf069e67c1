import Verif.Model.OrdVal

/-!
# Model of `trace/implementations/ord_neu.rs`: `OrdKeyBatch`, its builder, merger and cursor

The value component of the input, which the code ignores (ord_neu.rs:1096), is the unit type and is left out; `value` (ord_neu.rs:789) is the
constant default value.
-/

namespace DD

/-- `OrdKeyStorage` (ord_neu.rs:757-762). -/
structure KeyStorage (K T R : Type*) where
  keys : List K
  upds : UpdsLayer T R

/-- `OrdKeyBatch` (ord_neu.rs:776-790). -/
structure KeyBatch (K T R : Type*) where
  storage : KeyStorage K T R
  description : Description T
  updates : Nat

/-- Empty layers with the initial offset (ord_neu.rs:154-162, 1082-1091, 834-846). -/
def KeyStorage.init {K T R : Type*} : KeyStorage K T R := ⟨[], ⟨[0], [], []⟩⟩

section
variable {K T R : Type*} [LinearOrder K] [DecidableEq T] [LinearOrder (Lin T)] [AddCommMonoid R] [DecidableEq R]

/-! ## Builder -/

/-- `OrdKeyBuilder` (ord_neu.rs:1062-1069). -/
structure KeyBuilder (K T R : Type*) where
  result : KeyStorage K T R
  staging : UpdsBuilder T R

/-- One iteration of `OrdKeyBuilder::push` (ord_neu.rs:1096-1108). -/
def KeyBuilder.pushItem (b : KeyBuilder K T R) (item : K × T × R) : Option (KeyBuilder K T R) :=
  let update := (item.2.1, item.2.2)
  if b.result.keys.isEmpty then
    some { result := { b.result with keys := b.result.keys ++ [item.1] }, staging := { b.staging with stash := b.staging.stash ++ [update] } }
  else if b.result.keys.getLast? = some item.1 then
    some { b with staging := { b.staging with stash := b.staging.stash ++ [update] } }
  else
    match b.staging.seal b.result.upds with
    | none => none
    | some (staging, upds, _) =>
      some { result := { upds := upds, keys := b.result.keys ++ [item.1] }, staging := { staging with stash := staging.stash ++ [update] } }

/-- `OrdKeyBuilder::done` (ord_neu.rs:1113-1121). -/
def KeyBuilder.done (b : KeyBuilder K T R) (description : Description T) : Option (KeyBatch K T R) :=
  match b.staging.seal b.result.upds with
  | none => none
  | some (staging, upds, _) => some { updates := staging.total, description := description, storage := { b.result with upds := upds } }

/-- `OrdKeyBuilder::seal` (ord_neu.rs:1123-1131). -/
def KeyBatch.build (chain : Chain K T R) (description : Description T) : Option (KeyBatch K T R) :=
  match chain.foldlM (fun b chunk => chunk.foldlM KeyBuilder.pushItem b) ⟨KeyStorage.init, ⟨[], 0⟩⟩ with
  | none => none
  | some b => b.done description

/-- `Batch::empty` (ord_neu.rs:834-846). -/
def KeyBatch.empty [Bot T] (lower upper : List T) : KeyBatch K T R := ⟨KeyStorage.init, ⟨lower, upper, [⊥]⟩, 0⟩

/-! ## Merger -/

/-- `OrdKeyMerger` (ord_neu.rs:849-860). -/
structure KeyMerger (K T R : Type*) where
  key_cursor1 : Nat
  key_cursor2 : Nat
  result : KeyStorage K T R
  description : Description T
  staging : UpdsBuilder T R

section
variable [Lattice T] [DecidableLE T]

/-- `OrdKeyMerger::new` (ord_neu.rs:867-889). -/
def KeyMerger.new (batch1 batch2 : KeyBatch K T R) (compaction_frontier : List T) : Option (KeyMerger K T R) :=
  if acEq batch1.description.upper batch2.description.lower then
    let since := acJoin batch1.description.since batch2.description.since
    let since := acJoin since compaction_frontier
    some { key_cursor1 := 0, key_cursor2 := 0, result := KeyStorage.init,
           description := ⟨batch1.description.lower, batch2.description.upper, since⟩, staging := ⟨[], 0⟩ }
  else none

/-- `stash_updates_for_key` (ord_neu.rs:973-983). -/
def KeyMerger.stash (m : KeyMerger K T R) (source : KeyStorage K T R) (index : Nat) : Option (KeyMerger K T R) :=
  match source.upds.bounds index with
  | none => none
  | some (lower, upper) =>
    match source.upds.range lower upper with
    | none => none
    | some us =>
      some { m with staging := { m.staging with
        stash := m.staging.stash ++ us.map fun u => (advanceBy u.1 m.description.since, u.2) } }

/-- `if self.staging.seal(&mut self.result.upds) { self.result.keys.push_ref(key) }` (ord_neu.rs:939-941, 958-960). -/
def KeyMerger.sealKey (m : KeyMerger K T R) (key : Option K) : Option (KeyMerger K T R) :=
  match m.staging.seal m.result.upds with
  | none => none
  | some (staging, upds, true) =>
    match key with
    | none => none
    | some key => some { m with staging := staging, result := { upds := upds, keys := m.result.keys ++ [key] } }
  | some (staging, upds, false) => some { m with staging := staging, result := { m.result with upds := upds } }

/-- `copy_key` (ord_neu.rs:937-942). -/
def KeyMerger.copyKey (m : KeyMerger K T R) (source : KeyStorage K T R) (cursor : Nat) : Option (KeyMerger K T R) :=
  match m.stash source cursor with
  | none => none
  | some m => m.sealKey source.keys[cursor]?

/-- `merge_key` (ord_neu.rs:947-970). -/
def KeyMerger.mergeKey (m : KeyMerger K T R) (source1 source2 : KeyStorage K T R) : Option (KeyMerger K T R) :=
  match source1.keys[m.key_cursor1]?, source2.keys[m.key_cursor2]? with
  | some k1, some k2 =>
    if k1 < k2 then (m.copyKey source1 m.key_cursor1).map fun m => { m with key_cursor1 := m.key_cursor1 + 1 }
    else if k1 = k2 then
      match m.stash source1 m.key_cursor1 with
      | none => none
      | some m =>
        match m.stash source2 m.key_cursor2 with
        | none => none
        | some m =>
          (m.sealKey (some k1)).map fun m => { m with key_cursor1 := m.key_cursor1 + 1, key_cursor2 := m.key_cursor2 + 1 }
    else (m.copyKey source2 m.key_cursor2).map fun m => { m with key_cursor2 := m.key_cursor2 + 1 }
  | _, _ => none

/-- The first loop of `work` (ord_neu.rs:905-909). -/
def KeyMerger.workBoth (s1 s2 : KeyStorage K T R) (starting : Nat) (fuel : Int) :
    Nat → KeyMerger K T R → Int → Option (KeyMerger K T R × Int)
  | 0, m, effort => some (m, effort)
  | n + 1, m, effort =>
    if m.key_cursor1 < s1.keys.length ∧ m.key_cursor2 < s2.keys.length ∧ effort < fuel then
      match m.mergeKey s1 s2 with
      | none => none
      | some m => KeyMerger.workBoth s1 s2 starting fuel n m ((m.staging.total : Int) - starting)
    else some (m, effort)

/-- The second loop of `work` (ord_neu.rs:913-917). -/
def KeyMerger.workOne (s1 : KeyStorage K T R) (starting : Nat) (fuel : Int) :
    Nat → KeyMerger K T R → Int → Option (KeyMerger K T R × Int)
  | 0, m, effort => some (m, effort)
  | n + 1, m, effort =>
    if m.key_cursor1 < s1.keys.length ∧ effort < fuel then
      match m.copyKey s1 m.key_cursor1 with
      | none => none
      | some m =>
        let m := { m with key_cursor1 := m.key_cursor1 + 1 }
        KeyMerger.workOne s1 starting fuel n m ((m.staging.total : Int) - starting)
    else some (m, effort)

/-- The third loop of `work` (ord_neu.rs:918-922). -/
def KeyMerger.workTwo (s2 : KeyStorage K T R) (starting : Nat) (fuel : Int) :
    Nat → KeyMerger K T R → Int → Option (KeyMerger K T R × Int)
  | 0, m, effort => some (m, effort)
  | n + 1, m, effort =>
    if m.key_cursor2 < s2.keys.length ∧ effort < fuel then
      match m.copyKey s2 m.key_cursor2 with
      | none => none
      | some m =>
        let m := { m with key_cursor2 := m.key_cursor2 + 1 }
        KeyMerger.workTwo s2 starting fuel n m ((m.staging.total : Int) - starting)
    else some (m, effort)

/-- `work` (ord_neu.rs:898-925): returns the merger and the remaining fuel. -/
def KeyMerger.work (m : KeyMerger K T R) (source1 source2 : KeyBatch K T R) (fuel : Int) : Option (KeyMerger K T R × Int) :=
  let s1 := source1.storage
  let s2 := source2.storage
  let starting := m.staging.total
  let n := s1.keys.length + s2.keys.length
  match KeyMerger.workBoth s1 s2 starting fuel n m 0 with
  | none => none
  | some (m, effort) =>
    match KeyMerger.workOne s1 starting fuel n m effort with
    | none => none
    | some (m, effort) =>
      match KeyMerger.workTwo s2 starting fuel n m effort with
      | none => none
      | some (m, effort) => some (m, fuel - effort)

/-- `done` (ord_neu.rs:890-897). -/
def KeyMerger.done (m : KeyMerger K T R) : KeyBatch K T R := ⟨m.result, m.description, m.staging.total⟩

/-- Repeated `work` with a sequence of fuel amounts; also returns the fuel remaining after each call. -/
def KeyMerger.works (m : KeyMerger K T R) (source1 source2 : KeyBatch K T R) : List Int → Option (KeyMerger K T R × List Int)
  | [] => some (m, [])
  | fuel :: fuels =>
    match m.work source1 source2 fuel with
    | none => none
    | some (m, left) =>
      match KeyMerger.works m source1 source2 fuels with
      | none => none
      | some (m, lefts) => some (m, left :: lefts)

end

/-! ## Cursor -/

/-- `OrdKeyCursor` (ord_neu.rs:987-994). -/
structure KeyCursor where
  key_cursor : Nat
  val_stepped : Bool

namespace KeyCursor
variable (c : KeyCursor) (s : KeyStorage K T R)

/-- `cursor` (ord_neu.rs:807-813). -/
def init : KeyCursor := ⟨0, false⟩

/-- `key_valid` (ord_neu.rs:1029). -/
def key_valid : Bool := c.key_cursor < s.keys.length

/-- `val_valid` (ord_neu.rs:1030). -/
def val_valid : Bool := !c.val_stepped

/-- `key` (ord_neu.rs:1020). -/
def key : Option K := s.keys[c.key_cursor]?

/-- `map_times` (ord_neu.rs:1022-1028). -/
def map_times : Option (List (T × R)) :=
  match s.upds.bounds c.key_cursor with
  | none => none
  | some (lower, upper) => s.upds.range lower upper

/-- `rewind_vals` (ord_neu.rs:1056-1058). -/
def rewind_vals : KeyCursor := { c with val_stepped := false }

/-- `step_key` (ord_neu.rs:1031-1039). -/
def step_key : KeyCursor :=
  let c := { c with key_cursor := c.key_cursor + 1 }
  if c.key_valid s then c.rewind_vals else { c with key_cursor := s.keys.length }

/-- `seek_key` (ord_neu.rs:1040-1045). -/
def seek_key (key : K) : Option KeyCursor :=
  match advance (fun i => (s.keys[i]?).map fun x => decide (x < key)) c.key_cursor s.keys.length with
  | none => none
  | some n =>
    let c := { c with key_cursor := c.key_cursor + n }
    if c.key_valid s then some c.rewind_vals else some c

/-- `step_val` (ord_neu.rs:1046-1048). -/
def step_val : KeyCursor := { c with val_stepped := true }

/-- `rewind_keys` (ord_neu.rs:1050-1055). -/
def rewind_keys : KeyCursor :=
  let c := { c with key_cursor := 0 }
  if c.key_valid s then c.rewind_vals else c

end KeyCursor

/-- `while val_valid { map_times; step_val }` under one key: the update lists read, one per value. -/
def keyWalkVals (s : KeyStorage K T R) : Nat → KeyCursor → Option (List (List (T × R)))
  | 0, _ => none
  | fuel + 1, c =>
    if c.val_valid then
      match c.map_times s with
      | none => none
      | some us =>
        match keyWalkVals s fuel c.step_val with
        | none => none
        | some rest => some (us :: rest)
    else some []

/-- `while key_valid { while val_valid { .. } step_key }`, as in `Cursor::to_vec` (trace/cursor/mod.rs:159-180). -/
def keyWalkKeys (s : KeyStorage K T R) : Nat → KeyCursor → Option (List (K × List (List (T × R))))
  | 0, _ => none
  | fuel + 1, c =>
    if c.key_valid s then
      match c.key s, keyWalkVals s 2 c with
      | some k, some us =>
        match keyWalkKeys s fuel (c.step_key s) with
        | none => none
        | some rest => some ((k, us) :: rest)
      | _, _ => none
    else some []

/-- Read a whole batch through its cursor. -/
def KeyStorage.readAll (s : KeyStorage K T R) : Option (Upds K T R) :=
  (keyWalkKeys s (s.keys.length + 1) KeyCursor.init).map fun t =>
    t.flatMap fun kv => kv.2.flatMap fun us => us.map fun u => (kv.1, u.1, u.2)

end

end DD
