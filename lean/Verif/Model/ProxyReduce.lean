import Verif.Model.Discover
import Verif.Model.Tile
import Verif.Model.Consolidation

/-!
# Model of `operators/int_proxy/reduce.rs`

`ProxyReduceTactic::retire`. Key hashes and value identifiers, which are `u64`s, are natural numbers. The backend is given by what it answers: the times of the new input
(`seed_times`), the windows (`next_window`), and the corrections (`reduce_corrections`), a function of its arguments. The model records the calls of `emit`. Vectors that are reused
from round to round, window to window, or key to key are fresh: the code clears them. Failing `expect`s and indexing out of bounds are `none`. `debug_assert!`s are left out.
-/

namespace DD
variable {T R1 R2 : Type*}

/-- `ReduceWindow` (reduce.rs:36-43). -/
structure ProxyWindow (T R1 R2 : Type*) where
  keys : List Nat
  input : Upds (Nat × Nat) T R1
  output : Upds (Nat × Nat) T R2

/-- The signature of `reduce_corrections` (reduce.rs:80-87). -/
abbrev Corrections (R1 R2 : Type*) := List Nat → List Nat → List (Nat × R1) → List Nat → List (Nat × R2) → List (Nat × R2) × List Nat

/-- `KeyState` (reduce.rs:358-366). The vectors `moments` and `meets` are kept from `cursor` on. -/
structure ProxyKeyState (T R1 R2 : Type*) where
  key : Nat
  moments : List T
  meets : List T
  input : ValueHistory Nat T R1
  output : ValueHistory Nat T R2
  produced : Upds Nat T R2

/-- What a key contributes to a crossing: its moment, the accumulated input `in_accum`, and the current output `cur_out` (reduce.rs:280-303). -/
abbrev Crossing (T R1 R2 : Type*) := T × List (Nat × R1) × List (Nat × R2)

/-- What is collected while a window is loaded (reduce.rs:177-191): the presentations and seeds not yet consumed, `states[..n_states]` and `new_pending`. -/
structure ProxyLoad (T R1 R2 : Type*) where
  input : Upds (Nat × Nat) T R1
  output : Upds (Nat × Nat) T R2
  seeds : List (Nat × T)
  states : List (ProxyKeyState T R1 R2)
  pending : List (Nat × List T)

/-- What `retire` leaves behind: the calls of `emit`, the descriptions and held times of the batches the backend is to make (which `finish` returns, and `zip` pairs with
the held times), the tactic's pending times, and the frontier it returns. -/
structure ProxyResult (T R2 : Type*) where
  emits : List (Nat × Upds (Nat × Nat) T R2)
  descs : List (Description T)
  held : List T
  pending : List (Nat × List T)
  frontier : List T
deriving DecidableEq

/-- `self.pending.get(&key).map(|p| &p[..]).unwrap_or(&[])` (reduce.rs:209). A `BTreeMap` is an association list. -/
def pendingOf (pending : List (Nat × List T)) (key : Nat) : List T := ((pending.find? fun p => p.1 = key).map (·.2)).getD []

/-- `while is < p.len() && p[is].0.0 < key { is += 1 }`, then `while is < p.len() && p[is].0.0 == key { is += 1 }` (reduce.rs:193-204): the run of the key, and the rest. -/
def splitRun {A : Type*} (hash : A → Nat) (key : Nat) (p : List A) : List A × List A :=
  let p := p.dropWhile fun x => hash x < key
  (p.takeWhile fun x => hash x = key, p.dropWhile fun x => hash x = key)

/-- The running lengths `in_all.len()` after each `append` (reduce.rs:299-302), as vectors of ends. -/
def endsFrom {A : Type*} : Nat → List (List A) → List Nat
  | _, [] => []
  | n, l :: ls => (n + l.length) :: endsFrom (n + l.length) ls

/-- `changed` (reduce.rs:141-147), without repetitions. -/
def changedKeys (seeds : List (Nat × T)) (pending : List (Nat × List T)) : List Nat :=
  ((seeds.map (·.1) ++ pending.map (·.1)).insertionSort (· ≤ ·)).dedup

section
variable [Lattice T] [DecidableLE T] [DecidableEq T] [LinearOrder (Lin T)] [AddCommMonoid R1] [DecidableEq R1] [AddCommMonoid R2] [DecidableEq R2]

/-- The first phase for one key (reduce.rs:193-245). -/
def ProxyLoad.key (fuel : Nat) (pending : List (Nat × List T)) (upper : List T) (ld : ProxyLoad T R1 R2) (key : Nat) : Option (ProxyLoad T R1 R2) :=
  let pIn := splitRun (fun u => u.1.1) key ld.input
  let pOut := splitRun (fun u => u.1.1) key ld.output
  let pSeed := splitRun (fun u => u.1) key ld.seeds
  let input := pIn.1.map fun u => (u.1.2, u.2)
  let output := pOut.1.map fun u => (u.1.2, u.2)
  match discoverTimes fuel input (pendingOf pending key) (pSeed.1.map (·.2)) (updTimes output) upper with
  | none => none
  | some (moments, pended) =>
    let ld := { ld with input := pIn.2, output := pOut.2, seeds := pSeed.2,
                        pending := if pended.isEmpty then ld.pending else (ld.pending.filter fun p => p.1 ≠ key) ++ [(key, pended)] }
    if moments.isEmpty then some ld
    else
      let meets := timesMeets moments
      match ValueHistory.loadIter input meets.head?, ValueHistory.loadIter output meets.head? with
      | some inputReplay, some outputReplay =>
        some { ld with states := ld.states ++ [{ key := key, moments := moments, meets := meets, input := inputReplay, output := outputReplay, produced := [] }] }
      | _, _ => none

/-- The body of the loop over `states` (reduce.rs:264-303): one moment of one key. A key that is exhausted, or whose accumulations are both empty, is not part of the crossing. -/
def ProxyKeyState.prepare (st : ProxyKeyState T R1 R2) : Option (ProxyKeyState T R1 R2 × Option (Crossing T R1 R2)) :=
  match st.moments, st.meets with
  | [], _ => some (st, none)
  | _ :: _, [] => none
  | t :: moments, m :: meets =>
    match (st.input.stepThrough t).bind (·.advanceBufferBy m), (st.output.stepThrough t).bind (·.advanceBufferBy m),
        consolidateUpdates (st.produced.map fun u => (u.1, u.2.1 ⊔ m, u.2.2)) with
    | some input, some output, some produced =>
      match consolidate (readAt input.buffer t), consolidate (readAt output.buffer t ++ readAt produced t) with
      | some inAccum, some curOut =>
        some ({ st with moments := moments, meets := meets, input := input, output := output, produced := produced },
          if inAccum.isEmpty && curOut.isEmpty then none else some (t, inAccum, curOut))
      | _, _ => none
    | _, _, _ => none

/-- The loop over `active` that distributes the corrections (reduce.rs:316-327). Here it walks all states, and `active` are those that are part of the crossing. The list of
numbers is `corr_ends[bi..]`, `start` is `cstart`. -/
def scatter (held : List T) (corr : List (Nat × R2)) : List (ProxyKeyState T R1 R2 × Option (Crossing T R1 R2)) → List Nat → Nat → List (Upds (Nat × Nat) T R2) →
    Option (List (ProxyKeyState T R1 R2) × List (Upds (Nat × Nat) T R2))
  | [], _, _, tiles => some ([], tiles)
  | (st, none) :: rest, ends, start, tiles => (scatter held corr rest ends start tiles).map fun r => (st :: r.1, r.2)
  | (_, some _) :: _, [], _, _ => none
  | (st, some (t, _)) :: rest, stop :: ends, start, tiles =>
    if start = stop then (scatter held corr rest ends stop tiles).map fun r => (st :: r.1, r.2)
    else
      match outputIndex held t with
      | none => none
      | some idx =>
        if start ≤ stop ∧ stop ≤ corr.length then
          let piece := (corr.take stop).drop start
          let st := { st with produced := st.produced ++ piece.map fun c => (c.1, t, c.2) }
          (scatter held corr rest ends stop (tiles.modify idx fun d => d ++ piece.map fun c => ((st.key, c.1), t, c.2))).map fun r => (st :: r.1, r.2)
        else none

/-- The second phase (reduce.rs:255-328): rounds, until every key is exhausted. The first argument bounds their number. The result is `tile_deltas`. -/
def rounds (corrections : Corrections R1 R2) (held : List T) : Nat → List (ProxyKeyState T R1 R2) → List (Upds (Nat × Nat) T R2) → Option (List (Upds (Nat × Nat) T R2))
  | fuel, states, tiles =>
    if states.all fun st => st.moments.isEmpty then some tiles
    else
      match fuel with
      | 0 => none
      | fuel + 1 =>
        match states.mapM ProxyKeyState.prepare with
        | none => none
        | some prepared =>
          let active := prepared.filterMap fun p => p.2.map fun c => (p.1.key, c)
          if active.isEmpty then rounds corrections held fuel (prepared.map (·.1)) tiles
          else
            let ins := active.map fun a => a.2.2.1
            let outs := active.map fun a => a.2.2.2
            let answer := corrections (active.map (·.1)) (endsFrom 0 ins) ins.flatten (endsFrom 0 outs) outs.flatten
            match scatter held answer.1 prepared answer.2 0 tiles with
            | none => none
            | some (states, tiles) => rounds corrections held fuel states tiles

/-- `consolidate_updates` (reduce.rs:335), on updates whose data are pairs. -/
def consolidateHashed (us : Upds (Nat × Nat) T R2) : Option (Upds (Nat × Nat) T R2) :=
  (consolidateUpdates (us.map fun u => (toLex u.1, u.2))).map fun us => us.map fun u => (ofLex u.1, u.2)

/-- The loop over `tile_deltas` at the end of a window (reduce.rs:330-338). -/
def emitTiles : List (Option Nat) → List (Upds (Nat × Nat) T R2) → Option (List (Nat × Upds (Nat × Nat) T R2))
  | some tile :: tileOf, deltas :: rest =>
    if deltas.isEmpty then emitTiles tileOf rest
    else
      match consolidateHashed deltas with
      | none => none
      | some deltas => (emitTiles tileOf rest).map fun es => (tile, deltas) :: es
  | none :: tileOf, _ :: rest => emitTiles tileOf rest
  | [], deltas :: rest => if deltas.isEmpty then emitTiles [] rest else none
  | _, [] => some []

/-- The body of the loop over windows (reduce.rs:177-338). The result is the seeds not consumed (`ns`), the new pending times, and the calls of `emit`. -/
def proxyWindow (fuel : Nat) (corrections : Corrections R1 R2) (pending : List (Nat × List T)) (upper held : List T) (tileOf : List (Option Nat)) (w : ProxyWindow T R1 R2)
    (seeds : List (Nat × T)) (newPending : List (Nat × List T)) : Option (List (Nat × T) × List (Nat × List T) × List (Nat × Upds (Nat × Nat) T R2)) :=
  match w.keys.foldlM (ProxyLoad.key fuel pending upper) ({ input := w.input, output := w.output, seeds := seeds, states := [], pending := newPending } : ProxyLoad T R1 R2) with
  | none => none
  | some ld =>
    match rounds corrections held (ld.states.map fun st => st.moments.length).sum ld.states (held.map fun _ => []) with
    | none => none
    | some tiles => (emitTiles tileOf tiles).map fun es => (ld.seeds, ld.pending, es)

/-- The loop over windows (reduce.rs:176-339). -/
def proxyWindows (fuel : Nat) (corrections : Corrections R1 R2) (pending : List (Nat × List T)) (upper held : List T) (tileOf : List (Option Nat)) :
    List (ProxyWindow T R1 R2) → List (Nat × T) → List (Nat × List T) → Option (List (Nat × List T) × List (Nat × Upds (Nat × Nat) T R2))
  | [], _, newPending => some (newPending, [])
  | w :: ws, seeds, newPending =>
    match proxyWindow fuel corrections pending upper held tileOf w seeds newPending with
    | none => none
    | some (seeds, newPending, es) => (proxyWindows fuel corrections pending upper held tileOf ws seeds newPending).map fun r => (r.1, es ++ r.2)

/-- `retire` (reduce.rs:119-350). -/
def proxyRetire [OrderBot T] (fuel : Nat) (corrections : Corrections R1 R2) (windows : List (ProxyWindow T R1 R2)) (seeds : List (Nat × T)) (pending : List (Nat × List T))
    (lower upper held : List T) : Option (ProxyResult T R2) :=
  if held.all fun t => lessEqual upper t then some { emits := [], descs := [], held := [], pending := pending, frontier := held }
  else if (changedKeys seeds pending).isEmpty then some { emits := [], descs := [], held := [], pending := [], frontier := [] }
  else
    let tiles := tileDescriptions lower upper held
    match proxyWindows fuel corrections pending upper held tiles.tileOf windows seeds [] with
    | none => none
    | some (newPending, emits) =>
      some { emits := emits, descs := tiles.descs, held := tiles.held, pending := newPending, frontier := acExtend [] (newPending.flatMap (·.2)) }

end
end DD
