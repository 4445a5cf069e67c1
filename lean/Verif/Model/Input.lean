import Verif.Spec.Basic

/-!
# Model of `input.rs`: `InputSession`

The timely `Handle` is modelled by its current time and the messages it has sent; each message carries the time of the capability it was sent with.
Whether the buffer is full (`buffer.len() == buffer.capacity()`) is decided by the allocator: it is an argument of the calls that ask, and all
theorems hold for every choice. `none` is a failed assertion.
-/

namespace DD

/-- `InputSession` (input.rs:159-163) with the handle's time and sent messages. -/
structure InputSession (T D R : Type*) where
  time : T
  buffer : Upds D T R
  handle : T
  sent : List (T × Upds D T R)

namespace InputSession
variable {T D R : Type*} [PartialOrder T] [DecidableLE T] [DecidableLT T]

/-- `new`, `from` (input.rs:186-202): the handle is at some time. -/
def start (t : T) : InputSession T D R := ⟨t, [], t, []⟩

/-- `Handle::send_batch`: the contents of the buffer are sent at the handle's time and the buffer is left empty. An empty buffer sends nothing. -/
def send_batch (s : InputSession T D R) : InputSession T D R :=
  if s.buffer.isEmpty then s else { s with buffer := [], sent := s.sent ++ [(s.handle, s.buffer)] }

/-- The common part of `update` and `update_at` (input.rs:206-213, 219-226): make room, then push. `full` is `len == capacity`. -/
def push (s : InputSession T D R) (full : Bool) (u : D × T × R) : InputSession T D R :=
  let s := if full then (if s.buffer.isEmpty then s else s.send_batch) else s
  { s with buffer := s.buffer ++ [u] }

/-- `update` (input.rs:205-214). -/
def update (s : InputSession T D R) (full : Bool) (element : D) (change : R) : InputSession T D R :=
  s.push full (element, s.time, change)

/-- `update_at` (input.rs:217-227). -/
def update_at (s : InputSession T D R) (full : Bool) (element : D) (time : T) (change : R) : Option (InputSession T D R) :=
  if s.time ≤ time then some (s.push full (element, time, change)) else none

/-- `Handle::advance_to` of timely, which requires that the time does not go back. -/
def handleAdvance (s : InputSession T D R) (t : T) : Option (InputSession T D R) :=
  if s.handle ≤ t then some { s with handle := t } else none

/-- `flush` (input.rs:234-239), also run by `Drop` (input.rs:262-266) and `close` (input.rs:259). -/
def flush (s : InputSession T D R) : Option (InputSession T D R) :=
  let s := s.send_batch
  if s.handle < s.time then s.handleAdvance s.time else some s

/-- `advance_to` (input.rs:246-250). -/
def advance_to (s : InputSession T D R) (time : T) : Option (InputSession T D R) :=
  if s.handle ≤ time then
    if s.time ≤ time then some { s with time := time } else none
  else none

end InputSession

/-- The calls a user makes. -/
inductive InputCall (T D R : Type*)
  | update (full : Bool) (element : D) (change : R)
  | updateAt (full : Bool) (element : D) (time : T) (change : R)
  | flush
  | advanceTo (time : T)

namespace InputSession
variable {T D R : Type*} [PartialOrder T] [DecidableLE T] [DecidableLT T]

/-- One call. -/
def call (s : InputSession T D R) : InputCall T D R → Option (InputSession T D R)
  | .update full d r => some (s.update full d r)
  | .updateAt full d t r => s.update_at full d t r
  | .flush => s.flush
  | .advanceTo t => s.advance_to t

/-- A sequence of calls; `none` if one panics. -/
def calls (s : InputSession T D R) : List (InputCall T D R) → Option (InputSession T D R)
  | [] => some s
  | c :: cs =>
    match s.call c with
    | none => none
    | some s => s.calls cs

end InputSession

end DD
