import Verif.Model.JoinOp
import Verif.Spec.ProxyJoin

/-!
# Model of `operators/int_proxy/join.rs`

Hashes and value identifiers, which are `u64`s, are natural numbers. The backend is given by the two collections it presents, as functions of the filter it is handed. What it does in
`cross` is its own business: the model records the calls.
-/

namespace DD
variable {T R0 R1 M : Type*}

/-- `Vec::new()`, four times (join.rs:134-135). -/
def CrossCall.empty : CrossCall T M := { left := [], right := [], times := [], diffs := [] }

/-- The calls made, in order, and the buffers `li`, `ri`, `ot`, `od` (join.rs:126, 134-135). -/
structure CrossState (T M : Type*) where
  out : List (CrossCall T M)
  buf : CrossCall T M

namespace CrossState

/-- `flush` (join.rs:128-132): `mem::take` of the times and differences, `clear` of the identifiers. -/
def flush (st : CrossState T M) : CrossState T M := { out := st.out ++ [st.buf], buf := CrossCall.empty }

/-- Four `push`es, and `if li.len() >= JOIN_CHUNK { flush(li, ri, ot, od); }` (join.rs:194-198, 210-216). -/
def push (chunk : Nat) (st : CrossState T M) (left right : Nat × Nat) (time : T) (diff : M) : CrossState T M :=
  let buf := { left := st.buf.left ++ [left], right := st.buf.right ++ [right], times := st.buf.times ++ [time], diffs := st.buf.diffs ++ [diff] }
  if buf.left.length ≥ chunk then flush { st with buf := buf } else { st with buf := buf }

end CrossState

section
variable [Lattice T] [LinearOrder (Lin T)] [AddCommMonoid R0] [DecidableEq R0] [AddCommMonoid R1] [DecidableEq R1]

/-- `join_key` (join.rs:170-218), for the runs `p0[r0]` and `p1[r1]`. `small` is 16. -/
def proxyJoinKey (small chunk : Nat) (mul : R0 → R1 → M) (kh : Nat) (run0 : Upds (Nat × Nat) T R0) (run1 : Upds (Nat × Nat) T R1) (st : CrossState T M) :
    Option (CrossState T M) :=
  if run0.length < small ∨ run1.length < small then
    some (run0.foldl (fun st a => run1.foldl (fun st b => st.push chunk (kh, a.1.2) (kh, b.1.2) (a.2.1 ⊔ b.2.1) (mul a.2.2 b.2.2)) st) st)
  else
    match ValueHistory.loadIter (run0.map fun u => (u.1.2, u.2)) none, ValueHistory.loadIter (run1.map fun u => (u.1.2, u.2)) none with
    | some h0, some h1 =>
      match bilinearWave h0 h1 with
      | some outs => some (outs.foldl (fun st o => st.push chunk (kh, o.1) (kh, o.2.1) o.2.2.1 (mul o.2.2.2.1 o.2.2.2.2)) st)
      | none => none
    | _, _ => none

/-- The merge of the two presentations (join.rs:140-155), from positions `i` and `j` on: the lists are `p0[i..]` and `p1[j..]`. -/
def proxyMerge (small chunk : Nat) (mul : R0 → R1 → M) (p0 : Upds (Nat × Nat) T R0) (p1 : Upds (Nat × Nat) T R1) (st : CrossState T M) : Option (CrossState T M) :=
  match p0, p1 with
  | a :: as, b :: bs =>
    if a.1.1 < b.1.1 then proxyMerge small chunk mul as (b :: bs) st
    else if b.1.1 < a.1.1 then proxyMerge small chunk mul (a :: as) bs st
    else
      match proxyJoinKey small chunk mul a.1.1 (a :: as.takeWhile fun u => u.1.1 = a.1.1) (b :: bs.takeWhile fun u => u.1.1 = a.1.1) st with
      | none => none
      | some st => proxyMerge small chunk mul (as.dropWhile fun u => u.1.1 = a.1.1) (bs.dropWhile fun u => u.1.1 = a.1.1) st
  | _, _ => some st
termination_by p0.length + p1.length
decreasing_by
  · simp
  · simp
  · have h0 := (List.dropWhile_sublist (l := as) fun u => decide (u.1.1 = a.1.1)).length_le
    have h1 := (List.dropWhile_sublist (l := bs) fun u => decide (u.1.1 = a.1.1)).length_le
    simp only [List.length_cons]
    omega

/-- The hashes presented: `p.iter().map(|r| r.0.0).collect()`, `keys.dedup()` (join.rs:101-102, 109-110). -/
def presentedKeys {R : Type*} (p : Upds (Nat × Nat) T R) : List Nat := dedupAdj (p.map fun r => r.1.1)

/-- `join_prep` (join.rs:86-159), with the two sides of the backend's presentation. -/
def proxyJoinPrep (small chunk : Nat) (mul : R0 → R1 → M) (present0 : Option (List Nat) → Upds (Nat × Nat) T R0) (present1 : Option (List Nat) → Upds (Nat × Nat) T R1)
    (fresh : JoinFresh) : Option (List (CrossCall T M)) :=
  let p : Option (Upds (Nat × Nat) T R0 × Upds (Nat × Nat) T R1) :=
    match fresh with
    | .input0 => if (present0 none).isEmpty then none else some (present0 none, present1 (some (presentedKeys (present0 none))))
    | .input1 => if (present1 none).isEmpty then none else some (present0 (some (presentedKeys (present1 none))), present1 none)
  match p with
  | none => some []
  | some (p0, p1) =>
    if p0.isEmpty || p1.isEmpty then some []
    else
      match proxyMerge small chunk mul p0 p1 { out := [], buf := CrossCall.empty } with
      | none => none
      | some st => if !st.buf.left.isEmpty then some st.flush.out else some st.out

/-- `ProxyJoinTactic::prep` (join.rs:76-78), with the constants of the code (join.rs:82, 190). -/
def proxyJoin (mul : R0 → R1 → M) (present0 : Option (List Nat) → Upds (Nat × Nat) T R0) (present1 : Option (List Nat) → Upds (Nat × Nat) T R1) (fresh : JoinFresh) :
    Option (List (CrossCall T M)) := proxyJoinPrep 16 (2 ^ 20) mul present0 present1 fresh

end
end DD
