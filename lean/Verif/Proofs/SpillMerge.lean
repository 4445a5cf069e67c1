import Verif.Proofs.SpillRun
import Verif.Proofs.ChunkHarness

/-!
# A merge batcher's merge with spilling
-/

namespace DD

set_option linter.unusedSectionVars false

/-! ### As a program -/

section program
variable {K V T R : Type}

/-- The loop over pairs of chunks: inputs in deques 0 and 1, `staged` in 2, `settled` in 3. -/
def Client.mergeLoop {B : Type} (next : Client K V T R B) : Nat → Client K V T R B
  | 0 => next
  | n + 1 => .size 0 fun a => .size 1 fun b => if a ≠ 0 ∧ b ≠ 0 then .merge 0 1 2 (.settle 2 3 false (mergeLoop next n)) else next

/-- The loop over the tail of an input. -/
def Client.tailLoop {B : Type} (d : Nat) (next : Client K V T R B) : Nat → Client K V T R B
  | 0 => next
  | n + 1 => .move d 2 (.settle 2 3 false (tailLoop d next n))

/-- Reads all chunks of a deque. -/
def Client.readAll (d : Nat) : Nat → List (ColTrie K V T R) → Client K V T R (List (ColTrie K V T R))
  | 0, acc => .done acc
  | n + 1, acc => .read d acc.length fun t => readAll d n (acc ++ [t])

/-- `ChunkMerger::merge` (trace/chunk/mod.rs:507-529) as a program, followed by reading the result. -/
def Client.mergerMerge : Client K V T R (List (ColTrie K V T R)) :=
  .size 0 fun a => .size 1 fun b =>
    mergeLoop (.size 0 fun a => tailLoop 0 (.size 1 fun b => tailLoop 1 (.settle 2 3 true (.size 3 fun n => readAll 3 n [])) b) a) (a + b)

def Client.makeAll {B : Type} (d : Nat) (next : Client K V T R B) : List (ColTrie K V T R) → Client K V T R B
  | [] => next
  | t :: ts => .make t d (makeAll d next ts)

/-- Installs a spiller; makes and settles two chains of chunks, merges them, and reads the result. -/
def Client.spillMerge (budget : Nat) (chain1 chain2 : List (ColTrie K V T R)) : Client K V T R (List (ColTrie K V T R)) :=
  .install budget (makeAll 4 (.settle 4 0 true (makeAll 5 (.settle 5 1 true mergerMerge) chain2)) chain1)

end program

variable {K V T R : Type} [LinearOrder K] [LinearOrder V] [LinearOrder (Lin T)] [AddCommMonoid R] [DecidableEq R] [Lattice T] [DecidableLE T]

/-- The operations of tries that must be `ok` to be committed. -/
def okOps (ok : ColTrie K V T R → Bool) (cap : Nat) : ChunkOps (ColTrie K V T R) T where
  len := ColTrie.len
  merge := ColTrie.chunkMerge
  extract := ColTrie.chunkExtract
  advance := ColTrie.chunkAdvance
  settle := packM ColTrie.len ColTrie.melded ColTrie.splitAt (okOnly ok) cap

variable {ok : ColTrie K V T R → Bool} {cap : Nat}

theorem okOps_true : okOps (K := K) (V := V) (T := T) (R := R) (fun _ => true) cap = colChunkOps cap := by
  have : okOnly (C := ColTrie K V T R) (fun _ => true) = some := rfl
  rw [okOps, colChunkOps, this]
  congr 1
  funext input fin out
  exact packM_some input fin out

private abbrev Deq (K V T R : Type) := Nat → List (ColTrie K V T R)

theorem run_mergeLoop {B : Type} {next : Client K V T R B} {f : List (ColTrie K V T R) → List (ColTrie K V T R) → List (ColTrie K V T R) → List (ColTrie K V T R) → Option B}
    (hn : ∀ ds : Deq K V T R, next.run (trieImpl ok cap) ds = f (ds 0) (ds 1) (ds 2) (ds 3)) (n : Nat) (ds : Deq K V T R) :
    (Client.mergeLoop next n).run (trieImpl ok cap) ds = ((okOps ok cap).mergerLoop n (ds 0) (ds 1) (ds 2) (ds 3)).bind fun r => f r.1 r.2.1 r.2.2.1 r.2.2.2 := by
  induction n generalizing ds with
  | zero => exact hn ds
  | succ n ih =>
    simp only [Client.mergeLoop, Client.run, ChunkOps.mergerLoop, ne_eq, List.length_eq_zero_iff, List.isEmpty_iff]
    split_ifs with h
    · simp only [Client.run, Option.bind_assoc]
      congr 1
      funext r
      change Option.bind _ _ = Option.bind _ _
      simp only [ih, Function.update_apply]
      rfl
    · exact hn ds

theorem run_tailLoop {B : Type} {d : Nat} (hd : d = 0 ∨ d = 1) {next : Client K V T R B} {f : List (ColTrie K V T R) → List (ColTrie K V T R) → List (ColTrie K V T R) → Option B}
    (hn : ∀ ds : Deq K V T R, next.run (trieImpl ok cap) ds = f (ds 1) (ds 2) (ds 3)) (n : Nat) (ds : Deq K V T R) (hl : (ds d).length = n) :
    (Client.tailLoop d next n).run (trieImpl ok cap) ds = ((okOps ok cap).settleTail (ds d) (ds 2, ds 3)).bind fun r => f (if d = 1 then [] else ds 1) r.1 r.2 := by
  induction n generalizing ds with
  | zero =>
    rw [List.length_eq_zero_iff] at hl
    rw [hl]
    change next.run (trieImpl ok cap) ds = f _ _ _
    rw [hn]
    split_ifs with h
    · subst h; rw [hl]
    · rfl
  | succ n ih =>
    obtain ⟨c, cs, e⟩ : ∃ c cs, ds d = c :: cs := List.exists_cons_of_length_eq_add_one hl
    simp only [Client.tailLoop, Client.run, e, ChunkOps.settleTail, List.foldlM_cons]
    have hd2 : d ≠ 2 := by omega
    have hd3 : d ≠ 3 := by omega
    rw [show ∀ {A A'} (x : Option A) (f : A → Option A'), x >>= f = x.bind f from fun _ _ => rfl, show ∀ {A A'} (x : Option A) (f : A → Option A'), x >>= f = x.bind f from fun _ _ => rfl,
      Option.bind_assoc]
    have e1 : Function.update ds d cs 2 = ds 2 := Function.update_of_ne (Ne.symm hd2) _ _
    simp only [Function.update_self, e1]
    have e3 : Function.update (Function.update ds d cs) 2 (ds 2 ++ [c]) 3 = ds 3 := by
      rw [Function.update_of_ne (by decide), Function.update_of_ne (Ne.symm hd3)]
    rw [e3]
    change Option.bind ((okOps ok cap).settle (ds 2 ++ [c]) false (ds 3)) _ = _
    congr 1
    funext r
    set ds' := Function.update (Function.update (Function.update (Function.update ds d cs) 2 (ds 2 ++ [c])) 2 r.1) 3 r.2 with hds
    have k0 : ds' d = cs := by rw [hds, Function.update_of_ne hd3, Function.update_of_ne hd2, Function.update_of_ne hd2, Function.update_self]
    have k1 : (if d = 1 then [] else ds' 1) = if d = 1 then [] else ds 1 := by
      split_ifs with h
      · rfl
      · rw [hds, Function.update_of_ne (by decide), Function.update_of_ne (by decide), Function.update_of_ne (by decide), Function.update_of_ne (Ne.symm h)]
    rw [ih ds' (by rw [k0]; simpa [e] using hl), k0, k1, show ds' 2 = r.1 by rw [hds, Function.update_of_ne (by decide), Function.update_self], show ds' 3 = r.2 by rw [hds, Function.update_self]]
    rfl

theorem run_readAll (d n : Nat) (acc : List (ColTrie K V T R)) (ds : Deq K V T R) (rest : List (ColTrie K V T R)) (hl : rest.length = n) (h : ds d = acc ++ rest) :
    (Client.readAll d n acc).run (trieImpl ok cap) ds = some (ds d) := by
  induction n generalizing acc rest with
  | zero =>
    rw [List.length_eq_zero_iff] at hl
    subst hl
    rw [h, List.append_nil]
    rfl
  | succ n ih =>
    obtain ⟨c, cs, rfl⟩ : ∃ c cs, rest = c :: cs := List.exists_cons_of_length_eq_add_one hl
    rw [Client.readAll, Client.run, h]
    simp only [List.getElem?_append_right le_rfl, Nat.sub_self, List.getElem?_cons_zero]
    change (Client.readAll d n (acc ++ [c])).run (trieImpl ok cap) ds = _
    rw [ih (acc ++ [c]) cs (by simpa using hl) (by rw [h, List.append_cons])]
    rw [h]

theorem run_mergerMerge (ds : Deq K V T R) (h2 : ds 2 = []) (h3 : ds 3 = []) : Client.mergerMerge.run (trieImpl ok cap) ds = (okOps ok cap).mergerMerge (ds 0) (ds 1) := by
  have k3 : ∀ ds : Deq K V T R, (Client.settle 2 3 true (.size 3 fun n => Client.readAll 3 n [])).run (trieImpl ok cap) ds = ((okOps ok cap).settle (ds 2) true (ds 3)).map Prod.snd := by
    intro ds
    simp only [Client.run]
    rw [Option.map_eq_bind]
    change Option.bind ((okOps ok cap).settle (ds 2) true (ds 3)) _ = _
    congr 1
    funext r
    have := run_readAll (ok := ok) (cap := cap) 3 r.2.length [] (Function.update (Function.update ds 2 r.1) 3 r.2) r.2 rfl (by simp)
    simp only [Function.update_self] at this ⊢
    exact this
  have k2 : ∀ ds : Deq K V T R, (Client.size 1 fun b => Client.tailLoop 1 (Client.settle 2 3 true (.size 3 fun n => Client.readAll 3 n [])) b).run (trieImpl ok cap) ds =
      ((okOps ok cap).settleTail (ds 1) (ds 2, ds 3)).bind fun r => ((okOps ok cap).settle r.1 true r.2).map Prod.snd := by
    intro ds
    exact run_tailLoop (.inr rfl) (f := fun _ a b => ((okOps ok cap).settle a true b).map Prod.snd) k3 _ ds rfl
  have k1 : ∀ ds : Deq K V T R, (Client.size 0 fun a => Client.tailLoop 0 (Client.size 1 fun b => Client.tailLoop 1 (Client.settle 2 3 true (.size 3 fun n => Client.readAll 3 n [])) b) a).run
      (trieImpl ok cap) ds = ((okOps ok cap).settleTail (ds 0 ++ ds 1) (ds 2, ds 3)).bind fun r => ((okOps ok cap).settle r.1 true r.2).map Prod.snd := by
    intro ds
    refine (run_tailLoop (.inl rfl) (f := fun a b c => ((okOps ok cap).settleTail a (b, c)).bind fun r => ((okOps ok cap).settle r.1 true r.2).map Prod.snd) k2 _ ds rfl).trans ?_
    rw [ChunkOps.settleTail, ChunkOps.settleTail, List.foldlM_append]
    change _ = Option.bind (Option.bind _ _) _
    rw [Option.bind_assoc]
    rfl
  simp only [Client.mergerMerge, Client.run]
  rw [run_mergeLoop (f := fun a b c d => ((okOps ok cap).settleTail (a ++ b) (c, d)).bind fun r => ((okOps ok cap).settle r.1 true r.2).map Prod.snd) k1, h2, h3]
  rfl

theorem run_makeAll {B : Type} (d : Nat) (next : Client K V T R B) (ts : List (ColTrie K V T R)) (ds : Deq K V T R) :
    (Client.makeAll d next ts).run (trieImpl ok cap) ds = next.run (trieImpl ok cap) (Function.update ds d (ds d ++ ts)) := by
  induction ts generalizing ds with
  | nil => rw [List.append_nil, Function.update_eq_self]; rfl
  | cons t ts ih =>
    simp only [Client.makeAll, Client.run]
    rw [ih, Function.update_self, Function.update_idem]
    simp [trieImpl]

theorem run_spillMerge (budget : Nat) (chain1 chain2 : List (ColTrie K V T R)) :
    (Client.spillMerge budget chain1 chain2).run (trieImpl ok cap) (fun _ => []) =
      ((okOps ok cap).settle chain1 true []).bind fun r => ((okOps ok cap).settle chain2 true []).bind fun s => (okOps ok cap).mergerMerge r.2 s.2 := by
  rw [Client.spillMerge, Client.run]
  change (Client.makeAll _ _ _).run _ _ = _
  rw [run_makeAll, Client.run]
  simp only [Function.update_self, List.nil_append]
  change Option.bind ((okOps ok cap).settle chain1 true []) _ = _
  congr 1
  funext r
  rw [run_makeAll, Client.run]
  simp only [Function.update_self, ne_eq, OfNat.ofNat_ne_zero, not_false_eq_true, Function.update_of_ne, Nat.reduceEqDiff, List.nil_append, one_ne_zero, OfNat.one_ne_ofNat]
  change Option.bind ((okOps ok cap).settle chain2 true []) _ = _
  congr 1
  funext s
  rw [run_mergerMerge _ (by simp) (by simp)]
  simp

/-! ### The contract -/

section contract
variable [DecidableEq T]

/-- If chunks of up to `cap` updates may be committed, the contract of chunks is kept. -/
theorem okOps_lawful (hcap : 0 < cap) (hok : ∀ t (us : Upds (K ×ₗ V) T R), t.Holds us → us ≠ [] → us.length ≤ cap → ok t = true) :
    ChunkContract (okOps ok cap) colView ColValid cap (fun input out => SettleOk cap (input.map (colView (K := K) (V := V) (T := T) (R := R))) (out.map colView)) := by
  have h := colChunk_lawful (K := K) (V := V) (T := T) (R := R) hcap
  refine ⟨h.len, h.merge, h.extract, h.advance, ?_, h.rest_nil, h.rest_graded⟩
  intro input more fin out k1 k2 k3 k4 k5
  obtain ⟨input', out', e, g1, g2, g3, g4, g5⟩ := h.settle input more fin out k1 k2 k3 k4 k5
  refine ⟨input', out', ?_, g1, g2, g3, g4, g5⟩
  rw [← okOps_true] at e
  refine (packM_ok (ok := ok) (input ++ more) fin out (r := (input', out')) e).2 fun c hc => ?_
  have hg : Graded cap (out'.map colView) := by
    cases fin with
    | true => exact (g4 rfl).2
    | false => exact h.rest_graded _ _ (g5 rfl)
  obtain ⟨us, hu, hne⟩ := g2 c hc
  refine hok c us hu hne ?_
  have := (hg.size _ (List.mem_map_of_mem hc)).2
  rwa [colView_holds hu] at this

end contract

end DD
