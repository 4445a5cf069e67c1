import Verif.Proofs.SpillMerge

/-!
# C68: spilling chunks to storage changes nothing
-/

namespace DD

set_option linter.unusedSectionVars false

section codec
variable {K V T R : Type} {c : TrieCodec K V T R}

/-- **C68**: a trie whose encoding fits in memory is written, in the announced number of bytes, and read back, also if other bytes follow. -/
theorem C68_codec (hc : c.Lawful) (t : ColTrie K V T R) (hf : c.keys.size t.keys + c.vals.size t.vals + c.times.size t.times + c.diffs.size t.diffs < 2 ^ 64) :
    ∃ bytes, c.writeTo t = some bytes ∧ bytes.length = c.lengthInBytes t ∧ ∀ more, c.readFrom (bytes ++ more) = some t := by
  obtain ⟨bytes, h⟩ := writeTo_of_fits (codec := c) (t := t) (by simpa [TrieCodec.fits] using hf)
  exact ⟨bytes, h, writeTo_length hc h, readFrom_writeTo hc h⟩

/-- **C68**: a container of updates sent to another worker arrives as it was: its updates, its count of records and its mark that says it is consolidated. -/
theorem C68_wire (hc : c.Lawful) (u : RecUpd K V T R) (hr : u.records < 2 ^ 64)
    (hf : c.keys.size u.updates.keys + c.vals.size u.updates.vals + c.times.size u.updates.times + c.diffs.size u.updates.diffs < 2 ^ 64) :
    ∃ bytes, c.intoBytes u = some bytes ∧ bytes.length = c.recordedLength u ∧ c.fromBytes bytes = some u := by
  obtain ⟨body, h1, h2, h3⟩ := C68_codec hc u.updates hf
  refine ⟨le64 u.records ++ le64 (if u.consolidated then 1 else 0) ++ body, by rw [TrieCodec.intoBytes, h1]; rfl, ?_, ?_⟩
  · rw [TrieCodec.recordedLength, ← h2]
    simp only [List.length_append, le64_length]
  · have e : extractTo (le64 u.records ++ le64 (if u.consolidated then 1 else 0) ++ body) 16 = some (le64 u.records ++ le64 (if u.consolidated then 1 else 0), body) :=
      extractTo_append (by simp [le64_length])
    have h4 := h3 []
    rw [List.append_nil] at h4
    have e1 : (le64 u.records ++ le64 (if u.consolidated then 1 else 0)).take 8 = le64 u.records := List.take_left' (le64_length _)
    have e2 : ((le64 u.records ++ le64 (if u.consolidated then 1 else 0)).drop 8).take 8 = le64 (if u.consolidated then 1 else 0) := by
      rw [List.drop_left' (le64_length _)]
      exact List.take_of_length_le (by rw [le64_length])
    rw [TrieCodec.fromBytes, e]
    simp only [Option.bind_eq_bind, Option.bind_some, h4, e1, e2, fromLe_le64 hr]
    rw [fromLe_le64 (by split_ifs <;> norm_num)]
    obtain ⟨a, b, cons⟩ := u
    cases cons <;> rfl

end codec

section clients
variable {K V T R S H : Type} [LinearOrder K] [LinearOrder V] [LinearOrder (Lin T)] [AddCommMonoid R] [DecidableEq R] [Lattice T] [DecidableLE T] {codec : TrieCodec K V T R}
  {st : ByteStore S H} {cap : Nat}

/-- **C68**: whatever a program that uses chunks answers when chunks may be paged out, under any budgets, it answers also when all chunks stay in memory. -/
theorem C68_transparent (hf : st.Faithful) (hc : codec.Lawful) {B : Type} (p : Client K V T R B) (w w' : World K V T R S H) {b : B}
    (h : p.run (spillImpl codec st cap) (fun _ => []) w = some (b, w')) : p.run (trieImpl (fun _ => true) cap) (fun _ => []) = some b := by
  obtain ⟨_, e, -, rfl⟩ := (reads_run (cap := cap) hf hc p (w := w) (ds := fun _ => []) (ts := fun _ => []) fun _ => .nil).2 _ _ h
  exact e

/-- **C68**: a program that answers when all chunks stay in memory, and commits no chunk that is empty or whose encoding does not fit in memory, gives the same answer
when chunks may be paged out: it never panics. -/
theorem C68_transparent_total (hf : st.Faithful) (hc : codec.Lawful) {B : Type} (p : Client K V T R B) (w : World K V T R S H) {b : B}
    (h : p.run (trieImpl (fun t => t.bounds.isSome && codec.fits t) cap) (fun _ => []) = some b) :
    ∃ w', p.run (spillImpl codec st cap) (fun _ => []) w = some (b, w') := by
  obtain ⟨_, w', e, -, rfl⟩ := (reads_run (cap := cap) hf hc p (w := w) (ds := fun _ => []) (ts := fun _ => []) fun _ => .nil).1 _ h
  exact ⟨w', e⟩

/-- The chunks that stay in memory are those of C63 and C64. -/
theorem C68_plain : (trieImpl (K := K) (V := V) (T := T) (R := R) (fun _ => true) cap).settle = (colChunkOps cap).settle := congrArg ChunkOps.settle okOps_true

/-- **C68**: two chains of chunks are settled and merged by a merge batcher, and the result read, with a spiller with any budget. It is the consolidation of the updates
of both, maximally packed. -/
theorem C68_merge [DecidableEq T] (hf : st.Faithful) (hc : codec.Lawful) (hcap : 0 < cap)
    (hfit : ∀ t (us : Upds (K ×ₗ V) T R), t.Holds us → us ≠ [] → us.length ≤ cap → codec.fits t = true)
    {chain1 chain2 : List (ColTrie K V T R)} {U1 U2 : Chain (K ×ₗ V) T R} (h1 : HoldsAll chain1 U1) (h2 : HoldsAll chain2 U2) (f1 : Full U1) (f2 : Full U2)
    (c1 : Consolidated U1.flatten) (c2 : Consolidated U2.flatten) (budget : Nat) (w : World K V T R S H) :
    ∃ out U w', (Client.spillMerge budget chain1 chain2).run (spillImpl codec st cap) (fun _ => []) w = some (out, w') ∧ HoldsAll out U ∧ Graded cap U ∧
      consolidateUpdates (U1.flatten ++ U2.flatten) = some U.flatten := by
  obtain ⟨rfl, v1⟩ := valid_of_holdsAll h1 f1
  obtain ⟨rfl, v2⟩ := valid_of_holdsAll h2 f2
  have hl := okOps_lawful (K := K) (V := V) (T := T) (R := R) (ok := fun t => t.bounds.isSome && codec.fits t) hcap (by
    intro t us a b c
    rw [C63_bounds a b, hfit t us a b c]
    rfl)
  rw [← List.flatMap_def] at c1 c2
  obtain ⟨a1, o1, k1, -, k2, k3, k4, -⟩ := hl.settle [] chain1 true [] hl.rest_nil (by simp) v1 (by simp) (by simpa using! c1.sortedDT.data)
  obtain ⟨a2, o2, l1, -, l2, l3, l4, -⟩ := hl.settle [] chain2 true [] hl.rest_nil (by simp) v2 (by simp) (by simpa using! c2.sortedDT.data)
  obtain ⟨rfl, -⟩ := k4 rfl
  obtain ⟨rfl, -⟩ := l4 rfl
  simp only [List.flatMap_nil, List.append_nil, List.nil_append] at k1 k3 l1 l3
  obtain ⟨out, m1, m2, m3, m4⟩ := hl.mergerMerge_spec k2 l2 (by rw [k3]; exact c1) (by rw [l3]; exact c2)
  obtain ⟨w', hw⟩ := C68_transparent_total (cap := cap) hf hc (Client.spillMerge budget chain1 chain2) w (b := out) (by
    rw [run_spillMerge, k1, Option.bind_some, l1, Option.bind_some]
    exact m1)
  refine ⟨out, out.map colView, w', hw, (holdsAll_of_valid m2).1, m3, ?_⟩
  rw [← List.flatMap_def, ← List.flatMap_def, ← List.flatMap_def, flatMerge_consolidate c1 c2, m4, k3, l3]

/-- **C68**: in any calls of `settle`, the chunks committed and kept in memory have in total no more records than are left of the budget; and a chunk is paged out only
if all the records committed exceed it. -/
theorem C68_budget (calls : List (List (ColTrie K V T R) × Bool)) {w w' : World K V T R S H} {s : SpillState} (hs : w.state = some s) (hb : s.resident_records ≤ s.budget_records)
    {rs : List (List (SpillChunk K V T R) × List (SpillChunk K V T R))}
    (hr : (calls.mapM fun c => SpillChunk.settle codec st cap (c.1.map .resident) c.2 [] : SpillM K V T R S H _) w = some (rs, w')) :
    s.resident_records + ((rs.flatMap Prod.snd).map fun | .resident t => t.len | .paged _ _ => 0).sum ≤ s.budget_records ∧
    ∀ m cell, .paged m cell ∈ rs.flatMap Prod.snd → s.budget_records < s.resident_records + ((rs.flatMap Prod.snd).map SpillChunk.len).sum := by
  have key : ∀ (calls : List (List (ColTrie K V T R) × Bool)) (w w' : World K V T R S H) (s : SpillState) (rs : List (List (SpillChunk K V T R) × List (SpillChunk K V T R))),
      w.state = some s → s.resident_records ≤ s.budget_records →
      (calls.mapM fun c => SpillChunk.settle codec st cap (c.1.map .resident) c.2 [] : SpillM K V T R S H _) w = some (rs, w') →
      s.resident_records + residentRecords (rs.flatMap Prod.snd) ≤ s.budget_records ∧
      ∀ m cell, .paged m cell ∈ rs.flatMap Prod.snd → s.budget_records < s.resident_records + ((rs.flatMap Prod.snd).map SpillChunk.len).sum := by
    intro calls
    induction calls with
    | nil =>
      rintro w w' s rs hs hb hr
      cases hr
      exact ⟨hb, by simp⟩
    | cons c calls ih =>
      intro w w' s rs hs hb hr
      rw [List.mapM_cons] at hr
      obtain ⟨r, w1, h1, hr⟩ := stateT_bind_some hr
      obtain ⟨rs', w2, h2, hr⟩ := stateT_bind_some hr
      cases hr
      obtain ⟨⟨s1, e1, e2, e3, e4⟩, -, e5⟩ := budget_settle (b := s.budget_records) (r0 := s.resident_records) (n0 := 0) (by simp)
        ⟨⟨s, hs, rfl, rfl, hb⟩, le_rfl, by simp⟩ h1
      rw [List.drop_zero] at e3 e5
      obtain ⟨g1, g2⟩ := ih w1 _ s1 rs' e1 (by omega) h2
      have hle := residentRecords_le r.2
      rw [List.flatMap_cons, residentRecords_append, List.map_append, List.sum_append]
      refine ⟨by omega, fun m cell hm => ?_⟩
      rcases List.mem_append.1 hm with hm | hm
      · have := e5 m cell hm
        omega
      · have := g2 m cell hm
        omega
  exact key calls w w' s rs hs hb hr

end clients

/-! ## The hypotheses are met -/

section examples

/-- A number in unary. -/
private def unary (l : List Nat) : List UInt8 := l.flatMap fun n => List.replicate n 1 ++ [0]

private def deunary : List UInt8 → Nat → List Nat → Option (List Nat × List UInt8)
  | [], _, _ => none
  | b :: bs, n, acc => if b = 2 then some (acc, bs) else if b = 0 then deunary bs 0 (acc ++ [n]) else deunary bs (n + 1) acc

private theorem deunary_one (k n : Nat) (acc : List Nat) (rest : List UInt8) : deunary (List.replicate k 1 ++ 0 :: rest) n acc = deunary rest 0 (acc ++ [n + k]) := by
  induction k generalizing n with
  | zero => rfl
  | succ k ih =>
    rw [List.replicate_succ, List.cons_append, deunary, if_neg (by decide), if_neg (by decide), ih]
    congr 3
    omega

private theorem deunary_unary (l acc : List Nat) (rest : List UInt8) : deunary (unary l ++ 2 :: rest) 0 acc = some (acc ++ l, rest) := by
  induction l generalizing acc with
  | nil => simp [unary, deunary]
  | cons n l ih =>
    have : unary (n :: l) ++ 2 :: rest = List.replicate n 1 ++ 0 :: (unary l ++ 2 :: rest) := by simp [unary]
    rw [this, deunary_one, ih]
    simp

/-- A codec for values coded as numbers. -/
private def unaryCodec {A : Type} (f : A → Nat) (g : Nat → A) : ByteCodec (Lists A) where
  write l := unary (l.values.map f) ++ 2 :: (unary l.bounds ++ [2])
  size l := (unary (l.values.map f) ++ 2 :: (unary l.bounds ++ [2])).length
  read bytes := (deunary bytes 0 []).bind fun r => (deunary r.2 0 []).map fun s => ⟨r.1.map g, s.1⟩

private theorem unaryCodec_lawful {A : Type} {f : A → Nat} {g : Nat → A} (h : ∀ a, g (f a) = a) : (unaryCodec f g).Lawful := by
  refine ⟨fun _ => rfl, fun l => ?_⟩
  rw [unaryCodec]
  dsimp only
  rw [deunary_unary, Option.bind_some, deunary_unary, Option.map_some]
  simp [Function.comp_def, h]

private def natOfInt : Int → Nat
  | .ofNat n => 2 * n
  | .negSucc n => 2 * n + 1
private def intOfNat (n : Nat) : Int := if n % 2 = 0 then .ofNat (n / 2) else .negSucc (n / 2)
private theorem intOfNat_natOfInt (i : Int) : intOfNat (natOfInt i) = i := by
  cases i with
  | ofNat n => rw [natOfInt, intOfNat, if_pos (by omega)]; congr 1; omega
  | negSucc n => rw [natOfInt, intOfNat, if_neg (by omega)]; congr 1; omega

private def exCodec : TrieCodec Nat Nat Nat Int := ⟨unaryCodec id id, unaryCodec id id, unaryCodec id id, unaryCodec natOfInt intOfNat⟩
private theorem exCodec_lawful : exCodec.Lawful :=
  ⟨unaryCodec_lawful fun _ => rfl, unaryCodec_lawful fun _ => rfl, unaryCodec_lawful fun _ => rfl, unaryCodec_lawful intOfNat_natOfInt⟩

/-- Storage that is a list. -/
private def listStore : ByteStore (List (List UInt8)) Nat := ⟨fun s b => (s ++ [b], s.length), fun s h => s[h]?⟩
private theorem listStore_faithful : listStore.Faithful := by
  refine ⟨fun s b => by simp [listStore], fun s h b b' e => ?_⟩
  simp only [listStore] at e ⊢
  rw [List.getElem?_append_left (List.getElem?_eq_some_iff.1 e).1, e]

private def exWorld : World Nat Nat Nat Int (List (List UInt8)) Nat := ⟨none, [], []⟩

example : (exCodec.writeTo exT1).map List.length = some (exCodec.lengthInBytes exT1) := by decide +kernel
set_option synthInstance.maxSize 2000 in
example : ((exCodec.writeTo exT1).bind fun b => exCodec.readFrom (b ++ [7])) = some exT1 := by decide +kernel
set_option synthInstance.maxSize 2000 in
example : ((exCodec.intoBytes ⟨exT3, 5, true⟩).bind exCodec.fromBytes).map (fun u => (u.updates, u.records, u.consolidated)) = some (exT3, 5, true) := by decide +kernel

/-- Commits a chunk, makes another, merges them, commits and reads the result. -/
private def exProgram (budget : Nat) : Client Nat Nat Nat Int (ColTrie Nat Nat Nat Int) :=
  .install budget (.make exT3 2 (.settle 2 1 true (.make exT2 0 (.merge 0 1 3 (.settle 3 4 true (.read 4 0 .done))))))

set_option synthInstance.maxSize 2000 in
/-- With a budget of no records all chunks committed are paged out, and fetched to be merged and read; with five, one is. -/
example : ((exProgram 0).run (spillImpl exCodec listStore 3) (fun _ => []) exWorld).map Prod.fst = some (Forest.layout [[(1, [(2, [(3, [-2]), (4, [1]), (5, [1])])])]]) ∧
    ((exProgram 5).run (spillImpl exCodec listStore 3) (fun _ => []) exWorld).map Prod.fst = some (Forest.layout [[(1, [(2, [(3, [-2]), (4, [1]), (5, [1])])])]]) := by decide +kernel

/-- Commits two chunks, of three and two records. -/
private def exCommit (budget : Nat) : Client Nat Nat Nat Int Unit := .install budget (.make exT1 0 (.make exT2 0 (.settle 0 1 true (.done ()))))

/-- With a budget of two, the first is paged out and the second kept; with one of five both are kept. -/
example : ((exCommit 2).run (spillImpl exCodec listStore 3) (fun _ => []) exWorld).bind (fun r => r.2.state.map fun s => (s.resident_records, s.stats.spilled_chunks)) = some (2, 1) := by
  decide +kernel
example : ((exCommit 5).run (spillImpl exCodec listStore 3) (fun _ => []) exWorld).bind (fun r => r.2.state.map fun s => (s.resident_records, s.stats.spilled_chunks)) = some (5, 0) := by
  decide +kernel

set_option synthInstance.maxSize 2000 in
/-- The condition of `C68_transparent_total` holds of it. -/
example : (exProgram 5).run (trieImpl (fun t => t.bounds.isSome && exCodec.fits t) 3) (fun _ => []) = some (Forest.layout [[(1, [(2, [(3, [-2]), (4, [1]), (5, [1])])])]]) := by
  decide +kernel

/-- That of `C68_budget` holds once a spiller is installed. -/
example : ((spillInstall 5 : SpillM Nat Nat Nat Int (List (List UInt8)) Nat Unit) exWorld).map (fun r => r.2.state) = some (some ⟨5, 0, ⟨0, 0, 0, 0⟩⟩) := rfl

/-- A chunk without updates can be committed only if no spiller is installed. -/
example : ((Client.make (Forest.layout []) 0 (.settle 0 1 true (.done ()))).run (spillImpl exCodec listStore 3) (fun _ => []) exWorld).isSome = true ∧
    ((Client.install 5 (.make (Forest.layout []) 0 (.settle 0 1 true (.done ())))).run (spillImpl exCodec listStore 3) (fun _ => []) exWorld).isSome = false := by decide +kernel

private def finCodec : TrieCodec (Fin 4) (Fin 4) (Fin 4) (Fin 3) :=
  ⟨unaryCodec Fin.val (Fin.ofNat 4), unaryCodec Fin.val (Fin.ofNat 4), unaryCodec Fin.val (Fin.ofNat 4), unaryCodec Fin.val (Fin.ofNat 3)⟩
private theorem finCodec_lawful : finCodec.Lawful :=
  ⟨unaryCodec_lawful (by decide), unaryCodec_lawful (by decide), unaryCodec_lawful (by decide), unaryCodec_lawful (by decide)⟩

private instance : LinearOrder (Lin (Fin 4)) := inferInstanceAs (LinearOrder (Fin 4))

/-- The condition of `C68_merge` that chunks fit, for small data and chunks of one update. -/
example : ∀ (t : ColTrie (Fin 4) (Fin 4) (Fin 4) (Fin 3)) (us : Upds (Fin 4 ×ₗ Fin 4) (Fin 4) (Fin 3)), t.Holds us → us ≠ [] → us.length ≤ 1 → finCodec.fits t = true := by
  rintro t us ⟨c, hs, hn, rfl, rfl⟩ hne hl
  match c, hn, hne, hl with
  | [(k, [(v, [(u, r)])])], _, _, _ => exact (by decide +kernel : ∀ (k v u : Fin 4) (r : Fin 3), finCodec.fits (Contents.forest [(k, [(v, [(u, r)])])]).layout = true) k v u r
  | [], _, hne, _ => exact absurd rfl hne
  | (k, []) :: _, hn, _, _ => exact absurd rfl (hn _ List.mem_cons_self).1
  | (k, (v, []) :: _) :: _, hn, _, _ => exact absurd rfl ((hn _ List.mem_cons_self).2 _ List.mem_cons_self)
  | (k, (v, _ :: _ :: _) :: _) :: _, _, _, hl => simp [Contents.upds] at hl
  | (k, (v, [_]) :: (v', []) :: _) :: _, hn, _, _ => exact absurd rfl ((hn _ List.mem_cons_self).2 _ (List.mem_cons_of_mem _ List.mem_cons_self))
  | (k, (v, [_]) :: (v', _ :: _) :: _) :: _, _, _, hl => simp [Contents.upds] at hl
  | (k, [(v, [_])]) :: (k', []) :: _, hn, _, _ => exact absurd rfl (hn _ (List.mem_cons_of_mem _ List.mem_cons_self)).1
  | (k, [(v, [_])]) :: (k', (v', []) :: _) :: _, hn, _, _ => exact absurd rfl ((hn _ (List.mem_cons_of_mem _ List.mem_cons_self)).2 _ List.mem_cons_self)
  | (k, [(v, [_])]) :: (k', (v', _ :: _) :: _) :: _, _, _, hl => simp [Contents.upds] at hl

end examples

/-! ## Where the code does not have the property -/

section defect

set_option synthInstance.maxSize 2000 in
/-- **C68**, where it fails: the resident set is said to be bounded, but a paged chunk that has been read through a cursor keeps what was fetched in memory, for as long
as the chunk exists. With a budget of no records, a chunk is in memory after it has been read. -/
theorem C68_cache_defect :
    ((Client.install 0 (.make exT1 0 (.settle 0 1 true (.read 1 0 fun _ => .done ())))).run (spillImpl exCodec listStore 3) (fun _ => []) exWorld).map (fun r => r.2.cells.map Prod.snd) =
      some [some exT1] := by decide +kernel

end defect

end DD
