import Verif.Proofs.ChunkAdvance

/-!
# The merger of chunked batches and the merge batcher's merger
-/

namespace DD
variable {D T R : Type*} [LinearOrder D] [LinearOrder (Lin T)] [AddCommMonoid R] [DecidableEq R]

/-! ### Outputs only grow -/

omit [LinearOrder D] [LinearOrder (Lin T)] [AddCommMonoid R] [DecidableEq R] in
theorem ChunkMerge.flush_prefix (cap : Nat) (force : Bool) (v : ChunkMerge D T R) : v.out <+: (v.flush cap force).out := by
  unfold flush
  split_ifs
  · exact List.prefix_append _ _
  · exact List.prefix_rfl

omit [LinearOrder D] [LinearOrder (Lin T)] [AddCommMonoid R] [DecidableEq R] in
theorem ChunkMerge.copy_prefix (cap : Nat) (run : Upds D T R) (v : ChunkMerge D T R) : v.out <+: (v.copy cap run).out := by
  unfold copy
  generalize slicesOf cap run.length run = pieces
  induction pieces generalizing v with
  | nil => exact List.prefix_rfl
  | cons piece pieces ih => exact (flush_prefix cap false ({ v with result := v.result ++ piece } : ChunkMerge D T R)).trans (ih _)

theorem ChunkMerge.step_prefix {cap : Nat} {a b : D × T × R} {v w : ChunkMerge D T R} (h : v.step cap a b = some w) : v.out <+: w.out := by
  unfold step at h
  split_ifs at h
  · cases hg : gallop v.c1 (v.p1 + 1) (belowUpd b) with
    | none => simp [hg] at h
    | some run =>
      rw [hg] at h
      simp only [Option.some.injEq] at h
      rw [← h]
      exact copy_prefix cap _ v
  · cases hg : gallop v.c2 (v.p2 + 1) (belowUpd a) with
    | none => simp [hg] at h
    | some run =>
      rw [hg] at h
      simp only [Option.some.injEq] at h
      rw [← h]
      exact copy_prefix cap _ v
  · rw [← Option.some.inj h]
    exact flush_prefix cap false (⟨v.c1, v.p1 + 1, v.in1, v.c2, v.p2 + 1, v.in2, _, v.out⟩ : ChunkMerge D T R)

omit [LinearOrder D] [LinearOrder (Lin T)] [AddCommMonoid R] [DecidableEq R] in
theorem ChunkMerge.refill_out (v : ChunkMerge D T R) : v.refill.1.out = v.out := by
  obtain ⟨c1, p1, in1, c2, p2, in2, result, out⟩ := v
  cases in1 <;> cases in2 <;> simp only [refill] <;> split_ifs <;> rfl

theorem ChunkMerge.loop_prefix (cap : Nat) (n : Nat) : ∀ {v w : ChunkMerge D T R}, ChunkMerge.loop cap n v = some w → v.out <+: w.out := by
  induction n with
  | zero => intro v w h; rw [loop] at h; rw [Option.some.inj h]
  | succ n ih =>
    intro v w h
    rw [loop] at h
    split at h
    · rename_i a b _ _
      cases hs : v.step cap a b with
      | none => simp [hs] at h
      | some x =>
        rw [hs] at h
        simp only at h
        have h1 := step_prefix hs
        split_ifs at h
        · rw [← Option.some.inj h, refill_out]; exact h1
        · have := ih h
          rw [refill_out] at this
          exact h1.trans this
    · rw [Option.some.inj h]

theorem chunkMerge_prefix {cap : Nat} {in1 in2 out in1' in2' out' : Chain D T R} (h : chunkMerge cap in1 in2 out = some (in1', in2', out')) : out <+: out' := by
  cases in1 with
  | nil => simp [chunkMerge] at h
  | cons c1 in1 =>
    cases in2 with
    | nil => simp [chunkMerge] at h
    | cons c2 in2 =>
      rw [chunkMerge] at h
      cases hl : ChunkMerge.loop cap (c1.length + in1.flatten.length + c2.length + in2.flatten.length) ⟨c1, 0, in1, c2, 0, in2, [], out⟩ with
      | none => rw [hl] at h; cases h
      | some w =>
        rw [hl] at h
        simp only [Option.some.injEq, Prod.mk.injEq] at h
        rw [← h.2.2]
        exact (ChunkMerge.loop_prefix cap _ hl).trans (ChunkMerge.flush_prefix cap true w)

omit [LinearOrder D] [LinearOrder (Lin T)] [AddCommMonoid R] [DecidableEq R] in
theorem pushResult_prefix (cap : Nat) (r : Upds D T R × Chain D T R) (u : D × T × R) : r.2 <+: (pushResult cap r u).2 := by
  simp only [pushResult]
  split_ifs
  · exact List.prefix_append _ _
  · exact List.prefix_rfl

omit [LinearOrder D] in
theorem coalesce_prefix (cap : Nat) (us : Upds D T R) (r : Upds D T R × Chain D T R) : r.2 <+: (coalesce cap us r).2 := by
  fun_induction coalesce cap us r with
  | case1 r => exact List.prefix_rfl
  | case2 u us r same diff ih =>
    refine List.IsPrefix.trans ?_ ih
    split_ifs
    · exact pushResult_prefix cap _ _
    · exact List.prefix_rfl

theorem advanceGroups_prefix [Lattice T] (cap : Nat) (F : List T) (us : Upds D T R) (r : Upds D T R × Chain D T R) : r.2 <+: (advanceGroups cap F us r).2 := by
  fun_induction advanceGroups cap F us r with
  | case1 r => exact List.prefix_rfl
  | case2 u us r group ih => exact (coalesce_prefix cap _ r).trans ih

theorem chunkAdvance_prefix [Lattice T] (cap : Nat) (input : Chain D T R) (F : List T) (done : Bool) (out : Chain D T R) : out <+: (chunkAdvance cap input F done out).2 := by
  simp only [chunkAdvance]
  split
  · split_ifs
    all_goals first
      | exact List.prefix_rfl
      | exact (advanceGroups_prefix cap F _ ([], out)).trans (List.prefix_append _ _)
      | exact advanceGroups_prefix cap F _ ([], out)
  · exact List.prefix_rfl

omit [LinearOrder D] [LinearOrder (Lin T)] [AddCommMonoid R] [DecidableEq R] in
theorem exists_more {out out' : Chain D T R} (h : out <+: out') (hf : Full out') : ∃ more, out' = out ++ more ∧ Full more := by
  obtain ⟨more, rfl⟩ := h
  exact ⟨more, rfl, fun c hc => hf c (by simp [hc])⟩

omit [AddCommMonoid R] [DecidableEq R] in
theorem SortedDT.suffix {a b : Upds D T R} (h : SortedDT b) (hs : a <:+ b) : SortedDT a := h.sublist hs.sublist

omit [AddCommMonoid R] [DecidableEq R] in
theorem SortedDT.data {us : Upds D T R} (h : SortedDT us) : SortedD us :=
  h.imp fun {u v} huv => huv.elim le_of_lt fun e => e.1.le

theorem Consolidated.sortedDT {us : Upds D T R} (h : Consolidated us) : SortedDT us := h.1

/-! ### The merge batcher's merger -/

theorem chunkMergerMerge_spec {cap : Nat} (hcap : 0 < cap) {list1 list2 : Chain D T R} (f1 : Full list1) (f2 : Full list2)
    (s1 : SortedDT list1.flatten) (s2 : SortedDT list2.flatten) :
    ∃ out, chunkMergerMerge cap list1 list2 = some out ∧ out.flatten = flatMerge list1.flatten list2.flatten ∧ Graded cap out := by
  have tails : ∀ (tail staged settled : Chain D T R), SettleOk cap staged settled → Full tail →
      let r := tail.foldl (fun (r : Chain D T R × Chain D T R) tail => chunkSettle cap (r.1 ++ [tail]) false r.2) (staged, settled)
      SettleOk cap r.1 r.2 ∧ r.2.flatten ++ r.1.flatten = settled.flatten ++ staged.flatten ++ tail.flatten := by
    intro tail
    induction tail with
    | nil => intro staged settled h _; exact ⟨h, by simp⟩
    | cons c tail ih =>
      intro staged settled h hf
      obtain ⟨k1, k2⟩ := settle_more hcap h (more := [c]) fun x hx => hf x (by simp [List.mem_singleton.1 hx])
      obtain ⟨g1, g2⟩ := ih _ _ k1 fun x hx => hf x (by simp [hx])
      refine ⟨g1, ?_⟩
      rw [List.foldl_cons, g2, k2]
      simp
  have finish : ∀ (in1 in2 staged settled : Chain D T R), SettleOk cap staged settled → Full in1 → Full in2 → (in1 = [] ∨ in2 = []) →
      ∀ r, (in1 ++ in2).foldl (fun (r : Chain D T R × Chain D T R) tail => chunkSettle cap (r.1 ++ [tail]) false r.2) (staged, settled) = r →
      (chunkSettle cap r.1 true r.2).2.flatten = settled.flatten ++ staged.flatten ++ flatMerge in1.flatten in2.flatten ∧
      Graded cap (chunkSettle cap r.1 true r.2).2 := by
    intro in1 in2 staged settled h f1 f2 hn r hr
    obtain ⟨g1, g2⟩ := tails (in1 ++ in2) staged settled h (fun c hc => (List.mem_append.1 hc).elim (f1 c) (f2 c))
    rw [hr] at g1 g2
    obtain ⟨-, k2, k3⟩ := settle_done hcap g1 (more := []) (by simp [Full])
    rw [List.append_nil] at k2 k3
    refine ⟨?_, k2⟩
    rw [k3, List.flatten_nil, List.append_nil, g2]
    rcases hn with rfl | rfl
    · simp [flatMerge]
    · simp [flatMerge_nil_right]
  unfold chunkMergerMerge
  by_cases hn : list1 ≠ [] ∧ list2 ≠ []
  · obtain ⟨in1', in2', out', g1, g2, g3, g4, g5, g6, g7, g8, g9, g10⟩ := chunkMerge_spec hcap hn.1 hn.2 f1 f2 (out := []) (by simp [Full]) s1 s2
    obtain ⟨k1, k2⟩ := settle_more hcap (settleOk_init cap) (more := out') g4
    rw [List.nil_append] at k1 k2
    have hstop : ∀ n, chunkMergerLoop cap n in1' in2' (chunkSettle cap out' false []).1 (chunkSettle cap out' false []).2 =
        some (in1', in2', (chunkSettle cap out' false []).1, (chunkSettle cap out' false []).2) := by
      intro n
      cases n with
      | zero => rfl
      | succ n =>
        rw [chunkMergerLoop, if_neg]
        rintro ⟨h1, h2⟩
        exact g5.elim h1 h2
    obtain ⟨n, hn'⟩ : ∃ n, list1.length + list2.length = n + 1 := ⟨list1.length + list2.length - 1, by
      have := List.length_pos_iff.2 hn.1; omega⟩
    rw [hn', chunkMergerLoop, if_pos hn, g1]
    simp only [hstop]
    obtain ⟨e1, e2⟩ := finish in1' in2' _ _ k1 g2 g3 g5 _ rfl
    refine ⟨_, rfl, ?_, e2⟩
    rw [e1, k2]
    have := g10 [] []
    simpa using this
  · have hl : ∀ n, chunkMergerLoop cap n list1 list2 [] [] = some (list1, list2, [], []) := by
      intro n
      cases n with
      | zero => rfl
      | succ n => rw [chunkMergerLoop, if_neg hn]
    rw [hl]
    simp only
    obtain ⟨e1, e2⟩ := finish list1 list2 [] [] (settleOk_init cap) f1 f2 (by tauto) _ rfl
    exact ⟨_, rfl, by simpa using e1, e2⟩

section extract
variable [PartialOrder T] [DecidableLE T]

omit [LinearOrder D] [LinearOrder (Lin T)] [AddCommMonoid R] [DecidableEq R] in
theorem extractChunk_fold (upper : List T) (chunk : Upds D T R) : ∀ (residual : List T) (k s : Upds D T R),
    chunk.foldl (fun (r : List T × Upds D T R × Upds D T R) u =>
      if lessEqual upper u.2.1 then (acInsert r.1 u.2.1, r.2.1 ++ [u], r.2.2) else (r.1, r.2.1, r.2.2 ++ [u])) (residual, k, s) =
    (acExtend residual ((chunk.filter fun u => lessEqual upper u.2.1).map fun u => u.2.1), k ++ chunk.filter (fun u => lessEqual upper u.2.1),
      s ++ chunk.filter fun u => !lessEqual upper u.2.1) := by
  induction chunk with
  | nil => intro residual k s; simp [acExtend]
  | cons u chunk ih =>
    intro residual k s
    rw [List.foldl_cons]
    by_cases hu : lessEqual upper u.2.1 = true
    · simp only [hu, if_true]
      rw [ih]
      simp [hu, acExtend]
    · simp only [hu, Bool.false_eq_true, if_false]
      rw [ih]
      simp [hu]

omit [LinearOrder D] [LinearOrder (Lin T)] [AddCommMonoid R] [DecidableEq R] in
theorem chunkMergerExtractLoop_spec {cap : Nat} (hcap : 0 < cap) (upper : List T) (input : Chain D T R) : ∀ (frontier : List T) (k s : Chain D T R × Chain D T R),
    SettleOk cap k.1 k.2 → SettleOk cap s.1 s.2 →
    let r := chunkMergerExtractLoop cap upper input frontier k s
    r.1 = acExtend frontier ((input.flatten.filter fun u => lessEqual upper u.2.1).map fun u => u.2.1) ∧
    SettleOk cap r.2.1.1 r.2.1.2 ∧ SettleOk cap r.2.2.1 r.2.2.2 ∧
    r.2.1.2.flatten ++ r.2.1.1.flatten = k.2.flatten ++ k.1.flatten ++ input.flatten.filter (fun u => lessEqual upper u.2.1) ∧
    r.2.2.2.flatten ++ r.2.2.1.flatten = s.2.flatten ++ s.1.flatten ++ input.flatten.filter (fun u => !lessEqual upper u.2.1) := by
  induction input with
  | nil => intro frontier k s hk hs; exact ⟨by simp [chunkMergerExtractLoop, acExtend], hk, hs, by simp [chunkMergerExtractLoop], by simp [chunkMergerExtractLoop]⟩
  | cons chunk input ih =>
    intro frontier k s hk hs
    rw [chunkMergerExtractLoop]
    simp only [chunkExtract, extractChunk_fold, List.nil_append]
    have split : ∀ (q : Chain D T R) (p : Upds D T R), ∃ more, (if p ≠ [] then q ++ [p] else q) = q ++ more ∧ Full more ∧ more.flatten = p := by
      intro q p
      by_cases hp : p = []
      · exact ⟨[], by simp [hp], by simp [Full], by simp [hp]⟩
      · exact ⟨[p], by simp [hp], fun c hc => by rw [List.mem_singleton.1 hc]; exact hp, by simp⟩
    obtain ⟨mk, ek, fk, flk⟩ := split k.1 (chunk.filter fun u => lessEqual upper u.2.1)
    obtain ⟨ms, es, fs, fls⟩ := split s.1 (chunk.filter fun u => !lessEqual upper u.2.1)
    rw [ek, es]
    obtain ⟨a1, a2⟩ := settle_more hcap hk fk
    obtain ⟨b1, b2⟩ := settle_more hcap hs fs
    obtain ⟨c1, c2, c3, c4, c5⟩ := ih (acExtend frontier ((chunk.filter fun u => lessEqual upper u.2.1).map fun u => u.2.1)) _ _ a1 b1
    refine ⟨?_, c2, c3, ?_, ?_⟩
    · rw [c1]; simp [acExtend]
    · rw [c4, a2, flk]; simp
    · rw [c5, b2, fls]; simp

omit [LinearOrder D] [LinearOrder (Lin T)] [AddCommMonoid R] [DecidableEq R] in
theorem chunkMergerExtract_spec {cap : Nat} (hcap : 0 < cap) (merged : Chain D T R) (upper frontier : List T) :
    let r := chunkMergerExtract cap merged upper frontier
    r.1 = acExtend frontier ((merged.flatten.filter fun u => lessEqual upper u.2.1).map fun u => u.2.1) ∧
    r.2.1.flatten = merged.flatten.filter (fun u => !lessEqual upper u.2.1) ∧ Graded cap r.2.1 ∧
    r.2.2.flatten = merged.flatten.filter (fun u => lessEqual upper u.2.1) ∧ Graded cap r.2.2 := by
  obtain ⟨c1, c2, c3, c4, c5⟩ := chunkMergerExtractLoop_spec hcap upper merged frontier ([], []) ([], []) (settleOk_init cap) (settleOk_init cap)
  obtain ⟨-, a2, a3⟩ := settle_done hcap c2 (more := []) (by simp [Full])
  obtain ⟨-, b2, b3⟩ := settle_done hcap c3 (more := []) (by simp [Full])
  rw [List.append_nil] at a2 a3 b2 b3
  refine ⟨c1, ?_, b2, ?_, a2⟩
  · rw [chunkMergerExtract, b3, List.flatten_nil, List.append_nil, c5]; simp
  · rw [chunkMergerExtract, a3, List.flatten_nil, List.append_nil, c4]; simp

end extract

/-! ### The merger of batches -/

omit [LinearOrder D] [LinearOrder (Lin T)] [AddCommMonoid R] [DecidableEq R] in
theorem chunkRefill_spec (input : Chain D T R) (idx : Nat) (chunks : Chain D T R) (f : Full input) (fc : Full chunks) :
    (chunkRefill input idx chunks).1.flatten ++ (chunks.drop (chunkRefill input idx chunks).2).flatten = input.flatten ++ (chunks.drop idx).flatten ∧
    (chunkRefill input idx chunks).1.length + (chunks.drop (chunkRefill input idx chunks).2).length = input.length + (chunks.drop idx).length ∧
    Full (chunkRefill input idx chunks).1 ∧
    ((chunkRefill input idx chunks).1 = [] → chunks.drop (chunkRefill input idx chunks).2 = []) := by
  simp only [chunkRefill]
  have e : chunks.drop (idx + ((chunks.drop idx).take (burst - input.length)).length) = (chunks.drop idx).drop (burst - input.length) := by
    rw [List.drop_drop, List.length_take]
    rcases Nat.le_total (burst - input.length) (chunks.drop idx).length with h | h
    · rw [Nat.min_eq_left h]
    · rw [Nat.min_eq_right h, List.drop_eq_nil_of_le (by rw [List.length_drop]; omega), List.drop_eq_nil_of_le (by rw [List.length_drop] at h; omega)]
  rw [e]
  refine ⟨?_, ?_, ?_, ?_⟩
  · conv_rhs => rw [← List.take_append_drop (burst - input.length) (chunks.drop idx)]
    rw [List.flatten_append, List.flatten_append, List.append_assoc]
  · have := congrArg List.length (List.take_append_drop (burst - input.length) (chunks.drop idx))
    rw [List.length_append] at this ⊢
    omega
  · intro c hc
    rcases List.mem_append.1 hc with hc | hc
    · exact f c hc
    · exact fc c ((List.drop_sublist _ _).subset ((List.take_sublist _ _).subset hc))
  · intro h
    obtain ⟨h1, h2⟩ := List.append_eq_nil_iff.1 h
    subst h1
    rcases List.take_eq_nil_iff.1 h2 with h | h
    · simp [burst] at h
    · rw [h]; simp

variable [Lattice T] [DecidableEq T]

/-- What holds of a merger between calls: `C` is what has been merged, of which `a` has been advanced; `c` is the fuel spent. -/
structure ChunkBatchMerger.Ok (cap : Nat) (b1 b2 : ChunkBatch D T R) (m : ChunkBatchMerger D T R) (c : Nat) : Prop where
  full1 : Full m.in1
  full2 : Full m.in2
  suffix1 : m.in1.flatten ++ (b1.chunks.drop m.idx1).flatten <:+ b1.chunks.flatten
  suffix2 : m.in2.flatten ++ (b2.chunks.drop m.idx2).flatten <:+ b2.chunks.flatten
  fullm : Full m.merged
  count : m.in1.length + (b1.chunks.drop m.idx1).length + (m.in2.length + (b2.chunks.drop m.idx2).length) ≤ b1.chunks.length + b2.chunks.length
  spent : c + (m.in1.flatten ++ (b1.chunks.drop m.idx1).flatten).length + (m.in2.flatten ++ (b2.chunks.drop m.idx2).flatten).length ≤
    b1.chunks.flatten.length + b2.chunks.flatten.length
  open' : m.complete = false → ∃ a, a ++ m.merged.flatten ++ flatMerge (m.in1.flatten ++ (b1.chunks.drop m.idx1).flatten) (m.in2.flatten ++ (b2.chunks.drop m.idx2).flatten) =
      flatMerge b1.chunks.flatten b2.chunks.flatten ∧ (∀ u ∈ a, ∀ v ∈ m.merged.flatten, u.1 < v.1) ∧ (m.merged.flatten = [] → a = []) ∧
      SettleOk cap m.advanced m.settled ∧ m.settled.flatten ++ m.advanced.flatten = DD.advanced m.frontier a
  closed : m.complete = true → m.merged = [] ∧ m.advanced = [] ∧ Graded cap m.settled ∧
    m.settled.flatten = DD.advanced m.frontier (flatMerge b1.chunks.flatten b2.chunks.flatten)

/-- The sources. -/
structure ChunkBatch.Good (b : ChunkBatch D T R) : Prop where
  full : Full b.chunks
  cons : Consolidated b.chunks.flatten

/-- One round: what is produced precedes what is left. -/
theorem ChunkBatchMerger.produce_spec {cap : Nat} (hcap : 0 < cap) {in1 in2 : Chain D T R} (f1 : Full in1) (f2 : Full in2) (s1 : SortedDT in1.flatten) (s2 : SortedDT in2.flatten) :
    (in1 = [] ∧ in2 = [] ∧ ChunkBatchMerger.produce cap in1 in2 = none) ∨
    ∃ in1' in2' produced, ChunkBatchMerger.produce cap in1 in2 = some (some (in1', in2', produced)) ∧ Full in1' ∧ Full in2' ∧ Full produced ∧
      in1'.length + in2'.length < in1.length + in2.length ∧ in1'.flatten <:+ in1.flatten ∧ in2'.flatten <:+ in2.flatten ∧
      produced.flatten.length + in1'.flatten.length + in2'.flatten.length ≤ in1.flatten.length + in2.flatten.length ∧
      ∀ rest1 rest2, (in1 = [] → rest1 = []) → (in2 = [] → rest2 = []) →
        produced.flatten ++ flatMerge (in1'.flatten ++ rest1) (in2'.flatten ++ rest2) = flatMerge (in1.flatten ++ rest1) (in2.flatten ++ rest2) := by
  cases in1 with
  | nil =>
    cases in2 with
    | nil => exact Or.inl ⟨rfl, rfl, rfl⟩
    | cons c in2 =>
      refine Or.inr ⟨[], in2, [c], rfl, f1, fun x hx => f2 x (by simp [hx]), fun x hx => f2 x (by simp [List.mem_singleton.1 hx]), by simp, List.suffix_rfl,
        by simp [List.suffix_append], by simp, ?_⟩
      intro rest1 rest2 h1 _
      rw [h1 rfl]
      simp [flatMerge]
  | cons c in1 =>
    cases in2 with
    | nil =>
      refine Or.inr ⟨in1, [], [c], rfl, fun x hx => f1 x (by simp [hx]), f2, fun x hx => f1 x (by simp [List.mem_singleton.1 hx]), by simp, by simp [List.suffix_append],
        List.suffix_rfl, by simp, ?_⟩
      intro rest1 rest2 _ h2
      rw [h2 rfl]
      simp [flatMerge_nil_right]
    | cons c' in2 =>
      obtain ⟨in1', in2', out', g1, g2, g3, g4, g5, g6, g7, g8, g9, g10⟩ :=
        chunkMerge_spec hcap (List.cons_ne_nil c in1) (List.cons_ne_nil c' in2) f1 f2 (out := []) (by simp [Full]) s1 s2
      refine Or.inr ⟨in1', in2', out', by rw [← g1]; rfl, g2, g3, g4, ?_, g8, g9, ?_, fun rest1 rest2 _ _ => by simpa using g10 rest1 rest2⟩
      · rcases g5 with rfl | rfl
        · simp at g7 ⊢; omega
        · simp at g6 ⊢; omega
      · have h := g10 [] []
        simp only [List.append_nil, List.flatten_nil, List.nil_append] at h
        have h1 := congrArg List.length h
        have h2 := length_flatMerge_le (c :: in1).flatten (c' :: in2).flatten
        rw [List.length_append] at h1
        rcases g5 with rfl | rfl
        · simp only [List.flatten_nil, flatMerge] at h1 ⊢; simp only [List.length_nil]; omega
        · simp only [List.flatten_nil, flatMerge_nil_right] at h1 ⊢; simp only [List.length_nil]; omega

theorem ChunkBatchMerger.loop_spec {cap : Nat} (hcap : 0 < cap) {b1 b2 : ChunkBatch D T R} (hb1 : b1.Good) (hb2 : b2.Good) (n : Nat) :
    ∀ (m : ChunkBatchMerger D T R) (c : Nat) (fuel : Int), m.Ok cap b1 b2 c → m.complete = false →
    m.in1.length + (b1.chunks.drop m.idx1).length + (m.in2.length + (b2.chunks.drop m.idx2).length) < n →
    ∃ m' left c', ChunkBatchMerger.loop cap b1 b2 n m fuel = some (m', left) ∧ m'.Ok cap b1 b2 c' ∧ c ≤ c' ∧ left = fuel - ((c' : Int) - c) ∧
      (0 < left → m'.complete = true) ∧ m'.frontier = m.frontier ∧ m'.lower = m.lower ∧ m'.upper = m.upper := by
  induction n with
  | zero => intro m c fuel _ _ hn; omega
  | succ n ih =>
    intro m c fuel hm hc hn
    rw [ChunkBatchMerger.loop]
    by_cases hfuel : fuel > 0
    · rw [if_pos hfuel]
      simp only
      obtain ⟨r11, r12, r13, r14⟩ := chunkRefill_spec m.in1 m.idx1 b1.chunks hm.full1 hb1.full
      obtain ⟨r21, r22, r23, r24⟩ := chunkRefill_spec m.in2 m.idx2 b2.chunks hm.full2 hb2.full
      generalize chunkRefill m.in1 m.idx1 b1.chunks = r1 at *
      generalize chunkRefill m.in2 m.idx2 b2.chunks = r2 at *
      obtain ⟨i1, idx1⟩ := r1
      obtain ⟨i2, idx2⟩ := r2
      simp only at r11 r12 r13 r14 r21 r22 r23 r24 ⊢
      have suf1 := hm.suffix1
      have suf2 := hm.suffix2
      have spent := hm.spent
      obtain ⟨a, o1, o2, o3, o4, o5⟩ := hm.open' hc
      rw [← r11] at suf1 spent o1
      rw [← r21] at suf2 spent o1
      have sd1 : SortedDT (i1.flatten ++ (b1.chunks.drop idx1).flatten) := hb1.cons.sortedDT.suffix suf1
      have sd2 : SortedDT (i2.flatten ++ (b2.chunks.drop idx2).flatten) := hb2.cons.sortedDT.suffix suf2
      have hcons : SortedDT (flatMerge b1.chunks.flatten b2.chunks.flatten) := (consolidated_flatMerge _ _ hb1.cons hb2.cons).sortedDT
      rcases ChunkBatchMerger.produce_spec hcap r13 r23 (List.pairwise_append.1 sd1).1 (List.pairwise_append.1 sd2).1 with
        ⟨e1, e2, hp⟩ | ⟨in1', in2', produced, hp, p1, p2, p3, p4, p5, p6, p7, p8⟩
      · rw [hp]
        simp only
        rw [r14 e1, r24 e2, e1, e2] at o1
        simp only [List.flatten_nil, List.append_nil, flatMerge] at o1
        have hsd : SortedD m.merged.flatten := by
          rw [← o1] at hcons
          exact SortedDT.data (List.pairwise_append.1 hcons).2.1
        obtain ⟨a', b', k1, k2, k3, k4, k5, k6, k7, k8⟩ := chunkAdvance_spec cap m.frontier m.merged m.advanced true hsd o4.full
        have hb' := k7 rfl
        subst hb'
        obtain ⟨more, hmore, hfm⟩ := exists_more (chunkAdvance_prefix cap m.merged m.frontier true m.advanced) k5
        obtain ⟨s1, s2, s3⟩ := settle_done hcap o4 hfm
        rw [hmore] at k4 k5 ⊢
        have hnil : (chunkAdvance cap m.merged m.frontier true m.advanced).1 = [] := by
          cases hx : (chunkAdvance cap m.merged m.frontier true m.advanced).1 with
          | nil => rfl
          | cons c cs =>
            rw [hx] at k2 k3
            exact absurd (List.append_eq_nil_iff.1 k2).1 (k3 c (by simp))
        refine ⟨_, fuel, c, rfl, ?_, le_rfl, by omega, fun _ => rfl, rfl, rfl, rfl⟩
        refine ⟨r13, r23, suf1, suf2, k3, by have := hm.count; simp only; omega, spent, by simp, fun _ => ⟨hnil, s1, s2, ?_⟩⟩
        simp only
        have k4' : more.flatten = DD.advanced m.frontier a' := by simpa using k4
        rw [s3, o5, k4', ← advanced_append, ← o1, k1, List.append_nil]
        intro u hu v hv
        exact o2 u hu v (by rw [k1]; simpa using hv)
      · rw [hp]
        simp only
        -- what is merged so far, now with what is produced
        have q := p8 (b1.chunks.drop idx1).flatten (b2.chunks.drop idx2).flatten (fun h => by rw [r14 h]; rfl) (fun h => by rw [r24 h]; rfl)
        rw [← q] at o1
        have o1' : a ++ (m.merged ++ produced).flatten ++ flatMerge (in1'.flatten ++ (b1.chunks.drop idx1).flatten) (in2'.flatten ++ (b2.chunks.drop idx2).flatten) =
            flatMerge b1.chunks.flatten b2.chunks.flatten := by rw [← o1]; simp
        have hsd : SortedDT (a ++ (m.merged ++ produced).flatten) := by
          rw [← o1'] at hcons
          exact (List.pairwise_append.1 hcons).1
        have hab : ∀ u ∈ a, ∀ v ∈ (m.merged ++ produced).flatten, u.1 < v.1 := by
          intro u hu v hv
          rw [List.flatten_append] at hv
          rcases List.mem_append.1 hv with hv | hv
          · exact o2 u hu v hv
          · cases hmf : m.merged.flatten with
            | nil => rw [o3 hmf] at hu; simp at hu
            | cons w ws =>
              have h1 := o2 u hu w (by rw [hmf]; simp)
              have h2 := (List.pairwise_append.1 hsd.data).2.1
              rw [List.flatten_append] at h2
              exact h1.trans_le ((List.pairwise_append.1 h2).2.2 w (by rw [hmf]; simp) v hv)
        obtain ⟨a', b', k1, k2, k3, k4, k5, k6, k7, k8⟩ := chunkAdvance_spec cap m.frontier (m.merged ++ produced) m.advanced false (List.pairwise_append.1 hsd.data).2.1 o4.full
        obtain ⟨more, hmore, hfm⟩ := exists_more (chunkAdvance_prefix cap (m.merged ++ produced) m.frontier false m.advanced) k5
        obtain ⟨s1, s2⟩ := settle_more hcap o4 hfm
        have k4' : more.flatten = DD.advanced m.frontier a' := by rw [hmore] at k4; simpa using k4
        rw [hmore]
        have hsum : (produced.map List.length).sum = produced.flatten.length := by simp
        set m1 : ChunkBatchMerger D T R := { m with
          in1 := in1', in2 := in2', idx1 := idx1, idx2 := idx2, merged := (chunkAdvance cap (m.merged ++ produced) m.frontier false m.advanced).1
          advanced := (chunkSettle cap (m.advanced ++ more) false m.settled).1, settled := (chunkSettle cap (m.advanced ++ more) false m.settled).2 } with hm1
        have hok : m1.Ok cap b1 b2 (c + produced.flatten.length) := by
          refine ⟨p1, p2, ?_, ?_, k3, by have := hm.count; simp only [hm1]; omega, ?_, ?_, ?_⟩
          · exact (List.IsSuffix.trans (by
              obtain ⟨pre, hpre⟩ := p5
              exact ⟨pre, by rw [← List.append_assoc, hpre]⟩) suf1)
          · exact (List.IsSuffix.trans (by
              obtain ⟨pre, hpre⟩ := p6
              exact ⟨pre, by rw [← List.append_assoc, hpre]⟩) suf2)
          · show c + produced.flatten.length + (in1'.flatten ++ (b1.chunks.drop idx1).flatten).length + (in2'.flatten ++ (b2.chunks.drop idx2).flatten).length ≤ _
            rw [List.length_append, List.length_append] at spent ⊢
            omega
          · intro _
            refine ⟨a ++ a', ?_, ?_, ?_, s1, ?_⟩
            · show a ++ a' ++ (chunkAdvance cap (m.merged ++ produced) m.frontier false m.advanced).1.flatten ++ flatMerge (in1'.flatten ++ (b1.chunks.drop idx1).flatten) (in2'.flatten ++ (b2.chunks.drop idx2).flatten) = _
              rw [k2, ← o1', k1]
              simp
            · intro u hu v hv
              have hv : v ∈ b' := k2 ▸ hv
              rcases List.mem_append.1 hu with hu | hu
              · exact hab u hu v (by rw [k1]; simp [hv])
              · exact k6 u hu v hv
            · intro he
              have he : b' = [] := k2 ▸ he
              have ha' := k8 rfl he
              rw [ha', he] at k1
              have : m.merged.flatten = [] := by rw [List.flatten_append] at k1; exact (List.append_eq_nil_iff.1 k1).1
              rw [o3 this, ha']; rfl
            · show (chunkSettle cap (m.advanced ++ more) false m.settled).2.flatten ++ (chunkSettle cap (m.advanced ++ more) false m.settled).1.flatten = DD.advanced m.frontier (a ++ a')
              rw [s2, o5, k4', advanced_append]
              intro u hu v hv
              exact hab u hu v (by rw [k1]; simp [hv])
          · intro h
            have : m.complete = true := h
            rw [hc] at this; cases this
        obtain ⟨m', left, c', w1, w2, w3, w4, w5, w6, w7, w8⟩ := ih m1 (c + produced.flatten.length) (fuel - (produced.map List.length).sum) hok hc (by
          show in1'.length + (b1.chunks.drop idx1).length + (in2'.length + (b2.chunks.drop idx2).length) < n
          omega)
        refine ⟨m', left, c', w1, w2, by omega, ?_, w5, w6, w7, w8⟩
        rw [w4, hsum]
        push_cast
        omega
    · rw [if_neg hfuel]
      exact ⟨m, fuel, c, rfl, hm, le_rfl, by omega, fun h => absurd h hfuel, rfl, rfl, rfl⟩

theorem ChunkBatchMerger.work_spec {cap : Nat} (hcap : 0 < cap) {b1 b2 : ChunkBatch D T R} (hb1 : b1.Good) (hb2 : b2.Good) {m : ChunkBatchMerger D T R} {c : Nat}
    (hm : m.Ok cap b1 b2 c) (fuel : Int) :
    ∃ m' left c', m.work cap b1 b2 fuel = some (m', left) ∧ m'.Ok cap b1 b2 c' ∧ c ≤ c' ∧ left = fuel - ((c' : Int) - c) ∧
      (0 < left → m'.complete = true) ∧ m'.frontier = m.frontier ∧ m'.lower = m.lower ∧ m'.upper = m.upper := by
  unfold work
  cases hc : m.complete with
  | true => exact ⟨m, fuel, c, by simp, hm, le_rfl, by omega, fun _ => hc, rfl, rfl, rfl⟩
  | false =>
    simp only [Bool.false_eq_true, if_false]
    exact ChunkBatchMerger.loop_spec hcap hb1 hb2 _ m c fuel hm hc (by have := hm.count; omega)

omit [Lattice T] in
theorem flatMerge_consolidate {a b : Upds D T R} (ha : Consolidated a) (hb : Consolidated b) : consolidateUpdates (a ++ b) = some (flatMerge a b) := by
  rw [consolidateUpdates_eq]
  refine congrArg some (consolidatedU_unique (consolidated_consolidatedU _) (consolidated_flatMerge _ _ ha hb) fun d t => ?_)
  rw [total_consolidatedU, total_flatMerge, total_append]

end DD
