import Verif.Spec.TotalOps
import Mathlib.Tactic.Abel
import Mathlib.Data.List.Basic

/-!
# Lemmas about `count_total` and `threshold_total`
-/

namespace DD
section
variable {K T R O : Type*} [LinearOrder K]

/-- The updates of one key. -/
def keyOf (k : K) (us : Upds K T R) : List (T × R) := (us.filter fun u => u.1 = k).map Prod.snd

theorem keyOf_append (k : K) (us vs : Upds K T R) : keyOf k (us ++ vs) = keyOf k us ++ keyOf k vs := by simp [keyOf]

theorem keyOf_flatMap {α : Type*} (k : K) (l : List α) (f : α → Upds K T R) : keyOf k (l.flatMap f) = l.flatMap fun a => keyOf k (f a) := by
  induction l with
  | nil => rfl
  | cons a l ih => rw [List.flatMap_cons, keyOf_append, ih, List.flatMap_cons]

theorem keyOf_map (k k' : K) (us : List (T × R)) : keyOf k (us.map fun u => (k', u)) = if k' = k then us else [] := by
  induction us with
  | nil => simp [keyOf]
  | cons u us ih =>
    unfold keyOf at ih ⊢
    by_cases h : k' = k
    · simp_all
    · rw [if_neg h] at ih ⊢
      rw [List.map_cons, List.filter_cons_of_neg (by simpa using h)]
      exact ih

theorem keyOf_keyUpds (k : K) (t : Contents K Unit T R) : keyOf k t.keyUpds = t.at k () := by
  have : t.keyUpds = t.flatMap fun kv => kv.2.flatMap fun vu => vu.2.map fun u => (kv.1, u) := by
    simp only [Contents.keyUpds, Contents.flatten, List.map_flatMap, List.map_map]
    rfl
  rw [this, keyOf_flatMap, Contents.at]
  congr 1
  funext kv
  rw [keyOf_flatMap]
  simp only [keyOf_map]
  by_cases h : kv.1 = k <;> simp [h]

theorem IsUnion.atUnit {ts : List (Contents K Unit T R)} {u : Contents K Unit T R} (h : IsUnion ts u) (k : K) :
    u.at k () = ts.flatMap fun t => t.at k () := by
  have := h.upds k ()
  convert this

theorem keyOf_input (k : K) (r : TotalRound K T R) (h : IsUnion r.batches r.batch) : keyOf k r.input = r.batch.at k () := by
  rw [TotalRound.input, keyOf_flatMap, h.atUnit]
  simp only [keyOf_keyUpds]

theorem mem_keyOf {k : K} {us : Upds K T R} {u : T × R} : u ∈ keyOf k us ↔ (k, u) ∈ us := by
  simp only [keyOf, List.mem_map, List.mem_filter, decide_eq_true_eq]
  constructor
  · rintro ⟨x, ⟨h1, rfl⟩, rfl⟩; exact h1
  · intro h; exact ⟨_, ⟨h, rfl⟩, rfl⟩

/-! ### Unit values -/

theorem at_nil (k : K) : Contents.at ([] : Contents K Unit T R) k () = [] := rfl

theorem at_cons (k : K) (kv : K × List (Unit × List (T × R))) (t : Contents K Unit T R) :
    Contents.at (kv :: t) k () = (if kv.1 = k then kv.2.flatMap (·.2) else []) ++ Contents.at t k () := by
  simp [Contents.at]

theorem at_append (k : K) (t t' : Contents K Unit T R) : Contents.at (t ++ t') k () = Contents.at t k () ++ Contents.at t' k () := by
  simp [Contents.at]

theorem at_of_not (k : K) (t : Contents K Unit T R) (h : ∀ kv ∈ t, kv.1 ≠ k) : Contents.at t k () = [] := by
  rw [Contents.at, List.flatMap_eq_nil_iff]
  intro kv hkv
  rw [if_neg (h kv hkv)]

theorem unit_vals {vs : List (Unit × List (T × R))} (h : vs.Pairwise fun x y => x.1 < y.1) : (vs.head?.map Prod.snd).getD [] = vs.flatMap (·.2) := by
  match vs, h with
  | [], _ => rfl
  | [x], _ => simp
  | x :: y :: _, h => exact absurd ((List.pairwise_cons.mp h).1 y List.mem_cons_self) (lt_irrefl ())

theorem ContentsSorted.tail {kv : K × List (Unit × List (T × R))} {t : Contents K Unit T R} (h : ContentsSorted (kv :: t)) :
    ContentsSorted t ∧ (∀ kv' ∈ t, kv.1 < kv'.1) ∧ kv.2.Pairwise fun x y => x.1 < y.1 :=
  ⟨⟨(List.pairwise_cons.mp h.keys).2, fun x hx => h.vals x (List.mem_cons_of_mem _ hx)⟩, (List.pairwise_cons.mp h.keys).1, h.vals kv List.mem_cons_self⟩

variable [AddCommMonoid R]

/-- The count after some updates. -/
def runCount (c : Option R) (us : List (T × R)) : Option R := us.foldl (fun count u => addCount count u.2) c

theorem runCount_append (c : Option R) (us vs : List (T × R)) : runCount c (us ++ vs) = runCount (runCount c us) vs := by
  simp [runCount]

theorem addCount_getD (c : Option R) (r : R) : (addCount c r).getD 0 = c.getD 0 + r := by
  cases c <;> simp [addCount]

theorem runCount_getD (us : List (T × R)) : ∀ c : Option R, (runCount c us).getD 0 = c.getD 0 + (us.map Prod.snd).sum := by
  induction us with
  | nil => intro c; simp [runCount]
  | cons u us ih =>
    intro c
    have := ih (addCount c u.2)
    rw [addCount_getD] at this
    simp only [runCount, List.foldl_cons] at this ⊢
    rw [this]; simp [add_assoc]

theorem runCount_isSome (us : List (T × R)) (c : Option R) (h : c.isSome ∨ us ≠ []) : (runCount c us).isSome = true := by
  induction us generalizing c with
  | nil => rcases h with h | h; exact h; exact absurd rfl h
  | cons u us ih => exact ih (addCount c u.2) (Or.inl (by cases c <;> rfl))

theorem start_count (ks : Contents K Unit T R) (k : K) (hs : ContentsSorted ks) (hge : ∀ kv, ks.head? = some kv → k ≤ kv.1) :
    (if (Pos.start ks).key? = some k then (((Pos.start ks).upds?).getD []).foldl (fun count u => addCount count u.2) none else none) =
      runCount none (Contents.at ks k ()) := by
  cases ks with
  | nil => rfl
  | cons kv t =>
    obtain ⟨h1, h2, h3⟩ := hs.tail
    have hrest : Contents.at t k () = [] := at_of_not _ _ fun kv' hkv' => ne_of_gt (lt_of_le_of_lt (hge kv rfl) (h2 kv' hkv'))
    rw [at_cons, hrest, List.append_nil]
    by_cases hk : kv.1 = k
    · rw [if_pos (by simp [Pos.start, Pos.key?, hk]), if_pos hk, ← unit_vals h3]; rfl
    · rw [if_neg (by simp [Pos.start, Pos.key?, hk]), if_neg hk]; rfl

theorem seekKey_at (pre : Contents K Unit T R) (p : Pos K Unit T R) (k : K) (h : ContentsSorted (pre ++ p.keys)) (hpre : ∀ kv ∈ pre, kv.1 < k) :
    (∃ pre', pre ++ p.keys = pre' ++ (p.seekKey k).keys ∧ ∀ kv ∈ pre', kv.1 < k) ∧
    (traceCount p k).2 = runCount none (Contents.at (pre ++ p.keys) k ()) := by
  have hsplit : p.keys = p.keys.takeWhile (fun kv => kv.1 < k) ++ p.keys.dropWhile (fun kv => kv.1 < k) := List.takeWhile_append_dropWhile.symm
  have hpre' : ∀ kv ∈ pre ++ p.keys.takeWhile (fun kv => kv.1 < k), kv.1 < k := by
    intro kv hkv
    rcases List.mem_append.mp hkv with h1 | h1
    · exact hpre kv h1
    · simpa using List.all_eq_true.mp List.all_takeWhile kv h1
  have e : pre ++ p.keys = (pre ++ p.keys.takeWhile (fun kv => kv.1 < k)) ++ p.keys.dropWhile (fun kv => kv.1 < k) := by
    rw [List.append_assoc, List.takeWhile_append_dropWhile]
  refine ⟨⟨_, e, hpre'⟩, ?_⟩
  have hat : Contents.at (pre ++ p.keys) k () = Contents.at (p.keys.dropWhile fun kv => kv.1 < k) k () := by
    rw [e, at_append, at_of_not _ _ fun kv hkv => ne_of_lt (hpre' kv hkv), List.nil_append]
  rw [hat]
  have hs : ContentsSorted (p.keys.dropWhile fun kv => kv.1 < k) := by
    rw [e] at h
    exact ⟨(List.pairwise_append.mp h.keys).2.1, fun x hx => h.vals x (List.mem_append_right _ hx)⟩
  refine start_count _ k hs ?_
  intro kv hkv
  have := List.head?_dropWhile_not (fun kv : K × List (Unit × List (T × R)) => decide (kv.1 < k)) p.keys
  rw [hkv] at this
  simpa using this

theorem visitKeys_eq (emit : K → Option R → T → R → List O) (t : Contents K Unit T R) (ht : ContentsSorted t) :
    ∀ (batch : Contents K Unit T R) (p : Pos K Unit T R) (pre : Contents K Unit T R), ContentsSorted batch → t = pre ++ p.keys →
      (∀ kv ∈ pre, ∀ kv' ∈ batch, kv.1 < kv'.1) →
      visitKeys emit batch p = batch.flatMap fun kv => visitUpdates (emit kv.1) (runCount none (t.at kv.1 ())) (kv.2.flatMap (·.2)) := by
  intro batch
  induction batch with
  | nil => intro _ _ _ _ _; rfl
  | cons kv batch ih =>
    intro p pre hb e hpre
    obtain ⟨h1, h2, h3⟩ := hb.tail
    obtain ⟨⟨pre', g1, g2⟩, g3⟩ := seekKey_at pre p kv.1 (e ▸ ht) fun x hx => hpre x hx kv List.mem_cons_self
    rw [visitKeys, List.flatMap_cons]
    have := ih (p.seekKey kv.1) pre' h1 (e.trans g1) fun x hx y hy => (g2 x hx).trans (h2 y hy)
    rw [← e] at g3
    simp only [unit_vals h3]
    rw [g3]
    rw [← this]
    rfl

end

section
variable {K T R R2 D : Type*} [LinearOrder K] [LinearOrder T] [AddCommMonoid R] [AddCommGroup R2] [DecidableEq D]

/-- The effect of an operator on the accumulation of one output datum `d`, that belongs to the key `k`: `H` of the count. -/
structure Telescopes (emit : K → Option R → T → R → List (D × T × R2)) (k : K) (d : D) (H : Option R → R2) : Prop where
  same : ∀ c t r q, accum (emit k c t r) d q = if t ≤ q then H (addCount c r) - H c else 0
  other : ∀ k' c t r q, k' ≠ k → accum (emit k' c t r) d q = 0

variable {emit : K → Option R → T → R → List (D × T × R2)} {k : K} {d : D} {H : Option R → R2}

private theorem accApp (us vs : Upds D T R2) (d : D) (q : T) : accum (us ++ vs) d q = accum us d q + accum vs d q := by simp [accum]

theorem Telescopes.updates (h : Telescopes emit k d H) (q : T) (us : List (T × R)) : ∀ (c : Option R), us.Pairwise (fun u v => u.1 < v.1) →
    accum (visitUpdates (emit k) c us) d q = H (runCount c (us.filter fun u => u.1 ≤ q)) - H c := by
  induction us with
  | nil => intro c _; simp [visitUpdates, runCount, accum]
  | cons u us ih =>
    intro c hp
    rw [List.pairwise_cons] at hp
    rw [visitUpdates, accApp, h.same, ih _ hp.2]
    by_cases hq : u.1 ≤ q
    · rw [if_pos hq, List.filter_cons_of_pos (by simpa using hq)]
      have : runCount c (u :: us.filter fun u => u.1 ≤ q) = runCount (addCount c u.2) (us.filter fun u => u.1 ≤ q) := rfl
      rw [this]; abel
    · rw [if_neg hq, List.filter_cons_of_neg (by simpa using hq)]
      have : us.filter (fun u => decide (u.1 ≤ q)) = [] := by
        rw [List.filter_eq_nil_iff]
        intro v hv
        simpa using lt_trans (not_le.mp hq) (hp.1 v hv)
      rw [this]; simp [runCount]

theorem Telescopes.otherUpdates (h : Telescopes emit k d H) (q : T) {k' : K} (hk : k' ≠ k) (us : List (T × R)) : ∀ c, accum (visitUpdates (emit k') c us) d q = 0 := by
  induction us with
  | nil => intro c; simp [visitUpdates, accum]
  | cons u us ih => intro c; rw [visitUpdates, accApp, h.other _ _ _ _ _ hk, ih]; simp

theorem Telescopes.keys (h : Telescopes emit k d H) (q : T) (batch t : Contents K Unit T R) (hb : ContentsSorted batch) (ht : ContentsSorted t)
    (hp : (batch.at k ()).Pairwise fun u v => u.1 < v.1) :
    accum (visitKeys emit batch (Pos.start t)) d q =
      H (runCount (runCount none (t.at k ())) ((batch.at k ()).filter fun u => u.1 ≤ q)) - H (runCount none (t.at k ())) := by
  rw [visitKeys_eq emit t ht batch (Pos.start t) [] hb rfl (by simp)]
  have : ∀ b : Contents K Unit T R, ContentsSorted b → (b.at k ()).Pairwise (fun u v => u.1 < v.1) →
      accum (b.flatMap fun kv => visitUpdates (emit kv.1) (runCount none (t.at kv.1 ())) (kv.2.flatMap (·.2))) d q =
      H (runCount (runCount none (t.at k ())) ((b.at k ()).filter fun u => u.1 ≤ q)) - H (runCount none (t.at k ())) := by
    intro b
    induction b with
    | nil => intro _ _; simp [accum, at_nil, runCount]
    | cons kv b ih =>
      intro hb hp
      obtain ⟨h1, h2, h3⟩ := hb.tail
      rw [List.flatMap_cons, accApp]
      rw [at_cons] at hp ⊢
      by_cases hk : kv.1 = k
      · rw [if_pos hk] at hp ⊢
        have hn : Contents.at b k () = [] := at_of_not _ _ fun x hx => ne_of_gt (hk ▸ h2 x hx)
        rw [hn, List.append_nil] at hp ⊢
        rw [hk, h.updates q _ _ hp, ih h1 (by rw [hn]; exact List.Pairwise.nil), hn]
        simp [runCount]
      · rw [if_neg hk, List.nil_append] at hp ⊢
        rw [h.otherUpdates q hk, ih h1 hp, zero_add]
  exact this batch hb hp

theorem pairwise_at {bs : List (Contents K Unit T R)} (k : K) (h : ∀ b ∈ bs, (b.at k ()).Pairwise fun u v => u.1 < v.1)
    (ho : bs.Pairwise fun b b' => ∀ u ∈ b.keyUpds, ∀ v ∈ b'.keyUpds, u.2.1 < v.2.1) : (bs.flatMap fun b => b.at k ()).Pairwise fun u v => u.1 < v.1 := by
  induction bs with
  | nil => exact List.Pairwise.nil
  | cons b bs ih =>
    rw [List.pairwise_cons] at ho
    rw [List.flatMap_cons, List.pairwise_append]
    refine ⟨h b List.mem_cons_self, ih (fun x hx => h x (List.mem_cons_of_mem _ hx)) ho.2, ?_⟩
    intro u hu v hv
    rw [List.mem_flatMap] at hv
    obtain ⟨b', hb', hv⟩ := hv
    rw [← keyOf_keyUpds, mem_keyOf] at hu hv
    exact ho.1 b' hb' _ hu _ hv

theorem Telescopes.rounds (h : Telescopes emit k d H) (q : T) (rounds : List (TotalRound K T R)) : ∀ (prev : Upds K T R), LegalRounds prev rounds →
    (∀ (prev' : Upds K T R) (t : Contents K Unit T R) (xs : List (T × R)), prev' <+: prev ++ roundsInput rounds → TraceOf t prev' → (∀ u ∈ prev', u.2.1 ≤ q) →
      H (runCount (runCount none (t.at k ())) xs) = H (runCount (runCount none (keyOf k prev')) xs)) →
    accum (totalRun emit rounds) d q + H (runCount none ((keyOf k prev).filter fun u => u.1 ≤ q)) =
      H (runCount none ((keyOf k (prev ++ roundsInput rounds)).filter fun u => u.1 ≤ q)) := by
  induction rounds with
  | nil => intro prev _ _; simp [totalRun, roundsInput, accum]
  | cons r rs ih =>
    intro prev hl hag
    obtain ⟨hr, hl⟩ := hl
    have hin : prev ++ roundsInput (r :: rs) = (prev ++ r.input) ++ roundsInput rs := by simp [roundsInput]
    have := ih _ hl (by rw [← hin]; exact hag)
    rw [hin, ← this]
    have hrun : totalRun emit (r :: rs) = visitKeys emit r.batch (Pos.start r.trace) ++ totalRun emit rs := rfl
    rw [hrun, accApp, h.keys q r.batch r.trace hr.batch.sorted hr.trace.sorted (by rw [hr.batch.atUnit]; exact pairwise_at k (fun b hb => hr.times b hb k) hr.order),
      ← keyOf_input k r hr.batch, keyOf_append, List.filter_append, runCount_append]
    by_cases hx : (keyOf k r.input).filter (fun u => u.1 ≤ q) = []
    · rw [hx]; simp [runCount]
    · obtain ⟨u, hu⟩ := List.exists_mem_of_ne_nil _ hx
      rw [List.mem_filter, mem_keyOf] at hu
      have hle : ∀ x ∈ prev, x.2.1 ≤ q := fun x hx => (hr.after x hx _ hu.1).le.trans (by simpa using hu.2)
      have hf : (keyOf k prev).filter (fun u => decide (u.1 ≤ q)) = keyOf k prev := by
        rw [List.filter_eq_self]
        intro x hx
        simpa using hle _ (mem_keyOf.mp hx)
      rw [hf]
      have e := hag prev r.trace ((keyOf k r.input).filter fun u => u.1 ≤ q) (List.prefix_append _ _) hr.trace hle
      have e0 := hag prev r.trace [] (List.prefix_append _ _) hr.trace hle
      rw [e]
      have e1 : H (runCount none (r.trace.at k ())) = H (runCount none (keyOf k prev)) := e0
      rw [e1]; abel

theorem accum_keyOf (us : Upds K T R) (q : T) : accum us k q = (((keyOf k us).filter fun u => u.1 ≤ q).map Prod.snd).sum := by
  induction us with
  | nil => rfl
  | cons u us ih =>
    have : accum (u :: us) k q = (if u.1 = k ∧ u.2.1 ≤ q then u.2.2 else 0) + accum us k q := by simp [accum]
    rw [this, ih]
    by_cases h1 : u.1 = k
    · by_cases h2 : u.2.1 ≤ q <;> simp [keyOf, h1, h2]
    · simp [keyOf, h1]

theorem weight_keyOf (us : Upds K T R) : weight (us.map fun u => (u.1, u.2.2)) k = ((keyOf k us).map Prod.snd).sum := by
  induction us with
  | nil => rfl
  | cons u us ih =>
    have : weight ((u :: us).map fun u => (u.1, u.2.2)) k = (if u.1 = k then u.2.2 else 0) + weight (us.map fun u => (u.1, u.2.2)) k := by simp [weight]
    rw [this, ih]
    by_cases h1 : u.1 = k <;> simp [keyOf, h1]

/-- If `H` only looks at the count, with no count being zero. -/
theorem Telescopes.value (G : R → R2) (h : Telescopes emit k d fun c => G (c.getD 0)) (q : T) (rounds : List (TotalRound K T R)) (hl : LegalRounds [] rounds) :
    accum (totalRun emit rounds) d q = G (accum (roundsInput rounds) k q) - G 0 := by
  have := h.rounds q rounds [] hl (by
    intro prev' t xs _ ht _
    rw [runCount_getD, runCount_getD, runCount_getD, runCount_getD, ht.sums, weight_keyOf])
  simp only [runCount_getD] at this
  rw [accum_keyOf]
  rw [← eq_sub_iff_add_eq] at this
  rw [this]
  simp [keyOf]

end
end DD
