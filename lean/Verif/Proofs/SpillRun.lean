import Verif.Proofs.Spill
import Verif.Proofs.ChunkLaws

/-!
# Lemmas on spilling: what is committed, and the budget
-/

namespace DD

set_option linter.unusedSectionVars false

/-! ### Packing without and with a check -/

section plain
variable {C : Type} {len : C → Nat} {combine : C → C → Option C} {split : C → Nat → Option (C × C)} {cap : Nat}

theorem peelM_some (n : Nat) (c : C) (out : List C) : peelM len split some cap n c out = peelWith len split cap n c out := by
  induction n generalizing c out with
  | zero => rfl
  | succ n ih =>
    simp only [peelM, peelWith, Option.bind_eq_bind, Option.bind_some, ih]
    rfl

theorem packAbsorbM_some (c : C) (out : List C) : packAbsorbM len split some cap c out = packAbsorbWith len split cap c out := by
  simp only [packAbsorbM, packAbsorbWith, peelM_some]
  rfl

theorem packStepM_some (s : Option C × List C) (c : C) : packStepM len combine split some cap s c = packStepWith len combine split cap s c := by
  obtain ⟨a, out⟩ := s
  cases a with
  | none => simp only [packStepM, packStepWith, packAbsorbM_some]
  | some a =>
    simp only [packStepM, packStepWith, packAbsorbM_some, Option.map_eq_bind, Option.bind_eq_bind, Option.bind_some]
    by_cases h : len a + len c ≤ cap
    · rw [if_pos h, if_pos h]
      congr 1
      funext x
      simp only [Function.comp]
      split_ifs <;> rfl
    · rw [if_neg h, if_neg h]

theorem packM_some (input : List C) (fin : Bool) (out : List C) : packM len combine split some cap input fin out = packWith len combine split cap input fin out := by
  simp only [packM, packWith, Option.map_eq_bind, Option.bind_eq_bind, Option.bind_some]
  have e : packStepM len combine split some cap = packStepWith len combine split cap := funext fun s => funext fun c => packStepM_some s c
  rw [e]
  congr 1
  funext s
  obtain ⟨a, out⟩ := s
  cases a <;> cases fin <;> rfl

/-- Committing only what is `ok`. -/
def okOnly (ok : C → Bool) (c : C) : Option C := if ok c then some c else none

theorem peelM_ok {ok : C → Bool} (n : Nat) (c : C) (out : List C) {r : Option C × List C} (h : peelM len split some cap n c out = some r) :
    out <+: r.2 ∧ ((∀ c ∈ r.2, ok c = true) → peelM len split (okOnly ok) cap n c out = some r) := by
  induction n generalizing c out with
  | zero => cases h
  | succ n ih =>
    simp only [peelM, Option.bind_eq_bind, Option.bind_some] at h ⊢
    obtain ⟨x, h1, h2⟩ := Option.bind_eq_some_iff.1 h
    rw [h1]
    simp only [Option.bind_some]
    split_ifs at h2 ⊢ with hc hd
    · obtain ⟨g1, g2⟩ := ih _ _ h2
      refine ⟨(List.prefix_append _ _).trans g1, fun hk => ?_⟩
      rw [okOnly, if_pos (hk x.1 (g1.subset (by simp)))]
      exact g2 hk
    · cases h2
      exact ⟨List.prefix_append _ _, fun hk => by rw [okOnly, if_pos (hk x.1 (by simp))]; rfl⟩
    · cases h2
      exact ⟨List.prefix_append _ _, fun hk => by rw [okOnly, if_pos (hk x.1 (by simp))]; rfl⟩

theorem packAbsorbM_ok {ok : C → Bool} (c : C) (out : List C) {r : Option C × List C} (h : packAbsorbM len split some cap c out = some r) :
    out <+: r.2 ∧ ((∀ c ∈ r.2, ok c = true) → packAbsorbM len split (okOnly ok) cap c out = some r) := by
  simp only [packAbsorbM] at h ⊢
  split_ifs at h ⊢ with h1 h2
  · cases h
    exact ⟨List.prefix_append _ _, fun hk => by rw [okOnly, if_pos (hk c (by simp))]; rfl⟩
  · cases h
    exact ⟨List.prefix_rfl, fun _ => rfl⟩
  · exact peelM_ok _ _ _ h

theorem packStepM_ok {ok : C → Bool} (s : Option C × List C) (c : C) {r : Option C × List C} (h : packStepM len combine split some cap s c = some r) :
    s.2 <+: r.2 ∧ ((∀ c ∈ r.2, ok c = true) → packStepM len combine split (okOnly ok) cap s c = some r) := by
  obtain ⟨a, out⟩ := s
  cases a with
  | none => exact packAbsorbM_ok _ _ h
  | some a =>
    simp only [packStepM, Option.bind_eq_bind, Option.bind_some] at h ⊢
    by_cases h1 : len a + len c ≤ cap
    · rw [if_pos h1] at h ⊢
      obtain ⟨x, h2, h3⟩ := Option.bind_eq_some_iff.1 h
      rw [h2]
      simp only [Option.bind_some]
      split_ifs at h3 ⊢
      · cases h3
        exact ⟨List.prefix_append _ _, fun hk => by rw [okOnly, if_pos (hk x (by simp))]; rfl⟩
      · cases h3
        exact ⟨List.prefix_rfl, fun _ => rfl⟩
    · rw [if_neg h1] at h ⊢
      obtain ⟨g1, g2⟩ := packAbsorbM_ok (ok := ok) _ _ h
      refine ⟨(List.prefix_append _ _).trans g1, fun hk => ?_⟩
      rw [okOnly, if_pos (hk a (g1.subset (by simp)))]
      exact g2 hk

theorem packM_ok {ok : C → Bool} (input : List C) (fin : Bool) (out : List C) {r : List C × List C} (h : packM len combine split some cap input fin out = some r) :
    out <+: r.2 ∧ ((∀ c ∈ r.2, ok c = true) → packM len combine split (okOnly ok) cap input fin out = some r) := by
  have hfold : ∀ (input : List C) (s r : Option C × List C), input.foldlM (packStepM len combine split some cap) s = some r →
      s.2 <+: r.2 ∧ ((∀ c ∈ r.2, ok c = true) → input.foldlM (packStepM len combine split (okOnly ok) cap) s = some r) := by
    intro input
    induction input with
    | nil => rintro s r ⟨⟩; exact ⟨List.prefix_rfl, fun _ => rfl⟩
    | cons c input ih =>
      intro s r h
      rw [List.foldlM_cons] at h
      obtain ⟨x, h1, h2⟩ := Option.bind_eq_some_iff.1 h
      obtain ⟨g1, g2⟩ := packStepM_ok (ok := ok) _ _ h1
      obtain ⟨g3, g4⟩ := ih _ _ h2
      refine ⟨g1.trans g3, fun hk => ?_⟩
      rw [List.foldlM_cons, g2 fun c hc => hk c (g3.subset hc)]
      exact g4 hk
  simp only [packM, Option.bind_eq_bind] at h ⊢
  obtain ⟨⟨a, o⟩, h1, h2⟩ := Option.bind_eq_some_iff.1 h
  obtain ⟨g1, g2⟩ := hfold _ _ _ h1
  dsimp only at h2 g1 g2
  cases a with
  | none =>
    cases h2
    exact ⟨g1, fun hk => by rw [g2 hk]; rfl⟩
  | some a =>
    cases fin with
    | false =>
      cases h2
      exact ⟨g1, fun hk => by rw [g2 hk]; rfl⟩
    | true =>
      cases h2
      refine ⟨g1.trans (List.prefix_append _ _), fun hk => ?_⟩
      rw [g2 fun c hc => hk c (by simp [hc])]
      simp only [Option.bind_some, if_true]
      rw [okOnly, if_pos (hk a (by simp))]
      rfl

end plain

/-! ### Invariants of packing -/

section inv
variable {W : Type} {C : Type} {len : C → Nat} {combine : C → C → StateT W Option C} {split : C → Nat → StateT W Option (C × C)} {commit : C → StateT W Option C} {cap : Nat}

/-- What keeps an invariant of the state and the output; the chunks not yet in the output are `ok`. -/
structure PackInv (combine : C → C → StateT W Option C) (split : C → Nat → StateT W Option (C × C)) (commit : C → StateT W Option C) (Inv : W → List C → Prop) (ok : C → Prop) : Prop where
  combine : ∀ w c d a w' out, combine c d w = some (a, w') → Inv w out → ok a ∧ Inv w' out
  split : ∀ w c n a w' out, split c n w = some (a, w') → Inv w out → ok a.1 ∧ ok a.2 ∧ Inv w' out
  commit : ∀ w c a w' out, ok c → commit c w = some (a, w') → Inv w out → Inv w' (out ++ [a])

variable {Inv : W → List C → Prop} {ok : C → Prop}

theorem stateT_bind_some {A B : Type} {f : StateT W Option A} {k : A → StateT W Option B} {w : W} {r : B × W} (h : (f >>= k) w = some r) : ∃ a w', f w = some (a, w') ∧ k a w' = some r := by
  obtain ⟨⟨a, w'⟩, h1, h2⟩ := Option.bind_eq_some_iff.1 (show (f w).bind (fun p => k p.1 p.2) = some r from h)
  exact ⟨a, w', h1, h2⟩

theorem PackInv.peel (h : PackInv combine split commit Inv ok) (n : Nat) {w : W} {c : C} {out : List C} (hi : Inv w out) {r : Option C × List C} {w' : W}
    (hr : peelM len split commit cap n c out w = some (r, w')) : (∀ a ∈ r.1, ok a) ∧ Inv w' r.2 := by
  induction n generalizing w c out with
  | zero => cases hr
  | succ n ih =>
    simp only [peelM] at hr
    obtain ⟨x, w1, h1, h2⟩ := stateT_bind_some hr
    obtain ⟨a, w2, h3, h4⟩ := stateT_bind_some h2
    obtain ⟨k1, k2, k3⟩ := h.split _ _ _ _ _ _ h1 hi
    have k4 := h.commit _ _ _ _ _ k1 h3 k3
    split_ifs at h4 with hc hd
    · exact ih k4 h4
    · cases h4; exact ⟨fun a ha => by cases ha; exact k2, k4⟩
    · cases h4; exact ⟨fun a ha => (by cases ha), k4⟩

theorem PackInv.absorb (h : PackInv combine split commit Inv ok) {w : W} {c : C} (hc : ok c) {out : List C} (hi : Inv w out) {r : Option C × List C} {w' : W}
    (hr : packAbsorbM len split commit cap c out w = some (r, w')) : (∀ a ∈ r.1, ok a) ∧ Inv w' r.2 := by
  simp only [packAbsorbM] at hr
  split_ifs at hr with h1 h2
  · obtain ⟨a, w1, h3, h4⟩ := stateT_bind_some hr
    cases h4
    exact ⟨fun a ha => (by cases ha), h.commit _ _ _ _ _ hc h3 hi⟩
  · cases hr
    exact ⟨fun a ha => by cases ha; exact hc, hi⟩
  · exact h.peel _ hi hr

theorem PackInv.step (h : PackInv combine split commit Inv ok) {w : W} {s : Option C × List C} (hs : ∀ a ∈ s.1, ok a) {c : C} (hc : ok c) (hi : Inv w s.2) {r : Option C × List C} {w' : W}
    (hr : packStepM len combine split commit cap s c w = some (r, w')) : (∀ a ∈ r.1, ok a) ∧ Inv w' r.2 := by
  obtain ⟨a, out⟩ := s
  cases a with
  | none => exact h.absorb hc hi hr
  | some a =>
    simp only [packStepM] at hr
    split_ifs at hr with h1
    · obtain ⟨x, w1, h2, h3⟩ := stateT_bind_some hr
      obtain ⟨k1, k2⟩ := h.combine _ _ _ _ _ _ h2 hi
      split_ifs at h3
      · obtain ⟨y, w2, h4, h5⟩ := stateT_bind_some h3
        cases h5
        exact ⟨fun a ha => (by cases ha), h.commit _ _ _ _ _ k1 h4 k2⟩
      · cases h3
        exact ⟨fun a ha => by cases ha; exact k1, k2⟩
    · obtain ⟨x, w1, h2, h3⟩ := stateT_bind_some hr
      exact h.absorb hc (h.commit _ _ _ _ _ (hs a rfl) h2 hi) h3

theorem PackInv.pack (h : PackInv combine split commit Inv ok) {w : W} {input out : List C} {fin : Bool} (hc : ∀ c ∈ input, ok c) (hi : Inv w out) {r : List C × List C} {w' : W}
    (hr : packM len combine split commit cap input fin out w = some (r, w')) : Inv w' r.2 := by
  have hfold : ∀ (input : List C), (∀ c ∈ input, ok c) → ∀ (s r : Option C × List C) (w w' : W), (∀ a ∈ s.1, ok a) → Inv w s.2 →
      input.foldlM (packStepM len combine split commit cap) s w = some (r, w') → (∀ a ∈ r.1, ok a) ∧ Inv w' r.2 := by
    intro input
    induction input with
    | nil => rintro - s r w w' h1 h2 ⟨⟩; exact ⟨h1, h2⟩
    | cons c input ih =>
      intro hc s r w w' h1 h2 hr
      rw [List.foldlM_cons] at hr
      obtain ⟨x, w1, g1, g2⟩ := stateT_bind_some hr
      obtain ⟨k1, k2⟩ := h.step h1 (hc c List.mem_cons_self) h2 g1
      exact ih (fun c hx => hc c (List.mem_cons_of_mem _ hx)) _ _ _ _ k1 k2 g2
  simp only [packM] at hr
  obtain ⟨⟨a, o⟩, w1, h1, h2⟩ := stateT_bind_some hr
  obtain ⟨k1, k2⟩ := hfold _ hc _ _ _ _ (fun a ha => by cases ha) hi h1
  cases a with
  | none => cases h2; exact k2
  | some a =>
    cases fin with
    | false => cases h2; exact k2
    | true =>
      obtain ⟨x, w2, h3, h4⟩ := stateT_bind_some h2
      cases h4
      exact h.commit _ _ _ _ _ (k1 a rfl) h3 k2

end inv

/-! ### The budget -/

section budget
variable {K V T R S H : Type} {codec : TrieCodec K V T R} {st : ByteStore S H}

/-- The records of the chunks kept in memory. -/
def residentRecords (cs : List (SpillChunk K V T R)) : Nat := (cs.map fun | .resident t => t.len | .paged _ _ => 0).sum

/-- The worlds have the same budget and count of resident records. -/
def SameBudget (w w' : World K V T R S H) : Prop :=
  w'.state.map SpillState.budget_records = w.state.map SpillState.budget_records ∧ w'.state.map SpillState.resident_records = w.state.map SpillState.resident_records

theorem sameBudget_noted (w : World K V T R S H) : SameBudget w w.noted := by
  obtain ⟨s, b, c⟩ := w
  cases s <;> exact ⟨rfl, rfl⟩

theorem decode_same {source : H} {w w' : World K V T R S H} {t : ColTrie K V T R} (h : (noteFetched >>= fun _ => spillDecode codec st source : SpillM K V T R S H _) w = some (t, w')) :
    w' = w.noted := by
  change Option.bind (Option.bind (st.load w.backing source) fun a => some (a, w.noted)) (fun p => Option.bind (codec.readFrom p.1) fun a => some (a, p.2)) = _ at h
  obtain ⟨p, h1, h2⟩ := Option.bind_eq_some_iff.1 h
  obtain ⟨x, h3, h4⟩ := Option.bind_eq_some_iff.1 h1
  obtain ⟨y, h5, h6⟩ := Option.bind_eq_some_iff.1 h2
  cases h4
  cases h6
  rfl

theorem intoTrie_same {c : SpillChunk K V T R} {w w' : World K V T R S H} {t : ColTrie K V T R} (h : c.intoTrie codec st w = some (t, w')) : SameBudget w w' := by
  cases c with
  | resident t' => cases h; exact ⟨rfl, rfl⟩
  | paged m cell =>
    obtain ⟨w0, w1, h1, h2⟩ := stateT_bind_some h
    cases h1
    obtain ⟨p, w2, h3, h4⟩ := stateT_bind_some h2
    have e : w2 = w := by
      change (Option.bind _ _) = _ at h3
      obtain ⟨x, -, hx⟩ := Option.bind_eq_some_iff.1 h3
      cases hx
      rfl
    subst e
    obtain ⟨q, o⟩ := p
    cases o with
    | some t => cases h4; exact ⟨rfl, rfl⟩
    | none => rw [decode_same (codec := codec) (st := st) h4]; exact sameBudget_noted w2

theorem liftM_world {A : Type} {x : Option A} {w w' : World K V T R S H} {a : A} (h : (liftM x : SpillM K V T R S H A) w = some (a, w')) : w' = w ∧ x = some a := by
  cases x with
  | none => cases h
  | some b => cases h; exact ⟨rfl, rfl⟩

/-- The invariant: the count has grown by the records of the chunks kept, and is within the budget; and a chunk has been paged only if the records committed exceed the
budget. -/
structure BudgetInv (b r0 n0 : Nat) (w : World K V T R S H) (out : List (SpillChunk K V T R)) : Prop where
  state : ∃ s, w.state = some s ∧ s.budget_records = b ∧ s.resident_records = r0 + residentRecords (out.drop n0) ∧ s.resident_records ≤ b
  length : n0 ≤ out.length
  paged : ∀ m cell, SpillChunk.paged m cell ∈ out.drop n0 → b < r0 + ((out.drop n0).map SpillChunk.len).sum

theorem BudgetInv.same {b r0 n0 : Nat} {w w' : World K V T R S H} {out : List (SpillChunk K V T R)} (h : BudgetInv b r0 n0 w out) (hs : SameBudget w w') : BudgetInv b r0 n0 w' out := by
  obtain ⟨⟨s, h1, h2, h3, h4⟩, h5, h6⟩ := h
  obtain ⟨k1, k2⟩ := hs
  rw [h1] at k1 k2
  cases hw : w'.state with
  | none => rw [hw] at k1; cases k1
  | some s' =>
    rw [hw] at k1 k2
    simp only [Option.map_some, Option.some.injEq] at k1 k2
    exact ⟨⟨s', hw, by omega, by omega, by omega⟩, h5, h6⟩

theorem residentRecords_append (a b : List (SpillChunk K V T R)) : residentRecords (a ++ b) = residentRecords a + residentRecords b := by simp [residentRecords]

theorem residentRecords_le (a : List (SpillChunk K V T R)) : residentRecords a ≤ (a.map SpillChunk.len).sum := by
  induction a with
  | nil => exact le_rfl
  | cons c a ih =>
    have e : residentRecords (c :: a) = (match c with | .resident t => t.len | .paged _ _ => 0) + residentRecords a := rfl
    rw [e, List.map_cons, List.sum_cons]
    cases c with
    | resident t => change t.len + _ ≤ t.len + _; omega
    | paged m cell => dsimp only; omega

theorem budget_commit {b r0 n0 : Nat} {w w' : World K V T R S H} {out : List (SpillChunk K V T R)} (h : BudgetInv b r0 n0 w out) {t : ColTrie K V T R} {a : SpillChunk K V T R}
    (ha : SpillChunk.sealChunk codec st (.resident t) w = some (a, w')) : BudgetInv b r0 n0 w' (out ++ [a]) := by
  obtain ⟨⟨s, h1, h2, h3, h4⟩, h5, h6⟩ := h
  rw [seal_run, h1] at ha
  dsimp only at ha
  obtain ⟨m, hm, ha⟩ := Option.bind_eq_some_iff.1 ha
  have hlen : m.len = t.len := by
    rw [metaOf] at hm
    obtain ⟨x, -, rfl⟩ := Option.map_eq_some_iff.1 hm
    rfl
  have ed : ∀ a, (out ++ [a]).drop n0 = out.drop n0 ++ [a] := fun a => List.drop_append_of_le_length h5
  have hle := residentRecords_le (out.drop n0)
  split_ifs at ha with hb
  · cases ha
    refine ⟨⟨_, rfl, h2, ?_, ?_⟩, by simp; omega, ?_⟩
    · rw [ed, residentRecords_append]
      change s.resident_records + t.len = _ + (_ + (t.len + 0))
      omega
    · change s.resident_records + t.len ≤ b
      omega
    · intro m' cell hx
      rw [ed] at hx ⊢
      rw [List.map_append, List.sum_append]
      rcases List.mem_append.1 hx with hx | hx
      · have := h6 m' cell hx
        omega
      · simp at hx
  · obtain ⟨buf, -, hx⟩ := Option.map_eq_some_iff.1 ha
    cases hx
    refine ⟨⟨_, rfl, h2, ?_, h4⟩, by simp; omega, ?_⟩
    · rw [ed, residentRecords_append]
      change s.resident_records = _ + (_ + (0 + 0))
      omega
    · intro m' cell _
      rw [ed, List.map_append, List.sum_append]
      change b < _ + (_ + (m.len + 0))
      omega

variable [DecidableEq K] [DecidableEq V]

theorem budget_settle {cap b r0 n0 : Nat} {w w' : World K V T R S H} {input out : List (SpillChunk K V T R)} {fin : Bool} {r : List (SpillChunk K V T R) × List (SpillChunk K V T R)}
    (hin : ∀ c ∈ input, ∃ t, c = .resident t) (h : BudgetInv b r0 n0 w out) (hr : SpillChunk.settle codec st cap input fin out w = some (r, w')) : BudgetInv b r0 n0 w' r.2 := by
  refine PackInv.pack (Inv := BudgetInv b r0 n0) (ok := fun c => ∃ t, c = .resident t) ⟨?_, ?_, ?_⟩ hin h hr
  · intro w c d a w' out hx hi
    obtain ⟨t, w1, h1, hx⟩ := stateT_bind_some hx
    obtain ⟨u, w2, h2, hx⟩ := stateT_bind_some hx
    obtain ⟨v, w3, h3, hx⟩ := stateT_bind_some hx
    cases hx
    obtain ⟨rfl, -⟩ := liftM_world h3
    exact ⟨⟨_, rfl⟩, (hi.same (intoTrie_same h1)).same (intoTrie_same h2)⟩
  · intro w c n a w' out hx hi
    obtain ⟨t, w1, h1, hx⟩ := stateT_bind_some hx
    obtain ⟨v, w3, h3, hx⟩ := stateT_bind_some hx
    cases hx
    obtain ⟨rfl, -⟩ := liftM_world h3
    exact ⟨⟨_, rfl⟩, ⟨_, rfl⟩, hi.same (intoTrie_same h1)⟩
  · rintro w c a w' out ⟨t, rfl⟩ hx hi
    exact budget_commit hi hx

end budget

end DD
