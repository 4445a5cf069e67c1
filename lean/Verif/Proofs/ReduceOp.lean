import Verif.Spec.ReduceOp
import Verif.Proofs.ReduceLoop
import Verif.Proofs.Tile

/-!
# Proofs about the `reduce` operator: retiring an interval
-/

namespace DD

section
variable {K V T R : Type*} [DecidableEq K] [DecidableEq V] [LE T] [DecidableLE T] [AddCommMonoid R]

theorem accum_ofKey (us : Upds (K × V) T R) (k : K) (v : V) (q : T) : accum (ofKey us k) v q = accum us (k, v) q := by
  induction us with
  | nil => rfl
  | cons u us ih =>
    have : ofKey (u :: us) k = (if u.1.1 = k then [(u.1.2, u.2)] else []) ++ ofKey us k := by
      unfold ofKey
      rw [List.filterMap_cons]
      by_cases h : u.1.1 = k <;> simp [h]
    rw [this, accum_append, accum_cons, ih]
    congr 1
    obtain ⟨⟨k', v'⟩, t, r⟩ := u
    by_cases h : k' = k <;> simp [accum, h]

omit [DecidableEq V] [LE T] [DecidableLE T] [AddCommMonoid R] in
theorem mem_ofKey {us : Upds (K × V) T R} {k : K} {u : V × T × R} : u ∈ ofKey us k ↔ ((k, u.1), u.2) ∈ us := by
  unfold ofKey
  simp only [List.mem_filterMap]
  constructor
  · rintro ⟨⟨⟨k', v⟩, x⟩, h1, h2⟩
    split_ifs at h2 with h
    simp only [Option.some.injEq] at h2
    subst h2
    simp only at h
    subst h
    exact h1
  · intro h
    exact ⟨_, h, by simp⟩

omit [DecidableEq V] [LE T] [DecidableLE T] [AddCommMonoid R] in
theorem ofKey_append (a b : Upds (K × V) T R) (k : K) : ofKey (a ++ b) k = ofKey a k ++ ofKey b k := by simp [ofKey]

end

section
variable {K V T R : Type*} [LinearOrder K]

theorem keyUpds_dropWhile (t : Contents K V T R) {key k : K} (h : key ≤ k) : keyUpds (t.dropWhile fun kv => decide (kv.1 < key)) k = keyUpds t k := by
  induction t with
  | nil => rfl
  | cons kv t ih =>
    by_cases hlt : kv.1 < key
    · rw [List.dropWhile_cons_of_pos (by simpa using hlt), ih]
      simp [keyUpds, (hlt.trans_le h).ne]
    · rw [List.dropWhile_cons_of_neg (by simpa using hlt)]

theorem keyUpds_nil_of_not_mem {t : Contents K V T R} {k : K} (h : ∀ b ∈ t, b.1 ≠ k) : keyUpds t k = [] := by
  unfold keyUpds
  rw [List.flatMap_eq_nil_iff]
  intro x hx
  rw [if_neg (h x hx)]

/-- The pending times of a key. -/
def timesOf (P : List (K × T)) (k : K) : List T := P.filterMap fun p => if p.1 = k then some p.2 else none

theorem mem_timesOf {P : List (K × T)} {k : K} {t : T} : t ∈ timesOf P k ↔ (k, t) ∈ P := by
  unfold timesOf
  simp only [List.mem_filterMap]
  constructor
  · rintro ⟨⟨k', x⟩, h1, h2⟩
    split_ifs at h2 with h
    simp only [Option.some.injEq] at h2
    subst h2
    simp only at h
    subst h
    exact h1
  · intro h
    exact ⟨_, h, by simp⟩

end

section
variable {V T R : Type*} [LinearOrder V] [LE T] [DecidableEq T] [AddCommMonoid R]

theorem SeedMeet.congr {batch : Upds V T R} {a b : List T} {m : T} (h : ∀ x, x ∈ a ↔ x ∈ b) (hm : SeedMeet batch a m) : SeedMeet batch b m := by
  refine ⟨hm.upds, fun s hs => hm.pending s ((h s).2 hs), fun x hx => hm.greatest x fun s hs => hx s ?_, hm.some.imp id ?_⟩
  · rcases List.mem_append.1 hs with hs | hs
    · exact List.mem_append_left _ hs
    · exact List.mem_append_right _ ((h s).1 hs)
  · rintro h1 rfl
    obtain ⟨p, hp⟩ := List.exists_mem_of_ne_nil _ h1
    exact absurd ((h p).1 hp) (by simp)

end

/-! ### Sealing -/

section
variable {K V T R : Type*} [Lattice T] [OrderBot T] [DecidableLE T] [DecidableEq T]

theorem sealLoop_spec {upper : List T} (hu : IsAntichainList upper) :
    ∀ (held lo : List T) (bs : List (Upds (K × V) T R)), IsAntichainList lo → FrontierLe lo upper → (∀ h ∈ held, Beyond lo h) → (held = [] → lo.Perm upper) →
      bs.length = held.length →
      (∀ (i : Nat) (b : Upds (K × V) T R), bs[i]? = some b → ∀ u ∈ b, Beyond lo u.2.1 ∧ ¬ Beyond upper u.2.1 ∧ outputIndex held u.2.1 = some i) →
      DescsTile lo ((sealLoop upper lo held bs).map fun x => x.2.desc) upper ∧
      (sealLoop upper lo held bs).flatMap (fun x => x.2.upds) = bs.flatten ∧
      (∀ x ∈ sealLoop upper lo held bs, x.1 ∈ held ∧ x.2.desc.since = [⊥] ∧ IsAntichainList x.2.desc.lower ∧ IsAntichainList x.2.desc.upper ∧
        ∀ u ∈ x.2.upds, x.2.desc.Covers u.2.1 ∧ x.1 ≤ u.2.1) := by
  intro held
  induction held with
  | nil =>
    intro lo bs _ _ _ hp hlen _
    have : bs = [] := by simpa using hlen
    subst this
    exact ⟨by simpa [sealLoop, DescsTile] using hp rfl, by simp [sealLoop], by simp [sealLoop]⟩
  | cons h rest ih =>
    intro lo bs hlo hle hb _ hlen hfile
    cases bs with
    | nil => simp at hlen
    | cons b bs =>
      have hanti : IsAntichainList (acExtend upper rest) := isAntichain_acExtend _ _ hu
      have hloOut : FrontierLe lo (acExtend upper rest) := by
        intro q hq
        rcases (beyond_acExtend _ _ _).1 hq with hq | ⟨r, hr, hrq⟩
        · exact hle q hq
        · exact beyond_mono (hb r (by simp [hr])) hrq
      have h0 : ∀ u ∈ b, Beyond lo u.2.1 ∧ ¬ Beyond (acExtend upper rest) u.2.1 ∧ h ≤ u.2.1 := by
        intro u hu'
        obtain ⟨a1, a2, a3⟩ := hfile 0 b rfl u hu'
        rw [outputIndex_cons] at a3
        cases hr : outputIndex rest u.2.1 with
        | some k => rw [hr] at a3; simp at a3
        | none =>
          rw [hr] at a3
          simp only at a3
          split_ifs at a3 with hh
          refine ⟨a1, fun hc => ?_, hh⟩
          rcases (beyond_acExtend _ _ _).1 hc with hc | hc
          · exact a2 hc
          · exact outputIndex_eq_none.1 hr hc
      have hs : ∀ (i : Nat) (b : Upds (K × V) T R), bs[i]? = some b → ∀ u ∈ b, Beyond lo u.2.1 ∧ ¬ Beyond upper u.2.1 ∧ outputIndex rest u.2.1 = some i := by
        intro i b' hi u hu'
        obtain ⟨a1, a2, a3⟩ := hfile (i + 1) b' (by simpa using hi) u hu'
        rw [outputIndex_cons] at a3
        cases hr : outputIndex rest u.2.1 with
        | some k =>
          rw [hr] at a3
          simp only [Option.some.injEq, Nat.add_right_cancel_iff] at a3
          exact ⟨a1, a2, by rw [a3]⟩
        | none =>
          rw [hr] at a3
          simp only at a3
          split_ifs at a3
          simp at a3
      rw [sealLoop]
      by_cases he : acEq (acExtend upper rest) lo = true
      · simp only [he, if_true]
        have hperm := perm_of_acEq he (nodup_of_isAntichain hanti)
        have hb0 : b = [] := by
          rw [List.eq_nil_iff_forall_not_mem]
          intro u hu'
          exact (h0 u hu').2.1 ((beyond_perm hperm _).2 (h0 u hu').1)
        obtain ⟨a1, a2, a3⟩ := ih lo bs hlo hle (fun r hr => hb r (by simp [hr])) (by rintro rfl; exact hperm.symm) (by simpa using hlen) hs
        exact ⟨a1, by rw [a2, hb0]; rfl, fun x hx => ⟨List.mem_cons_of_mem _ (a3 x hx).1, (a3 x hx).2⟩⟩
      · simp only [he, Bool.false_eq_true, if_false]
        obtain ⟨a1, a2, a3⟩ := ih (acExtend upper rest) bs hanti (fun q hq => (beyond_acExtend _ _ _).2 (Or.inl hq))
          (fun r hr => (beyond_acExtend _ _ _).2 (Or.inr ⟨r, hr, le_refl _⟩)) (by rintro rfl; exact List.Perm.refl _) (by simpa using hlen) (by
            intro i b' hi u hu'
            obtain ⟨c1, c2, c3⟩ := hs i b' hi u hu'
            refine ⟨(beyond_acExtend _ _ _).2 (Or.inr ?_), c2, c3⟩
            by_contra hc
            rw [outputIndex_eq_none.2 hc] at c3
            cases c3)
        refine ⟨⟨List.Perm.refl _, hloOut, fun hp => he (acEq_of_perm hp.symm), a1⟩, by simp [a2], ?_⟩
        intro x hx
        rcases List.mem_cons.1 hx with rfl | hx
        · exact ⟨List.mem_cons_self .., rfl, hlo, hanti, fun u hu' => ⟨⟨(h0 u hu').1, (h0 u hu').2.1⟩, (h0 u hu').2.2⟩⟩
        · exact ⟨List.mem_cons_of_mem _ (a3 x hx).1, (a3 x hx).2⟩

end

/-! ### The loop over keys -/

section
variable {K V1 V2 T R1 R2 : Type*} [Lattice T] [DecidableLE T] [DecidableEq T] [TimeOrd T] [LinearOrder K] [LinearOrder V1] [LinearOrder V2]
  [AddCommMonoid R1] [DecidableEq R1] [AddCancelCommMonoid R2] [DecidableEq R2]

/-- The history is heeded as far as `t` is concerned. -/
def HeedAt (upper : List T) (src : Contents K V1 T R1) (out : Contents K V2 T R2) (B : Contents K V1 T R1) (P : List (K × T)) (k : K) (t : T) : Prop :=
  ∀ w ∈ updTimes (keyUpds src k) ++ updTimes (keyUpds out k), ∀ m, SeedMeet (keyUpds B k) ((timesOf P k).filter fun t => !lessEqual upper t) m →
    w ⊔ m ≤ t → Beyond upper (w ⊔ m) →
    (∃ p ∈ (timesOf P k).filter (fun t => !lessEqual upper t), p ≤ w ⊔ m) ∨ ∃ v, accum (keyUpds B k) v (w ⊔ m) ≠ 0

/-- The key is one of those the loop goes over. -/
def Touched (P : List (K × T)) (B : Contents K V1 T R1) (k : K) : Prop := (∃ p ∈ P, p.1 = k) ∨ ∃ b ∈ B, b.1 = k

/-- What the loop makes. -/
structure RetireRes (f : K → List (V1 × R1) → List (V2 × R2)) (lower upper held : List T) (P : List (K × T)) (B src : Contents K V1 T R1) (out : Contents K V2 T R2)
    (nx : List (K × T)) (bs : List (Upds (K × V2) T R2)) : Prop where
  len : bs.length = held.length
  sorted : nx.Pairwise fun x y => x.1 ≤ y.1
  keys : ∀ x ∈ nx, Touched P B x.1
  pend : ∀ x ∈ nx, Beyond upper x.2 ∧ Beyond lower x.2 ∧ Beyond held x.2
  filed : ∀ (i : Nat) (b : Upds (K × V2) T R2), bs[i]? = some b → ∀ u ∈ b, Beyond lower u.2.1 ∧ ¬ Beyond upper u.2.1 ∧ outputIndex held u.2.1 = some i
  bkeys : ∀ b ∈ bs, ∀ u ∈ b, Touched P B u.1.1
  bsort : ∀ b ∈ bs, b.Pairwise fun x y => x.1.1 < y.1.1 ∨ (x.1.1 = y.1.1 ∧ x.1.2 ≤ y.1.2)
  right : ∀ k, Touched P B k → ∀ t, Beyond lower t → (∀ p, (k, p) ∈ nx → ¬ p ≤ t) → HeedAt upper src out B P k t →
    ReducedAt (f k) (keyUpds src k ++ keyUpds B k) (keyUpds out k ++ ofKey bs.flatten k) t

omit [Lattice T] [DecidableLE T] [DecidableEq T] [TimeOrd T] [LinearOrder K] [LinearOrder V2] [AddCancelCommMonoid R2] [DecidableEq R2] in
theorem zipWith_blocks (g : T × Upds V2 T R2 → Upds (K × V2) T R2) : ∀ (a : List (Upds (K × V2) T R2)) (outs : List (T × Upds V2 T R2)) (bs : List (Upds (K × V2) T R2)),
    List.zipWith (· ++ ·) (List.zipWith (fun b o => b ++ g o) a outs) bs = List.zipWith (· ++ ·) a (List.zipWith (· ++ ·) (outs.map g) bs)
  | [], _, _ => by simp
  | _ :: _, [], _ => by simp
  | _ :: _, _ :: _, [] => by simp
  | x :: a, o :: outs, b :: bs => by simp [zipWith_blocks g a outs bs]

omit [DecidableEq T] [TimeOrd T] [DecidableEq R2] in
theorem accum_zipWith (d : K × V2) (q : T) : ∀ (a b : List (Upds (K × V2) T R2)), a.length = b.length →
    accum (List.zipWith (· ++ ·) a b).flatten d q = accum a.flatten d q + accum b.flatten d q
  | [], [], _ => by simp [accum]
  | x :: a, y :: b, h => by
    have := accum_zipWith d q a b (by simpa using h)
    simp only [List.zipWith_cons_cons, List.flatten_cons, accum_append, this]
    abel

theorem reducedAt_ofKey {f : List (V1 × R1) → List (V2 × R2)} {i : Upds V1 T R1} {o : Upds V2 T R2} {bs : Upds (K × V2) T R2} {bs' : Upds V2 T R2} {k : K} {t : T}
    (h : ∀ v, accum bs' v t = accum bs (k, v) t) (hr : ReducedAt f i (o ++ bs') t) : ReducedAt f i (o ++ ofKey bs k) t := by
  refine reducedAt_congr (fun _ => rfl) (fun v => ?_) hr
  rw [accum_append, accum_append, h, accum_ofKey]


omit [Lattice T] [DecidableLE T] [DecidableEq T] [TimeOrd T] in
theorem mem_takeWhile_key {key : K} : ∀ {P : List (K × T)}, P.Pairwise (fun x y => x.1 ≤ y.1) → (∀ p ∈ P, key ≤ p.1) →
    ∀ p, (p ∈ P.takeWhile (fun p => decide (p.1 = key)) ↔ p ∈ P ∧ p.1 = key) ∧ (p ∈ P.dropWhile (fun p => decide (p.1 = key)) ↔ p ∈ P ∧ p.1 ≠ key)
  | [], _, _, p => by simp
  | a :: P, hp, hk, p => by
    obtain ⟨h1, h2⟩ := List.pairwise_cons.1 hp
    by_cases ha : a.1 = key
    · have ih := mem_takeWhile_key h2 (fun p hp => hk p (List.mem_cons_of_mem _ hp)) p
      rw [List.takeWhile_cons_of_pos (by simpa using ha), List.dropWhile_cons_of_pos (by simpa using ha), List.mem_cons, List.mem_cons, ih.1, ih.2]
      constructor
      · constructor
        · rintro (rfl | h)
          · exact ⟨Or.inl rfl, ha⟩
          · exact ⟨Or.inr h.1, h.2⟩
        · rintro ⟨rfl | h, h'⟩
          · exact Or.inl rfl
          · exact Or.inr ⟨h, h'⟩
      · constructor
        · rintro ⟨h, h'⟩
          exact ⟨Or.inr h, h'⟩
        · rintro ⟨rfl | h, h'⟩
          · exact absurd ha h'
          · exact ⟨h, h'⟩
    · rw [List.takeWhile_cons_of_neg (by simpa using ha), List.dropWhile_cons_of_neg (by simpa using ha)]
      have hlt : key < a.1 := lt_of_le_of_ne (hk a (List.mem_cons_self ..)) (Ne.symm ha)
      have hall : ∀ p ∈ a :: P, p.1 ≠ key := by
        intro p hp
        rcases List.mem_cons.1 hp with rfl | hp
        · exact ha
        · exact (hlt.trans_le (h1 p hp)).ne'
      constructor
      · simp only [List.not_mem_nil, false_iff]
        rintro ⟨h, h'⟩
        exact hall p h h'
      · exact ⟨fun h => ⟨h, hall p h⟩, fun h => h.1⟩

omit [Lattice T] [DecidableLE T] [DecidableEq T] [TimeOrd T] [AddCommMonoid R1] [DecidableEq R1] [LinearOrder V1] in
/-- The key the loop takes next. -/
theorem nextKey_spec (P : List (K × T)) (B : Contents K V1 T R1) (hP : P.Pairwise fun x y => x.1 ≤ y.1) (hB : B.Pairwise fun x y => x.1 < y.1) :
    (match P.head?, B.head? with
      | some p, some b => some (min p.1 b.1)
      | some p, none => some p.1
      | none, some b => some b.1
      | none, none => none) = none ∧ P = [] ∧ B = [] ∨
    ∃ key, (match P.head?, B.head? with
      | some p, some b => some (min p.1 b.1)
      | some p, none => some p.1
      | none, some b => some b.1
      | none, none => none) = some key ∧ (∀ p ∈ P, key ≤ p.1) ∧ (∀ b ∈ B, key ≤ b.1) ∧
        ((∃ p P', P = p :: P' ∧ p.1 = key) ∨ ∃ b B', B = b :: B' ∧ b.1 = key) := by
  cases P with
  | nil =>
    cases B with
    | nil => exact Or.inl ⟨rfl, rfl, rfl⟩
    | cons b B =>
      refine Or.inr ⟨b.1, rfl, by simp, ?_, Or.inr ⟨b, B, rfl, rfl⟩⟩
      intro x hx
      rcases List.mem_cons.1 hx with rfl | hx
      · exact le_refl _
      · exact ((List.pairwise_cons.1 hB).1 x hx).le
  | cons p P =>
    have hp : ∀ x ∈ p :: P, p.1 ≤ x.1 := by
      intro x hx
      rcases List.mem_cons.1 hx with rfl | hx
      · exact le_refl _
      · exact (List.pairwise_cons.1 hP).1 x hx
    cases B with
    | nil => exact Or.inr ⟨p.1, rfl, hp, by simp, Or.inl ⟨p, P, rfl, rfl⟩⟩
    | cons b B =>
      have hb : ∀ x ∈ b :: B, b.1 ≤ x.1 := by
        intro x hx
        rcases List.mem_cons.1 hx with rfl | hx
        · exact le_refl _
        · exact ((List.pairwise_cons.1 hB).1 x hx).le
      refine Or.inr ⟨min p.1 b.1, rfl, fun x hx => (min_le_left _ _).trans (hp x hx), fun x hx => (min_le_right _ _).trans (hb x hx), ?_⟩
      rcases le_total p.1 b.1 with h | h
      · exact Or.inl ⟨p, P, rfl, (min_eq_left h).symm⟩
      · exact Or.inr ⟨b, B, rfl, (min_eq_right h).symm⟩

/-- The batch cursor after a key: past it if it was at it. -/
theorem batch_after (B : Contents K V1 T R1) (key : K) (hB : ContentsSorted B) (hk : ∀ b ∈ B, key ≤ b.1) :
    let B' := if B.head?.map (·.1) = some key then B.tail else B
    ContentsSorted B' ∧ (∀ b ∈ B', b ∈ B ∧ b.1 ≠ key) ∧ (∀ b ∈ B, b.1 ≠ key → b ∈ B') ∧ (∀ k, k ≠ key → keyUpds B' k = keyUpds B k) ∧
      (B.head?.map (·.1) ≠ some key → keyUpds B key = [] ∧ ∀ b ∈ B, b.1 ≠ key) := by
  intro B'
  cases B with
  | nil => exact ⟨by simpa [B'] using hB, by simp [B'], by simp [B'], by simp [B'], by simp [keyUpds]⟩
  | cons b B =>
    obtain ⟨hp, hv⟩ := hB
    obtain ⟨h1, h2⟩ := List.pairwise_cons.1 hp
    by_cases hb : b.1 = key
    · have e : B' = B := by simp [B', hb]
      rw [e]
      refine ⟨⟨h2, fun x hx => hv x (List.mem_cons_of_mem _ hx)⟩, fun x hx => ⟨List.mem_cons_of_mem _ hx, (hb ▸ h1 x hx).ne'⟩, ?_, ?_, ?_⟩
      · intro x hx hne
        rcases List.mem_cons.1 hx with rfl | hx
        · exact absurd hb hne
        · exact hx
      · intro k hne
        simp [keyUpds, hb, hne.symm]
      · intro h; simp [hb] at h
    · have e : B' = b :: B := by simp [B', hb]
      rw [e]
      have hall : ∀ x ∈ b :: B, x.1 ≠ key := by
        have hlt : key < b.1 := lt_of_le_of_ne (hk b (List.mem_cons_self ..)) (Ne.symm hb)
        intro x hx
        rcases List.mem_cons.1 hx with rfl | hx
        · exact hb
        · exact (hlt.trans (h1 x hx)).ne'
      exact ⟨⟨hp, hv⟩, fun x hx => ⟨hx, hall x hx⟩, fun x hx _ => hx, fun _ _ => rfl, fun _ => ⟨keyUpds_nil_of_not_mem hall, hall⟩⟩

omit [Lattice T] [DecidableLE T] [DecidableEq T] [TimeOrd T] [LinearOrder K] [LinearOrder V2] [AddCancelCommMonoid R2] [DecidableEq R2] in
theorem zipWith_nils : ∀ (a : List (Upds (K × V2) T R2)) (held : List T), a.length = held.length → List.zipWith (· ++ ·) a (held.map fun _ => []) = a
  | [], _, _ => by simp
  | x :: a, h :: held, e => by
    have := zipWith_nils a held (by simpa using e)
    simp only [List.map_cons, List.zipWith_cons_cons, List.append_nil, this]

omit [Lattice T] [DecidableLE T] [DecidableEq T] [TimeOrd T] in
theorem timesOf_append (P Q : List (K × T)) (k : K) : timesOf (P ++ Q) k = timesOf P k ++ timesOf Q k := by simp [timesOf]

omit [Lattice T] [DecidableLE T] [DecidableEq T] [TimeOrd T] in
theorem timesOf_eq_nil {P : List (K × T)} {k : K} (h : ∀ p ∈ P, p.1 ≠ k) : timesOf P k = [] := by
  rw [List.eq_nil_iff_forall_not_mem]
  intro t ht
  exact h _ (mem_timesOf.1 ht) rfl

omit [Lattice T] [DecidableLE T] [DecidableEq T] [TimeOrd T] [LinearOrder K] [LinearOrder V2] [AddCancelCommMonoid R2] [DecidableEq R2] in
theorem getElem?_zipWith_append {a b : List (Upds (K × V2) T R2)} {i : Nat} {x : Upds (K × V2) T R2} (h : (List.zipWith (· ++ ·) a b)[i]? = some x) :
    ∃ y z, a[i]? = some y ∧ b[i]? = some z ∧ x = y ++ z := by
  rw [List.getElem?_zipWith] at h
  cases ha : a[i]? with
  | none => simp [ha] at h
  | some y =>
    cases hb : b[i]? with
    | none => simp [ha, hb] at h
    | some z =>
      simp only [ha, hb, Option.some.injEq] at h
      exact ⟨y, z, rfl, rfl, h.symm⟩

/-- Prepending what is made for a key that is before the others. -/
theorem RetireRes.cons {f : K → List (V1 × R1) → List (V2 × R2)} {lower upper held : List T} {P P' : List (K × T)} {B B' src src' : Contents K V1 T R1}
    {out out' : Contents K V2 T R2} {nx nx0 : List (K × T)} {bs bs0 : List (Upds (K × V2) T R2)} {key : K}
    (hres : RetireRes f lower upper held P' B' src' out' nx bs)
    (hP : ∀ k, k ≠ key → timesOf P' k = timesOf P k) (hB : ∀ k, k ≠ key → keyUpds B' k = keyUpds B k)
    (hT : ∀ k, Touched P' B' k → Touched P B k ∧ key < k) (hT' : ∀ k, Touched P B k → k ≠ key → Touched P' B' k) (hkey : Touched P B key)
    (hsrc : ∀ k, key < k → keyUpds src' k = keyUpds src k) (hout : ∀ k, key < k → keyUpds out' k = keyUpds out k)
    (len : bs0.length = held.length) (keys : ∀ x ∈ nx0, x.1 = key)
    (pend : ∀ x ∈ nx0, Beyond upper x.2 ∧ Beyond lower x.2 ∧ Beyond held x.2)
    (filed : ∀ (i : Nat) (b : Upds (K × V2) T R2), bs0[i]? = some b → ∀ u ∈ b, Beyond lower u.2.1 ∧ ¬ Beyond upper u.2.1 ∧ outputIndex held u.2.1 = some i)
    (bkeys : ∀ b ∈ bs0, ∀ u ∈ b, u.1.1 = key)
    (bsort : ∀ b ∈ bs0, b.Pairwise fun x y => x.1.2 ≤ y.1.2)
    (right : ∀ t, Beyond lower t → (∀ p, (key, p) ∈ nx0 → ¬ p ≤ t) → HeedAt upper src out B P key t →
      ReducedAt (f key) (keyUpds src key ++ keyUpds B key) (keyUpds out key ++ ofKey bs0.flatten key) t) :
    RetireRes f lower upper held P B src out (nx0 ++ nx) (List.zipWith (· ++ ·) bs0 bs) := by
  refine ⟨by simp [len, hres.len], ?_, ?_, ?_, ?_, ?_, ?_, ?_⟩
  · rw [List.pairwise_append]
    refine ⟨List.Pairwise.imp_of_mem (fun ha hb _ => (keys _ ha ▸ keys _ hb ▸ le_refl _ : _ ≤ _)) (List.pairwise_of_forall (R := fun _ _ => True) (by simp)), hres.sorted, fun x hx y hy => ?_⟩
    rw [keys x hx]
    exact (hT _ (hres.keys y hy)).2.le
  · intro x hx
    rcases List.mem_append.1 hx with hx | hx
    · rw [keys x hx]; exact hkey
    · exact (hT _ (hres.keys x hx)).1
  · intro x hx
    rcases List.mem_append.1 hx with hx | hx
    · exact pend x hx
    · exact hres.pend x hx
  · intro i b hb u hu
    obtain ⟨y, z, hy, hz, rfl⟩ := getElem?_zipWith_append hb
    rcases List.mem_append.1 hu with hu | hu
    · exact filed i y hy u hu
    · exact hres.filed i z hz u hu
  · intro b hb u hu
    obtain ⟨i, hi⟩ := List.mem_iff_getElem?.1 hb
    obtain ⟨y, z, hy, hz, rfl⟩ := getElem?_zipWith_append hi
    rcases List.mem_append.1 hu with hu | hu
    · rw [bkeys y (List.mem_of_getElem? hy) u hu]; exact hkey
    · exact (hT _ (hres.bkeys z (List.mem_of_getElem? hz) u hu)).1
  · intro b hb
    obtain ⟨i, hi⟩ := List.mem_iff_getElem?.1 hb
    obtain ⟨y, z, hy, hz, rfl⟩ := getElem?_zipWith_append hi
    have hy' := List.mem_of_getElem? hy
    have hz' := List.mem_of_getElem? hz
    rw [List.pairwise_append]
    refine ⟨(bsort y hy').imp_of_mem fun ha hb h => Or.inr ⟨by rw [bkeys y hy' _ ha, bkeys y hy' _ hb], h⟩, hres.bsort z hz', fun u hu w hw => Or.inl ?_⟩
    rw [bkeys y hy' u hu]
    exact (hT _ (hres.bkeys z hz' w hw)).2
  · intro k hk t ht hpt hheed
    have hacc : ∀ v, accum (ofKey (List.zipWith (· ++ ·) bs0 bs).flatten k) v t = accum (ofKey bs0.flatten k) v t + accum (ofKey bs.flatten k) v t := by
      intro v
      rw [accum_ofKey, accum_ofKey, accum_ofKey, accum_zipWith _ _ _ _ (by rw [len, hres.len])]
    by_cases hkk : k = key
    · subst hkk
      have h0 : ofKey bs.flatten k = [] := by
        rw [List.eq_nil_iff_forall_not_mem]
        intro u hu
        obtain ⟨b, hb, hu⟩ := List.mem_flatten.1 (mem_ofKey.1 hu)
        exact lt_irrefl _ (hT _ (hres.bkeys b hb _ hu)).2
      refine reducedAt_congr (fun _ => rfl) (fun v => ?_) (right t ht (fun p hp => hpt p (List.mem_append_left _ hp)) hheed)
      rw [accum_append, accum_append, hacc, h0]
      simp [accum]
    · have hk' := hT' k hk hkk
      have hlt := (hT k hk').2
      have h0 : ofKey bs0.flatten k = [] := by
        rw [List.eq_nil_iff_forall_not_mem]
        intro u hu
        obtain ⟨b, hb, hu⟩ := List.mem_flatten.1 (mem_ofKey.1 hu)
        exact hkk (bkeys b hb _ hu)
      have := hres.right k hk' t ht (fun p hp => hpt p (List.mem_append_right _ hp)) (by
        unfold HeedAt
        rw [hsrc k hlt, hout k hlt, hB k hkk, hP k hkk]
        exact hheed)
      rw [hsrc k hlt, hout k hlt, hB k hkk] at this
      refine reducedAt_congr (fun _ => rfl) (fun v => ?_) this
      rw [accum_append, accum_append, hacc, h0]
      simp [accum]

/-- A buffer as pushed into a builder. -/
def blockOf (key : K) (o : T × Upds V2 T R2) : Upds (K × V2) T R2 := (o.2.insertionSort fun x y => x.1 ≤ y.1).map fun u => ((key, u.1), u.2)

omit [Lattice T] [DecidableLE T] [DecidableEq T] [TimeOrd T] [AddCancelCommMonoid R2] [DecidableEq R2] in
theorem mem_blockOf {key : K} {o : T × Upds V2 T R2} {u : (K × V2) × T × R2} : u ∈ blockOf key o ↔ u.1.1 = key ∧ (u.1.2, u.2) ∈ o.2 := by
  unfold blockOf
  simp only [List.mem_map, List.mem_insertionSort]
  constructor
  · rintro ⟨w, hw, rfl⟩; exact ⟨rfl, hw⟩
  · rintro ⟨rfl, h⟩; exact ⟨_, h, rfl⟩

omit [DecidableEq T] [TimeOrd T] [DecidableEq R2] in
theorem accum_blockOf (key : K) (v : V2) (t : T) (o : T × Upds V2 T R2) : accum (blockOf key o) (key, v) t = accum o.2 v t := by
  rw [← accum_perm (List.perm_insertionSort (fun x y => x.1 ≤ y.1) o.2)]
  unfold blockOf
  induction o.2.insertionSort (fun x y => x.1 ≤ y.1) with
  | nil => rfl
  | cons u us ih =>
    rw [List.map_cons, accum_cons, accum_cons, ih]
    simp [Prod.ext_iff]

omit [DecidableEq T] [TimeOrd T] [DecidableEq R2] in
theorem accum_blocks (key : K) (v : V2) (t : T) : ∀ outs : List (T × Upds V2 T R2), accum (outs.flatMap (·.2)) v t = accum (outs.map (blockOf key)).flatten (key, v) t
  | [] => by simp [accum]
  | o :: outs => by rw [List.flatMap_cons, List.map_cons, List.flatten_cons, accum_append, accum_append, accum_blockOf, accum_blocks key v t outs]

theorem retireLoop_succ (fuel : Nat) (logic : K → List (V1 × R1) → List (V2 × R2) → List (V2 × R2)) (upper held : List T) (n : Nat) (pending : List (K × T))
    (batch : Contents K V1 T R1) (st : RetireState K V1 V2 T R1 R2) (key : K)
    (hk : (match pending.head?, batch.head? with
      | some p, some b => some (min p.1 b.1)
      | some p, none => some p.1
      | none, some b => some b.1
      | none, none => none) = some key) :
    retireLoop fuel logic upper held (n + 1) pending batch st =
      if batch.head?.map (·.1) = some key ∨ sortDedup (((pending.takeWhile fun p => p.1 = key).map (·.2)).filter fun t => !lessEqual upper t) ≠ [] then
        match reduceKey fuel key st.source st.output batch (sortDedup (((pending.takeWhile fun p => p.1 = key).map (·.2)).filter fun t => !lessEqual upper t)) (logic key) upper held with
        | none => none
        | some (outs, new) =>
          retireLoop fuel logic upper held n (pending.dropWhile fun p => p.1 = key) (if batch.head?.map (·.1) = some key then batch.tail else batch)
            { source := st.source.dropWhile fun kv => kv.1 < key
              output := st.output.dropWhile fun kv => kv.1 < key
              next := st.next ++ (sortDedup (new ++ ((pending.takeWhile fun p => p.1 = key).map (·.2)).filter fun t => lessEqual upper t)).map fun t => (key, t)
              builders := List.zipWith (fun b o => b ++ blockOf key o) st.builders outs }
      else retireLoop fuel logic upper held n (pending.dropWhile fun p => p.1 = key) batch { st with next := st.next ++ pending.takeWhile fun p => p.1 = key } := by
  rw [retireLoop]
  revert hk
  generalize pending.head? = a
  generalize batch.head? = b
  intro hk
  cases a <;> cases b
  · simp at hk
  all_goals
    obtain rfl := Option.some.inj hk
    rfl

theorem retireLoop_spec {f : K → List (V1 × R1) → List (V2 × R2)} {logic : K → List (V1 × R1) → List (V2 × R2) → List (V2 × R2)}
    (hl : ∀ k, ReducesBy (f k) (logic k)) (lower upper held : List T) :
    ∀ (n : Nat) (P : List (K × T)) (B : Contents K V1 T R1) (st : RetireState K V1 V2 T R1 R2), P.length + B.length ≤ n →
      (P.Pairwise fun x y => x.1 ≤ y.1) → ContentsSorted B → (st.source.Pairwise fun x y => x.1 < y.1) → (st.output.Pairwise fun x y => x.1 < y.1) →
      st.builders.length = held.length → (∀ p ∈ P, Beyond lower p.2 ∧ Beyond held p.2) →
      (∀ k, ∀ s ∈ updTimes (keyUpds B k), Beyond lower s ∧ ¬ Beyond upper s ∧ Beyond held s) →
      (∀ k, Touched P B k → ∀ q, Beyond lower q → (∀ p, (k, p) ∈ P → ¬ p ≤ q) → ReducedAt (f k) (keyUpds st.source k) (keyUpds st.output k) q) →
      ∃ N nx bs, RetireRes f lower upper held P B st.source st.output nx bs ∧ ∀ fuel, N ≤ fuel →
        ∃ st', retireLoop fuel logic upper held n P B st = some st' ∧ st'.next = st.next ++ nx ∧ st'.builders = List.zipWith (· ++ ·) st.builders bs := by
  intro n
  induction n with
  | zero =>
    intro P B st hn _ _ _ _ hlen _ _ _
    have hP : P = [] := List.eq_nil_of_length_eq_zero (by omega)
    have hB : B = [] := List.eq_nil_of_length_eq_zero (by omega)
    subst hP hB
    refine ⟨0, [], held.map fun _ => [], ⟨by simp, by simp, by simp, by simp, ?_, by simp, by simp, by simp [Touched]⟩, fun fuel _ => ⟨st, by simp [retireLoop], by simp, ?_⟩⟩
    · intro i b hb u hu
      have := List.mem_of_getElem? hb
      simp only [List.mem_map] at this
      obtain ⟨_, _, rfl⟩ := this
      simp at hu
    · exact (zipWith_nils _ _ hlen).symm
  | succ n ih =>
    intro P B st hn hPs hBs hsrc hout hlen hP hB hstart
    rcases nextKey_spec P B hPs hBs.keys with ⟨hk, rfl, rfl⟩ | ⟨key, hk, hPk, hBk, hwho⟩
    · refine ⟨0, [], held.map fun _ => [], ⟨by simp, by simp, by simp, by simp, ?_, by simp, by simp, by simp [Touched]⟩, fun fuel _ => ⟨st, by simp [retireLoop], by simp, ?_⟩⟩
      · intro i b hb u hu
        have := List.mem_of_getElem? hb
        simp only [List.mem_map] at this
        obtain ⟨_, _, rfl⟩ := this
        simp at hu
      · exact (zipWith_nils _ _ hlen).symm
    · have hmem := mem_takeWhile_key hPs hPk
      obtain ⟨b1, b2, b3, b4, b5⟩ := batch_after B key hBs hBk
      set mine := P.takeWhile fun p => decide (p.1 = key) with hmine
      set P' := P.dropWhile fun p => decide (p.1 = key) with hP'
      have hPeq : P = mine ++ P' := (List.takeWhile_append_dropWhile).symm
      have hPs' : P'.Pairwise fun x y => x.1 ≤ y.1 := hPs.sublist (List.dropWhile_sublist _)
      have hkeyT : Touched P B key := by
        rcases hwho with ⟨p, P1, rfl, h⟩ | ⟨b, B1, rfl, h⟩
        · exact Or.inl ⟨p, List.mem_cons_self .., h⟩
        · exact Or.inr ⟨b, List.mem_cons_self .., h⟩
      have hTk : ∀ k, k ≠ key → timesOf P' k = timesOf P k := by
        intro k hne
        have h0 : timesOf mine k = [] := timesOf_eq_nil fun p hp => by rw [((hmem p).1.1 hp).2]; exact hne.symm
        rw [hPeq, timesOf_append, h0, List.nil_append]
      have hTimes : ∀ t, t ∈ mine.map (·.2) ↔ (key, t) ∈ P := by
        intro t
        simp only [List.mem_map]
        constructor
        · rintro ⟨⟨k, x⟩, hp, rfl⟩
          obtain ⟨h1, h2⟩ := (hmem _).1.1 hp
          simp only at h2
          rw [← h2]; exact h1
        · intro h
          exact ⟨_, (hmem _).1.2 ⟨h, rfl⟩, rfl⟩
      set times := sortDedup ((mine.map (·.2)).filter fun t => !lessEqual upper t) with htimes
      have hmt : ∀ t, t ∈ times ↔ (key, t) ∈ P ∧ ¬ Beyond upper t := by
        intro t
        rw [htimes, mem_sortDedup, List.mem_filter, hTimes]
        simp [← lessEqual_iff]
      have hmt' : ∀ t, t ∈ times ↔ t ∈ (timesOf P key).filter fun t => !lessEqual upper t := by
        intro t
        rw [hmt, List.mem_filter, mem_timesOf]
        simp [← lessEqual_iff]
      by_cases hc : B.head?.map (·.1) = some key ∨ times ≠ []
      · set B' := if B.head?.map (·.1) = some key then B.tail else B with hB'
        set later := (mine.map (·.2)).filter fun t => lessEqual upper t with hlater
        have hml : ∀ t, t ∈ later ↔ (key, t) ∈ P ∧ Beyond upper t := by
          intro t
          rw [hlater, List.mem_filter, hTimes, lessEqual_iff]
        have hseed : ∀ s ∈ updTimes (keyUpds B key) ++ times, Beyond lower s ∧ ¬ Beyond upper s ∧ Beyond held s := by
          intro s hs
          rcases List.mem_append.1 hs with hs | hs
          · exact hB key s hs
          · obtain ⟨h1, h2⟩ := (hmt s).1 hs
            exact ⟨(hP _ h1).1, h2, (hP _ h1).2⟩
        obtain ⟨outs, pend, N0, r1, r2, r3, r4, r5, r6⟩ := reduceKey_spec (hl key) key st.source st.output B times later lower upper held hsrc hout hBs
          ((sortDedup_sorted _).imp le_of_lt) hseed (by
            intro q hq hp
            refine hstart key hkeyT q hq fun p hp' => hp p ?_
            by_cases hb : Beyond upper p
            · exact List.mem_append_right _ ((hml p).2 ⟨hp', hb⟩)
            · exact List.mem_append_left _ ((hmt p).2 ⟨hp', hb⟩))
        have hlo : outs.length = held.length := by rw [← r2]; simp
        have hlt : ∀ k, Touched P' B' k → Touched P B k ∧ key < k := by
          rintro k (⟨p, hp, rfl⟩ | ⟨b, hb, rfl⟩)
          · obtain ⟨h1, h2⟩ := (hmem p).2.1 hp
            exact ⟨Or.inl ⟨p, h1, rfl⟩, lt_of_le_of_ne (hPk p h1) h2.symm⟩
          · obtain ⟨h1, h2⟩ := b2 b hb
            exact ⟨Or.inr ⟨b, h1, rfl⟩, lt_of_le_of_ne (hBk b h1) h2.symm⟩
        obtain ⟨N1, nx, bs, hres, hrun⟩ := ih P' B'
          { source := st.source.dropWhile fun kv => kv.1 < key
            output := st.output.dropWhile fun kv => kv.1 < key
            next := st.next ++ (sortDedup (pend ++ later)).map fun t => (key, t)
            builders := List.zipWith (fun b o => b ++ blockOf key o) st.builders outs } (by
              have e : P.length = mine.length + P'.length := by rw [← List.length_append, ← hPeq]
              rcases hwho with ⟨p, P1, rfl, h⟩ | ⟨b, B1, rfl, h⟩
              · have : 0 < mine.length := by
                  rw [hmine, List.takeWhile_cons_of_pos (by simpa using h)]
                  simp
                have : B'.length ≤ B.length := by
                  rw [hB']; split_ifs <;> simp
                omega
              · have : B'.length = B1.length := by
                  rw [hB', if_pos (by simpa using h)]; rfl
                simp only [List.length_cons] at hn
                omega) hPs' b1 (hsrc.sublist (List.dropWhile_sublist _)) (hout.sublist (List.dropWhile_sublist _)) (by simp [hlen, hlo])
          (fun p hp => hP p ((hmem p).2.1 hp).1) (by
            intro k s hs
            by_cases hkk : k = key
            · rw [hkk, keyUpds_nil_of_not_mem (fun b hb => (b2 b hb).2)] at hs
              simp [updTimes] at hs
            · rw [b4 k hkk] at hs
              exact hB k s hs) (by
            intro k hk' q hq hp
            obtain ⟨h1, h2⟩ := hlt k hk'
            rw [keyUpds_dropWhile _ h2.le, keyUpds_dropWhile _ h2.le]
            exact hstart k h1 q hq fun p hp' => hp p ((hmem _).2.2 ⟨hp', h2.ne'⟩))
        refine ⟨max N0 N1, ((sortDedup (pend ++ later)).map fun t => (key, t)) ++ nx, List.zipWith (· ++ ·) (outs.map (blockOf key)) bs, ?_, ?_⟩
        · refine hres.cons (key := key) hTk b4 hlt ?_ hkeyT (fun k h => keyUpds_dropWhile _ h.le) (fun k h => keyUpds_dropWhile _ h.le) (by simp [hlo]) ?_ ?_ ?_ ?_ ?_ ?_
          · rintro k (⟨p, hp, rfl⟩ | ⟨b, hb, rfl⟩) hne
            · exact Or.inl ⟨p, (hmem p).2.2 ⟨hp, hne⟩, rfl⟩
            · exact Or.inr ⟨b, b3 b hb hne, rfl⟩
          · intro x hx
            obtain ⟨t, _, rfl⟩ := List.mem_map.1 hx
            rfl
          · intro x hx
            obtain ⟨t, ht, rfl⟩ := List.mem_map.1 hx
            rw [mem_sortDedup, List.mem_append] at ht
            rcases ht with ht | ht
            · obtain ⟨h1, s, hs, hst⟩ := r5 t ht
              obtain ⟨c1, c2, c3⟩ := hseed s hs
              exact ⟨h1, beyond_mono c1 hst, beyond_mono c3 hst⟩
            · obtain ⟨h1, h2⟩ := (hml t).1 ht
              exact ⟨h2, hP _ h1⟩
          · intro i b hb u hu
            rw [List.getElem?_map] at hb
            obtain ⟨o, ho, rfl⟩ := Option.map_eq_some_iff.1 hb
            obtain ⟨e1, e2, s, hs, hst⟩ := r3 i o ho _ (mem_blockOf.1 hu).2
            exact ⟨beyond_mono (hseed s hs).1 hst, e2, e1⟩
          · intro b hb u hu
            obtain ⟨o, _, rfl⟩ := List.mem_map.1 hb
            exact (mem_blockOf.1 hu).1
          · intro b hb
            obtain ⟨o, _, rfl⟩ := List.mem_map.1 hb
            unfold blockOf
            rw [List.pairwise_map]
            exact List.pairwise_insertionSort (fun x y : V2 × T × R2 => x.1 ≤ y.1) o.2
          · intro t ht hp hheed
            refine reducedAt_ofKey (fun v => accum_blocks key v t outs) (r6 t ht ?_ ?_)
            · intro p hp'
              refine hp p (List.mem_map.2 ⟨p, ?_, rfl⟩)
              rw [mem_sortDedup]
              exact hp'
            · intro w hw m hm h1 h2
              rcases hheed w hw m (hm.congr hmt') h1 h2 with ⟨p, hp1, hp2⟩ | h
              · exact Or.inl ⟨p, (hmt' p).2 hp1, hp2⟩
              · exact Or.inr h
        · intro fuel hfuel
          obtain ⟨st', c1, c2, c3⟩ := hrun fuel (le_trans (le_max_right _ _) hfuel)
          refine ⟨st', ?_, ?_, ?_⟩
          · rw [retireLoop_succ _ _ _ _ _ _ _ _ _ hk, if_pos hc, r1 fuel (le_trans (le_max_left _ _) hfuel)]
            exact c1
          · rw [c2, List.append_assoc]
          · rw [c3, zipWith_blocks]
      · have hc1 : ¬ B.head?.map (·.1) = some key := fun h => hc (Or.inl h)
        have hc2 : times = [] := by
          by_contra h
          exact hc (Or.inr h)
        obtain ⟨hB0, hBne⟩ := b5 hc1
        rw [if_neg hc1] at b1 b2 b3 b4
        have hlt : ∀ k, Touched P' B k → Touched P B k ∧ key < k := by
          rintro k (⟨p, hp, rfl⟩ | ⟨b, hb, rfl⟩)
          · obtain ⟨h1, h2⟩ := (hmem p).2.1 hp
            exact ⟨Or.inl ⟨p, h1, rfl⟩, lt_of_le_of_ne (hPk p h1) h2.symm⟩
          · exact ⟨Or.inr ⟨b, hb, rfl⟩, lt_of_le_of_ne (hBk b hb) (hBne b hb).symm⟩
        obtain ⟨N1, nx, bs, hres, hrun⟩ := ih P' B { st with next := st.next ++ mine } (by
              have e : P.length = mine.length + P'.length := by rw [← List.length_append, ← hPeq]
              rcases hwho with ⟨p, P1, rfl, h⟩ | ⟨b, B1, rfl, h⟩
              · have : 0 < mine.length := by
                  rw [hmine, List.takeWhile_cons_of_pos (by simpa using h)]
                  simp
                omega
              · exact absurd h (hBne b (List.mem_cons_self ..))) hPs' hBs hsrc hout hlen
          (fun p hp => hP p ((hmem p).2.1 hp).1) hB (by
            intro k hk' q hq hp
            obtain ⟨h1, h2⟩ := hlt k hk'
            exact hstart k h1 q hq fun p hp' => hp p ((hmem _).2.2 ⟨hp', h2.ne'⟩))
        have hbey : ∀ t, (key, t) ∈ P → Beyond upper t := by
          intro t ht
          by_contra h
          have := (hmt t).2 ⟨ht, h⟩
          rw [hc2] at this
          simp at this
        refine ⟨N1, mine ++ nx, List.zipWith (· ++ ·) (held.map fun _ => []) bs, ?_, ?_⟩
        · refine hres.cons (key := key) hTk (fun _ _ => rfl) hlt ?_ hkeyT (fun _ _ => rfl) (fun _ _ => rfl) (by simp) ?_ ?_ ?_ ?_ ?_ ?_
          · rintro k (⟨p, hp, rfl⟩ | ⟨b, hb, rfl⟩) hne
            · exact Or.inl ⟨p, (hmem p).2.2 ⟨hp, hne⟩, rfl⟩
            · exact Or.inr ⟨b, hb, rfl⟩
          · exact fun x hx => ((hmem x).1.1 hx).2
          · intro x hx
            obtain ⟨h1, h2⟩ := (hmem x).1.1 hx
            refine ⟨hbey x.2 ?_, hP x h1⟩
            rw [← h2]; exact h1
          · intro i b hb u hu
            have := List.mem_of_getElem? hb
            simp only [List.mem_map] at this
            obtain ⟨_, _, rfl⟩ := this
            simp at hu
          · intro b hb u hu
            obtain ⟨_, _, rfl⟩ := List.mem_map.1 hb
            simp at hu
          · intro b hb
            obtain ⟨_, _, rfl⟩ := List.mem_map.1 hb
            exact List.Pairwise.nil
          · intro t ht hp _
            have h0 : ofKey (held.map fun _ => ([] : Upds (K × V2) T R2)).flatten key = [] := by
              rw [List.eq_nil_iff_forall_not_mem]
              intro u hu
              obtain ⟨b, hb, hu⟩ := List.mem_flatten.1 (mem_ofKey.1 hu)
              obtain ⟨_, _, rfl⟩ := List.mem_map.1 hb
              simp at hu
            rw [hB0, h0, List.append_nil, List.append_nil]
            exact hstart key hkeyT t ht fun p hp' => hp p ((hmem _).1.2 ⟨hp', rfl⟩)
        · intro fuel hfuel
          obtain ⟨st', c1, c2, c3⟩ := hrun fuel hfuel
          refine ⟨st', ?_, ?_, ?_⟩
          · rw [retireLoop_succ _ _ _ _ _ _ _ _ _ hk, if_neg hc]
            exact c1
          · rw [c2, List.append_assoc]
          · rw [c3]
            have e : ∀ (bs : List (Upds (K × V2) T R2)) (held : List T), bs.length = held.length → List.zipWith (· ++ ·) (held.map fun _ => ([] : Upds (K × V2) T R2)) bs = bs := by
              intro bs
              induction bs with
              | nil => intro held _; simp
              | cons b bs ih =>
                intro held h
                cases held with
                | nil => simp at h
                | cons x held => simp only [List.map_cons, List.zipWith_cons_cons, List.nil_append, ih held (by simpa using h)]
            rw [e bs held hres.len]

end
end DD
