import Verif.Model.Reduce
import Verif.Spec.Reduce
import Verif.Proofs.History
import Verif.Proofs.Tile
import Mathlib.Order.SupClosed

/-!
# Lemmas about the per-key computation of `reduce`
-/

namespace DD

/-! ### The least time -/

section
variable {T : Type*} [LinearOrder (Lin T)]

theorem minTime_foldl (ts : List (Option T)) : ∀ acc : Option T,
    (∀ a, ts.foldl (fun acc t =>
      match acc, t with
      | none, t => t
      | some a, none => some a
      | some a, some b => if toLin b < toLin a then some b else some a) acc = some a →
      (acc = some a ∨ some a ∈ ts) ∧ (∀ b, acc = some b → toLin a ≤ toLin b) ∧ ∀ b, some b ∈ ts → toLin a ≤ toLin b) ∧
    (ts.foldl (fun acc t =>
      match acc, t with
      | none, t => t
      | some a, none => some a
      | some a, some b => if toLin b < toLin a then some b else some a) acc = none → acc = none ∧ ∀ t ∈ ts, t = none) := by
  induction ts with
  | nil =>
    intro acc
    refine ⟨fun a h => ⟨Or.inl h, fun b hb => ?_, by simp⟩, fun h => ⟨h, by simp⟩⟩
    simp only [List.foldl_nil] at h
    rw [h] at hb
    cases hb
    exact le_refl _
  | cons t ts ih =>
    intro acc
    rw [List.foldl_cons]
    obtain ⟨i1, i2⟩ := ih (match acc, t with
      | none, t => t
      | some a, none => some a
      | some a, some b => if toLin b < toLin a then some b else some a)
    constructor
    · intro a ha
      obtain ⟨h1, h2, h3⟩ := i1 a ha
      cases acc with
      | none =>
        cases t with
        | none => exact ⟨by simpa using h1, by simp, by simpa using h3⟩
        | some t =>
          simp only at h1 h2
          refine ⟨Or.inr ?_, by simp, ?_⟩
          · rcases h1 with h1 | h1
            · cases h1; simp
            · simp [h1]
          · intro b hb
            rcases List.mem_cons.1 hb with hb | hb
            · cases hb; exact h2 _ rfl
            · exact h3 b hb
      | some c =>
        cases t with
        | none =>
          refine ⟨?_, h2, by simpa using h3⟩
          rcases h1 with h1 | h1
          · exact Or.inl h1
          · exact Or.inr (by simp [h1])
        | some t =>
          simp only at h1 h2
          by_cases hc : toLin t < toLin c
          · rw [if_pos hc] at h1 h2
            refine ⟨Or.inr ?_, ?_, ?_⟩
            · rcases h1 with h1 | h1
              · cases h1; simp
              · simp [h1]
            · intro b hb
              cases hb
              exact (h2 _ rfl).trans hc.le
            · intro b hb
              rcases List.mem_cons.1 hb with hb | hb
              · cases hb; exact h2 _ rfl
              · exact h3 b hb
          · rw [if_neg hc] at h1 h2
            refine ⟨?_, h2, ?_⟩
            · rcases h1 with h1 | h1
              · exact Or.inl h1
              · exact Or.inr (by simp [h1])
            · intro b hb
              rcases List.mem_cons.1 hb with hb | hb
              · cases hb; exact (h2 _ rfl).trans (not_lt.1 hc)
              · exact h3 b hb
    · intro h
      obtain ⟨h1, h2⟩ := i2 h
      cases acc with
      | none => exact ⟨rfl, by simpa using ⟨h1, h2⟩⟩
      | some c =>
        cases t with
        | none => simp at h1
        | some t =>
          simp only at h1
          split_ifs at h1

theorem minTime_some {ts : List (Option T)} {a : T} (h : minTime ts = some a) :
    some a ∈ ts ∧ ∀ b, some b ∈ ts → toLin a ≤ toLin b := by
  obtain ⟨h1, -, h3⟩ := (minTime_foldl ts none).1 a h
  exact ⟨by simpa using h1, h3⟩

theorem minTime_none {ts : List (Option T)} (h : minTime ts = none) : ∀ t ∈ ts, t = none :=
  ((minTime_foldl ts none).2 h).2

/-! ### Taking the elements at the least time off a sorted list -/

theorem sorted_head_le {α : Type*} (time : α → T) {l : List α} (hs : l.Pairwise fun a b => toLin (time a) ≤ toLin (time b)) {next : T}
    (h : ∀ b, l.head?.map time = some b → toLin next ≤ toLin b) : ∀ a ∈ l, toLin next ≤ toLin (time a) := by
  cases l with
  | nil => simp
  | cons x xs =>
    intro a ha
    have hx := h (time x) (by simp)
    rcases List.mem_cons.1 ha with rfl | ha
    · exact hx
    · exact hx.trans (List.rel_of_pairwise_cons hs ha)

theorem dropWhile_gt {α : Type*} [DecidableEq T] (time : α → T) {l : List α} (hs : l.Pairwise fun a b => toLin (time a) ≤ toLin (time b)) {next : T}
    (h : ∀ a ∈ l, toLin next ≤ toLin (time a)) : ∀ a ∈ l.dropWhile (fun a => decide (time a = next)), toLin next < toLin (time a) := by
  induction l with
  | nil => simp
  | cons x xs ih =>
    intro a ha
    by_cases hx : time x = next
    · rw [List.dropWhile_cons_of_pos (by simpa using hx)] at ha
      exact ih hs.of_cons (fun b hb => h b (by simp [hb])) a ha
    · rw [List.dropWhile_cons_of_neg (by simpa using hx)] at ha
      have hlt : toLin next < toLin (time x) := lt_of_le_of_ne (h x (by simp)) fun e => hx e.symm
      rcases List.mem_cons.1 ha with rfl | ha
      · exact hlt
      · exact hlt.trans_le (List.rel_of_pairwise_cons hs ha)

theorem takeWhile_eq {α : Type*} [DecidableEq T] (time : α → T) (l : List α) (next : T) :
    ∀ a ∈ l.takeWhile (fun a => decide (time a = next)), time a = next := by
  intro a ha
  simpa using List.all_eq_true.1 (List.all_takeWhile (p := fun a => decide (time a = next)) (l := l)) a ha

theorem mem_dropWhile_of_ne {α : Type*} [DecidableEq T] (time : α → T) {l : List α} {next : T} {a : α} (ha : a ∈ l) (h : time a ≠ next) :
    a ∈ l.dropWhile (fun a => decide (time a = next)) := by
  have := List.takeWhile_append_dropWhile (p := fun a => decide (time a = next)) (l := l)
  rw [← this] at ha
  rcases List.mem_append.1 ha with ha | ha
  · exact absurd (takeWhile_eq time l next a ha) h
  · exact ha

theorem mem_takeWhile_of_eq {α : Type*} [DecidableEq T] (time : α → T) {l : List α} (hs : l.Pairwise fun a b => toLin (time a) ≤ toLin (time b)) {next : T}
    (h : ∀ a ∈ l, toLin next ≤ toLin (time a)) {a : α} (ha : a ∈ l) (he : time a = next) :
    a ∈ l.takeWhile (fun a => decide (time a = next)) := by
  have := List.takeWhile_append_dropWhile (p := fun a => decide (time a = next)) (l := l)
  rw [← this] at ha
  rcases List.mem_append.1 ha with ha | ha
  · exact ha
  · have := dropWhile_gt time hs h a ha
    rw [he] at this
    exact absurd this (lt_irrefl _)

end

theorem drop_takeWhile_length {α : Type*} (p : α → Bool) (l : List α) : l.drop (l.takeWhile p).length = l.dropWhile p := by
  induction l with
  | nil => rfl
  | cons a l ih =>
    by_cases h : p a = true
    · rw [List.takeWhile_cons_of_pos h, List.dropWhile_cons_of_pos h]; simpa using ih
    · rw [List.takeWhile_cons_of_neg h, List.dropWhile_cons_of_neg h]; rfl

theorem timesMeets_drop {T : Type*} [Min T] (l : List T) (n : Nat) : (timesMeets l).drop n = timesMeets (l.drop n) := by
  induction l generalizing n with
  | nil => simp [timesMeets]
  | cons t ts ih =>
    cases n with
    | zero => rfl
    | succ n =>
      rw [List.drop_succ_cons, ← ih]
      simp only [timesMeets]
      cases h : timesMeets ts <;> simp

theorem timesMeets_spec {T : Type*} [Lattice T] (l : List T) :
    (∀ m ∈ (timesMeets l).head?, ∀ t ∈ l, m ≤ t) ∧ ((timesMeets l).head? = none → l = []) ∧
      ∀ m ∈ (timesMeets l).head?, ∀ y, (∀ t ∈ l, y ≤ t) → y ≤ m := by
  induction l with
  | nil => simp [timesMeets]
  | cons t ts ih =>
    simp only [timesMeets]
    cases h : timesMeets ts with
    | nil =>
      rw [h] at ih
      have := ih.2.1 rfl
      subst this
      simp
    | cons m ms =>
      rw [h] at ih
      have := ih.1 m (by simp)
      refine ⟨?_, by simp, ?_⟩
      · intro m' hm' x hx
        simp only [List.head?_cons, Option.mem_def, Option.some.injEq] at hm'
        subst hm'
        rcases List.mem_cons.1 hx with rfl | hx
        · exact inf_le_left
        · exact inf_le_right.trans (this x hx)
      · intro m' hm' y hy
        simp only [List.head?_cons, Option.mem_def, Option.some.injEq] at hm'
        subst hm'
        exact le_inf (hy t (by simp)) (ih.2.2 m (by simp) y fun x hx => hy x (by simp [hx]))

/-! ### Meets -/

section
variable {T : Type*} [Lattice T]

/-- The greatest lower bound of a set of times; there is none only if the set is empty. -/
def LowerMeet (m : Option T) (ts : List T) : Prop := (∀ x ∈ m, ∀ t ∈ ts, x ≤ t) ∧ (m = none → ts = []) ∧ ∀ x ∈ m, ∀ y, (∀ t ∈ ts, y ≤ t) → y ≤ x

theorem lowerMeet_update {m o : Option T} {ts us : List T} (h1 : LowerMeet m ts) (h2 : LowerMeet o us) : LowerMeet (updateMeet m o) (ts ++ us) := by
  cases o with
  | none => simp only [updateMeet, h2.2.1 rfl, List.append_nil]; exact h1
  | some y =>
    cases m with
    | none =>
      simp only [updateMeet, h1.2.1 rfl, List.nil_append]; exact h2
    | some x =>
      refine ⟨?_, by simp [updateMeet], ?_⟩
      · intro z hz t ht
        simp only [updateMeet, Option.mem_def, Option.some.injEq] at hz
        subst hz
        rcases List.mem_append.1 ht with ht | ht
        · exact inf_le_left.trans (h1.1 x rfl t ht)
        · exact inf_le_right.trans (h2.1 y rfl t ht)
      · intro z hz w hw
        simp only [updateMeet, Option.mem_def, Option.some.injEq] at hz
        subst hz
        exact le_inf (h1.2.2 x rfl w fun t ht => hw t (List.mem_append_left _ ht)) (h2.2.2 y rfl w fun t ht => hw t (List.mem_append_right _ ht))

theorem lowerMeet_foldl (ss : List T) : ∀ {m : Option T} {ts : List T}, LowerMeet m ts →
    LowerMeet (ss.foldl (fun m t => updateMeet m (some t)) m) (ts ++ ss) := by
  induction ss with
  | nil => intro m ts h; simpa using h
  | cons s ss ih =>
    intro m ts h
    have : LowerMeet (updateMeet m (some s)) (ts ++ [s]) := lowerMeet_update h ⟨by simp, by simp, by simp⟩
    simpa using ih this

theorem lowerMeet_hist {V R : Type*} [LinearOrder (Lin T)] {h : ValueHistory V T R} {rest : Upds V T R} (hk : HistOk h rest) :
    LowerMeet h.meet (updTimes rest) := by
  cases rest with
  | nil =>
    have := ValueHistory.ok_nil hk
    simp [LowerMeet, updTimes, ValueHistory.meet, this]
  | cons u rest =>
    obtain ⟨m, h1, h2⟩ := ValueHistory.ok_meet hk
    rw [h1]
    refine ⟨?_, by simp, ?_⟩
    · intro x hx t ht
      simp only [Option.mem_def, Option.some.injEq] at hx
      subst hx
      obtain ⟨y, hy, rfl⟩ := List.mem_map.1 ht
      exact h2.1 ⟨y, hy, rfl⟩
    · intro x hx w hw
      simp only [Option.mem_def, Option.some.injEq] at hx
      subst hx
      refine h2.2 ?_
      rintro _ ⟨y, hy, rfl⟩
      exact hw _ (List.mem_map.2 ⟨y, hy, rfl⟩)

end

/-! ### Buffers stand for what was stepped over -/

section
variable {V T R : Type*} [Lattice T] [DecidableLE T] [LinearOrder (Lin T)] [LinearOrder V] [AddCommMonoid R] [DecidableEq R]

/-- The buffer accumulates like the stepped updates wherever a remaining time can see, and holds no times but theirs, advanced no further than to remaining
times. -/
structure BufRel (buf stepped : Upds V T R) (rem : List T) : Prop where
  acc : ∀ q, (∃ r ∈ rem, r ≤ q) → ∀ v, accum buf v q = accum stepped v q
  orig : ∀ e ∈ buf, ∃ u ∈ stepped, u.2.1 ≤ e.2.1 ∧ ∀ r ∈ rem, e.2.1 ≤ u.2.1 ⊔ r

omit [LinearOrder (Lin T)] [DecidableEq R] in
theorem BufRel.append {buf stepped : Upds V T R} {rem : List T} (h : BufRel buf stepped rem) (new : Upds V T R) :
    BufRel (buf ++ new) (stepped ++ new) rem := by
  refine ⟨fun q hq v => by rw [accum_append, accum_append, h.acc q hq v], ?_⟩
  intro e he
  rcases List.mem_append.1 he with he | he
  · obtain ⟨u, hu, h1, h2⟩ := h.orig e he
    exact ⟨u, by simp [hu], h1, h2⟩
  · exact ⟨e, by simp [he], le_refl _, fun r _ => le_sup_left⟩

omit [LinearOrder (Lin T)] [DecidableEq R] in
theorem BufRel.mono {buf stepped : Upds V T R} {rem rem' : List T} (h : BufRel buf stepped rem) (hr : ∀ r' ∈ rem', ∃ r ∈ rem, r ≤ r') :
    BufRel buf stepped rem' := by
  refine ⟨fun q ⟨r', h1, h2⟩ v => ?_, ?_⟩
  · obtain ⟨r, h3, h4⟩ := hr r' h1
    exact h.acc q ⟨r, h3, h4.trans h2⟩ v
  · intro e he
    obtain ⟨u, hu, h1, h2⟩ := h.orig e he
    refine ⟨u, hu, h1, fun r' hr' => ?_⟩
    obtain ⟨r, h3, h4⟩ := hr r' hr'
    exact (h2 r h3).trans (sup_le_sup_left h4 _)

omit [Lattice T] [DecidableLE T] in
theorem consolidatedU_mem {us : Upds V T R} {e : V × T × R} (he : e ∈ consolidatedU us) : ∃ u ∈ us, u.1 = e.1 ∧ u.2.1 = e.2.1 := by
  obtain ⟨x, hx, hk⟩ := consolidatedL_mem_key (updLayout V T R) (updLayout_lawful V T R) us e he
  have h : (e.1, toLin e.2.1) = (x.1, toLin x.2.1) := toLex.injective hk
  simp only [Prod.mk.injEq] at h
  exact ⟨x, hx, h.1.symm, h.2.symm⟩

theorem BufRel.joined {buf stepped : Upds V T R} {rem : List T} (h : BufRel buf stepped rem) (m : Option T) (hm : ∀ x ∈ m, ∀ r ∈ rem, x ≤ r) :
    BufRel (consolidatedU (buf.map fun e => (e.1, joinOpt m e.2.1, e.2.2))) stepped rem := by
  constructor
  · intro q hq v
    rw [← h.acc q hq v, accum_consolidatedU]
    obtain ⟨r, h1, h2⟩ := hq
    unfold accum
    rw [List.map_map]
    congr 1
    apply List.map_congr_left
    intro e _
    simp only [Function.comp_apply, joinOpt_le_iff fun x hx => (hm x hx r h1).trans h2]
  · intro e he
    obtain ⟨u, hu, -, h2⟩ := consolidatedU_mem he
    obtain ⟨e0, he0, rfl⟩ := List.mem_map.1 hu
    simp only at h2
    obtain ⟨u, hu, h3, h4⟩ := h.orig e0 he0
    refine ⟨u, hu, ?_, fun r hr => ?_⟩
    · rw [← h2]; exact h3.trans (le_joinOpt m _)
    · rw [← h2]
      cases m with
      | none => exact h4 r hr
      | some x => exact sup_le (h4 r hr) ((hm x rfl r hr).trans le_sup_right)

theorem advanceOpt_ok {h : ValueHistory V T R} {rest stepped : Upds V T R} {rem : List T} (hk : HistOk h rest) (hb : BufRel h.buffer stepped rem)
    (m : Option T) (hm : ∀ x ∈ m, ∀ r ∈ rem, x ≤ r) :
    ∃ h', h.advanceOpt m = some h' ∧ HistOk h' rest ∧ BufRel h'.buffer stepped rem ∧
      ∀ e ∈ h'.buffer, ∃ e0 ∈ h.buffer, e0.2.1 ≤ e.2.1 := by
  cases m with
  | none => exact ⟨h, rfl, hk, hb, fun e he => ⟨e, he, le_refl _⟩⟩
  | some x =>
    obtain ⟨h', a1, a2, a3, -⟩ := ValueHistory.ok_advance hk x
    refine ⟨h', a1, a2, ?_, ?_⟩
    · rw [a3]
      exact hb.joined (some x) hm
    · rw [a3]
      intro e he
      obtain ⟨u, hu, -, h2⟩ := consolidatedU_mem he
      obtain ⟨e0, he0, rfl⟩ := List.mem_map.1 hu
      exact ⟨e0, he0, by rw [← h2]; exact le_sup_left⟩

/-! ### Reading a buffer at a time -/

omit [LinearOrder (Lin T)] [DecidableEq R] in
theorem weight_readAt (us : Upds V T R) (q : T) (v : V) : weight (readAt us q) v = accum us v q := by
  induction us with
  | nil => rfl
  | cons u us ih =>
    rw [accum_cons, ← ih]
    unfold readAt weight
    rw [List.filter_cons]
    by_cases h : u.2.1 ≤ q
    · simp [h]
    · simp [h]

end

end DD
