import Verif.Proofs.ProxyRetire
import Mathlib.Data.Prod.Lex

/-!
# C55: the reduction over hashed keys and values retires an interval with the right output

`ProxyReduceTactic` determines, key by key, the times at which the output may change, and then walks these times for all keys together, asking its backend for corrections.
-/

set_option linter.unusedSectionVars false

namespace DD

section
variable {T R1 R2 : Type*} [Lattice T] [OrderBot T] [DecidableLE T] [DecidableEq T] [TimeOrd T] [AddCancelCommMonoid R1] [DecidableEq R1] [AddCancelCommMonoid R2] [DecidableEq R2]
  {f : Nat → List (Nat × R1) → List (Nat × R2)} {corrections : Corrections R1 R2} {lower upper held : List T} {seeds : List (Nat × T)} {pending : List (Nat × List T)}
  {inputs new : Upds (Nat × Nat) T R1} {outputs : Upds (Nat × Nat) T R2} {windows : List (ProxyWindow T R1 R2)}

/-- C55: a call ends without failing. The batches it makes follow one another from `lower` to `upper`. What is emitted for a batch is consolidated, at times the batch's
description covers, and at or beyond the held time the batch is sent with. The pending times that are left are at or beyond `upper` and the returned frontier, which is at or
beyond the held times. -/
theorem C55_retire (hc : Corrects f corrections) (hl : IsAntichainList lower) (hu : IsAntichainList upper) (hle : FrontierLe lower upper) (hh : ∀ h ∈ held, Beyond lower h)
    (hb : WindowsPresent lower upper held inputs new outputs seeds pending windows) (hp : PendingOk lower held pending) (hr : RightUnlessPending f inputs outputs lower pending) :
    ∃ r, EndsWith (fun fuel => proxyRetire fuel corrections windows seeds pending lower upper held) r ∧
      (r.descs ≠ [] → DescsTile lower r.descs upper) ∧ r.held.length = r.descs.length ∧
      (∀ e ∈ r.emits, Consolidated (e.2.map fun u => ((toLex u.1 : Nat ×ₗ Nat), u.2)) ∧
        ∃ (d : Description T) (h : T), r.descs[e.1]? = some d ∧ r.held[e.1]? = some h ∧ ∀ u ∈ e.2, d.Covers u.2.1 ∧ h ≤ u.2.1) ∧
      PendingOk upper r.frontier r.pending ∧ ∀ x ∈ r.frontier, Beyond held x := by
  obtain ⟨r, h1, h2, h3, h4, h5, h6, -⟩ := proxyRetire_all hc hl hu hle hh hb hp hr
  exact ⟨r, h1, h4, h5, h6, h2, h3⟩

/-- C55: afterwards the output of each key is right at each time of the interval. -/
theorem C55_interval (hc : Corrects f corrections) (hl : IsAntichainList lower) (hu : IsAntichainList upper) (hle : FrontierLe lower upper) (hh : ∀ h ∈ held, Beyond lower h)
    (hb : WindowsPresent lower upper held inputs new outputs seeds pending windows) (hp : PendingOk lower held pending) (hr : RightUnlessPending f inputs outputs lower pending)
    {r : ProxyResult T R2} (he : EndsWith (fun fuel => proxyRetire fuel corrections windows seeds pending lower upper held) r) (k : Nat) (q : T) (h1 : Beyond lower q)
    (h2 : ¬ Beyond upper q) : ReducedAt (f k) (ofKey (inputs ++ new) k) (ofKey (outputs ++ r.emitted) k) q := by
  obtain ⟨r', a1, a2, -, -, -, -, -, a3⟩ := proxyRetire_all hc hl hu hle hh hb hp hr
  obtain rfl := he.unique a1
  refine a3 k q h1 (fun p hpp hpq => h2 (beyond_mono (a2.beyond k p hpp).1 hpq)) ?_
  intro w _ _ x _ m _ hxq _ hxu
  exact absurd (beyond_mono hxu hxq) h2

/-- C55, pending times: the output is right also at every time at or beyond `upper` that is not at or beyond a pending time, which is what the next call starts from.

Missing: the hypothesis `PresentedHeeded`. Without it the claim is false of the code (`C55_pending_defect`). It holds for totally ordered times (`C55_pending_total`), when one of the
new and pending times of a key is before all others (`C55_pending_least`), and when joins do not lead from before `upper` to beyond it (`C55_pending_directed`). -/
theorem C55_pending_partial (hc : Corrects f corrections) (hl : IsAntichainList lower) (hu : IsAntichainList upper) (hle : FrontierLe lower upper) (hh : ∀ h ∈ held, Beyond lower h)
    (hb : WindowsPresent lower upper held inputs new outputs seeds pending windows) (hp : PendingOk lower held pending) (hr : RightUnlessPending f inputs outputs lower pending)
    (hheed : PresentedHeeded upper seeds pending windows)
    {r : ProxyResult T R2} (he : EndsWith (fun fuel => proxyRetire fuel corrections windows seeds pending lower upper held) r) :
    RightUnlessPending f (inputs ++ new) (outputs ++ r.emitted) upper r.pending := by
  obtain ⟨r', a1, -, -, -, -, -, -, a3⟩ := proxyRetire_all hc hl hu hle hh hb hp hr
  obtain rfl := he.unique a1
  intro k q hq hpq
  exact a3 k q (hle q hq) hpq fun w hw hk x hx m hm _ => hheed w hw k hk x hx m hm

/-- C55, pending times, when each key has a new or pending time that is before all its others: likewise, without that hypothesis. -/
theorem C55_pending_least (hc : Corrects f corrections) (hl : IsAntichainList lower) (hu : IsAntichainList upper) (hle : FrontierLe lower upper) (hh : ∀ h ∈ held, Beyond lower h)
    (hb : WindowsPresent lower upper held inputs new outputs seeds pending windows) (hp : PendingOk lower held pending) (hr : RightUnlessPending f inputs outputs lower pending)
    (hleast : ∀ k s, SeedAt seeds pending k s → ∃ s0, SeedAt seeds pending k s0 ∧ ∀ s, SeedAt seeds pending k s → s0 ≤ s)
    {r : ProxyResult T R2} (he : EndsWith (fun fuel => proxyRetire fuel corrections windows seeds pending lower upper held) r) :
    RightUnlessPending f (inputs ++ new) (outputs ++ r.emitted) upper r.pending := by
  refine C55_pending_partial hc hl hu hle hh hb hp hr ?_ he
  rintro w - k - x - m hm ⟨s, hs, -⟩ -
  obtain ⟨s0, h1, h2⟩ := hleast k s hs
  exact ⟨s0, h1, (hm.2 fun s hs => h2 s hs).trans le_sup_right⟩

/-- C55, pending times, for totally ordered times: likewise. -/
theorem C55_pending_total (htotal : ∀ a b : T, a ≤ b ∨ b ≤ a)
    (hc : Corrects f corrections) (hl : IsAntichainList lower) (hu : IsAntichainList upper) (hle : FrontierLe lower upper) (hh : ∀ h ∈ held, Beyond lower h)
    (hb : WindowsPresent lower upper held inputs new outputs seeds pending windows) (hp : PendingOk lower held pending) (hr : RightUnlessPending f inputs outputs lower pending)
    {r : ProxyResult T R2} (he : EndsWith (fun fuel => proxyRetire fuel corrections windows seeds pending lower upper held) r) :
    RightUnlessPending f (inputs ++ new) (outputs ++ r.emitted) upper r.pending := by
  refine C55_pending_least hc hl hu hle hh hb hp hr ?_ he
  intro k s hs
  have hlist : ∀ l : List T, l ≠ [] → ∃ a ∈ l, ∀ b ∈ l, a ≤ b := by
    intro l
    induction l with
    | nil => simp
    | cons x l ih =>
      intro _
      by_cases hnil : l = []
      · subst hnil; exact ⟨x, by simp, by simp⟩
      · obtain ⟨a, h1, h2⟩ := ih hnil
        rcases htotal x a with h | h
        · exact ⟨x, by simp, fun b hb => by rcases List.mem_cons.1 hb with rfl | hb; exacts [le_refl _, h.trans (h2 b hb)]⟩
        · exact ⟨a, by simp [h1], fun b hb => by rcases List.mem_cons.1 hb with rfl | hb; exacts [h, h2 b hb]⟩
  have hmem : ∀ s, s ∈ seedsFor seeds k ++ pendingOf pending k ↔ SeedAt seeds pending k s := by
    intro s
    rw [List.mem_append, mem_seedsFor, mem_pendingOf hp.keys]
    rfl
  obtain ⟨a, h1, h2⟩ := hlist (seedsFor seeds k ++ pendingOf pending k) (List.ne_nil_of_mem ((hmem s).2 hs))
  exact ⟨a, (hmem a).1 h1, fun s hs => h2 s ((hmem s).2 hs)⟩

/-- C55, pending times, when the join of two times before `upper` is before `upper`, and all times presented are: likewise. -/
theorem C55_pending_directed (hc : Corrects f corrections) (hl : IsAntichainList lower) (hu : IsAntichainList upper) (hle : FrontierLe lower upper) (hh : ∀ h ∈ held, Beyond lower h)
    (hb : WindowsPresent lower upper held inputs new outputs seeds pending windows) (hp : PendingOk lower held pending) (hr : RightUnlessPending f inputs outputs lower pending)
    (hdirected : ∀ a b, ¬ Beyond upper a → ¬ Beyond upper b → ¬ Beyond upper (a ⊔ b))
    (hpast : ∀ w ∈ windows, (∀ u ∈ w.input, ¬ Beyond upper u.2.1) ∧ ∀ u ∈ w.output, ¬ Beyond upper u.2.1)
    {r : ProxyResult T R2} (he : EndsWith (fun fuel => proxyRetire fuel corrections windows seeds pending lower upper held) r) :
    RightUnlessPending f (inputs ++ new) (outputs ++ r.emitted) upper r.pending := by
  refine C55_pending_partial hc hl hu hle hh hb hp hr ?_ he
  rintro w hw k - x hx m hm ⟨s, hs, hsu⟩ hxu
  refine absurd hxu (hdirected x m ?_ fun h => hsu (beyond_mono h (hm.1 hs)))
  rcases hx with ⟨u, h1, -, rfl⟩ | ⟨u, h1, -, rfl⟩
  · exact (hpast w hw).1 u h1
  · exact (hpast w hw).2 u h1

/-- C55, runs: after any number of calls, from a frontier `start` on, the output of each key is right at each time that has been retired: those at or beyond `start` and not at or
beyond the last call's `upper`. In particular it is right at all times beyond `start` when that is empty.

Missing: in each call of a run (`ProxyRuns`) the times presented are heeded, as in `C55_pending_partial`. -/
theorem C55_run_partial (hc : Corrects f corrections) {start : List T} (hs : IsAntichainList start) {lower frontier : List T}
    (h : ProxyRuns corrections start inputs outputs lower pending frontier) (k : Nat) (q : T) (h1 : Beyond start q) (h2 : ¬ Beyond lower q) :
    ReducedAt (f k) (ofKey inputs k) (ofKey outputs k) q := by
  have key : IsAntichainList lower ∧ FrontierLe start lower ∧ PendingOk lower frontier pending ∧ RightUnlessPending f inputs outputs lower pending ∧
      ∀ k q, Beyond start q → ¬ Beyond lower q → ReducedAt (f k) (ofKey inputs k) (ofKey outputs k) q := by
    clear h1 h2 k q
    induction h with
    | none =>
      refine ⟨hs, fun _ h => h, ⟨by simp, by simp, by simp, by simp [PendingAt]⟩, ?_, fun k q h1 h2 => absurd h1 h2⟩
      intro k q _ _
      refine ⟨[], ⟨⟨by simp, by simp⟩, fun v => ?_⟩, fun v => ?_⟩
      · simp [weight, accum, ofKey]
      · rw [hc.nothing]; simp [weight, accum, ofKey]
    | @retire inputs new outputs lower upper held frontier pending seeds windows r hrun hu hle hh hf hb hheed he ih =>
      obtain ⟨i1, i2, i3, i4, i5⟩ := ih
      have hp : PendingOk lower held pending := ⟨i3.keys, i3.nonempty, i3.sorted, fun k s hs => ⟨(i3.beyond k s hs).1, by
        obtain ⟨x, hx, hxs⟩ := (i3.beyond k s hs).2
        exact beyond_mono (hf x hx) hxs⟩⟩
      obtain ⟨r', a1, a2, a2b, -, -, -, a3, -⟩ := proxyRetire_all hc i1 hu hle hh hb hp i4
      obtain rfl := he.unique a1
      refine ⟨hu, fun q hq => i2 q (hle q hq), a2, C55_pending_partial hc i1 hu hle hh hb hp i4 hheed he, ?_⟩
      intro k q h1 h2
      by_cases h3 : Beyond lower q
      · exact C55_interval hc i1 hu hle hh hb hp i4 he k q h3 h2
      · refine reducedAt_congr (fun v => ?_) (fun v => ?_) (i5 k q h1 h3)
        · rw [accum_ofKey, accum_ofKey, accum_append, hb.seedsAll k v q, add_zero]
          intro s hs hsq
          exact h3 (beyond_mono (hb.seedsInside _ hs).1 hsq)
        · rw [accum_ofKey, accum_ofKey, accum_append, accum_zero_of_not_le (us := r.emitted), add_zero]
          intro u hu' hle'
          exact h3 (beyond_mono (a3 u hu').1 hle')
  exact key.2.2.2.2 k q h1 h2

end

/-! ### A backend -/

/-- A list cut into pieces that end at these places. -/
def cutAt {A : Type*} : Nat → List Nat → List A → List (List A)
  | _, [], _ => []
  | s, e :: es, l => l.take (e - s) :: cutAt e es (l.drop (e - s))

/-- A backend that answers with the function of the input, and the present output, negated. -/
def exactCorrections {R1 R2 : Type*} [Neg R2] (f : Nat → List (Nat × R1) → List (Nat × R2)) : Corrections R1 R2 := fun keys inEnds ins outEnds outs =>
  let pieces := (keys.zip ((cutAt 0 inEnds ins).zip (cutAt 0 outEnds outs))).map fun x => f x.1 x.2.1 ++ x.2.2.map fun c => (c.1, -c.2)
  (pieces.flatten, pieceEnds pieces)

theorem cutAt_endsFrom {A : Type*} (pieces : List (List A)) (n : Nat) : cutAt n (endsFrom n pieces) pieces.flatten = pieces := by
  induction pieces generalizing n with
  | nil => rfl
  | cons p pieces ih => simp [endsFrom, cutAt, ih]

/-- Backends as assumed in these theorems exist, for any function of a user that makes nothing from nothing. -/
theorem C55_backend {R1 R2 : Type*} [AddCommMonoid R1] [AddCommGroup R2] (f : Nat → List (Nat × R1) → List (Nat × R2)) (hf : ∀ k, f k [] = []) : Corrects f (exactCorrections f) := by
  refine ⟨hf, fun work hw1 hw2 => ⟨work.map fun w => f w.1 w.2.1 ++ w.2.2.map fun c => (c.1, -c.2), ?_, ?_⟩⟩ <;> clear hw1 hw2
  · unfold exactCorrections
    have e : ((work.map (·.1)).zip ((cutAt 0 (pieceEnds (work.map (·.2.1))) (work.map (·.2.1)).flatten).zip (cutAt 0 (pieceEnds (work.map (·.2.2))) (work.map (·.2.2)).flatten))) = work := by
      rw [← endsFrom_zero, ← endsFrom_zero, cutAt_endsFrom, cutAt_endsFrom]
      induction work with
      | nil => rfl
      | cons w work ih => simp [ih]
    simp only [e]
  · induction work with
    | nil => exact .nil
    | cons w work ih =>
      refine .cons (fun v => ?_) ih
      rw [weight_append]
      have : weight (w.2.2.map fun c => (c.1, -c.2)) v = - weight w.2.2 v := by
        generalize w.2.2 = l
        induction l with
        | nil => simp [weight]
        | cons c l ih =>
          rw [List.map_cons, weight_cons, weight_cons, ih]
          split_ifs <;> simp [add_comm]
      rw [this]
      abel

/-! ### Examples -/

/-- Windows over the given keys, which present inputs and outputs as they are. -/
def plainWindows {T R1 R2 : Type*} (keys : List (List Nat)) (inputs : Upds (Nat × Nat) T R1) (outputs : Upds (Nat × Nat) T R2) : List (ProxyWindow T R1 R2) :=
  keys.map fun ks => ⟨ks, inputs.filter fun u => u.1.1 ∈ ks, outputs.filter fun u => u.1.1 ∈ ks⟩

theorem accum_filter_key {T R : Type*} [LE T] [DecidableLE T] [AddCommMonoid R] (us : Upds (Nat × Nat) T R) {ks : List Nat} {k : Nat} (hk : k ∈ ks) (v : Nat) (q : T) :
    accum (us.filter fun u => decide (u.1.1 ∈ ks)) (k, v) q = accum us (k, v) q := by
  induction us with
  | nil => rfl
  | cons u us ih =>
    by_cases h : u.1.1 ∈ ks
    · rw [List.filter_cons_of_pos (by simpa using h), accum_cons, accum_cons, ih]
    · rw [List.filter_cons_of_neg (by simpa using h), accum_cons, ih, if_neg, zero_add]
      rintro ⟨e, -⟩
      rw [e] at h
      exact h hk

theorem presents_plain {T R1 R2 : Type*} [Lattice T] [DecidableLE T] [AddCommMonoid R1] [AddCommMonoid R2] {lower upper held : List T} {inputs new : Upds (Nat × Nat) T R1}
    {outputs : Upds (Nat × Nat) T R2} {pending : List (Nat × List T)} {keys : List (List Nat)}
    (h1 : new.Pairwise fun a b => a.1.1 ≤ b.1.1) (h2 : ∀ u ∈ new, Beyond lower u.2.1 ∧ ¬ Beyond upper u.2.1 ∧ Beyond held u.2.1) (h3 : keys.flatten.Pairwise (· < ·))
    (h4 : ∀ k ∈ keys.flatten, k ∈ new.map (·.1.1) ++ pending.map (·.1)) (h5 : ∀ k ∈ new.map (·.1.1) ++ pending.map (·.1), k ∈ keys.flatten)
    (h6 : (inputs ++ new).Pairwise fun a b => a.1.1 ≤ b.1.1) (h7 : outputs.Pairwise fun a b => a.1.1 ≤ b.1.1) :
    WindowsPresent lower upper held inputs new outputs (new.map fun u => (u.1.1, u.2.1)) pending (plainWindows keys (inputs ++ new) outputs) := by
  have hk : (plainWindows keys (inputs ++ new) outputs).flatMap (·.keys) = keys.flatten := by
    unfold plainWindows
    rw [List.flatMap_map]
    simp
  refine ⟨by rw [List.pairwise_map]; exact h1, ?_, ?_, by rw [hk]; exact h3, ?_, ?_, ?_, ?_, ?_⟩
  · intro s hs
    obtain ⟨u, hu, rfl⟩ := List.mem_map.1 hs
    exact h2 u hu
  · intro k v q h
    unfold accum
    apply List.sum_eq_zero
    intro x hx
    obtain ⟨u, hu, rfl⟩ := List.mem_map.1 hx
    rw [if_neg]
    rintro ⟨e, hle⟩
    exact h u.2.1 (List.mem_map.2 ⟨u, hu, by rw [e]⟩) hle
  · intro k
    rw [hk]
    constructor
    · intro h
      rcases List.mem_append.1 (h4 k h) with h | h
      · obtain ⟨u, hu, rfl⟩ := List.mem_map.1 h
        exact Or.inl ⟨u.2.1, List.mem_map.2 ⟨u, hu, rfl⟩⟩
      · obtain ⟨p, hp, rfl⟩ := List.mem_map.1 h
        exact Or.inr ⟨p.2, hp⟩
    · rintro (⟨s, hs⟩ | ⟨ts, hs⟩)
      · obtain ⟨u, hu, e⟩ := List.mem_map.1 hs
        exact h5 k (List.mem_append_left _ (List.mem_map.2 ⟨u, hu, congrArg Prod.fst e⟩))
      · exact h5 k (List.mem_append_right _ (List.mem_map.2 ⟨_, hs, rfl⟩))
  · intro w hw
    obtain ⟨ks, -, rfl⟩ := List.mem_map.1 hw
    exact h6.filter _
  · intro w hw k hk v q _
    obtain ⟨ks, -, rfl⟩ := List.mem_map.1 hw
    exact accum_filter_key _ hk v q
  · intro w hw
    obtain ⟨ks, -, rfl⟩ := List.mem_map.1 hw
    exact h7.filter _
  · intro w hw k hk v q _
    obtain ⟨ks, -, rfl⟩ := List.mem_map.1 hw
    exact accum_filter_key _ hk v q

/-- Times are heeded when each is close to a new time of its key: the join of both is before `upper`. -/
theorem heeded_of_near {T R1 R2 : Type*} [Lattice T] [DecidableLE T] {upper : List T} {seeds : List (Nat × T)} {pending : List (Nat × List T)} {windows : List (ProxyWindow T R1 R2)}
    (h1 : ∀ w ∈ windows, ∀ u ∈ w.input, ∃ s ∈ seeds, s.1 = u.1.1 ∧ ¬ Beyond upper (u.2.1 ⊔ s.2))
    (h2 : ∀ w ∈ windows, ∀ u ∈ w.output, ∃ s ∈ seeds, s.1 = u.1.1 ∧ ¬ Beyond upper (u.2.1 ⊔ s.2)) : PresentedHeeded upper seeds pending windows := by
  rintro w hw k - x hx m hm - hxu
  exfalso
  obtain ⟨⟨k', s⟩, h3, h4, h5⟩ : ∃ s ∈ seeds, s.1 = k ∧ ¬ Beyond upper (x ⊔ s.2) := by
    rcases hx with ⟨u, hu, rfl, rfl⟩ | ⟨u, hu, rfl, rfl⟩
    · exact h1 w hw u hu
    · exact h2 w hw u hu
  simp only at h4
  subst h4
  exact h5 (beyond_mono hxu (sup_le_sup_left (hm.1 (Or.inl h3)) x))

/-- The number of distinct values. -/
def distinctCount (_ : Nat) (l : List (Nat × Int)) : List (Nat × Int) := if l.isEmpty then [] else [(l.length, 1)]

/-- The records of two keys; the first has some at times that meet beyond the interval. -/
def proxyNew : Upds (Nat × Nat) (Nat × Nat) Int := [((3, 7), (0, 0), 1), ((3, 8), (1, 0), 1), ((3, 9), (0, 1), 1), ((5, 7), (0, 1), 1)]

def proxyUpper : List (Nat × Nat) := [(0, 2), (1, 1), (2, 0)]

/-- What the first call leaves: the time (1,1), where the records of the first key meet, is pending. -/
def proxyFirst : ProxyResult (Nat × Nat) Int :=
  { emits := [(0, [((3, 1), (0, 0), 1), ((3, 1), (0, 1), -1), ((3, 1), (1, 0), -1), ((3, 2), (0, 1), 1), ((3, 2), (1, 0), 1)]), (0, [((5, 1), (0, 1), 1)])],
    descs := [⟨[(0, 0)], [(0, 2), (1, 1), (2, 0)], [(0, 0)]⟩], held := [(0, 0)], pending := [(3, [(1, 1)])], frontier := [(1, 1)] }

/-- What the second call leaves, for which the input is closed. -/
def proxySecond : ProxyResult (Nat × Nat) Int :=
  { emits := [(0, [((3, 1), (1, 1), 1), ((3, 2), (1, 1), -2), ((3, 3), (1, 1), 1)])],
    descs := [⟨[(0, 2), (1, 1), (2, 0)], [], [(0, 0)]⟩], held := [(1, 1)], pending := [], frontier := [] }

theorem distinctCount_backend : Corrects distinctCount (exactCorrections distinctCount) := C55_backend distinctCount fun _ => rfl

set_option synthInstance.maxSize 2000 in
/-- Two calls, the last of which ends the input. -/
theorem proxyExample : ProxyRuns (exactCorrections distinctCount) [((0, 0) : Nat × Nat)] (([] ++ proxyNew) ++ []) (([] ++ proxyFirst.emitted) ++ proxySecond.emitted) [] [] [] := by
  refine ProxyRuns.retire (held := [(1, 1)]) (r := proxySecond) (windows := plainWindows [[3]] (([] ++ proxyNew) ++ []) ([] ++ proxyFirst.emitted)) (ProxyRuns.retire (held := [(0, 0)])
    (upper := proxyUpper) (r := proxyFirst) (windows := plainWindows [[3], [5]] ([] ++ proxyNew) []) .none ?_ ?_ ?_ ?_ (presents_plain ?_ ?_ ?_ ?_ ?_ ?_ ?_) ?_ ?_)
    ?_ ?_ ?_ ?_ (presents_plain ?_ ?_ ?_ ?_ ?_ ?_ ?_) ?_ ?_
  · unfold IsAntichainList; decide +kernel
  · intro q _; exact ⟨(0, 0), by simp, Prod.mk_le_mk.2 ⟨Nat.zero_le _, Nat.zero_le _⟩⟩
  · decide +kernel
  · simp
  · decide +kernel
  · decide +kernel
  · decide +kernel
  · decide +kernel
  · decide +kernel
  · decide +kernel
  · decide +kernel
  · exact heeded_of_near (by decide +kernel) (by decide +kernel)
  · refine endsWith_of_retire (n := 20) ?_
    decide +kernel
  · unfold IsAntichainList; decide +kernel
  · intro q h; simp [Beyond] at h
  · decide +kernel
  · decide +kernel
  · decide +kernel
  · decide +kernel
  · decide +kernel
  · decide +kernel
  · decide +kernel
  · decide +kernel
  · decide +kernel
  · intro w hw k hk x hx m hm _ hxu; simp [Beyond] at hxu
  · refine endsWith_of_retire (n := 20) ?_
    decide +kernel

/-- So the output is right at all times. -/
example (k : Nat) (q : Nat × Nat) : ReducedAt (distinctCount k) (ofKey proxyNew k) (ofKey (proxyFirst.emitted ++ proxySecond.emitted) k) q :=
  C55_run_partial distinctCount_backend (by simp [IsAntichainList]) proxyExample k q ⟨(0, 0), by simp, Prod.mk_le_mk.2 ⟨Nat.zero_le _, Nat.zero_le _⟩⟩ (by simp [Beyond])

/-- Triples of numbers, ordered componentwise, with the lexicographic total order. -/
local instance : TimeOrd (Nat × Nat × Nat) where
  lin := inferInstanceAs (LinearOrder (Nat ×ₗ (Nat ×ₗ Nat)))
  mono := fun {a b} h => by
    show (toLex (a.1, toLex a.2) : Nat ×ₗ (Nat ×ₗ Nat)) ≤ toLex (b.1, toLex b.2)
    exact Prod.Lex.toLex_mono (Prod.mk_le_mk.2 ⟨h.1, Prod.Lex.toLex_mono h.2⟩)

/-- A record from time (5,0,0), and its count. -/
def proxyOld : Upds (Nat × Nat) (Nat × Nat × Nat) Int := [((0, 7), (5, 0, 0), 1)]
def proxyOldOut : Upds (Nat × Nat) (Nat × Nat × Nat) Int := [((0, 1), (5, 0, 0), 1)]

/-- Two records whose times meet at (0,1,1). -/
def proxyLate : Upds (Nat × Nat) (Nat × Nat × Nat) Int := [((0, 8), (0, 1, 9), 1), ((0, 9), (0, 9, 1), 1)]

/-- What a call for the interval from (0,1,1) to (5,1,1) leaves: nothing is pending. -/
def proxyLost : ProxyResult (Nat × Nat × Nat) Int :=
  { emits := [(0, [((0, 1), (0, 1, 9), 1), ((0, 1), (0, 9, 1), 1), ((0, 1), (0, 9, 9), -2), ((0, 2), (0, 9, 9), 1)])],
    descs := [⟨[(0, 1, 1)], [(5, 1, 1)], [(0, 0, 0)]⟩], held := [(0, 1, 1)], pending := [], frontier := [] }

set_option synthInstance.maxSize 2000 in
/-- C55, the defect: a record from time (5,0,0), counted, and an interval from (0,1,1) to (5,1,1) in which others come at (0,1,9) and (0,9,1). All hypotheses of `C55_interval` are met
and no time is reported as pending, but at (5,1,9), beyond `upper`, the output is wrong: there are two records, while the output says twice that there is one. The time (5,0,0),
advanced to (5,1,1) when loaded, is at or beyond `upper` and not beyond a new time, so that it is skipped without joining it with them. -/
theorem C55_pending_defect :
    Corrects distinctCount (exactCorrections distinctCount) ∧
    WindowsPresent [(0, 1, 1)] [(5, 1, 1)] [(0, 1, 1)] proxyOld proxyLate proxyOldOut (proxyLate.map fun u => (u.1.1, u.2.1)) [] (plainWindows [[0]] (proxyOld ++ proxyLate) proxyOldOut) ∧
    PendingOk [((0, 1, 1) : Nat × Nat × Nat)] [(0, 1, 1)] [] ∧ RightUnlessPending distinctCount proxyOld proxyOldOut [(0, 1, 1)] [] ∧
    EndsWith (fun fuel => proxyRetire fuel (exactCorrections distinctCount) (plainWindows [[0]] (proxyOld ++ proxyLate) proxyOldOut) (proxyLate.map fun u => (u.1.1, u.2.1)) []
      [(0, 1, 1)] [(5, 1, 1)] [(0, 1, 1)]) proxyLost ∧
    ¬ RightUnlessPending distinctCount (proxyOld ++ proxyLate) (proxyOldOut ++ proxyLost.emitted) [(5, 1, 1)] proxyLost.pending := by
  refine ⟨distinctCount_backend, presents_plain ?_ ?_ ?_ ?_ ?_ ?_ ?_, ⟨by simp, by simp, by simp, by simp [PendingAt]⟩, ?_, endsWith_of_retire (n := 20) (by decide +kernel), ?_⟩
  · decide +kernel
  · decide +kernel
  · decide +kernel
  · decide +kernel
  · decide +kernel
  · decide +kernel
  · decide +kernel
  · intro k q _ _
    by_cases hk : k = 0
    · subst hk
      by_cases h : ((5, 0, 0) : Nat × Nat × Nat) ≤ q
      · refine ⟨[(7, 1)], ⟨⟨by simp, by simp⟩, fun v => ?_⟩, fun v => ?_⟩
        · simp [weight, accum, ofKey, proxyOld, h]
        · simp [weight, accum, ofKey, proxyOldOut, h, distinctCount]
      · refine ⟨[], ⟨⟨by simp, by simp⟩, fun v => ?_⟩, fun v => ?_⟩
        · simp [weight, accum, ofKey, proxyOld, h]
        · simp [weight, accum, ofKey, proxyOldOut, h, distinctCount]
    · refine ⟨[], ⟨⟨by simp, by simp⟩, fun v => ?_⟩, fun v => ?_⟩
      · simp [weight, accum, ofKey, proxyOld, Ne.symm hk]
      · simp [weight, accum, ofKey, proxyOldOut, Ne.symm hk, distinctCount]
  · intro h
    obtain ⟨l, ⟨h1, h2⟩, h3⟩ := h 0 (5, 1, 9) (by decide +kernel) (by simp [proxyLost, PendingAt])
    have e : l = [(7, 1), (8, 1)] := by
      refine consolidatedPairs_unique h1 ⟨by simp, by simp⟩ fun v => ?_
      rw [h2]
      simp [weight, accum, ofKey, proxyOld, proxyLate]
    have := h3 1
    rw [e] at this
    revert this
    decide +kernel

end DD
