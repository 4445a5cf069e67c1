import Verif.Proofs.ProxyJoin

/-!
# C54: the proxy join hands its backend exactly the matches
-/

namespace DD
variable {T R0 R1 M : Type*} [Lattice T] [DecidableLE T] [LinearOrder (Lin T)] [AddCommMonoid R0] [DecidableEq R0] [AddCommMonoid R1] [DecidableEq R1] [AddCommMonoid M]

theorem proxyJoinPrep_spec (small chunk : Nat) (hc : 0 < chunk) (mul : R0 →+ R1 →+ M) {present0 : Option (List Nat) → Upds (Nat × Nat) T R0} {present1 : Option (List Nat) → Upds (Nat × Nat) T R1}
    {all0 : Upds (Nat × Nat) T R0} {all1 : Upds (Nat × Nat) T R1} {meet : T} (h0 : ProxyPresents present0 all0 meet) (h1 : ProxyPresents present1 all1 meet) (fresh : JoinFresh)
    (hf : match fresh with | .input0 => ∀ u ∈ present0 none, meet ≤ u.2.1 | .input1 => ∀ u ∈ present1 none, meet ≤ u.2.1) :
    ∃ calls, proxyJoinPrep small chunk (fun a b => mul a b) present0 present1 fresh = some calls ∧ (∀ c ∈ calls, c.Aligned ∧ 0 < c.left.length ∧ c.left.length ≤ chunk) ∧
      (∀ c ∈ calls.dropLast, c.left.length = chunk) ∧ (∀ x ∈ calls.flatMap CrossCall.upds, meet ≤ x.2.1) ∧
      ∀ l r q, meet ≤ q → accum (calls.flatMap CrossCall.upds) (l, r) q = if l.1 = r.1 then mul (accum all0 l q) (accum all1 r q) else 0 := by
  -- The part after the presentations.
  have core : ∀ (p0 : Upds (Nat × Nat) T R0) (p1 : Upds (Nat × Nat) T R1) (m0 m1 : Option T), p0.Pairwise (fun a b => a.1.1 ≤ b.1.1) → p1.Pairwise (fun a b => a.1.1 ≤ b.1.1) →
      AboveOpt m0 p0 → AboveOpt m1 p1 → (∀ x : T, (∀ m ∈ m0, m ≤ x) → (∀ m ∈ m1, m ≤ x) → meet ≤ x) →
      ∃ calls, (match proxyMerge small chunk (fun a b => mul a b) p0 p1 { out := [], buf := CrossCall.empty } with
          | none => none
          | some st => if !st.buf.left.isEmpty then some st.flush.out else some st.out) = some calls ∧ (∀ c ∈ calls, c.Aligned ∧ 0 < c.left.length ∧ c.left.length ≤ chunk) ∧
        (∀ c ∈ calls.dropLast, c.left.length = chunk) ∧ (∀ x ∈ calls.flatMap CrossCall.upds, meet ≤ x.2.1) ∧
        ∀ l r q, accum (calls.flatMap CrossCall.upds) (l, r) q = if l.1 = r.1 then mul (accum p0 l q) (accum p1 r q) else 0 := by
    intro p0 p1 m0 m1 s0 s1 b0 b1 hm
    obtain ⟨xs, a1, a2, a3⟩ := proxyMerge_spec small chunk mul m0 m1 _ p0 p1 { out := [], buf := CrossCall.empty } le_rfl s0 s1 b0 b1
    obtain ⟨o, f⟩ := CrossState.pushAll_ok hc xs (st := { out := [], buf := CrossCall.empty }) ⟨by simp, ⟨rfl, rfl, rfl⟩, hc⟩
    rw [a1]
    simp only
    generalize CrossState.pushAll chunk { out := [], buf := CrossCall.empty } xs = st at o f
    have f' : st.flat = xs := by rw [f]; simp [CrossState.flat, CrossCall.upds, CrossCall.empty]
    have aux : ∀ calls : List (CrossCall T M), calls.flatMap CrossCall.upds = xs → (∀ x ∈ calls.flatMap CrossCall.upds, meet ≤ x.2.1) ∧
        ∀ l r q, accum (calls.flatMap CrossCall.upds) (l, r) q = if l.1 = r.1 then mul (accum p0 l q) (accum p1 r q) else 0 := by
      intro calls e
      rw [e]
      exact ⟨fun x hx => hm _ (a2 x hx).1 (a2 x hx).2, a3⟩
    by_cases he : st.buf.left = []
    · have hb : st.buf.upds = [] := by simp [CrossCall.upds, he]
      refine ⟨st.out, by simp [he], fun c hcm => ?_, fun c hcm => (o.calls c (List.mem_of_mem_dropLast hcm)).2, aux _ (by rw [← f', CrossState.flat, hb, List.append_nil])⟩
      obtain ⟨g1, g2⟩ := o.calls c hcm
      exact ⟨g1, by omega, by omega⟩
    · refine ⟨st.out ++ [st.buf], by simp [he, CrossState.flush], fun c hcm => ?_, fun c hcm => ?_, aux _ (by rw [← f']; simp [CrossState.flat])⟩
      · rcases List.mem_append.1 hcm with hcm | hcm
        · obtain ⟨g1, g2⟩ := o.calls c hcm
          exact ⟨g1, by omega, by omega⟩
        · rw [List.mem_singleton.1 hcm]
          exact ⟨o.aligned, List.length_pos_iff.2 he, o.room.le⟩
      · rw [List.dropLast_concat] at hcm
        exact (o.calls c hcm).2
  -- Nothing to present.
  have nothing : ∀ (b : Prop), (∀ l r q, meet ≤ q → l.1 = r.1 → mul (accum all0 l q) (accum all1 r q) = 0) →
      ∃ calls : List (CrossCall T M), some [] = some calls ∧ (∀ c ∈ calls, c.Aligned ∧ 0 < c.left.length ∧ c.left.length ≤ chunk) ∧
      (∀ c ∈ calls.dropLast, c.left.length = chunk) ∧ (∀ x ∈ calls.flatMap CrossCall.upds, meet ≤ x.2.1) ∧
      ∀ l r q, meet ≤ q → accum (calls.flatMap CrossCall.upds) (l, r) q = if l.1 = r.1 then mul (accum all0 l q) (accum all1 r q) else 0 := by
    intro _ h
    refine ⟨[], rfl, by simp, by simp, by simp, fun l r q hq => ?_⟩
    by_cases e : l.1 = r.1
    · rw [if_pos e, h l r q hq e]; rfl
    · rw [if_neg e]; rfl
  cases fresh with
  | input0 =>
    simp only at hf
    simp only [proxyJoinPrep]
    by_cases e0 : present0 none = []
    · rw [e0]
      refine nothing True fun l r q hq _ => ?_
      rw [← h0.whole l q hq, e0]
      simp
    · have hk : ∀ l r : Nat × Nat, ∀ q, meet ≤ q → l.1 = r.1 → mul (accum (present0 none) l q) (accum (present1 (some (presentedKeys (present0 none)))) r q)
          = mul (accum all0 l q) (accum all1 r q) := by
        intro l r q hq e
        by_cases hm : r.1 ∈ presentedKeys (present0 none)
        · rw [h0.whole l q hq, h1.restricted _ r hm q hq]
        · have : accum (present0 none) l q = 0 := accum_other (fun u hu eu => hm (by
            rw [presentedKeys, mem_dedupAdj, ← e, ← eu]
            exact List.mem_map.2 ⟨u, hu, rfl⟩)) q
          rw [← h0.whole l q hq, this]
          simp
      simp only [List.isEmpty_eq_false_iff.2 e0, Bool.false_eq_true, if_false, Bool.false_or]
      by_cases e1 : present1 (some (presentedKeys (present0 none))) = []
      · rw [e1]
        refine nothing True fun l r q hq e => ?_
        rw [← hk l r q hq e, e1]
        simp
      · simp only [List.isEmpty_eq_false_iff.2 e1, Bool.false_eq_true, if_false]
        obtain ⟨calls, a1, a2, a3, a4, a5⟩ := core _ _ (some meet) none (h0.sorted none) (h1.sorted (some (presentedKeys (present0 none)))) (fun u hu m hm => by
          rw [← Option.some.inj hm]; exact hf u hu) (fun u hu m hm => by simp at hm) (fun x hx _ => hx meet rfl)
        refine ⟨calls, a1, a2, a3, a4, fun l r q hq => ?_⟩
        rw [a5]
        by_cases e : l.1 = r.1
        · rw [if_pos e, if_pos e, hk l r q hq e]
        · rw [if_neg e, if_neg e]
  | input1 =>
    simp only at hf
    simp only [proxyJoinPrep]
    by_cases e0 : present1 none = []
    · rw [e0]
      refine nothing True fun l r q hq _ => ?_
      rw [← h1.whole r q hq, e0]
      simp
    · have hk : ∀ l r : Nat × Nat, ∀ q, meet ≤ q → l.1 = r.1 → mul (accum (present0 (some (presentedKeys (present1 none)))) l q) (accum (present1 none) r q)
          = mul (accum all0 l q) (accum all1 r q) := by
        intro l r q hq e
        by_cases hm : l.1 ∈ presentedKeys (present1 none)
        · rw [h1.whole r q hq, h0.restricted _ l hm q hq]
        · have : accum (present1 none) r q = 0 := accum_other (fun u hu eu => hm (by
            rw [presentedKeys, mem_dedupAdj, e, ← eu]
            exact List.mem_map.2 ⟨u, hu, rfl⟩)) q
          rw [← h1.whole r q hq, this]
          simp
      simp only [List.isEmpty_eq_false_iff.2 e0, Bool.false_eq_true, if_false, Bool.or_false]
      by_cases e1 : present0 (some (presentedKeys (present1 none))) = []
      · rw [e1]
        refine nothing True fun l r q hq e => ?_
        rw [← hk l r q hq e, e1]
        simp
      · simp only [List.isEmpty_eq_false_iff.2 e1, Bool.false_eq_true, if_false]
        obtain ⟨calls, a1, a2, a3, a4, a5⟩ := core _ _ none (some meet) (h0.sorted (some (presentedKeys (present1 none)))) (h1.sorted none) (fun u hu m hm => by simp at hm) (fun u hu m hm => by
          rw [← Option.some.inj hm]; exact hf u hu) (fun x _ hx => hx meet rfl)
        refine ⟨calls, a1, a2, a3, a4, fun l r q hq => ?_⟩
        rw [a5]
        by_cases e : l.1 = r.1
        · rw [if_pos e, if_pos e, hk l r q hq e]
        · rw [if_neg e, if_neg e]

/-- **C54.** A backend presents two collections of records, identified by a hash and an identifier, for a unit of work at `meet`: the input that just arrived, whose times are at or beyond `meet`,
whole, and the other one for the hashes asked for. The join then succeeds, whatever the backend presents. Each call it makes of the backend has four aligned lists with at least one and at most
`2^20` matches. Taken together, the calls' matches are at times at or beyond `meet`, and at each such time accumulate to the product of the accumulations of both records for each pair of records
with the same hash, and to nothing for any other pair. -/
theorem C54_proxy_join (mul : R0 →+ R1 →+ M) {present0 : Option (List Nat) → Upds (Nat × Nat) T R0} {present1 : Option (List Nat) → Upds (Nat × Nat) T R1}
    {all0 : Upds (Nat × Nat) T R0} {all1 : Upds (Nat × Nat) T R1} {meet : T} (h0 : ProxyPresents present0 all0 meet) (h1 : ProxyPresents present1 all1 meet) (fresh : JoinFresh)
    (hf : match fresh with | .input0 => ∀ u ∈ present0 none, meet ≤ u.2.1 | .input1 => ∀ u ∈ present1 none, meet ≤ u.2.1) :
    ∃ calls, proxyJoin (fun a b => mul a b) present0 present1 fresh = some calls ∧ (∀ c ∈ calls, c.Aligned ∧ 0 < c.left.length ∧ c.left.length ≤ 2 ^ 20) ∧
      (∀ x ∈ calls.flatMap CrossCall.upds, meet ≤ x.2.1) ∧
      ∀ l r q, meet ≤ q → accum (calls.flatMap CrossCall.upds) (l, r) q = if l.1 = r.1 then mul (accum all0 l q) (accum all1 r q) else 0 := by
  obtain ⟨calls, a1, a2, _, a4, a5⟩ := proxyJoinPrep_spec 16 (2 ^ 20) (by norm_num) mul h0 h1 fresh hf
  exact ⟨calls, a1, a2, a4, a5⟩

/-- **C54, the division into calls makes no difference.** Calls are made in an order that does not depend on how many matches a call may have: with any other limit, and any other bound on the
lengths for which all pairs are formed, each pair of records accumulates the same. -/
theorem C54_limits (small chunk : Nat) (hc : 0 < chunk) (mul : R0 →+ R1 →+ M) {present0 : Option (List Nat) → Upds (Nat × Nat) T R0}
    {present1 : Option (List Nat) → Upds (Nat × Nat) T R1} {all0 : Upds (Nat × Nat) T R0} {all1 : Upds (Nat × Nat) T R1} {meet : T} (h0 : ProxyPresents present0 all0 meet)
    (h1 : ProxyPresents present1 all1 meet) (fresh : JoinFresh) (hf : match fresh with | .input0 => ∀ u ∈ present0 none, meet ≤ u.2.1 | .input1 => ∀ u ∈ present1 none, meet ≤ u.2.1) :
    ∃ calls calls', proxyJoin (fun a b => mul a b) present0 present1 fresh = some calls ∧ proxyJoinPrep small chunk (fun a b => mul a b) present0 present1 fresh = some calls' ∧
      ∀ p q, accum (calls.flatMap CrossCall.upds) p q = accum (calls'.flatMap CrossCall.upds) p q := by
  obtain ⟨calls, a1, _, _, a4, a5⟩ := proxyJoinPrep_spec 16 (2 ^ 20) (by norm_num) mul h0 h1 fresh hf
  obtain ⟨calls', b1, _, _, b4, b5⟩ := proxyJoinPrep_spec small chunk hc mul h0 h1 fresh hf
  refine ⟨calls, calls', a1, b1, fun p q => ?_⟩
  by_cases hq : meet ≤ q
  · rw [a5 p.1 p.2 q hq, b5 p.1 p.2 q hq]
  · rw [accum_zero_above a4 hq, accum_zero_above b4 hq]

/-! ### Examples -/

/-- A backend that restricts what it presents to the hashes asked for. -/
def examplePresent (us : Upds (Nat × Nat) (Nat × Nat) Int) : Option (List Nat) → Upds (Nat × Nat) (Nat × Nat) Int
  | none => us
  | some keys => us.filter fun u => u.1.1 ∈ keys

theorem examplePresent_presents (us : Upds (Nat × Nat) (Nat × Nat) Int) (hs : us.Pairwise fun a b => a.1.1 ≤ b.1.1) (meet : Nat × Nat) : ProxyPresents (examplePresent us) us meet := by
  refine ⟨fun f => ?_, fun id q _ => rfl, fun keys id hid q _ => ?_⟩
  · cases f with
    | none => exact hs
    | some keys => exact hs.sublist List.filter_sublist
  · simp only [examplePresent]
    clear hs
    induction us with
    | nil => rfl
    | cons u us ih =>
      by_cases hm : u.1.1 ∈ keys
      · rw [List.filter_cons_of_pos (by simpa using hm), accum_cons, accum_cons, ih]
      · rw [List.filter_cons_of_neg (by simpa using hm), accum_cons, ih, if_neg (fun e => hm (by rw [e.1]; exact hid)), zero_add]

/-- The second input has arrived, with three records at two hashes. The first input has records at one of these hashes, and others. -/
def exampleArrived : Upds (Nat × Nat) (Nat × Nat) Int := [((2, 0), (1, 0), 1), ((2, 1), (0, 1), 1), ((7, 0), (1, 1), 3)]
def exampleOther : Upds (Nat × Nat) (Nat × Nat) Int := [((1, 0), (0, 0), 1), ((2, 5), (0, 0), 2), ((2, 6), (0, 1), -1), ((9, 0), (0, 0), 1)]

example : ProxyPresents (examplePresent exampleOther) exampleOther (0, 0) ∧ ProxyPresents (examplePresent exampleArrived) exampleArrived (0, 0) ∧
    ∀ u ∈ examplePresent exampleArrived none, ((0, 0) : Nat × Nat) ≤ u.2.1 :=
  ⟨examplePresent_presents _ (by decide +kernel) _, examplePresent_presents _ (by decide +kernel) _, fun _ _ => ⟨Nat.zero_le _, Nat.zero_le _⟩⟩

set_option synthInstance.maxSize 2000 in
/-- With all pairs formed, in calls of at most three matches. -/
example : (proxyJoinPrep 16 3 (fun a b : Int => a * b) (examplePresent exampleOther) (examplePresent exampleArrived) .input1).map (·.map CrossCall.upds) =
    some [[(((2, 5), (2, 0)), (1, 0), 2), (((2, 5), (2, 1)), (0, 1), 2), (((2, 6), (2, 0)), (1, 1), -1)], [(((2, 6), (2, 1)), (0, 1), -1)]] := by decide +kernel

set_option synthInstance.maxSize 2000 in
/-- With the two histories replayed. -/
example : (proxyJoinPrep 0 3 (fun a b : Int => a * b) (examplePresent exampleOther) (examplePresent exampleArrived) .input1).map (·.map CrossCall.upds) =
    some [[(((2, 5), (2, 1)), (0, 1), 2), (((2, 6), (2, 1)), (0, 1), -1), (((2, 5), (2, 0)), (1, 0), 2)], [(((2, 6), (2, 0)), (1, 1), -1)]] := by decide +kernel

end DD
