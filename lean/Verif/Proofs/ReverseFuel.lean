import Verif.Proofs.ReverseOrder

/-!
# Resolving references ends
-/

namespace DD.Ir.Ex
variable {N : Type*} {root : XScope N}

mutual
/-- How many steps an item can take. -/
def itemSize : Item (LinearOp Term) Projection Reducer N → Nat
  | .op _ => 1
  | .sub child => scopeSize child + 2
/-- How many steps items can take. -/
def itemsSize : List (Item (LinearOp Term) Projection Reducer N) → Nat
  | [] => 0
  | it :: its => itemSize it + itemsSize its
/-- How many steps a scope can take. -/
def scopeSize : ScopeOf N (Item (LinearOp Term) Projection Reducer N) → Nat
  | ⟨_, _, _, items, _, _⟩ => itemsSize items
end

theorem scopeSize_eq (s : XScope N) : scopeSize s = itemsSize s.items := by
  obtain ⟨a, b, c, d, e, f⟩ := s
  simp only [scopeSize]

theorem itemsSize_append (a b : List (Item (LinearOp Term) Projection Reducer N)) : itemsSize (a ++ b) = itemsSize a + itemsSize b := by
  induction a with
  | nil => simp [itemsSize]
  | cons it a ih => simp only [List.cons_append, itemsSize, ih]; omega

theorem itemsSize_take_le {items : List (Item (LinearOp Term) Projection Reducer N)} {i j : Nat} (h : i ≤ j) : itemsSize (items.take i) ≤ itemsSize (items.take j) := by
  have e : items.take j = items.take i ++ (items.take j).drop i := by
    conv_lhs => rw [← List.take_append_drop i (items.take j), List.take_take, Nat.min_eq_left h]
  rw [e, itemsSize_append]; omega

theorem itemsSize_take_lt {items : List (Item (LinearOp Term) Projection Reducer N)} {i j : Nat} {it : Item (LinearOp Term) Projection Reducer N} (hi : items[i]? = some it) (h : i < j) :
    itemsSize (items.take i) + itemSize it ≤ itemsSize (items.take j) := by
  refine le_trans ?_ (itemsSize_take_le (Nat.succ_le_of_lt h))
  obtain ⟨hlt, rfl⟩ := List.getElem?_eq_some_iff.1 hi
  rw [List.take_succ_eq_append_getElem hlt, itemsSize_append]
  simp [itemsSize]

/-- The scope is at the path, and so many steps are before it. -/
inductive Placed (root : XScope N) : List Nat → XScope N → Nat → Prop
  | root : Placed root [] root 0
  | child {path s b c child} : Placed root path s b → s.items[c]? = some (.sub child) → Placed root (path ++ [c]) child (b + itemsSize (s.items.take c) + 1)

theorem Placed.scopeAt {path : List Nat} {s : XScope N} {b : Nat} (h : Placed root path s b) : scopeAt root path = some s := by
  induction h with
  | root => rfl
  | child _ hc ih => exact scopeAt_snoc.2 ⟨_, ih, hc⟩

theorem Placed.le {path : List Nat} {s : XScope N} {b : Nat} (h : Placed root path s b) : b + scopeSize s ≤ scopeSize root := by
  induction h with
  | root => omega
  | @child path s b c child h hc ih =>
    have h1 : itemsSize (s.items.take c) + itemSize (.sub child) ≤ itemsSize (s.items.take s.items.length) := itemsSize_take_lt hc (List.getElem?_eq_some_iff.1 hc).1
    rw [List.take_length, ← scopeSize_eq, itemSize] at h1
    omega

theorem placed_of_scopeAt : ∀ {path : List Nat} {s : XScope N}, scopeAt root path = some s → ∃ b, Placed root path s b := by
  intro path
  induction path using List.reverseRecOn with
  | nil => intro s h; cases h; exact ⟨0, .root⟩
  | append_singleton path c ih =>
    intro s h
    obtain ⟨p, h1, h2⟩ := scopeAt_snoc.1 h
    obtain ⟨b, hb⟩ := ih h1
    exact ⟨_, .child hb h2⟩

theorem resolve_ends (hw : ScopeWF root) (hc : ScopeClosed root) : ∀ (m n : Nat) {path : List Nat} {s : XScope N} {b i : Nat} {r : Ref}, Placed root path s b → b + itemsSize (s.items.take i) = m → m < n →
    RefOk s.items i r → RefIn s r → ∃ t, resolveRef root n path r = some t := by
  intro m
  induction m using Nat.strong_induction_on with
  | _ m ih =>
    intro n path s b i r hp hm hn hok hin
    obtain ⟨n, rfl⟩ : ∃ k, n = k + 1 := ⟨n - 1, by omega⟩
    cases r with
    | loc j => exact ⟨_, rfl⟩
    | var v => exact ⟨_, rfl⟩
    | imp k =>
      cases hp with
      | root => exact ⟨_, rfl⟩
      | @child path p b c _ hp hc' =>
        have hs := scopeAt_snoc.2 ⟨p, hp.scopeAt, hc'⟩
        have hin' : k < s.imports.length := hin
        have hclosed := (scopeClosed_iff.1 (scopeAt_closed hc hp.scopeAt)).2.2 _ (List.mem_of_getElem? hc')
        obtain ⟨r, hr⟩ : ∃ r, (s.imports[k]).src = .parent r := hclosed.1 _ (List.getElem_mem hin')
        have hmem : r ∈ (Item.sub s : Item (LinearOp Term) Projection Reducer N).refs := by
          simp only [Item.refs, List.mem_flatMap]
          exact ⟨_, List.getElem_mem hin', by rw [hr]; exact List.mem_singleton.2 rfl⟩
        obtain ⟨t, ht⟩ := ih (b + itemsSize (p.items.take c)) (by omega) n hp rfl (by omega)
          ((scopeWF_iff.1 (scopeAt_wf hw hp.scopeAt)).1.items _ _ hc' _ hmem) ((scopeClosed_iff.1 (scopeAt_closed hc hp.scopeAt)).1 _ (mem_refsOf_item hc' hmem))
        refine ⟨t, ?_⟩
        simp only [resolveRef, List.isEmpty_iff, List.append_eq_nil_iff, List.cons_ne_self, and_false, if_false, hs, Option.bind_some, List.getElem?_eq_getElem hin', hr, List.dropLast_concat, ht]
    | childExport c j =>
      obtain ⟨hlt, child, hchild⟩ := hok
      have hj : j < child.exports.length := hin child hchild
      have hp' := Placed.child hp hchild
      have hlt' := itemsSize_take_lt hchild hlt
      rw [itemSize, scopeSize_eq] at hlt'
      obtain ⟨t, ht⟩ := ih (b + itemsSize (s.items.take c) + 1 + itemsSize (child.items.take child.items.length)) (by rw [List.take_length]; omega) n hp' rfl (by rw [List.take_length]; omega)
        ((scopeWF_iff.1 (scopeAt_wf hw hp'.scopeAt)).1.exports _ (List.getElem_mem hj)) ((scopeClosed_iff.1 (scopeAt_closed hc hp'.scopeAt)).1 _ (mem_refsOf_export (List.getElem_mem hj)))
      refine ⟨t, ?_⟩
      simp only [resolveRef, hp'.scopeAt, Option.bind_some, List.getElem?_eq_getElem hj, ht]

theorem resolve_total (hw : ScopeWF root) (hc : ScopeClosed root) {n : Nat} (hn : scopeSize root < n) {path : List Nat} {s : XScope N} (hs : scopeAt root path = some s) {r : Ref} (hr : r ∈ refsOf s) :
    ∃ t, resolveRef root n path r = some t := by
  obtain ⟨b, hb⟩ := placed_of_scopeAt hs
  have hle := hb.le
  rw [scopeSize_eq s] at hle
  have hin := (scopeClosed_iff.1 (scopeAt_closed hc hs)).1 r hr
  have hok := (scopeWF_iff.1 (scopeAt_wf hw hs)).1
  obtain ⟨i, hi⟩ : ∃ i, RefOk s.items i r := by
    simp only [refsOf, List.mem_append, List.mem_flatMap, List.mem_map] at hr
    rcases hr with (⟨it, hit, hr⟩ | ⟨b, hb, rfl⟩) | ⟨e, he, rfl⟩
    · obtain ⟨i, hi⟩ := List.getElem?_of_mem hit
      exact ⟨i, hok.items _ _ hi _ hr⟩
    · exact ⟨_, hok.binds _ hb⟩
    · exact ⟨_, hok.exports _ he⟩
  refine resolve_ends hw hc _ n hb rfl ?_ hi hin
  have h2 : itemsSize (s.items.take i) ≤ itemsSize s.items := by
    conv_rhs => rw [← List.take_append_drop i s.items]
    rw [itemsSize_append]; omega
  omega

end DD.Ir.Ex
