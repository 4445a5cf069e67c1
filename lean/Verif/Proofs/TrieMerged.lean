import Verif.Proofs.TrieCut
import Verif.Proofs.Extend

/-! The contents of a merged trie. -/

namespace DD
set_option linter.unusedSectionVars false
variable {α β γ δ κ : Type*}

section
variable [LinearOrder κ] (key : α → κ)

/-- The keys of an interleaving are sorted. -/
theorem sorted_align (n : Nat) : ∀ (xs ys : List α), xs.length + ys.length ≤ n → xs.Pairwise (fun a b => key a < key b) → ys.Pairwise (fun a b => key a < key b) →
    ((align key xs ys).flatMap (Rep.items key)).Pairwise (· < ·) ∧ ∀ k ∈ (align key xs ys).flatMap (Rep.items key), (∃ x ∈ xs, k = key x) ∨ ∃ y ∈ ys, k = key y := by
  induction n with
  | zero =>
    intro xs ys h _ _
    have h1 : xs = [] := List.length_eq_zero_iff.1 (by omega)
    have h2 : ys = [] := List.length_eq_zero_iff.1 (by omega)
    subst h1; subst h2
    simp [align]
  | succ n ih =>
    intro xs ys h s0 s1
    match xs, ys with
    | [], [] => simp [align]
    | x :: xs, [] =>
      simp only [align, List.flatMap_cons, List.flatMap_nil, List.append_nil, Rep.items, List.pairwise_map]
      refine ⟨s0, fun k hk => ?_⟩
      obtain ⟨z, hz, rfl⟩ := List.mem_map.1 hk
      exact Or.inl ⟨z, hz, rfl⟩
    | [], y :: ys =>
      simp only [align, List.flatMap_cons, List.flatMap_nil, List.append_nil, Rep.items, List.pairwise_map]
      refine ⟨s1, fun k hk => ?_⟩
      obtain ⟨z, hz, rfl⟩ := List.mem_map.1 hk
      exact Or.inr ⟨z, hz, rfl⟩
    | x :: xs, y :: ys =>
      simp only [List.length_cons] at h
      have hs0 := List.pairwise_cons.1 s0
      have hs1 := List.pairwise_cons.1 s1
      have past : ∀ (z w : α) (zs : List α), zs.Pairwise (fun a b => key a < key b) → ∀ u ∈ zs.dropWhile (fun z => decide (key z < key w)), key w ≤ key u := by
        intro z w zs hs u hu
        obtain ⟨lo, hi, rfl, _, _, hd, hc⟩ := sorted_split key zs (key w) hs
        rw [hd] at hu
        rcases hc with hc | ⟨x, hi', rfl, hx, hc⟩
        · exact (hc u hu).le
        · rcases List.mem_cons.1 hu with rfl | hu
          · exact hx.ge
          · exact (hc u hu).le
      rw [align]
      split
      · rename_i hlt
        have hl := (List.dropWhile_sublist (fun z => decide (key z < key y)) (l := xs)).length_le
        obtain ⟨i1, i2⟩ := ih (xs.dropWhile fun z => key z < key y) (y :: ys) (by simp only [List.length_cons]; omega) (hs0.2.sublist (List.dropWhile_sublist _)) s1
        simp only [List.flatMap_cons, Rep.items]
        have hge : ∀ k ∈ (align key (xs.dropWhile fun z => key z < key y) (y :: ys)).flatMap (Rep.items key), key y ≤ k := by
          intro k hk
          rcases i2 k hk with ⟨z, hz, rfl⟩ | ⟨z, hz, rfl⟩
          · exact past x y xs hs0.2 z hz
          · rcases List.mem_cons.1 hz with rfl | hz
            · exact le_rfl
            · exact (hs1.1 z hz).le
        have hin : ∀ z ∈ x :: xs.takeWhile (fun z => decide (key z < key y)), key z < key y := by
          intro z hz
          rcases List.mem_cons.1 hz with rfl | hz
          · exact hlt
          · simpa using List.mem_takeWhile_imp hz
        refine ⟨List.pairwise_append.2 ⟨?_, i1, ?_⟩, ?_⟩
        · rw [List.pairwise_map]
          exact s0.sublist ((List.takeWhile_sublist _).cons_cons x)
        · intro a ha b hb
          obtain ⟨z, hz, rfl⟩ := List.mem_map.1 ha
          exact lt_of_lt_of_le (hin z hz) (hge b hb)
        · intro k hk
          rcases List.mem_append.1 hk with hk | hk
          · obtain ⟨z, hz, rfl⟩ := List.mem_map.1 hk
            exact Or.inl ⟨z, ((List.takeWhile_sublist _).cons_cons x).subset hz, rfl⟩
          · rcases i2 k hk with ⟨z, hz, rfl⟩ | h
            · exact Or.inl ⟨z, List.mem_cons_of_mem _ ((List.dropWhile_sublist _).subset hz), rfl⟩
            · exact Or.inr h
      · split
        · rename_i he
          obtain ⟨i1, i2⟩ := ih xs ys (by omega) hs0.2 hs1.2
          simp only [List.flatMap_cons, Rep.items, List.singleton_append]
          refine ⟨List.pairwise_cons.2 ⟨?_, i1⟩, ?_⟩
          · intro k hk
            rcases i2 k hk with ⟨z, hz, rfl⟩ | ⟨z, hz, rfl⟩
            · exact hs0.1 z hz
            · rw [he]; exact hs1.1 z hz
          · intro k hk
            rcases List.mem_cons.1 hk with rfl | hk
            · exact Or.inl ⟨x, by simp, rfl⟩
            · rcases i2 k hk with ⟨z, hz, rfl⟩ | ⟨z, hz, rfl⟩
              · exact Or.inl ⟨z, by simp [hz], rfl⟩
              · exact Or.inr ⟨z, by simp [hz], rfl⟩
        · rename_i hnlt hne
          have hlt : key y < key x := lt_of_le_of_ne (not_lt.1 hnlt) (Ne.symm hne)
          have hl := (List.dropWhile_sublist (fun z => decide (key z < key x)) (l := ys)).length_le
          obtain ⟨i1, i2⟩ := ih (x :: xs) (ys.dropWhile fun z => key z < key x) (by simp only [List.length_cons]; omega) s0 (hs1.2.sublist (List.dropWhile_sublist _))
          simp only [List.flatMap_cons, Rep.items]
          have hge : ∀ k ∈ (align key (x :: xs) (ys.dropWhile fun z => key z < key x)).flatMap (Rep.items key), key x ≤ k := by
            intro k hk
            rcases i2 k hk with ⟨z, hz, rfl⟩ | ⟨z, hz, rfl⟩
            · rcases List.mem_cons.1 hz with rfl | hz
              · exact le_rfl
              · exact (hs0.1 z hz).le
            · exact past y x ys hs1.2 z hz
          have hin : ∀ z ∈ y :: ys.takeWhile (fun z => decide (key z < key x)), key z < key x := by
            intro z hz
            rcases List.mem_cons.1 hz with rfl | hz
            · exact hlt
            · simpa using List.mem_takeWhile_imp hz
          refine ⟨List.pairwise_append.2 ⟨?_, i1, ?_⟩, ?_⟩
          · rw [List.pairwise_map]
            exact s1.sublist ((List.takeWhile_sublist _).cons_cons y)
          · intro a ha b hb
            obtain ⟨z, hz, rfl⟩ := List.mem_map.1 ha
            exact lt_of_lt_of_le (hin z hz) (hge b hb)
          · intro k hk
            rcases List.mem_append.1 hk with hk | hk
            · obtain ⟨z, hz, rfl⟩ := List.mem_map.1 hk
              exact Or.inr ⟨z, ((List.takeWhile_sublist _).cons_cons y).subset hz, rfl⟩
            · rcases i2 k hk with h | ⟨z, hz, rfl⟩
              · exact Or.inl h
              · exact Or.inr ⟨z, List.mem_cons_of_mem _ ((List.dropWhile_sublist _).subset hz), rfl⟩

/-- The nodes of an interleaving are sorted. -/
theorem sorted_nodes (nodes : Rep α → List δ) (kd : δ → κ) (hn : ∀ r, (nodes r).map kd = r.items key) {xs ys : List α}
    (h0 : xs.Pairwise fun a b => key a < key b) (h1 : ys.Pairwise fun a b => key a < key b) :
    ((align key xs ys).flatMap nodes).Pairwise fun a b => kd a < kd b := by
  have h := (sorted_align key _ xs ys le_rfl h0 h1).1
  have e : (align key xs ys).flatMap (Rep.items key) = ((align key xs ys).flatMap nodes).map kd := by
    rw [List.map_flatMap]
    exact congrArg (fun f => List.flatMap f _) (funext fun r => (hn r).symm)
  rw [e, List.pairwise_map] at h
  exact h

theorem mem_of_this {xs ys l : List α} (h : Rep.this l ∈ align key xs ys) {x : α} (hx : x ∈ l) : x ∈ xs := by
  have : x ∈ lefts (align key xs ys) := List.mem_flatMap.2 ⟨_, h, hx⟩
  rwa [lefts_align] at this

theorem mem_of_that {xs ys l : List α} (h : Rep.that l ∈ align key xs ys) {x : α} (hx : x ∈ l) : x ∈ ys := by
  have : x ∈ rights (align key xs ys) := List.mem_flatMap.2 ⟨_, h, hx⟩
  rwa [rights_align] at this

theorem mem_of_both {xs ys : List α} {a b : α} (h : Rep.both a b ∈ align key xs ys) : a ∈ xs ∧ b ∈ ys := by
  have h0 : a ∈ lefts (align key xs ys) := List.mem_flatMap.2 ⟨_, h, by simp [Rep.left]⟩
  have h1 : b ∈ rights (align key xs ys) := List.mem_flatMap.2 ⟨_, h, by simp [Rep.right]⟩
  rw [lefts_align] at h0; rw [rights_align] at h1
  exact ⟨h0, h1⟩

theorem items_ne (out : α → γ) {xs ys : List α} (h : ys ≠ []) : (align key xs ys).flatMap (Rep.items out) ≠ [] := by
  intro he
  obtain ⟨y, ys, rfl⟩ := List.exists_cons_of_ne_nil h
  have hy : y ∈ rights (align key xs (y :: ys)) := by rw [rights_align]; simp
  obtain ⟨r, hr, hy⟩ := List.mem_flatMap.1 hy
  have hi := List.flatMap_eq_nil_iff.1 he r hr
  cases r with
  | this l => simp [Rep.right] at hy
  | that l => simp only [Rep.items, List.map_eq_nil_iff] at hi; rw [hi] at hy; simp [Rep.right] at hy
  | both a b => simp [Rep.items] at hi

/-- Sums over an interleaving. -/
theorem sum_align {M : Type*} [AddCommMonoid M] (Φ : Rep α → M) (W : α → M) {xs ys : List α}
    (h : ∀ r ∈ align key xs ys, Φ r = (r.left.map W).sum + (r.right.map W).sum) :
    ((align key xs ys).map Φ).sum = (xs.map W).sum + (ys.map W).sum := by
  have gen : ∀ rs : List (Rep α), (∀ r ∈ rs, Φ r = (r.left.map W).sum + (r.right.map W).sum) → (rs.map Φ).sum = ((lefts rs).map W).sum + ((rights rs).map W).sum := by
    intro rs
    induction rs with
    | nil => intro _; simp [lefts, rights]
    | cons r rs ih =>
      intro h
      rw [List.map_cons, List.sum_cons, h r (by simp), ih (fun r hr => h r (by simp [hr])), lefts_cons, rights_cons]
      simp only [List.map_append, List.sum_append]
      abel
  have := gen _ h
  rwa [lefts_align, rights_align] at this

end

/-! ### The nodes of a merged trie -/

section
variable {K V T R : Type*} [LinearOrder K] [LinearOrder V] [LinearOrder (Lin T)] [AddCommMonoid R] [DecidableEq R]

abbrev timeKey (u : T × R) : Lin T := toLin u.1

/-- A time with its difference in a list. -/
def wrapT (u : T × R) : T × List R := (u.1, [u.2])
def wrapV (v : V × List (T × R)) : V × List (T × List R) := (v.1, v.2.map wrapT)
def wrapK (k : K × List (V × List (T × R))) : K × List (V × List (T × List R)) := (k.1, k.2.map wrapV)

def nodesT : Rep (T × R) → List (T × List R)
  | .this l => l.map wrapT
  | .that l => l.map wrapT
  | .both a b => [(a.1, if a.2 + b.2 ≠ 0 then [a.2 + b.2] else [])]

def nodesV : Rep (V × List (T × R)) → List (V × List (T × List R))
  | .this l => l.map wrapV
  | .that l => l.map wrapV
  | .both a b => [(a.1, (align timeKey a.2 b.2).flatMap nodesT)]

def nodesK : Rep (K × List (V × List (T × R))) → List (K × List (V × List (T × List R)))
  | .this l => l.map wrapK
  | .that l => l.map wrapK
  | .both a b => [(a.1, (align Prod.fst a.2 b.2).flatMap nodesV)]

theorem nodesT_fst (r : Rep (T × R)) : (nodesT r).map Prod.fst = r.items Prod.fst := by cases r <;> simp [nodesT, Rep.items, wrapT]
theorem nodesV_fst (r : Rep (V × List (T × R))) : (nodesV r).map Prod.fst = r.items Prod.fst := by cases r <;> simp [nodesV, Rep.items, wrapV]
theorem nodesK_fst (r : Rep (K × List (V × List (T × R)))) : (nodesK r).map Prod.fst = r.items Prod.fst := by cases r <;> simp [nodesK, Rep.items, wrapK]

theorem nodesT_key (r : Rep (T × R)) : (nodesT r).map (fun u => toLin u.1) = r.items timeKey := by cases r <;> simp [nodesT, Rep.items, wrapT]

theorem nodesT_diffs (r : Rep (T × R)) : (nodesT r).map Prod.snd = r.diffs Prod.snd := by cases r <;> simp [nodesT, Rep.diffs, wrapT]

theorem nodesV_lists (r : Rep (V × List (T × R))) : (nodesV r).map (fun v => v.2.map Prod.fst) = r.lists Prod.snd timeKey Prod.fst := by
  cases r with
  | this l => simp [nodesV, Rep.lists, wrapV, wrapT, itemsOf]
  | that l => simp [nodesV, Rep.lists, wrapV, wrapT, itemsOf]
  | both a b =>
    simp only [nodesV, Rep.lists, List.map_cons, List.map_nil, List.map_flatMap]
    rw [show (fun a => List.map Prod.fst (nodesT (T := T) (R := R) a)) = Rep.items Prod.fst from funext nodesT_fst]

theorem nodesK_lists (r : Rep (K × List (V × List (T × R)))) : (nodesK r).map (fun k => k.2.map Prod.fst) = r.lists Prod.snd Prod.fst Prod.fst := by
  cases r with
  | this l => simp [nodesK, Rep.lists, wrapK, wrapV, itemsOf]
  | that l => simp [nodesK, Rep.lists, wrapK, wrapV, itemsOf]
  | both a b =>
    simp only [nodesK, Rep.lists, List.map_cons, List.map_nil, List.map_flatMap]
    rw [show (fun a => List.map Prod.fst (nodesV (V := V) (T := T) (R := R) a)) = Rep.items Prod.fst from funext nodesV_fst]

theorem nodesK_snd (r : Rep (K × List (V × List (T × R)))) : (nodesK r).flatMap Prod.snd = (r.down Prod.snd Prod.fst).flatMap nodesV := by
  cases r with
  | this l => simp only [nodesK, Rep.down, List.flatMap_cons, List.flatMap_nil, List.append_nil, nodesV, List.flatMap_map, List.map_flatMap]; rfl
  | that l => simp only [nodesK, Rep.down, List.flatMap_cons, List.flatMap_nil, List.append_nil, nodesV, List.flatMap_map, List.map_flatMap]; rfl
  | both a b => simp [nodesK, Rep.down]

theorem nodesV_snd (r : Rep (V × List (T × R))) : (nodesV r).flatMap Prod.snd = (r.down Prod.snd timeKey).flatMap nodesT := by
  cases r with
  | this l => simp only [nodesV, Rep.down, List.flatMap_cons, List.flatMap_nil, List.append_nil, nodesT, List.flatMap_map, List.map_flatMap]; rfl
  | that l => simp only [nodesV, Rep.down, List.flatMap_cons, List.flatMap_nil, List.append_nil, nodesT, List.flatMap_map, List.map_flatMap]; rfl
  | both a b => simp [nodesV, Rep.down]

/-- The merged contents: under each time, a difference unless they cancel. -/
def mergedC (c0 c1 : Contents K V T R) : Contents K V T (List R) := (align Prod.fst c0 c1).flatMap nodesK

/-- Writing the layers of the merged trie. -/
theorem writeFromSurveys_spec (c0 c1 : Contents K V T R) (L0 L1 : ColTrie K V T R) (lk0 lk1 : List (List K)) (lv0 lv1 : List (List V)) (lt0 lt1 : List (List T))
    (e0 : L0.keys = .of lk0) (e1 : L1.keys = .of lk1) (e2 : L0.vals = .of lv0) (e3 : L1.vals = .of lv1) (e4 : L0.times = .of lt0) (e5 : L1.times = .of lt1)
    (BK : List (Rep (K × List (V × List (T × R))))) (BV : List (Rep (V × List (T × R)))) (BT : List (Rep (T × R)))
    (hK : BK = align Prod.fst c0 c1) (hV : BV = BK.flatMap (Rep.down Prod.snd Prod.fst)) (hT : BT = BV.flatMap (Rep.down Prod.snd timeKey))
    (rk : LayerReads id Prod.fst [.both c0 c1] lk0 lk1) (rv : LayerReads Prod.snd Prod.fst BK lv0 lv1) (rt : LayerReads Prod.snd Prod.fst BV lt0 lt1) (X0 X1 : List (T × R))
    (d0 : L0.diffs = .of ((lefts BT ++ X0).map fun u => [u.2])) (d1 : L1.diffs = .of ((rights BT ++ X1).map fun u => [u.2])) :
    ColTrie.writeFromSurveys L0 L1 [.both 0 0] (reps 0 0 BK) (reps 0 0 BV) (reps 0 0 BT) = some (Forest.layout [mergedC c0 c1]) := by
  have wk := writeLayer_spec id Prod.fst Prod.fst [.both c0 c1] lk0 lk1 rk
  have wv := writeLayer_spec Prod.snd Prod.fst Prod.fst BK lv0 lv1 rv
  have wt := writeLayer_spec Prod.snd timeKey Prod.fst BV lt0 lt1 rt
  have wd := writeDiffs_spec Prod.snd BT X0 X1
  have hk : [Rep.both c0 c1].flatMap (Rep.down id Prod.fst) = BK := by simp [Rep.down, hK]
  rw [hk] at wk
  rw [← hV] at wv
  rw [← hT] at wt
  have hr : reps 0 0 [Rep.both c0 c1] = [.both 0 0] := rfl
  rw [hr] at wk
  rw [ColTrie.writeFromSurveys, e0, e1, wk, Option.bind_some, e2, e3, wv, Option.bind_some, e4, e5, wt, Option.bind_some, d0, d1, wd]
  simp only [Option.map_some, Option.some.injEq]
  have f1 : (mergedC c0 c1).flatMap Prod.snd = BV.flatMap nodesV := by
    rw [mergedC, ← hK, List.flatMap_assoc, hV, List.flatMap_assoc]
    exact congrArg (fun f => List.flatMap f BK) (funext nodesK_snd)
  have f2 : ((mergedC c0 c1).flatMap Prod.snd).flatMap Prod.snd = BT.flatMap nodesT := by
    rw [f1, List.flatMap_assoc, hT, List.flatMap_assoc]
    exact congrArg (fun f => List.flatMap f BV) (funext nodesV_snd)
  apply ColTrie.ext
  · simp only [Forest.layout, List.flatMap_cons, List.flatMap_nil, List.append_nil, Rep.lists, List.map_cons, List.map_nil, mergedC, List.map_flatMap, id_eq]
    rw [show (fun a => List.map Prod.fst (nodesK (K := K) (V := V) (T := T) (R := R) a)) = Rep.items Prod.fst from funext nodesK_fst]
  · simp only [Forest.layout, List.flatten_cons, List.flatten_nil, List.append_nil]
    rw [mergedC, ← hK, List.map_flatMap]
    rw [show (fun a => List.map (fun k => List.map Prod.fst k.2) (nodesK (K := K) (V := V) (T := T) (R := R) a)) = Rep.lists Prod.snd Prod.fst Prod.fst from funext nodesK_lists]
  · simp only [Forest.layout, List.flatten_cons, List.flatten_nil, List.append_nil]
    rw [f1, List.map_flatMap]
    rw [show (fun a => List.map (fun k => List.map Prod.fst k.2) (nodesV (V := V) (T := T) (R := R) a)) = Rep.lists Prod.snd timeKey Prod.fst from funext nodesV_lists]
  · simp only [Forest.layout, List.flatten_cons, List.flatten_nil, List.append_nil]
    rw [f2, List.map_flatMap]
    rw [show (fun a => List.map Prod.snd (nodesT (T := T) (R := R) a)) = Rep.diffs Prod.snd from funext nodesT_diffs]

/-! ### What the merged contents hold -/

/-- Times sorted under each value. -/
def TimesSorted (c : Contents K V T R) : Prop := ∀ k ∈ c, ∀ v ∈ k.2, v.2.Pairwise fun a b => toLin a.1 < toLin b.1

def updsT (k : K) (v : V) (ts : List (T × List R)) : Upds (K ×ₗ V) T R := ts.flatMap fun t => t.2.map fun d => (toLex (k, v), t.1, d)
def updsV (k : K) (vs : List (V × List (T × List R))) : Upds (K ×ₗ V) T R := vs.flatMap fun v => updsT k v.1 v.2

theorem upds_single (g : Contents K V T (List R)) : Forest.upds [g] = g.flatMap fun k => updsV k.1 k.2 := by simp [Forest.upds, updsV, updsT]

variable [DecidableEq T]

theorem total_mergedT (k : K) (v : V) (xs ys : List (T × R)) (d : K ×ₗ V) (t : T) :
    total (updsT k v ((align timeKey xs ys).flatMap nodesT)) d t = total (xs.map fun u => (toLex (k, v), u)) d t + total (ys.map fun u => (toLex (k, v), u)) d t := by
  rw [updsT, List.flatMap_assoc, total_flatMap_sum]
  let W : T × R → R := fun u => if toLex (k, v) = d ∧ u.1 = t then u.2 else 0
  have hW : ∀ l : List (T × R), total (l.map fun u => (toLex (k, v), u)) d t = (l.map W).sum := by
    intro l; rw [total, List.map_map]; rfl
  rw [hW, hW]
  apply sum_align timeKey _ W
  intro r hr
  cases r with
  | this l =>
    have e : ((nodesT (Rep.this l)).flatMap fun t => t.2.map fun d => (toLex (k, v), t.1, d)) = l.map fun u => (toLex (k, v), u) := by
      simp only [nodesT, wrapT, List.flatMap_map, List.map_cons, List.map_nil]; exact List.map_eq_flatMap.symm
    rw [e, hW]; simp [Rep.left, Rep.right]
  | that l =>
    have e : ((nodesT (Rep.that l)).flatMap fun t => t.2.map fun d => (toLex (k, v), t.1, d)) = l.map fun u => (toLex (k, v), u) := by
      simp only [nodesT, wrapT, List.flatMap_map, List.map_cons, List.map_nil]; exact List.map_eq_flatMap.symm
    rw [e, hW]; simp [Rep.left, Rep.right]
  | both a b =>
    have hab : a.1 = b.1 := key_of_both timeKey hr
    simp only [nodesT, List.flatMap_cons, List.flatMap_nil, List.append_nil, Rep.left, Rep.right, List.map_cons, List.map_nil, List.sum_cons, List.sum_nil, add_zero, W]
    rw [hab]
    by_cases hz : a.2 + b.2 = 0
    · simp only [hz, ne_eq, not_true_eq_false, if_false, List.map_nil]
      split
      · rw [hz]; rfl
      · rw [add_zero]; rfl
    · simp only [ne_eq, hz, not_false_eq_true, if_true, List.map_cons, List.map_nil]
      rw [total]
      simp only [List.map_cons, List.map_nil, List.sum_cons, List.sum_nil, add_zero]
      split <;> simp

theorem updsT_wrap (k : K) (v : V) (l : List (T × R)) : updsT k v (l.map wrapT) = l.map fun u => (toLex (k, v), u) := by
  simp only [updsT, wrapT, List.flatMap_map, List.map_cons, List.map_nil]; exact List.map_eq_flatMap.symm

theorem total_mergedV (k : K) (xs ys : List (V × List (T × R))) (d : K ×ₗ V) (t : T) :
    total (updsV k ((align Prod.fst xs ys).flatMap nodesV)) d t =
      total (xs.flatMap fun v => v.2.map fun u => (toLex (k, v.1), u)) d t + total (ys.flatMap fun v => v.2.map fun u => (toLex (k, v.1), u)) d t := by
  rw [updsV, List.flatMap_assoc, total_flatMap_sum, total_flatMap_sum, total_flatMap_sum]
  apply sum_align Prod.fst
  intro r hr
  have hl : ∀ l : List (V × List (T × R)), total ((l.map wrapV).flatMap fun v => updsT k v.1 v.2) d t =
      (l.map fun v => total (v.2.map fun u => (toLex (k, v.1), u)) d t).sum := by
    intro l
    rw [List.flatMap_map, total_flatMap_sum]
    congr 1
    apply List.map_congr_left
    intro v _
    rw [wrapV, updsT_wrap]
  cases r with
  | this l => rw [nodesV, hl]; simp [Rep.left, Rep.right]
  | that l => rw [nodesV, hl]; simp [Rep.left, Rep.right]
  | both a b =>
    have hab : a.1 = b.1 := key_of_both Prod.fst hr
    simp only [nodesV, List.flatMap_cons, List.flatMap_nil, List.append_nil, Rep.left, Rep.right, List.map_cons, List.map_nil, List.sum_cons, List.sum_nil, add_zero]
    rw [total_mergedT, hab]

theorem total_mergedC (c0 c1 : Contents K V T R) (d : K ×ₗ V) (t : T) : total (Forest.upds [mergedC c0 c1]) d t = total c0.upds d t + total c1.upds d t := by
  rw [upds_single, mergedC, List.flatMap_assoc, total_flatMap_sum, Contents.upds, Contents.upds, total_flatMap_sum, total_flatMap_sum]
  apply sum_align Prod.fst
  intro r hr
  have hl : ∀ l : List (K × List (V × List (T × R))), total ((l.map wrapK).flatMap fun k => updsV k.1 k.2) d t =
      (l.map fun k => total (k.2.flatMap fun v => v.2.map fun u => (toLex (k.1, v.1), u)) d t).sum := by
    intro l
    rw [List.flatMap_map, total_flatMap_sum]
    congr 1
    apply List.map_congr_left
    intro k _
    rw [wrapK, updsV, List.flatMap_map]
    congr 1
    apply congrArg (fun f => List.flatMap f k.2)
    funext v
    rw [wrapV, updsT_wrap]
  cases r with
  | this l => rw [nodesK, hl]; simp [Rep.left, Rep.right]
  | that l => rw [nodesK, hl]; simp [Rep.left, Rep.right]
  | both a b =>
    have hab : a.1 = b.1 := key_of_both Prod.fst hr
    simp only [nodesK, List.flatMap_cons, List.flatMap_nil, List.append_nil, Rep.left, Rep.right, List.map_cons, List.map_nil, List.sum_cons, List.sum_nil, add_zero]
    rw [total_mergedV, hab]

/-! ### The form of the merged contents -/

omit [DecidableEq T] in
theorem mem_mergedC {c0 c1 : Contents K V T R} {k : K × List (V × List (T × List R))} (h : k ∈ mergedC c0 c1) :
    (∃ l, Rep.this l ∈ align Prod.fst c0 c1 ∧ ∃ x ∈ l, k = wrapK x) ∨ (∃ x ∈ c1, k = wrapK x) ∨
      ∃ a b, Rep.both a b ∈ align Prod.fst c0 c1 ∧ k = (a.1, (align Prod.fst a.2 b.2).flatMap nodesV) := by
  obtain ⟨r, hr, hk⟩ := List.mem_flatMap.1 h
  cases r with
  | this l => obtain ⟨x, hx, rfl⟩ := List.mem_map.1 hk; exact Or.inl ⟨l, hr, x, hx, rfl⟩
  | that l => obtain ⟨x, hx, rfl⟩ := List.mem_map.1 hk; exact Or.inr (Or.inl ⟨x, mem_of_that _ hr hx, rfl⟩)
  | both a b => simp only [nodesK, List.mem_singleton] at hk; exact Or.inr (Or.inr ⟨a, b, hr, hk⟩)

omit [DecidableEq T] in
theorem mem_mergedV {xs ys : List (V × List (T × R))} {v : V × List (T × List R)} (h : v ∈ (align Prod.fst xs ys).flatMap nodesV) :
    (∃ l, Rep.this l ∈ align Prod.fst xs ys ∧ ∃ x ∈ l, v = wrapV x) ∨ (∃ x ∈ ys, v = wrapV x) ∨
      ∃ a b, Rep.both a b ∈ align Prod.fst xs ys ∧ v = (a.1, (align timeKey a.2 b.2).flatMap nodesT) := by
  obtain ⟨r, hr, hk⟩ := List.mem_flatMap.1 h
  cases r with
  | this l => obtain ⟨x, hx, rfl⟩ := List.mem_map.1 hk; exact Or.inl ⟨l, hr, x, hx, rfl⟩
  | that l => obtain ⟨x, hx, rfl⟩ := List.mem_map.1 hk; exact Or.inr (Or.inl ⟨x, mem_of_that _ hr hx, rfl⟩)
  | both a b => simp only [nodesV, List.mem_singleton] at hk; exact Or.inr (Or.inr ⟨a, b, hr, hk⟩)

omit [DecidableEq T] in
theorem mem_mergedT {xs ys : List (T × R)} {u : T × List R} (h : u ∈ (align timeKey xs ys).flatMap nodesT) :
    (∃ x ∈ xs, u = wrapT x) ∨ (∃ x ∈ ys, u = wrapT x) ∨ ∃ a b : T × R, u = (a.1, if a.2 + b.2 ≠ 0 then [a.2 + b.2] else []) := by
  obtain ⟨r, hr, hk⟩ := List.mem_flatMap.1 h
  cases r with
  | this l => obtain ⟨x, hx, rfl⟩ := List.mem_map.1 hk; exact Or.inl ⟨x, mem_of_this _ hr hx, rfl⟩
  | that l => obtain ⟨x, hx, rfl⟩ := List.mem_map.1 hk; exact Or.inr (Or.inl ⟨x, mem_of_that _ hr hx, rfl⟩)
  | both a b => simp only [nodesT, List.mem_singleton] at hk; exact Or.inr (Or.inr ⟨a, b, hk⟩)

/-- Strictly increasing at each level, with differences other than zero. -/
structure Neat (c : Contents K V T R) : Prop where
  sorted : ContentsSorted c
  times : ∀ k ∈ c, ∀ v ∈ k.2, v.2.Pairwise fun a b => toLin a.1 < toLin b.1
  nonzero : ∀ k ∈ c, ∀ v ∈ k.2, ∀ u ∈ v.2, u.2 ≠ 0

/-- The same for at most one difference at each time. -/
structure NeatL (g : Contents K V T (List R)) : Prop where
  sorted : ContentsSorted g
  times : ∀ k ∈ g, ∀ v ∈ k.2, v.2.Pairwise fun a b => toLin a.1 < toLin b.1
  one : ∀ k ∈ g, ∀ v ∈ k.2, ∀ u ∈ v.2, u.2.length ≤ 1
  nonzero : ∀ k ∈ g, ∀ v ∈ k.2, ∀ u ∈ v.2, ∀ r ∈ u.2, r ≠ 0

omit [DecidableEq T] in
theorem neat_mergedC {c0 c1 : Contents K V T R} (h0 : Neat c0) (h1 : Neat c1) : NeatL (mergedC c0 c1) := by
  have hT : ∀ (xs ys : List (T × R)), (∀ u ∈ xs, u.2 ≠ 0) → (∀ u ∈ ys, u.2 ≠ 0) → ∀ u ∈ (align timeKey xs ys).flatMap nodesT, u.2.length ≤ 1 ∧ ∀ r ∈ u.2, r ≠ 0 := by
    intro xs ys hx hy u hu
    rcases mem_mergedT hu with ⟨x, h, rfl⟩ | ⟨x, h, rfl⟩ | ⟨a, b, rfl⟩
    · simp [wrapT, hx x h]
    · simp [wrapT, hy x h]
    · by_cases hz : a.2 + b.2 = 0
      · simp [hz]
      · simp [hz]
  have wT : ∀ (xs : List (T × R)), (∀ u ∈ xs, u.2 ≠ 0) → ∀ u ∈ xs.map wrapT, u.2.length ≤ 1 ∧ ∀ r ∈ u.2, r ≠ 0 := by
    intro xs hx u hu
    obtain ⟨x, h, rfl⟩ := List.mem_map.1 hu
    simp [wrapT, hx x h]
  have wTs : ∀ (xs : List (T × R)), xs.Pairwise (fun a b => toLin a.1 < toLin b.1) → (xs.map wrapT).Pairwise fun a b => toLin a.1 < toLin b.1 := by
    intro xs hx; rw [List.pairwise_map]; exact hx
  have hTs : ∀ (xs ys : List (T × R)), xs.Pairwise (fun a b => toLin a.1 < toLin b.1) → ys.Pairwise (fun a b => toLin a.1 < toLin b.1) →
      ((align timeKey xs ys).flatMap nodesT).Pairwise fun a b => toLin a.1 < toLin b.1 := by
    intro xs ys hx hy
    exact sorted_nodes timeKey nodesT (fun u : T × List R => toLin u.1) nodesT_key hx hy
  -- what holds under each value
  have main : ∀ k ∈ mergedC c0 c1, ∀ v ∈ k.2, v.2.Pairwise (fun a b => toLin a.1 < toLin b.1) ∧ ∀ u ∈ v.2, u.2.length ≤ 1 ∧ ∀ r ∈ u.2, r ≠ 0 := by
    intro k hk v hv
    have wV : ∀ x : V × List (T × R), x.2.Pairwise (fun a b => toLin a.1 < toLin b.1) → (∀ u ∈ x.2, u.2 ≠ 0) →
        (wrapV x).2.Pairwise (fun a b => toLin a.1 < toLin b.1) ∧ ∀ u ∈ (wrapV x).2, u.2.length ≤ 1 ∧ ∀ r ∈ u.2, r ≠ 0 := by
      intro x h1 h2
      exact ⟨wTs _ h1, wT _ h2⟩
    rcases mem_mergedC hk with ⟨l, hl, x, hx, rfl⟩ | ⟨x, hx, rfl⟩ | ⟨a, b, hab, rfl⟩
    · obtain ⟨y, hy, rfl⟩ := List.mem_map.1 hv
      have := mem_of_this _ hl hx
      exact wV y (h0.times x this y hy) (h0.nonzero x this y hy)
    · obtain ⟨y, hy, rfl⟩ := List.mem_map.1 hv
      exact wV y (h1.times x hx y hy) (h1.nonzero x hx y hy)
    · obtain ⟨ha, hb⟩ := mem_of_both _ hab
      rcases mem_mergedV hv with ⟨l, hl, x, hx, rfl⟩ | ⟨x, hx, rfl⟩ | ⟨a', b', hab', rfl⟩
      · have := mem_of_this _ hl hx
        exact wV x (h0.times a ha x this) (h0.nonzero a ha x this)
      · exact wV x (h1.times b hb x hx) (h1.nonzero b hb x hx)
      · obtain ⟨ha', hb'⟩ := mem_of_both _ hab'
        exact ⟨hTs _ _ (h0.times a ha a' ha') (h1.times b hb b' hb'), hT _ _ (h0.nonzero a ha a' ha') (h1.nonzero b hb b' hb')⟩
  refine ⟨contentsSorted_iff.2 ⟨?_, ?_⟩, fun k hk v hv => (main k hk v hv).1, fun k hk v hv u hu => ((main k hk v hv).2 u hu).1, fun k hk v hv u hu => ((main k hk v hv).2 u hu).2⟩
  · exact sorted_nodes Prod.fst nodesK Prod.fst nodesK_fst (contentsSorted_iff.1 h0.sorted).1 (contentsSorted_iff.1 h1.sorted).1
  · intro k hk
    rcases mem_mergedC hk with ⟨l, hl, x, hx, rfl⟩ | ⟨x, hx, rfl⟩ | ⟨a, b, hab, rfl⟩
    · simp only [wrapK, List.pairwise_map, wrapV]; exact (contentsSorted_iff.1 h0.sorted).2 x (mem_of_this _ hl hx)
    · simp only [wrapK, List.pairwise_map, wrapV]; exact (contentsSorted_iff.1 h1.sorted).2 x hx
    · obtain ⟨ha, hb⟩ := mem_of_both _ hab
      exact sorted_nodes Prod.fst nodesV Prod.fst nodesV_fst ((contentsSorted_iff.1 h0.sorted).2 a ha) ((contentsSorted_iff.1 h1.sorted).2 b hb)

omit [DecidableEq T] in
theorem noEmpty_mergedC {c0 c1 : Contents K V T R} (h1 : NoEmpty c1) (hK : ∀ l, Rep.this l ∈ align Prod.fst c0 c1 → NoEmpty l)
    (hV : ∀ l, Rep.this l ∈ (align Prod.fst c0 c1).flatMap (Rep.down Prod.snd Prod.fst) → ∀ v ∈ l, v.2 ≠ []) : NoEmpty (mergedC c0 c1) := by
  have wK : ∀ x : K × List (V × List (T × R)), (x.2 ≠ [] ∧ ∀ v ∈ x.2, v.2 ≠ []) → (wrapK x).2 ≠ [] ∧ ∀ v ∈ (wrapK x).2, v.2 ≠ [] := by
    intro x h
    refine ⟨by simpa [wrapK] using h.1, fun v hv => ?_⟩
    obtain ⟨y, hy, rfl⟩ := List.mem_map.1 hv
    simpa [wrapV] using h.2 y hy
  intro k hk
  rcases mem_mergedC hk with ⟨l, hl, x, hx, rfl⟩ | ⟨x, hx, rfl⟩ | ⟨a, b, hab, rfl⟩
  · exact wK x (hK l hl x hx)
  · exact wK x (h1 x hx)
  · obtain ⟨ha, hb⟩ := mem_of_both _ hab
    constructor
    · intro he
      have : ((align Prod.fst a.2 b.2).flatMap nodesV).map Prod.fst = (align Prod.fst a.2 b.2).flatMap (Rep.items Prod.fst) := by
        rw [List.map_flatMap]; exact congrArg (fun f => List.flatMap f _) (funext nodesV_fst)
      simp only at he
      rw [he] at this
      exact items_ne (Prod.fst : V × List (T × R) → V) Prod.fst (h1 b hb).1 this.symm
    · intro v hv
      rcases mem_mergedV hv with ⟨l, hl, x, hx, rfl⟩ | ⟨x, hx, rfl⟩ | ⟨a', b', hab', rfl⟩
      · have := hV l (List.mem_flatMap.2 ⟨_, hab, hl⟩) x hx
        simpa [wrapV] using this
      · have := (h1 b hb).2 x hx
        simpa [wrapV] using this
      · intro he
        have : ((align timeKey a'.2 b'.2).flatMap nodesT).map Prod.fst = (align timeKey a'.2 b'.2).flatMap (Rep.items Prod.fst) := by
          rw [List.map_flatMap]; exact congrArg (fun f => List.flatMap f _) (funext nodesT_fst)
        simp only at he
        rw [he] at this
        exact items_ne (timeKey : T × R → Lin T) Prod.fst ((h1 b hb).2 b' (mem_of_both _ hab').2) this.symm

omit [DecidableEq T] [AddCommMonoid R] [DecidableEq R] in
theorem mem_updsV {k : K} {vs : List (V × List (T × List R))} {u : (K ×ₗ V) × T × R} (h : u ∈ updsV k vs) : ∃ v ∈ vs, ∃ x ∈ v.2, u.2.2 ∈ x.2 ∧ u.1 = toLex (k, v.1) ∧ u.2.1 = x.1 := by
  obtain ⟨v, hv, hu⟩ := List.mem_flatMap.1 h
  obtain ⟨x, hx, hu⟩ := List.mem_flatMap.1 hu
  obtain ⟨r, hr, rfl⟩ := List.mem_map.1 hu
  exact ⟨v, hv, x, hx, hr, rfl, rfl⟩

omit [DecidableEq T] in
/-- The updates of a neat trie are sorted and nonzero. -/
theorem consolidated_neatL {g : Contents K V T (List R)} (h : NeatL g) : Consolidated (Forest.upds [g]) := by
  rw [upds_single]
  obtain ⟨s1, s2⟩ := contentsSorted_iff.1 h.sorted
  refine ⟨?_, ?_⟩
  · rw [List.pairwise_flatMap]
    refine ⟨fun k hk => ?_, ?_⟩
    · rw [updsV, List.pairwise_flatMap]
      refine ⟨fun v hv => ?_, ?_⟩
      · rw [updsT, List.pairwise_flatMap]
        refine ⟨fun u hu => ?_, ?_⟩
        · have := h.one k hk v hv u hu
          match hu2 : u.2, this with
          | [], _ => simp
          | [_], _ => simp
        · refine (h.times k hk v hv).imp ?_
          intro a b hab x hx y hy
          obtain ⟨r, _, rfl⟩ := List.mem_map.1 hx
          obtain ⟨r', _, rfl⟩ := List.mem_map.1 hy
          exact Or.inr ⟨rfl, hab⟩
      · refine (s2 k hk).imp ?_
        intro a b hab x hx y hy
        left
        obtain ⟨u, _, hx⟩ := List.mem_flatMap.1 hx
        obtain ⟨u', _, hy⟩ := List.mem_flatMap.1 hy
        obtain ⟨r, _, rfl⟩ := List.mem_map.1 hx
        obtain ⟨r', _, rfl⟩ := List.mem_map.1 hy
        exact Prod.Lex.toLex_lt_toLex.2 (Or.inr ⟨rfl, hab⟩)
    · refine s1.imp ?_
      intro a b hab x hx y hy
      left
      obtain ⟨v, _, u, _, _, e, _⟩ := mem_updsV hx
      obtain ⟨v', _, u', _, _, e', _⟩ := mem_updsV hy
      rw [e, e']
      exact Prod.Lex.toLex_lt_toLex.2 (Or.inl hab)
  · intro u hu
    obtain ⟨k, hk, hu⟩ := List.mem_flatMap.1 hu
    obtain ⟨v, hv, x, hx, hr, _⟩ := mem_updsV hu
    exact h.nonzero k hk v hv x hx _ hr

omit [DecidableEq T] in
theorem neat_of_consolidated {c : Contents K V T R} (hc : ContentsSorted c) (h : Consolidated c.upds) : Neat c := by
  refine ⟨hc, ?_, ?_⟩
  · intro k hk v hv
    have h1 := h.1
    rw [Contents.upds, List.pairwise_flatMap] at h1
    have h2 := h1.1 k hk
    rw [List.pairwise_flatMap] at h2
    have h3 := h2.1 v hv
    rw [List.pairwise_map] at h3
    exact h3.imp fun h => by simpa using h
  · intro k hk v hv u hu
    exact h.2 (toLex (k.1, v.1), u) (List.mem_flatMap.2 ⟨k, hk, List.mem_flatMap.2 ⟨v, hv, List.mem_map.2 ⟨u, hu, rfl⟩⟩⟩)

end

end DD
