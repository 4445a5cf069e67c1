import Verif.Spec.Surface
import Verif.Proofs.Scalar

/-!
# Names in scalar terms are resolved to what they mean
-/

namespace DD.Ir
variable {N : Type*} [DecidableEq N] {norm : Overflow} {rows : List Value} {cons : N → Option (Nat × Nat)}

/-! ### Lists -/

theorem denoteEach_get (ts : List Term) (bs : List Value) (i : Nat) : (denoteEach norm rows ts bs)[i]? = (ts[i]?).map fun t => denote norm rows t bs := by
  induction ts generalizing i with
  | nil => simp [denoteEach]
  | cons t ts ih => cases i with | zero => simp [denoteEach] | succ i => simp [denoteEach, ih]

theorem denoteFields_cons (t : Term) (ts : List Term) (bs : List Value) (h : ∀ u, t ≠ .spread u) :
    denoteFields norm rows (t :: ts) bs = (denote norm rows t bs).bind fun v => (denoteFields norm rows ts bs).map fun ys => v :: ys := by
  cases t with
  | spread u => exact absurd rfl (h u)
  | _ => simp only [denoteFields]

theorem meansFields_cons (t : Surface N) (ts : List (Surface N)) (bs : List Value) (env : N → Option Value) (h : ∀ u, t ≠ .spread u) :
    meansFields norm cons rows (t :: ts) bs env = (means norm cons rows t bs env).bind fun v => (meansFields norm cons rows ts bs env).map fun ys => v :: ys := by
  cases t with
  | spread u => exact absurd rfl (h u)
  | _ => simp only [meansFields]

theorem elaborate_spread {binders : List (N × Nat × Nat)} {depth : Nat} {s : Surface N} {u : Term} (h : elaborate cons binders depth s = some (.spread u)) : ∃ s', s = .spread s' := by
  cases s with
  | spread s' => exact ⟨s', rfl⟩
  | name x =>
    simp only [elaborate, resolveBinder] at h
    obtain ⟨p, -, h⟩ := Option.map_eq_some_iff.1 h
    cases h
  | con c args =>
    simp only [elaborate] at h
    obtain ⟨p, -, h⟩ := Option.bind_eq_some_iff.1 h
    obtain ⟨q, -, h⟩ := Option.bind_eq_some_iff.1 h
    split_ifs at h
    cases h
  | _ => simp [elaborate, Option.bind_eq_some_iff] at h

/-- The arms that are made, by tag. -/
theorem fillArms_get {tagged : List (Nat × Term)} {d : Option Term} {as : List Term} (h : fillArms tagged d = some as) (i : Nat) :
    as[i]? = if i < (tagged.map fun p => p.1 + 1).foldr max 0 then ((tagged.find? fun p => p.1 = i).map Prod.snd).or d else none := by
  have key : ∀ (l : List Nat) (f : Nat → Option Term) (r : List Term), l.mapM f = some r → r[i]? = (l[i]?).bind f := by
    intro l f r hr
    induction l generalizing r i with
    | nil => cases hr; simp
    | cons a l ih =>
      rw [List.mapM_cons] at hr
      obtain ⟨x, h1, h2⟩ := Option.bind_eq_some_iff.1 hr
      obtain ⟨y, h3, h4⟩ := Option.bind_eq_some_iff.1 h2
      cases h4
      cases i with
      | zero => simp [h1]
      | succ i => simp [ih i y h3]
  rw [key _ _ _ h]
  split_ifs with hi
  · rw [List.getElem?_range hi, Option.bind_some]
  · rw [List.getElem?_eq_none (by simpa using hi), Option.bind_none]

theorem lt_greatest {i : Nat} : ∀ {l : List Nat}, i < (l.map (· + 1)).foldr max 0 → ∃ u ∈ l, i ≤ u
  | [], h => by simp at h
  | a :: l, h => by
    rw [List.map_cons, List.foldr_cons] at h
    have h : i < a + 1 ∨ i < (l.map (· + 1)).foldr max 0 := by omega
    rcases h with h | h
    · exact ⟨a, List.mem_cons_self, by omega⟩
    · obtain ⟨u, h1, h2⟩ := lt_greatest h
      exact ⟨u, List.mem_cons_of_mem _ h1, h2⟩

theorem le_greatest {i : Nat} : ∀ {l : List Nat}, i ∈ l → i < (l.map (· + 1)).foldr max 0
  | a :: l, h => by
    rw [List.map_cons, List.foldr_cons]
    rcases List.mem_cons.1 h with rfl | h
    · omega
    · have := le_greatest h
      omega

/-! ### Names -/

/-- The values of names are the fields of bound values the binders say. -/
structure NamesAgree (binders : List (N × Nat × Nat)) (depth : Nat) (bs : List Value) (env : N → Option Value) : Prop where
  length : bs.length = depth
  value : ∀ x p, binders.reverse.find? (fun p => p.1 = x) = some p → 1 ≤ p.2.1 ∧ p.2.1 ≤ depth ∧ env x = (bs[depth - p.2.1]?).bind fun v => v.fields.bind fun xs => xs[p.2.2]?

theorem NamesAgree.push {binders : List (N × Nat × Nat)} {depth : Nat} {bs : List Value} {env : N → Option Value} (h : NamesAgree binders depth bs env) (new : List Value) :
    NamesAgree binders (depth + new.length) (new ++ bs) env where
  length := by rw [List.length_append, h.length, Nat.add_comm]
  value x p hp := by
    obtain ⟨h1, h2, h3⟩ := h.value x p hp
    refine ⟨h1, by omega, ?_⟩
    rw [h3, List.getElem?_append_right (by omega)]
    congr 2
    omega

theorem bindNames_find (payload : Value) (l : List (N × Nat)) (env : N → Option Value) (x : N) :
    (l.foldl (fun (env : N → Option Value) (p : N × Nat) => Function.update env p.1 (payload.fields.bind fun xs => xs[p.2]?)) env) x =
      match l.reverse.find? (fun p => p.1 = x) with
      | some p => payload.fields.bind fun xs => xs[p.2]?
      | none => env x := by
  induction l using List.reverseRecOn with
  | nil => rfl
  | append_singleton l p ih =>
    rw [List.foldl_append, List.foldl_cons, List.foldl_nil, List.reverse_append, List.reverse_singleton, List.singleton_append, List.find?_cons]
    by_cases h : p.1 = x
    · subst h; simp
    · simp only [h, decide_false]
      rw [Function.update_of_ne (fun e => h e.symm)]
      exact ih

theorem NamesAgree.names {binders : List (N × Nat × Nat)} {depth : Nat} {bs : List Value} {env : N → Option Value} (h : NamesAgree binders depth bs env) (payload : Value) (names : List N) :
    NamesAgree (binders ++ names.zipIdx.map fun q => (q.1, depth + 1, q.2)) (depth + 1) (payload :: bs) (bindNames env payload names) where
  length := by rw [List.length_cons, h.length]
  value x p hp := by
    rw [List.reverse_append, List.find?_append, ← List.map_reverse, List.find?_map] at hp
    unfold bindNames
    rw [bindNames_find]
    have hc : ((fun p : N × Nat × Nat => decide (p.1 = x)) ∘ fun q : N × Nat => (q.1, depth + 1, q.2)) = fun q => decide (q.1 = x) := rfl
    rw [hc] at hp
    cases hf : names.zipIdx.reverse.find? (fun q => decide (q.1 = x)) with
    | some q =>
      rw [hf] at hp
      cases hp
      simp
    | none =>
      rw [hf, Option.map_none, Option.none_or] at hp
      obtain ⟨h1, h2, h3⟩ := (h.push [payload]).value x p hp
      exact ⟨h1, h2, h3⟩

/-! ### Scope -/

mutual
theorem elaborate_plain : ∀ (s : Surface N) (n b : Nat) (binders : List (N × Nat × Nat)) (depth : Nat) (t : Term), s.Plain → s.Scoped n b → elaborate cons binders depth s = some t → ∀ b', Scoped n t b'
  | .var i, n, b, binders, depth, t, hp, hs, h, b' => by simp only [elaborate] at h; cases h; simp only [Surface.Scoped] at hs; simp only [Scoped]; exact hs
  | .bound k, n, b, binders, depth, t, hp, hs, h, b' => by simp only [Surface.Plain] at hp
  | .int k, n, b, binders, depth, t, hp, hs, h, b' => by simp only [elaborate] at h; cases h; simp only [Scoped]
  | .name x, n, b, binders, depth, t, hp, hs, h, b' => by simp only [Surface.Plain] at hp
  | .tuple fs, n, b, binders, depth, t, hp, hs, h, b' => by
    simp only [Surface.Plain] at hp
    simp only [Surface.Scoped] at hs
    simp only [elaborate] at h
    obtain ⟨ts, h1, h2⟩ := Option.map_eq_some_iff.1 h
    cases h2
    simp only [Scoped]
    exact elaborates_plain fs n b binders depth ts hp hs h1 b'
  | .list fs, n, b, binders, depth, t, hp, hs, h, b' => by
    simp only [Surface.Plain] at hp
    simp only [Surface.Scoped] at hs
    simp only [elaborate] at h
    obtain ⟨ts, h1, h2⟩ := Option.map_eq_some_iff.1 h
    cases h2
    simp only [Scoped]
    exact elaborates_plain fs n b binders depth ts hp hs h1 b'
  | .spread s, n, b, binders, depth, t, hp, hs, h, b' => by
    simp only [Surface.Plain] at hp
    simp only [Surface.Scoped] at hs
    simp only [elaborate] at h
    obtain ⟨u, h1, h2⟩ := Option.map_eq_some_iff.1 h
    cases h2
    simp only [Scoped]
    exact elaborate_plain s n b binders depth u hp hs h1 b'
  | .proj s i, n, b, binders, depth, t, hp, hs, h, b' => by
    simp only [Surface.Plain] at hp
    simp only [Surface.Scoped] at hs
    simp only [elaborate] at h
    obtain ⟨u, h1, h2⟩ := Option.map_eq_some_iff.1 h
    cases h2
    simp only [Scoped]
    exact elaborate_plain s n b binders depth u hp hs h1 b'
  | .inject tag s, n, b, binders, depth, t, hp, hs, h, b' => by
    simp only [Surface.Plain] at hp
    simp only [Surface.Scoped] at hs
    simp only [elaborate] at h
    obtain ⟨u, h1, h2⟩ := Option.bind_eq_some_iff.1 h
    obtain ⟨v, h3, h4⟩ := Option.map_eq_some_iff.1 h2
    cases h4
    simp only [Scoped]
    exact ⟨elaborate_plain tag n b binders depth u hp.1 hs.1 h1 b', elaborate_plain s n b binders depth v hp.2 hs.2 h3 b'⟩
  | .con c args, n, b, binders, depth, t, hp, hs, h, b' => by
    simp only [Surface.Plain] at hp
    simp only [Surface.Scoped] at hs
    simp only [elaborate] at h
    obtain ⟨p, -, h1⟩ := Option.bind_eq_some_iff.1 h
    obtain ⟨ts, h2, h3⟩ := Option.bind_eq_some_iff.1 h1
    split_ifs at h3
    cases h3
    simp only [Scoped]
    exact ⟨trivial, elaborates_plain args n b binders depth ts hp hs h2 b'⟩
  | .case s arms, n, b, binders, depth, t, hp, hs, h, b' => by
    simp only [Surface.Plain] at hp
    simp only [Surface.Scoped] at hs
    simp only [elaborate] at h
    obtain ⟨u, h1, h2⟩ := Option.bind_eq_some_iff.1 h
    obtain ⟨⟨tagged, dflt⟩, h3, h4⟩ := Option.bind_eq_some_iff.1 h2
    obtain ⟨as, h5, h6⟩ := Option.map_eq_some_iff.1 h4
    cases h6
    obtain ⟨h7, h8⟩ := elaborateArms_plain arms n b binders depth [] none tagged dflt hp.2 hs.2 h3 (by simp) (by simp)
    have h9 : ∀ a ∈ as, ∀ b, Scoped n a b := by
      intro a ha b
      obtain ⟨i, hi⟩ := List.getElem?_of_mem ha
      rw [fillArms_get h5] at hi
      split_ifs at hi
      rcases Option.or_eq_some_iff.1 hi with e | ⟨-, e⟩
      · obtain ⟨p, hp, rfl⟩ := Option.map_eq_some_iff.1 e
        exact h7 p (List.mem_of_find?_eq_some hp) b
      · exact h8 a e b
    have h10 : ∀ (as : List Term) (b : Nat), (∀ a ∈ as, Scoped n a b) → AllScoped n as b := by
      intro as b ha
      induction as with
      | nil => simp only [AllScoped]
      | cons a as ih => simp only [AllScoped]; exact ⟨ha a List.mem_cons_self, ih fun x hx => ha x (List.mem_cons_of_mem _ hx)⟩
    simp only [Scoped]
    refine ⟨elaborate_plain s n b binders depth u hp.1 hs.1 h1 b', h10 _ _ fun a ha => h9 a ha _, ?_⟩
    cases dflt with
    | none => simp only [OptionScoped]
    | some d => simp only [OptionScoped]; exact h8 d rfl b'
  | .fold l i s, n, b, binders, depth, t, hp, hs, h, b' => by
    simp only [Surface.Plain] at hp
    simp only [Surface.Scoped] at hs
    simp only [elaborate] at h
    obtain ⟨u, h1, h2⟩ := Option.bind_eq_some_iff.1 h
    obtain ⟨v, h3, h4⟩ := Option.bind_eq_some_iff.1 h2
    obtain ⟨w, h5, h6⟩ := Option.map_eq_some_iff.1 h4
    cases h6
    simp only [Scoped]
    exact ⟨elaborate_plain l n b binders depth u hp.1 hs.1 h1 b', elaborate_plain i n b binders depth v hp.2.1 hs.2.1 h3 b', elaborate_plain s n _ binders _ w hp.2.2 hs.2.2 h5 _⟩
  | .ite l i s, n, b, binders, depth, t, hp, hs, h, b' => by
    simp only [Surface.Plain] at hp
    simp only [Surface.Scoped] at hs
    simp only [elaborate] at h
    obtain ⟨u, h1, h2⟩ := Option.bind_eq_some_iff.1 h
    obtain ⟨v, h3, h4⟩ := Option.bind_eq_some_iff.1 h2
    obtain ⟨w, h5, h6⟩ := Option.map_eq_some_iff.1 h4
    cases h6
    simp only [Scoped]
    exact ⟨elaborate_plain l n b binders depth u hp.1 hs.1 h1 b', elaborate_plain i n b binders depth v hp.2.1 hs.2.1 h3 b', elaborate_plain s n b binders depth w hp.2.2 hs.2.2 h5 b'⟩
  | .unary op s, n, b, binders, depth, t, hp, hs, h, b' => by
    simp only [Surface.Plain] at hp
    simp only [Surface.Scoped] at hs
    simp only [elaborate] at h
    obtain ⟨u, h1, h2⟩ := Option.map_eq_some_iff.1 h
    cases h2
    simp only [Scoped]
    exact elaborate_plain s n b binders depth u hp hs h1 b'
  | .binary op l r, n, b, binders, depth, t, hp, hs, h, b' => by
    simp only [Surface.Plain] at hp
    simp only [Surface.Scoped] at hs
    simp only [elaborate] at h
    obtain ⟨u, h1, h2⟩ := Option.bind_eq_some_iff.1 h
    obtain ⟨v, h3, h4⟩ := Option.map_eq_some_iff.1 h2
    cases h4
    simp only [Scoped]
    exact ⟨elaborate_plain l n b binders depth u hp.1 hs.1 h1 b', elaborate_plain r n b binders depth v hp.2 hs.2 h3 b'⟩
  | .hash fs, n, b, binders, depth, t, hp, hs, h, b' => by
    simp only [Surface.Plain] at hp
    simp only [Surface.Scoped] at hs
    simp only [elaborate] at h
    obtain ⟨ts, h1, h2⟩ := Option.map_eq_some_iff.1 h
    cases h2
    simp only [Scoped]
    exact elaborates_plain fs n b binders depth ts hp hs h1 b'
theorem elaborates_plain : ∀ (s : List (Surface N)) (n b : Nat) (binders : List (N × Nat × Nat)) (depth : Nat) (t : List Term), Surface.AllPlain s → Surface.AllScoped n s b →
    elaborates cons binders depth s = some t → ∀ b', AllScoped n t b'
  | [], n, b, binders, depth, t, hp, hs, h, b' => by simp only [elaborates] at h; cases h; simp only [AllScoped]
  | s :: ss, n, b, binders, depth, t, hp, hs, h, b' => by
    simp only [Surface.AllPlain] at hp
    simp only [Surface.AllScoped] at hs
    simp only [elaborates] at h
    obtain ⟨u, h1, h2⟩ := Option.bind_eq_some_iff.1 h
    obtain ⟨v, h3, h4⟩ := Option.map_eq_some_iff.1 h2
    cases h4
    simp only [AllScoped]
    exact ⟨elaborate_plain s n b binders depth u hp.1 hs.1 h1 b', elaborates_plain ss n b binders depth v hp.2 hs.2 h3 b'⟩
theorem elaborateArms_plain : ∀ (arms : Arms N) (n b : Nat) (binders : List (N × Nat × Nat)) (depth : Nat) (tagged : List (Nat × Term)) (d : Option Term) (tagged' : List (Nat × Term)) (d' : Option Term),
    arms.Plain → arms.Scoped n b → elaborateArms cons binders depth arms tagged d = some (tagged', d') → (∀ p ∈ tagged, ∀ b, Scoped n p.2 b) → (∀ t, d = some t → ∀ b, Scoped n t b) →
    (∀ p ∈ tagged', ∀ b, Scoped n p.2 b) ∧ ∀ t, d' = some t → ∀ b, Scoped n t b
  | .nil, n, b, binders, depth, tagged, d, tagged', d', hp, hs, h, ht, hd => by simp only [elaborateArms] at h; cases h; exact ⟨ht, hd⟩
  | .default s rest, n, b, binders, depth, tagged, d, tagged', d', hp, hs, h, ht, hd => by
    simp only [Arms.Plain] at hp
    simp only [Arms.Scoped] at hs
    simp only [elaborateArms] at h
    obtain ⟨u, h1, h2⟩ := Option.bind_eq_some_iff.1 h
    exact elaborateArms_plain rest n b binders depth tagged (some u) tagged' d' hp.2 hs.2 h2 ht fun t e => by cases e; exact elaborate_plain s n b binders depth u hp.1 hs.1 h1
  | .con c names s rest, n, b, binders, depth, tagged, d, tagged', d', hp, hs, h, ht, hd => by
    simp only [Arms.Plain] at hp
    simp only [Arms.Scoped] at hs
    simp only [elaborateArms] at h
    obtain ⟨p, -, h1⟩ := Option.bind_eq_some_iff.1 h
    split_ifs at h1
    obtain ⟨u, h2, h3⟩ := Option.bind_eq_some_iff.1 h1
    refine elaborateArms_plain rest n b binders depth _ d tagged' d' hp.2 hs.2 h3 (fun q hq => ?_) hd
    rcases List.mem_append.1 hq with e | e
    · exact ht q e
    · rw [List.mem_singleton] at e
      rw [e]
      exact elaborate_plain s n _ _ _ u hp.1 hs.1 h2
end

mutual
theorem elaborate_scoped : ∀ (s : Surface N) (n : Nat) (binders : List (N × Nat × Nat)) (depth : Nat) (t : Term), (∀ p ∈ binders, 1 ≤ p.2.1 ∧ p.2.1 ≤ depth) → s.Scoped n depth →
    elaborate cons binders depth s = some t → Scoped n t depth
  | .var i, n, binders, depth, t, hp, hs, h => by simp only [elaborate] at h; cases h; simp only [Surface.Scoped] at hs; simp only [Scoped]; exact hs
  | .bound k, n, binders, depth, t, hp, hs, h => by simp only [elaborate] at h; cases h; simp only [Surface.Scoped] at hs; simp only [Scoped]; exact hs
  | .int k, n, binders, depth, t, hp, hs, h => by simp only [elaborate] at h; cases h; simp only [Scoped]
  | .name x, n, binders, depth, t, hp, hs, h => by
    simp only [elaborate, resolveBinder] at h
    obtain ⟨p, h1, h2⟩ := Option.map_eq_some_iff.1 h
    cases h2
    have := hp p (List.mem_reverse.1 (List.mem_of_find?_eq_some h1))
    simp only [Scoped]
    omega
  | .tuple fs, n, binders, depth, t, hp, hs, h => by
    simp only [Surface.Scoped] at hs
    simp only [elaborate] at h
    obtain ⟨ts, h1, h2⟩ := Option.map_eq_some_iff.1 h
    cases h2
    simp only [Scoped]
    exact elaborates_scoped fs n binders depth ts hp hs h1
  | .list fs, n, binders, depth, t, hp, hs, h => by
    simp only [Surface.Scoped] at hs
    simp only [elaborate] at h
    obtain ⟨ts, h1, h2⟩ := Option.map_eq_some_iff.1 h
    cases h2
    simp only [Scoped]
    exact elaborates_scoped fs n binders depth ts hp hs h1
  | .spread s, n, binders, depth, t, hp, hs, h => by
    simp only [Surface.Scoped] at hs
    simp only [elaborate] at h
    obtain ⟨u, h1, h2⟩ := Option.map_eq_some_iff.1 h
    cases h2
    simp only [Scoped]
    exact elaborate_scoped s n binders depth u hp hs h1
  | .proj s i, n, binders, depth, t, hp, hs, h => by
    simp only [Surface.Scoped] at hs
    simp only [elaborate] at h
    obtain ⟨u, h1, h2⟩ := Option.map_eq_some_iff.1 h
    cases h2
    simp only [Scoped]
    exact elaborate_scoped s n binders depth u hp hs h1
  | .inject tag s, n, binders, depth, t, hp, hs, h => by
    simp only [Surface.Scoped] at hs
    simp only [elaborate] at h
    obtain ⟨u, h1, h2⟩ := Option.bind_eq_some_iff.1 h
    obtain ⟨v, h3, h4⟩ := Option.map_eq_some_iff.1 h2
    cases h4
    simp only [Scoped]
    exact ⟨elaborate_scoped tag n binders depth u hp hs.1 h1, elaborate_scoped s n binders depth v hp hs.2 h3⟩
  | .con c args, n, binders, depth, t, hp, hs, h => by
    simp only [Surface.Scoped] at hs
    simp only [elaborate] at h
    obtain ⟨p, -, h1⟩ := Option.bind_eq_some_iff.1 h
    obtain ⟨ts, h2, h3⟩ := Option.bind_eq_some_iff.1 h1
    split_ifs at h3
    cases h3
    simp only [Scoped]
    exact ⟨trivial, elaborates_scoped args n binders depth ts hp hs h2⟩
  | .case s arms, n, binders, depth, t, hp, hs, h => by
    simp only [Surface.Scoped] at hs
    simp only [elaborate] at h
    obtain ⟨u, h1, h2⟩ := Option.bind_eq_some_iff.1 h
    obtain ⟨⟨tagged, dflt⟩, h3, h4⟩ := Option.bind_eq_some_iff.1 h2
    obtain ⟨as, h5, h6⟩ := Option.map_eq_some_iff.1 h4
    cases h6
    obtain ⟨h7, h8⟩ := elaborateArms_scoped arms n binders depth [] none tagged dflt hp hs.2 h3 (by simp) (by simp)
    have h9 : ∀ a ∈ as, Scoped n a (depth + 1) := by
      intro a ha
      obtain ⟨i, hi⟩ := List.getElem?_of_mem ha
      rw [fillArms_get h5] at hi
      split_ifs at hi
      rcases Option.or_eq_some_iff.1 hi with e | ⟨-, e⟩
      · obtain ⟨p, hp, rfl⟩ := Option.map_eq_some_iff.1 e
        exact h7 p (List.mem_of_find?_eq_some hp)
      · exact scoped_mono _ _ _ _ (Nat.le_succ _) (h8 a e)
    have h10 : ∀ (as : List Term) (b : Nat), (∀ a ∈ as, Scoped n a b) → AllScoped n as b := by
      intro as b ha
      induction as with
      | nil => simp only [AllScoped]
      | cons a as ih => simp only [AllScoped]; exact ⟨ha a List.mem_cons_self, ih fun x hx => ha x (List.mem_cons_of_mem _ hx)⟩
    simp only [Scoped]
    refine ⟨elaborate_scoped s n binders depth u hp hs.1 h1, h10 _ _ h9, ?_⟩
    cases dflt with
    | none => simp only [OptionScoped]
    | some d => simp only [OptionScoped]; exact h8 d rfl
  | .fold l i s, n, binders, depth, t, hp, hs, h => by
    simp only [Surface.Scoped] at hs
    simp only [elaborate] at h
    obtain ⟨u, h1, h2⟩ := Option.bind_eq_some_iff.1 h
    obtain ⟨v, h3, h4⟩ := Option.bind_eq_some_iff.1 h2
    obtain ⟨w, h5, h6⟩ := Option.map_eq_some_iff.1 h4
    cases h6
    simp only [Scoped]
    exact ⟨elaborate_scoped l n binders depth u hp hs.1 h1, elaborate_scoped i n binders depth v hp hs.2.1 h3,
      elaborate_scoped s n binders _ w (fun p h => ⟨(hp p h).1, by have := (hp p h).2; omega⟩) hs.2.2 h5⟩
  | .ite l i s, n, binders, depth, t, hp, hs, h => by
    simp only [Surface.Scoped] at hs
    simp only [elaborate] at h
    obtain ⟨u, h1, h2⟩ := Option.bind_eq_some_iff.1 h
    obtain ⟨v, h3, h4⟩ := Option.bind_eq_some_iff.1 h2
    obtain ⟨w, h5, h6⟩ := Option.map_eq_some_iff.1 h4
    cases h6
    simp only [Scoped]
    exact ⟨elaborate_scoped l n binders depth u hp hs.1 h1, elaborate_scoped i n binders depth v hp hs.2.1 h3, elaborate_scoped s n binders depth w hp hs.2.2 h5⟩
  | .unary op s, n, binders, depth, t, hp, hs, h => by
    simp only [Surface.Scoped] at hs
    simp only [elaborate] at h
    obtain ⟨u, h1, h2⟩ := Option.map_eq_some_iff.1 h
    cases h2
    simp only [Scoped]
    exact elaborate_scoped s n binders depth u hp hs h1
  | .binary op l r, n, binders, depth, t, hp, hs, h => by
    simp only [Surface.Scoped] at hs
    simp only [elaborate] at h
    obtain ⟨u, h1, h2⟩ := Option.bind_eq_some_iff.1 h
    obtain ⟨v, h3, h4⟩ := Option.map_eq_some_iff.1 h2
    cases h4
    simp only [Scoped]
    exact ⟨elaborate_scoped l n binders depth u hp hs.1 h1, elaborate_scoped r n binders depth v hp hs.2 h3⟩
  | .hash fs, n, binders, depth, t, hp, hs, h => by
    simp only [Surface.Scoped] at hs
    simp only [elaborate] at h
    obtain ⟨ts, h1, h2⟩ := Option.map_eq_some_iff.1 h
    cases h2
    simp only [Scoped]
    exact elaborates_scoped fs n binders depth ts hp hs h1
theorem elaborates_scoped : ∀ (s : List (Surface N)) (n : Nat) (binders : List (N × Nat × Nat)) (depth : Nat) (t : List Term), (∀ p ∈ binders, 1 ≤ p.2.1 ∧ p.2.1 ≤ depth) → Surface.AllScoped n s depth →
    elaborates cons binders depth s = some t → AllScoped n t depth
  | [], n, binders, depth, t, hp, hs, h => by simp only [elaborates] at h; cases h; simp only [AllScoped]
  | s :: ss, n, binders, depth, t, hp, hs, h => by
    simp only [Surface.AllScoped] at hs
    simp only [elaborates] at h
    obtain ⟨u, h1, h2⟩ := Option.bind_eq_some_iff.1 h
    obtain ⟨v, h3, h4⟩ := Option.map_eq_some_iff.1 h2
    cases h4
    simp only [AllScoped]
    exact ⟨elaborate_scoped s n binders depth u hp hs.1 h1, elaborates_scoped ss n binders depth v hp hs.2 h3⟩
theorem elaborateArms_scoped : ∀ (arms : Arms N) (n : Nat) (binders : List (N × Nat × Nat)) (depth : Nat) (tagged : List (Nat × Term)) (d : Option Term) (tagged' : List (Nat × Term)) (d' : Option Term),
    (∀ p ∈ binders, 1 ≤ p.2.1 ∧ p.2.1 ≤ depth) → arms.Scoped n depth → elaborateArms cons binders depth arms tagged d = some (tagged', d') → (∀ p ∈ tagged, Scoped n p.2 (depth + 1)) →
    (∀ t, d = some t → Scoped n t depth) → (∀ p ∈ tagged', Scoped n p.2 (depth + 1)) ∧ ∀ t, d' = some t → Scoped n t depth
  | .nil, n, binders, depth, tagged, d, tagged', d', hp, hs, h, ht, hd => by simp only [elaborateArms] at h; cases h; exact ⟨ht, hd⟩
  | .default s rest, n, binders, depth, tagged, d, tagged', d', hp, hs, h, ht, hd => by
    simp only [Arms.Scoped] at hs
    simp only [elaborateArms] at h
    obtain ⟨u, h1, h2⟩ := Option.bind_eq_some_iff.1 h
    exact elaborateArms_scoped rest n binders depth tagged (some u) tagged' d' hp hs.2 h2 ht fun t e => by cases e; exact elaborate_scoped s n binders depth u hp hs.1 h1
  | .con c names s rest, n, binders, depth, tagged, d, tagged', d', hp, hs, h, ht, hd => by
    simp only [Arms.Scoped] at hs
    simp only [elaborateArms] at h
    obtain ⟨p, -, h1⟩ := Option.bind_eq_some_iff.1 h
    split_ifs at h1
    obtain ⟨u, h2, h3⟩ := Option.bind_eq_some_iff.1 h1
    refine elaborateArms_scoped rest n binders depth _ d tagged' d' hp hs.2 h3 (fun q hq => ?_) hd
    rcases List.mem_append.1 hq with e | e
    · exact ht q e
    · rw [List.mem_singleton] at e
      rw [e]
      refine elaborate_scoped s n _ _ u (fun r hr => ?_) hs.1 h2
      rcases List.mem_append.1 hr with e | e
      · have := hp r e
        omega
      · obtain ⟨q, -, rfl⟩ := List.mem_map.1 e
        simp
end

/-! ### Meaning -/

variable (hc : ∀ c p, cons c = some p → p.1 < 2 ^ 32)
include hc

mutual
theorem elaborate_means : ∀ (s : Surface N) (binders : List (N × Nat × Nat)) (depth : Nat) (t : Term) (bs : List Value) (env : N → Option Value), elaborate cons binders depth s = some t →
    s.Scoped rows.length depth → s.Gapless cons → NamesAgree binders depth bs env → denote norm rows t bs = means norm cons rows s bs env
  | .var i, binders, depth, t, bs, env, h, hs, hg, ha => by simp only [elaborate] at h; cases h; simp only [denote, means]
  | .bound k, binders, depth, t, bs, env, h, hs, hg, ha => by simp only [elaborate] at h; cases h; simp only [denote, means]
  | .int k, binders, depth, t, bs, env, h, hs, hg, ha => by simp only [elaborate] at h; cases h; simp only [denote, means]
  | .name x, binders, depth, t, bs, env, h, hs, hg, ha => by
    simp only [elaborate, resolveBinder] at h
    obtain ⟨p, h1, h2⟩ := Option.map_eq_some_iff.1 h
    cases h2
    simp only [denote, means]
    exact (ha.value x p h1).2.2.symm
  | .tuple fs, binders, depth, t, bs, env, h, hs, hg, ha => by
    simp only [Surface.Scoped] at hs
    simp only [Surface.Gapless] at hg
    simp only [elaborate] at h
    obtain ⟨ts, h1, h2⟩ := Option.map_eq_some_iff.1 h
    cases h2
    simp only [denote, means, elaborates_fields fs binders depth ts bs env h1 hs hg ha]
  | .list fs, binders, depth, t, bs, env, h, hs, hg, ha => by
    simp only [Surface.Scoped] at hs
    simp only [Surface.Gapless] at hg
    simp only [elaborate] at h
    obtain ⟨ts, h1, h2⟩ := Option.map_eq_some_iff.1 h
    cases h2
    simp only [denote, means, elaborates_fields fs binders depth ts bs env h1 hs hg ha]
  | .spread s, binders, depth, t, bs, env, h, hs, hg, ha => by
    simp only [elaborate] at h
    obtain ⟨u, h1, h2⟩ := Option.map_eq_some_iff.1 h
    cases h2
    simp only [denote, means]
  | .proj s i, binders, depth, t, bs, env, h, hs, hg, ha => by
    simp only [Surface.Scoped] at hs
    simp only [Surface.Gapless] at hg
    simp only [elaborate] at h
    obtain ⟨u, h1, h2⟩ := Option.map_eq_some_iff.1 h
    cases h2
    simp only [denote, means, elaborate_means s binders depth u bs env h1 hs hg ha]
  | .inject tag s, binders, depth, t, bs, env, h, hs, hg, ha => by
    simp only [Surface.Scoped] at hs
    simp only [Surface.Gapless] at hg
    simp only [elaborate] at h
    obtain ⟨u, h1, h2⟩ := Option.bind_eq_some_iff.1 h
    obtain ⟨v, h3, h4⟩ := Option.map_eq_some_iff.1 h2
    cases h4
    simp only [denote, means, elaborate_means tag binders depth u bs env h1 hs.1 hg.1 ha, elaborate_means s binders depth v bs env h3 hs.2 hg.2 ha]
  | .con c args, binders, depth, t, bs, env, h, hs, hg, ha => by
    simp only [Surface.Scoped] at hs
    simp only [Surface.Gapless] at hg
    simp only [elaborate] at h
    obtain ⟨p, h0, h1⟩ := Option.bind_eq_some_iff.1 h
    obtain ⟨ts, h2, h3⟩ := Option.bind_eq_some_iff.1 h1
    split_ifs at h3
    cases h3
    have hp : asU32 (p.1 : Int) = p.1 := by
      have := hc c p h0
      unfold asU32
      omega
    simp only [denote, means, elaborates_fields args binders depth ts bs env h2 hs hg ha, h0, Option.bind_some, Value.asInt, hp, Option.map_map]
    rfl
  | .case s arms, binders, depth, t, bs, env, h, hs, hg, ha => by
    simp only [Surface.Scoped] at hs
    simp only [Surface.Gapless] at hg
    simp only [elaborate] at h
    obtain ⟨u, h1, h2⟩ := Option.bind_eq_some_iff.1 h
    obtain ⟨⟨tagged, dflt⟩, h3, h4⟩ := Option.bind_eq_some_iff.1 h2
    obtain ⟨as, h5, h6⟩ := Option.map_eq_some_iff.1 h4
    cases h6
    obtain ⟨new, h7, h8, h9, h10, h11⟩ := elaborateArms_means arms binders depth [] none tagged dflt bs env h3 hs.2 hg.2.1 ha
    rw [List.nil_append] at h7
    subst h7
    simp only [denote, means, elaborate_means s binders depth u bs env h1 hs.1 hg.1 ha]
    congr 1
    funext v
    cases v with
    | variant tag payload =>
      simp only [denoteEach_get, fillArms_get h5]
      have hd : denoteOption norm rows dflt bs = (defaultMeans norm cons rows arms bs env).join := by
        rw [Option.map_none, Option.or_none] at h9
        rw [← h9]
        cases dflt <;> simp [denoteOption]
      rw [← h8 tag payload]
      cases hf : tagged.find? (fun p => p.1 = tag) with
      | some p =>
        have hp : p.1 = tag := by simpa using List.find?_some hf
        have hlt : tag < (tagged.map fun p => p.1 + 1).foldr max 0 := by
          have := le_greatest (List.mem_map_of_mem (f := Prod.fst) (List.mem_of_find?_eq_some hf))
          rw [List.map_map, hp] at this
          exact this
        simp [hlt]
      | none =>
        by_cases hlt : tag < (tagged.map fun p => p.1 + 1).foldr max 0
        · have hlt' := hlt
          rw [show (tagged.map fun p => p.1 + 1) = (tagged.map Prod.fst).map (· + 1) by rw [List.map_map]; rfl] at hlt'
          obtain ⟨w, hw, hle⟩ := lt_greatest hlt'
          have hnot : ¬ arms.Has cons tag := by
            rw [h10]
            intro hm
            obtain ⟨p, hp, rfl⟩ := List.mem_map.1 hm
            have := List.find?_eq_none.1 hf p hp
            simp at this
          have hplain : arms.DefaultPlain := by
            refine hg.2.2.resolve_left fun hall => ?_
            rcases Nat.lt_or_eq_of_le hle with e | e
            · exact hnot (hall tag w e ((h10 w).2 hw))
            · rw [e] at hnot; exact hnot ((h10 w).2 hw)
          simp only [hlt, if_true, Option.map_none, Option.none_or]
          cases dflt with
          | none => simp [← hd, denoteOption]
          | some d =>
            have hsc := h11 hplain (by simp) d rfl
            simp only [Option.map_some, Option.getD_some, ← hd, denoteOption]
            have e1 := denote_deep (norm := norm) (rows := rows) d [] (payload :: bs) _ (hsc 0)
            have e2 := denote_deep (norm := norm) (rows := rows) d [] bs _ (hsc 0)
            rw [List.nil_append] at e1 e2
            rw [e1, e2]
        · simp [hlt, hd]
    | _ => rfl
  | .fold l i s, binders, depth, t, bs, env, h, hs, hg, ha => by
    simp only [Surface.Scoped] at hs
    simp only [Surface.Gapless] at hg
    simp only [elaborate] at h
    obtain ⟨u, h1, h2⟩ := Option.bind_eq_some_iff.1 h
    obtain ⟨v, h3, h4⟩ := Option.bind_eq_some_iff.1 h2
    obtain ⟨w, h5, h6⟩ := Option.map_eq_some_iff.1 h4
    cases h6
    have hw : (fun acc item => denote norm rows w (item :: acc :: bs)) = fun acc item => means norm cons rows s (item :: acc :: bs) env := by
      funext acc item
      exact elaborate_means s binders (depth + 2) w (item :: acc :: bs) env h5 hs.2.2 hg.2.2 (ha.push [item, acc])
    simp only [denote, means, elaborate_means l binders depth u bs env h1 hs.1 hg.1 ha, elaborate_means i binders depth v bs env h3 hs.2.1 hg.2.1 ha, hw]
    rfl
  | .ite l i s, binders, depth, t, bs, env, h, hs, hg, ha => by
    simp only [Surface.Scoped] at hs
    simp only [Surface.Gapless] at hg
    simp only [elaborate] at h
    obtain ⟨u, h1, h2⟩ := Option.bind_eq_some_iff.1 h
    obtain ⟨v, h3, h4⟩ := Option.bind_eq_some_iff.1 h2
    obtain ⟨w, h5, h6⟩ := Option.map_eq_some_iff.1 h4
    cases h6
    simp only [denote, means, elaborate_means l binders depth u bs env h1 hs.1 hg.1 ha, elaborate_means i binders depth v bs env h3 hs.2.1 hg.2.1 ha,
      elaborate_means s binders depth w bs env h5 hs.2.2 hg.2.2 ha]
  | .unary op s, binders, depth, t, bs, env, h, hs, hg, ha => by
    simp only [Surface.Scoped] at hs
    simp only [Surface.Gapless] at hg
    simp only [elaborate] at h
    obtain ⟨u, h1, h2⟩ := Option.map_eq_some_iff.1 h
    cases h2
    simp only [denote, means, elaborate_means s binders depth u bs env h1 hs hg ha]
  | .binary op l r, binders, depth, t, bs, env, h, hs, hg, ha => by
    simp only [Surface.Scoped] at hs
    simp only [Surface.Gapless] at hg
    simp only [elaborate] at h
    obtain ⟨u, h1, h2⟩ := Option.bind_eq_some_iff.1 h
    obtain ⟨v, h3, h4⟩ := Option.map_eq_some_iff.1 h2
    cases h4
    simp only [denote, means, elaborate_means l binders depth u bs env h1 hs.1 hg.1 ha, elaborate_means r binders depth v bs env h3 hs.2 hg.2 ha]
    rfl
  | .hash fs, binders, depth, t, bs, env, h, hs, hg, ha => by
    simp only [Surface.Scoped] at hs
    simp only [Surface.Gapless] at hg
    simp only [elaborate] at h
    obtain ⟨ts, h1, h2⟩ := Option.map_eq_some_iff.1 h
    cases h2
    simp only [denote, means, elaborates_each fs binders depth ts bs env h1 hs hg ha]
    rfl
theorem elaborates_fields : ∀ (s : List (Surface N)) (binders : List (N × Nat × Nat)) (depth : Nat) (t : List Term) (bs : List Value) (env : N → Option Value), elaborates cons binders depth s = some t →
    Surface.AllScoped rows.length s depth → Surface.AllGapless cons s → NamesAgree binders depth bs env → denoteFields norm rows t bs = meansFields norm cons rows s bs env
  | [], binders, depth, t, bs, env, h, hs, hg, ha => by simp only [elaborates] at h; cases h; simp only [denoteFields, meansFields]
  | s :: ss, binders, depth, t, bs, env, h, hs, hg, ha => by
    simp only [Surface.AllScoped] at hs
    simp only [Surface.AllGapless] at hg
    simp only [elaborates] at h
    obtain ⟨u, h1, h2⟩ := Option.bind_eq_some_iff.1 h
    obtain ⟨v, h3, h4⟩ := Option.map_eq_some_iff.1 h2
    cases h4
    have hs' := elaborate_means s binders depth u bs env h1 hs.1 hg.1 ha
    have hss := elaborates_fields ss binders depth v bs env h3 hs.2 hg.2 ha
    cases s with
    | spread s' =>
      have hsp := elaborate_means s' binders depth
      simp only [elaborate] at h1
      obtain ⟨w, h5, h6⟩ := Option.map_eq_some_iff.1 h1
      cases h6
      have hs1 := hs.1
      have hg1 := hg.1
      simp only [Surface.Scoped] at hs1
      simp only [Surface.Gapless] at hg1
      simp only [denoteFields, meansFields, hsp w bs env h5 hs1 hg1 ha, hss]
    | _ =>
      rw [denoteFields_cons _ _ _ (fun x e => by rw [e] at h1; obtain ⟨y, hy⟩ := elaborate_spread h1; cases hy), meansFields_cons _ _ _ _ (fun x e => by cases e), hs', hss]
theorem elaborates_each : ∀ (s : List (Surface N)) (binders : List (N × Nat × Nat)) (depth : Nat) (t : List Term) (bs : List Value) (env : N → Option Value), elaborates cons binders depth s = some t →
    Surface.AllScoped rows.length s depth → Surface.AllGapless cons s → NamesAgree binders depth bs env → denoteEach norm rows t bs = meansEach norm cons rows s bs env
  | [], binders, depth, t, bs, env, h, hs, hg, ha => by simp only [elaborates] at h; cases h; simp only [denoteEach, meansEach]
  | s :: ss, binders, depth, t, bs, env, h, hs, hg, ha => by
    simp only [Surface.AllScoped] at hs
    simp only [Surface.AllGapless] at hg
    simp only [elaborates] at h
    obtain ⟨u, h1, h2⟩ := Option.bind_eq_some_iff.1 h
    obtain ⟨v, h3, h4⟩ := Option.map_eq_some_iff.1 h2
    cases h4
    simp only [denoteEach, meansEach, elaborate_means s binders depth u bs env h1 hs.1 hg.1 ha, elaborates_each ss binders depth v bs env h3 hs.2 hg.2 ha]
theorem elaborateArms_means : ∀ (arms : Arms N) (binders : List (N × Nat × Nat)) (depth : Nat) (tagged : List (Nat × Term)) (d : Option Term) (tagged' : List (Nat × Term)) (d' : Option Term)
    (bs : List Value) (env : N → Option Value), elaborateArms cons binders depth arms tagged d = some (tagged', d') → arms.Scoped rows.length depth → arms.Gapless cons → NamesAgree binders depth bs env →
    ∃ new, tagged' = tagged ++ new ∧
      (∀ tag payload, ((new.find? fun p => p.1 = tag).map fun p => denote norm rows p.2 (payload :: bs)) = armMeans norm cons rows arms tag payload bs env) ∧
      (d'.map fun t => denote norm rows t bs) = (defaultMeans norm cons rows arms bs env).or (d.map fun t => denote norm rows t bs) ∧
      (∀ tag, arms.Has cons tag ↔ tag ∈ new.map Prod.fst) ∧
      (arms.DefaultPlain → (∀ t, d = some t → ∀ b, Scoped rows.length t b) → ∀ t, d' = some t → ∀ b, Scoped rows.length t b)
  | .nil, binders, depth, tagged, d, tagged', d', bs, env, h, hs, hg, ha => by
    simp only [elaborateArms] at h
    cases h
    exact ⟨[], by simp, fun tag payload => by simp [armMeans], by simp [defaultMeans], fun tag => by simp [Arms.Has], fun _ h => h⟩
  | .default s rest, binders, depth, tagged, d, tagged', d', bs, env, h, hs, hg, ha => by
    simp only [Arms.Scoped] at hs
    simp only [Arms.Gapless] at hg
    simp only [elaborateArms] at h
    obtain ⟨u, h1, h2⟩ := Option.bind_eq_some_iff.1 h
    obtain ⟨new, h3, h4, h5, h6, h7⟩ := elaborateArms_means rest binders depth tagged (some u) tagged' d' bs env h2 hs.2 hg.2 ha
    refine ⟨new, h3, fun tag payload => by rw [h4]; simp only [armMeans], ?_, fun tag => by rw [← h6]; simp only [Arms.Has], fun hp _ => ?_⟩
    · rw [h5]
      simp only [defaultMeans, Option.map_some, elaborate_means s binders depth u bs env h1 hs.1 hg.1 ha]
      cases defaultMeans norm cons rows rest bs env <;> simp
    · simp only [Arms.DefaultPlain] at hp
      exact h7 hp.2 fun t e b => by cases e; exact elaborate_plain s _ depth binders depth u hp.1 hs.1 h1 b
  | .con c names s rest, binders, depth, tagged, d, tagged', d', bs, env, h, hs, hg, ha => by
    simp only [Arms.Scoped] at hs
    simp only [Arms.Gapless] at hg
    simp only [elaborateArms] at h
    obtain ⟨p, h0, h1⟩ := Option.bind_eq_some_iff.1 h
    split_ifs at h1
    obtain ⟨u, h2, h3⟩ := Option.bind_eq_some_iff.1 h1
    obtain ⟨new, h4, h5, h6, h7, h8⟩ := elaborateArms_means rest binders depth _ d tagged' d' bs env h3 hs.2 hg.2 ha
    refine ⟨(p.1, u) :: new, by rw [h4]; simp, fun tag payload => ?_, by rw [h6]; simp only [defaultMeans], fun tag => ?_, fun hp hd => ?_⟩
    · simp only [armMeans, h0, Option.map_some, Option.some.injEq]
      by_cases ht : p.1 = tag
      · simp only [ht, List.find?_cons, decide_true, Option.map_some, if_true]
        exact congrArg some (elaborate_means s _ (depth + 1) u (payload :: bs) _ h2 hs.1 hg.1 (ha.names payload names))
      · simp only [ht, List.find?_cons, decide_false, if_false]
        exact h5 tag payload
    · simp only [Arms.Has, h0, Option.map_some, Option.some.injEq, List.map_cons, List.mem_cons, h7 tag]
      exact or_congr_left eq_comm
    · simp only [Arms.DefaultPlain] at hp
      exact h8 hp hd
end

end DD.Ir
