import Verif.Spec.Recipe
import Verif.Proofs.Server
import Mathlib.Data.List.Basic

/-! # Lemmas about the names and rows of generated sources -/

namespace DD.Srv

theorem digit_char (d : Nat) (h : d < 10) : (Char.ofNat (48 + d)).isDigit = true ∧ (Char.ofNat (48 + d)).toNat - 48 = d := by
  have : ∀ d : Fin 10, (Char.ofNat (48 + d.1)).isDigit = true ∧ (Char.ofNat (48 + d.1)).toNat - 48 = d.1 := by decide
  exact this ⟨d, h⟩

theorem digitStep_digit (acc d : Nat) (h : d < 10) (hn : acc * 10 + d < 2 ^ 64) : digitStep acc (Char.ofNat (48 + d)) = some (acc * 10 + d) := by
  obtain ⟨h1, h2⟩ := digit_char d h
  unfold digitStep
  rw [if_pos h1, h2, if_pos hn]

theorem showAux_parse (b n : Nat) (hb : n ≤ b) (hn : n < 2 ^ 64) : (showAux b n).foldlM digitStep 0 = some n := by
  induction b generalizing n with
  | zero =>
    have : n = 0 := by omega
    subst this
    show (digitStep 0 (Char.ofNat (48 + 0))).bind _ = _
    rw [digitStep_digit 0 0 (by omega) (by omega)]
    rfl
  | succ b ih =>
    unfold showAux
    split
    · next h =>
      show (digitStep 0 (Char.ofNat (48 + n))).bind _ = _
      rw [digitStep_digit 0 n h (by omega)]
      simp
    · next h =>
      rw [List.foldlM_append, ih (n / 10) (by omega) (by omega)]
      show (digitStep (n / 10) (Char.ofNat (48 + n % 10))).bind _ = _
      rw [digitStep_digit _ _ (by omega) (by omega), show n / 10 * 10 + n % 10 = n by omega]
      rfl

theorem showAux_digits (b n : Nat) : ∀ c ∈ showAux b n, c.isDigit = true := by
  induction b generalizing n with
  | zero =>
    intro c hc
    rw [List.mem_singleton.1 hc]
    exact (digit_char _ (Nat.mod_lt _ (by omega))).1
  | succ b ih =>
    unfold showAux
    split
    · next h =>
      intro c hc
      rw [List.mem_singleton.1 hc]
      exact (digit_char _ h).1
    · intro c hc
      rcases List.mem_append.1 hc with hc | hc
      · exact ih _ c hc
      · rw [List.mem_singleton.1 hc]
        exact (digit_char _ (Nat.mod_lt _ (by omega))).1

theorem showAux_ne (b n : Nat) : showAux b n ≠ [] := by
  cases b with
  | zero => simp [showAux]
  | succ b =>
    unfold showAux
    split <;> simp

theorem parse_show {n : Nat} (h : n < 2 ^ 64) : parseU64 (showNat n) = some n := by
  have hd := showAux_digits n n
  have hne := showAux_ne n n
  have hp := showAux_parse n n le_rfl h
  unfold parseU64 showNat
  generalize showAux n n = s at hd hne hp
  have : dropPlus s = s := by
    unfold dropPlus
    split
    · exact absurd (hd '+' List.mem_cons_self) (by decide)
    · rfl
  rw [this, if_neg hne]
  exact hp

theorem show_digits (n : Nat) : ∀ c ∈ showNat n, c.isDigit = true := showAux_digits n n

theorem show_ne (n : Nat) : showNat n ≠ [] := showAux_ne n n

theorem digit_not {c d : Char} (h : c.isDigit = true) (hd : d.isDigit = false) : c ≠ d := by
  rintro rfl
  rw [h] at hd
  cases hd

theorem digit_space {c : Char} (h : c.isDigit = true) : c.isWhitespace = false := by
  unfold Char.isWhitespace
  simp only [Bool.or_eq_false_iff, decide_eq_false_iff_not]
  refine ⟨⟨⟨?_, ?_⟩, ?_⟩, ?_⟩ <;> exact digit_not h (by decide)

theorem trim_blank {s : List Char} (h : ∀ c ∈ s, c.isWhitespace = false) (hne : s ≠ []) (a b : Nat) : trim (blank a ++ s ++ blank b) = s := by
  have hb : ∀ (n : Nat) (r : List Char), (blank n ++ r).dropWhile Char.isWhitespace = r.dropWhile Char.isWhitespace := by
    intro n r
    induction n with
    | zero => rfl
    | succ n ih =>
      unfold blank at ih ⊢
      rw [List.replicate_succ, List.cons_append, List.dropWhile_cons_of_pos (by decide)]
      exact ih
  have hs : ∀ (s r : List Char), (∀ c ∈ s, c.isWhitespace = false) → s ≠ [] → (s ++ r).dropWhile Char.isWhitespace = s ++ r := by
    intro s r h hne
    cases s with
    | nil => exact absurd rfl hne
    | cons c s => rw [List.cons_append, List.dropWhile_cons_of_neg (by rw [h c List.mem_cons_self]; simp)]
  unfold trim
  rw [List.append_assoc, hb, hs _ _ h hne, List.reverse_append, show (blank b).reverse = blank b from List.reverse_replicate, hb]
  have := hs s.reverse [] (fun c hc => h c (List.mem_reverse.1 hc)) (by simpa using hne)
  rw [List.append_nil] at this
  rw [this, List.reverse_reverse]

theorem splitOnce_at {c : Char} (a b : List Char) (h : c ∉ a) : splitOnce c (a ++ c :: b) = some (a, b) := by
  induction a with
  | nil => simp [splitOnce]
  | cons x a ih =>
    have hx : x ≠ c := fun he => h (by rw [he]; exact List.mem_cons_self)
    have ih := ih fun hm => h (List.mem_cons_of_mem _ hm)
    rw [List.cons_append, splitOnce, if_neg hx, ih]
    rfl

theorem splitChar_none {c : Char} (a : List Char) (h : c ∉ a) : splitChar c a = [a] := by
  induction a with
  | nil => rfl
  | cons x a ih =>
    have hx : x ≠ c := fun he => h (by rw [he]; exact List.mem_cons_self)
    show (if x = c then _ else _) = _
    rw [if_neg hx, ih fun hm => h (List.mem_cons_of_mem _ hm)]

theorem splitChar_at {c : Char} (a b : List Char) (h : c ∉ a) : splitChar c (a ++ c :: b) = a :: splitChar c b := by
  induction a with
  | nil => simp [splitChar]
  | cons x a ih =>
    have hx : x ≠ c := fun he => h (by rw [he]; exact List.mem_cons_self)
    rw [List.cons_append, splitChar, if_neg hx, ih fun hm => h (List.mem_cons_of_mem _ hm)]

theorem stripPrefix_append (p s : List Char) : stripPrefix p (p ++ s) = some s := by
  induction p with
  | nil => rfl
  | cons c p ih =>
    rw [List.cons_append, stripPrefix, if_pos rfl, ih]

theorem not_mem_blank {c : Char} (h : c ≠ ' ') (n : Nat) : c ∉ blank n := fun hm => h (List.eq_of_mem_replicate hm)

theorem name_ok (f : Field) : f.name ≠ [] ∧ (∀ c ∈ f.name, c.isWhitespace = false) ∧ '=' ∉ f.name ∧ ',' ∉ f.name := by
  cases f <;> decide

theorem not_mem_show {c : Char} (h : c.isDigit = false) (n : Nat) : c ∉ showNat n := fun hm => by
  rw [showAux_digits n n c hm] at h
  cases h

theorem spell_comma (s : Setting) : ',' ∉ s.spell := by
  unfold Setting.spell
  simp only [List.mem_append, List.mem_cons, not_or]
  exact ⟨⟨⟨not_mem_blank (by decide) _, (name_ok _).2.2.2⟩, not_mem_blank (by decide) _⟩, by decide, ⟨not_mem_blank (by decide) _, not_mem_show (by decide) _⟩, not_mem_blank (by decide) _⟩

/-- The parameters after one is set. -/
def Params.set (p : Params) (s : Setting) : Params := match s.field with
  | .nodes => { p with nodes := some s.value }
  | .edges => { p with edges := some s.value }
  | .arity => { p with arity := s.value }
  | .seed => { p with seed := s.value }

theorem paramStep_spell (p : Params) (s : Setting) (h : s.value < 2 ^ 64) : paramStep p s.spell = some (p.set s) := by
  have h1 : splitOnce '=' s.spell = some (blank s.blanks.1 ++ s.field.name ++ blank s.blanks.2.1, blank s.blanks.2.2.1 ++ showNat s.value ++ blank s.blanks.2.2.2) := by
    unfold Setting.spell
    apply splitOnce_at
    simp only [List.mem_append, not_or]
    exact ⟨⟨not_mem_blank (by decide) _, (name_ok _).2.2.1⟩, not_mem_blank (by decide) _⟩
  unfold paramStep
  rw [h1]
  simp only [Option.bind_some]
  rw [trim_blank (name_ok _).2.1 (name_ok _).1, trim_blank (fun c hc => digit_space (show_digits _ c hc)) (show_ne _), parse_show h]
  unfold Params.set
  cases s.field <;> rfl

theorem splitChar_all (ss : List Setting) (h : ss ≠ []) : splitChar ',' (spellAll ss) = ss.map Setting.spell := by
  induction ss with
  | nil => exact absurd rfl h
  | cons s ss ih =>
    cases ss with
    | nil => exact splitChar_none _ (spell_comma s)
    | cons s' ss =>
      show splitChar ',' (s.spell ++ ',' :: spellAll (s' :: ss)) = _
      rw [splitChar_at _ _ (spell_comma s), ih (by simp)]
      rfl

theorem foldlM_spell (ss : List Setting) (h : ∀ s ∈ ss, s.value < 2 ^ 64) (p : Params) : (ss.map Setting.spell).foldlM paramStep p = some (ss.foldl Params.set p) := by
  induction ss generalizing p with
  | nil => rfl
  | cons s ss ih =>
    rw [List.map_cons, List.foldlM_cons, paramStep_spell p s (h s List.mem_cons_self)]
    exact ih (fun s' hs => h s' (List.mem_cons_of_mem _ hs)) _

theorem valueOf_cons (f : Field) (s : Setting) (ss : List Setting) : valueOf f (s :: ss) = (valueOf f ss).or (if s.field = f then some s.value else none) := by
  unfold valueOf
  by_cases h : s.field = f
  · rw [List.filter_cons_of_pos (by simpa using h), List.getLast?_cons, if_pos h]
    cases hl : (ss.filter fun s => s.field = f).getLast? <;> simp
  · rw [List.filter_cons_of_neg (by simpa using h), if_neg h]
    simp

theorem foldl_set (ss : List Setting) (p : Params) : ss.foldl Params.set p = ⟨(valueOf .nodes ss).or p.nodes, (valueOf .edges ss).or p.edges, (valueOf .arity ss).getD p.arity, (valueOf .seed ss).getD p.seed⟩ := by
  induction ss generalizing p with
  | nil => rfl
  | cons s ss ih =>
    rw [List.foldl_cons, ih]
    simp only [valueOf_cons]
    unfold Params.set
    cases hf : s.field <;> simp only [reduceCtorEq, if_true, if_false] <;>
      (cases valueOf .nodes ss <;> cases valueOf .edges ss <;> cases valueOf .arity ss <;> cases valueOf .seed ss <;> rfl)

theorem parse_random (ss : List Setting) (h : ∀ s ∈ ss, s.value < 2 ^ 64) (hne : ss ≠ []) :
    Recipe.parse ("random:".toList ++ spellAll ss) = (valueOf .nodes ss).bind fun n => (valueOf .edges ss).map fun e => .random n e ((valueOf .arity ss).getD 2) ((valueOf .seed ss).getD 0) := by
  unfold Recipe.parse
  rw [stripPrefix_append]
  simp only
  rw [splitChar_all ss hne, foldlM_spell ss h, foldl_set]
  simp

theorem parse_iota (a b n : Nat) (h : n < 2 ^ 64) : Recipe.parse ("iota:".toList ++ (blank a ++ showNat n ++ blank b)) = some (.iota n) := by
  unfold Recipe.parse
  have h1 : stripPrefix "random:".toList ("iota:".toList ++ (blank a ++ showNat n ++ blank b)) = none := rfl
  rw [h1, stripPrefix_append]
  simp only
  rw [trim_blank (fun c hc => digit_space (show_digits _ c hc)) (show_ne _), parse_show h]
  rfl

theorem spell_four (a b c d : List Char) : "random:nodes=".toList ++ a ++ ",edges=".toList ++ b ++ ",arity=".toList ++ c ++ ",seed=".toList ++ d =
    "random:".toList ++ ((Field.nodes.name ++ '=' :: a) ++ ',' :: ((Field.edges.name ++ '=' :: b) ++ ',' :: ((Field.arity.name ++ '=' :: c) ++ ',' :: (Field.seed.name ++ '=' :: d)))) := by
  simp [Field.name]

theorem parse_canonical (r : Recipe) (h : r.Fits) : Recipe.parse r.canonical = some r := by
  cases r with
  | iota n =>
    have := parse_iota 0 0 n h
    rw [show blank 0 ++ showNat n ++ blank 0 = showNat n from List.append_nil _] at this
    exact this
  | random nodes edges arity seed =>
    obtain ⟨h1, h2, h3, h4⟩ := h
    have := parse_random [{ field := .nodes, value := nodes }, { field := .edges, value := edges }, { field := .arity, value := arity }, { field := .seed, value := seed }] (by
      intro s hs
      simp only [List.mem_cons, List.not_mem_nil, or_false] at hs
      rcases hs with rfl | rfl | rfl | rfl <;> assumption) (by simp)
    have hc : Recipe.canonical (.random nodes edges arity seed) = "random:".toList ++ spellAll [{ field := .nodes, value := nodes }, { field := .edges, value := edges }, { field := .arity, value := arity }, { field := .seed, value := seed }] := by
      have hs : ∀ f v, Setting.spell { field := f, value := v } = f.name ++ '=' :: showNat v := by
        intro f v
        show [] ++ f.name ++ [] ++ '=' :: ([] ++ showNat v ++ []) = _
        simp
      show _ = "random:".toList ++ (Setting.spell _ ++ ',' :: (Setting.spell _ ++ ',' :: (Setting.spell _ ++ ',' :: Setting.spell _)))
      rw [hs, hs, hs, hs]
      exact spell_four _ _ _ _
    rw [hc, this]
    rfl

theorem digits_fit (s : List Char) (a n : Nat) (ha : a < 2 ^ 64) (h : s.foldlM digitStep a = some n) : n < 2 ^ 64 := by
  induction s generalizing a with
  | nil =>
    cases h
    exact ha
  | cons c s ih =>
    rw [List.foldlM_cons] at h
    simp only [Option.bind_eq_bind, Option.bind_eq_some_iff] at h
    obtain ⟨b, hb, h⟩ := h
    refine ih b ?_ h
    unfold digitStep at hb
    split at hb
    · split at hb
      · cases hb
        assumption
      · cases hb
    · cases hb

theorem parseU64_fits {s : List Char} {n : Nat} (h : parseU64 s = some n) : n < 2 ^ 64 := by
  unfold parseU64 at h
  split at h
  · cases h
  · exact digits_fit _ 0 _ (by decide) h

/-- Parameters that fit. -/
def Params.Fits (p : Params) : Prop := (∀ n, p.nodes = some n → n < 2 ^ 64) ∧ (∀ n, p.edges = some n → n < 2 ^ 64) ∧ p.arity < 2 ^ 64 ∧ p.seed < 2 ^ 64

theorem paramStep_fits {p q : Params} {kv : List Char} (h : paramStep p kv = some q) (hp : p.Fits) : q.Fits := by
  unfold paramStep at h
  simp only [Option.bind_eq_some_iff] at h
  obtain ⟨x, -, h⟩ := h
  obtain ⟨h1, h2, h3, h4⟩ := hp
  split at h
  · obtain ⟨n, hn, rfl⟩ := Option.map_eq_some_iff.1 h
    exact ⟨fun m hm => by cases hm; exact parseU64_fits hn, h2, h3, h4⟩
  split at h
  · obtain ⟨n, hn, rfl⟩ := Option.map_eq_some_iff.1 h
    exact ⟨h1, fun m hm => by cases hm; exact parseU64_fits hn, h3, h4⟩
  split at h
  · obtain ⟨n, hn, rfl⟩ := Option.map_eq_some_iff.1 h
    exact ⟨h1, h2, parseU64_fits hn, h4⟩
  split at h
  · obtain ⟨n, hn, rfl⟩ := Option.map_eq_some_iff.1 h
    exact ⟨h1, h2, h3, parseU64_fits hn⟩
  · cases h

theorem params_fit (kvs : List (List Char)) (p q : Params) (h : kvs.foldlM paramStep p = some q) (hp : p.Fits) : q.Fits := by
  induction kvs generalizing p with
  | nil =>
    cases h
    exact hp
  | cons kv kvs ih =>
    rw [List.foldlM_cons] at h
    simp only [Option.bind_eq_bind, Option.bind_eq_some_iff] at h
    obtain ⟨b, hb, h⟩ := h
    exact ih b h (paramStep_fits hb hp)

theorem parse_fits {name : List Char} {r : Recipe} (h : Recipe.parse name = some r) : r.Fits := by
  unfold Recipe.parse at h
  split at h
  · simp only [Option.bind_eq_some_iff, Option.map_eq_some_iff] at h
    obtain ⟨p, hp, nodes, hn, edges, he, rfl⟩ := h
    obtain ⟨h1, h2, h3, h4⟩ := params_fit _ _ _ hp ⟨fun n hn => (by cases hn), fun n hn => (by cases hn), (by decide), (by decide)⟩
    exact ⟨h1 _ hn, h2 _ he, h3, h4⟩
  · split at h
    · obtain ⟨n, hn, rfl⟩ := Option.map_eq_some_iff.1 h
      exact parseU64_fits hn
    · cases h

/-! ## Rows -/

theorem asI64_small (n : UInt64) (h : n.toNat < 2 ^ 63) : asI64 n = n.toNat := by
  unfold asI64
  rw [if_pos h]

theorem mapM_all {α β : Type*} {f : α → Option β} {l : List α} {r : List β} (h : l.mapM f = some r) : ∀ b ∈ r, ∃ a ∈ l, f a = some b := by
  intro b hb
  obtain ⟨hl, hat⟩ := mapM_some h
  obtain ⟨j, hj⟩ := List.getElem?_of_mem hb
  have hlt : j < l.length := hl ▸ (List.getElem?_eq_some_iff.1 hj).1
  obtain ⟨b', h1, h2⟩ := hat j _ (List.getElem?_eq_getElem hlt)
  rw [hj] at h1
  cases h1
  exact ⟨_, List.getElem_mem hlt, h2⟩

theorem genRow_ok (seed e : UInt64) (nodes arity : Nat) (h0 : 0 < nodes) (h : nodes ≤ 2 ^ 63) : ∃ fields : List Int, genRow seed e (UInt64.ofNat nodes) arity = some (.tuple (fields.map Ir.Value.int), .tuple []) ∧ fields.length = arity ∧ ∀ x ∈ fields, 0 ≤ x ∧ x < nodes := by
  have hn : (UInt64.ofNat nodes).toNat = nodes := by
    rw [UInt64.toNat_ofNat']
    exact Nat.mod_eq_of_lt (by omega)
  have hne : UInt64.ofNat nodes ≠ 0 := by
    intro he
    rw [he] at hn
    simp at hn
    omega
  let g : Nat → Int := fun col => asI64 (Ir.hashU64 (e * 31 + seed * 0x9e3779b97f4a7c15 + UInt64.ofNat col) % UInt64.ofNat nodes)
  have hf : ∀ col, genField seed e (UInt64.ofNat nodes) col = some (.int (g col)) := by
    intro col
    unfold genField
    simp only
    rw [if_neg hne]
  have hm : (List.range arity).mapM (genField seed e (UInt64.ofNat nodes)) = some ((List.range arity).map fun col => .int (g col)) := by
    generalize List.range arity = l
    induction l with
    | nil => rfl
    | cons a l ih =>
      rw [List.mapM_cons, hf, ih]
      rfl
  refine ⟨(List.range arity).map g, ?_, by simp, ?_⟩
  · unfold genRow
    rw [hm]
    simp
  · intro x hx
    obtain ⟨col, -, rfl⟩ := List.mem_map.1 hx
    have hlt : (Ir.hashU64 (e * 31 + seed * 0x9e3779b97f4a7c15 + UInt64.ofNat col) % UInt64.ofNat nodes).toNat < nodes := by
      rw [UInt64.toNat_mod, hn]
      exact Nat.mod_lt _ h0
    show 0 ≤ asI64 _ ∧ asI64 _ < _
    rw [asI64_small _ (by omega)]
    omega

end DD.Srv
