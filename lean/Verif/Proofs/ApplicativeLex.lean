import Verif.Spec.Applicative
import Mathlib.Data.List.Basic
import Mathlib.Tactic.SplitIfs

/-! # The tokens of the applicative syntax -/

namespace DD.Ir.App

theorem number_from (w : List Char) (a n : Nat) (ha : a < 2 ^ 63) :
    w.foldlM (fun acc c => if acc * 10 + (c.toNat - 48) < 2 ^ 63 then some (acc * 10 + (c.toNat - 48)) else none) a = some n ↔
      w.foldl (fun n c => n * 10 + (c.toNat - 48)) a = n ∧ n < 2 ^ 63 := by
  induction w generalizing a with
  | nil =>
    simp only [List.foldlM_nil, List.foldl_nil]
    constructor
    · intro h
      cases h
      exact ⟨rfl, ha⟩
    · rintro ⟨rfl, _⟩
      rfl
  | cons c w ih =>
    rw [List.foldlM_cons, List.foldl_cons]
    by_cases hc : a * 10 + (c.toNat - 48) < 2 ^ 63
    · rw [if_pos hc]
      exact ih _ hc
    · rw [if_neg hc]
      constructor
      · intro h
        cases h
      · rintro ⟨rfl, hlt⟩
        exfalso
        have : ∀ (w : List Char) (a : Nat), a ≤ w.foldl (fun n c => n * 10 + (c.toNat - 48)) a := by
          intro w
          induction w with
          | nil => intro a; exact Nat.le_refl _
          | cons c w ih => intro a; exact Nat.le_trans (show a ≤ a * 10 + (c.toNat - 48) by omega) (ih _)
        have := this w (a * 10 + (c.toNat - 48))
        omega

theorem number_some {w : List Char} {n : Nat} : number w = some n ↔ decimal w = n ∧ n < 2 ^ 63 := number_from w 0 n (by omega)

theorem word_keyword {w : List Char} {t : Tok} (h : (w, t) ∈ keywords) : word w = t := by
  have : ∀ p ∈ keywords, word p.1 = p.2 := by decide +kernel
  exact this _ h

theorem word_ident {w : List Char} (h : w ∉ keywords.map Prod.fst) : word w = .ident w := by
  simp only [keywords, List.map_cons, List.map_nil, List.mem_cons, List.not_mem_nil, or_false, not_or] at h
  obtain ⟨h1, h2, h3, h4, h5, h6, h7, h8, h9, h10, h11, h12, h13, h14, h15, h16, h17, h18, h19, h20, h21⟩ := h
  unfold word
  rw [if_neg h1, if_neg h2, if_neg h3, if_neg h4, if_neg h5, if_neg h6, if_neg h7, if_neg h8, if_neg h9, if_neg h10, if_neg h11, if_neg h12, if_neg h13, if_neg h14, if_neg h15, if_neg h16, if_neg h17, if_neg h18, if_neg h19,
    if_neg h20, if_neg h21]

theorem keyword_chars {w : List Char} {t : Tok} (h : (w, t) ∈ keywords) : (∃ c ∈ w.head?, c.isAlpha ∨ c = '_') ∧ ∀ c ∈ w, wordChar c = true := by
  have : ∀ p ∈ keywords, (p.1.head?.any fun c => c.isAlpha || decide (c = '_')) = true ∧ p.1.all wordChar = true := by decide +kernel
  obtain ⟨h1, h2⟩ := this _ h
  refine ⟨?_, List.all_eq_true.1 h2⟩
  cases w with
  | nil => simp at h1
  | cons c w => exact ⟨c, rfl, by simpa using h1⟩

theorem dropLine_line (l s : List Char) (h : '\n' ∉ l) : dropLine (l ++ '\n' :: s) = s := by
  induction l with
  | nil => simp [dropLine]
  | cons c l ih =>
    simp only [List.mem_cons, not_or] at h
    simp only [List.cons_append, dropLine]
    rw [if_neg fun e => h.1 e.symm, ih h.2]

theorem dropLine_end (l : List Char) (h : '\n' ∉ l) : dropLine l = [] := by
  induction l with
  | nil => rfl
  | cons c l ih =>
    simp only [List.mem_cons, not_or] at h
    simp only [dropLine]
    rw [if_neg fun e => h.1 e.symm, ih h.2]

theorem dropLine_cases (s : List Char) : (∃ l, '\n' ∉ l ∧ s = l ++ '\n' :: dropLine s) ∨ ('\n' ∉ s ∧ dropLine s = []) := by
  induction s with
  | nil => exact Or.inr ⟨by simp, rfl⟩
  | cons c s ih =>
    simp only [dropLine]
    split
    · next h => exact Or.inl ⟨[], by simp, by rw [h]; rfl⟩
    · next h =>
      rcases ih with ⟨l, hl, hs⟩ | ⟨hs, hd⟩
      · exact Or.inl ⟨c :: l, by simp only [List.mem_cons, not_or]; exact ⟨fun e => h e.symm, hl⟩, by rw [List.cons_append, ← hs]⟩
      · exact Or.inr ⟨by simp only [List.mem_cons, not_or]; exact ⟨fun e => h e.symm, hs⟩, hd⟩

theorem quoted_at (w s : List Char) (h : '"' ∉ w) : quoted (w ++ '"' :: s) = some (w, s) := by
  induction w with
  | nil => simp [quoted]
  | cons c w ih =>
    simp only [List.mem_cons, not_or] at h
    simp only [List.cons_append, quoted]
    rw [if_neg fun e => h.1 e.symm, ih h.2]
    rfl

theorem quoted_some {s : List Char} {p : List Char × List Char} (h : quoted s = some p) : s = p.1 ++ '"' :: p.2 ∧ '"' ∉ p.1 := by
  induction s generalizing p with
  | nil => cases h
  | cons c s ih =>
    simp only [quoted] at h
    split at h
    · next hc =>
      cases h
      exact ⟨by rw [hc]; rfl, by simp⟩
    · next hc =>
      obtain ⟨q, hq, rfl⟩ := Option.map_eq_some_iff.1 h
      obtain ⟨h1, h2⟩ := ih hq
      exact ⟨by rw [h1]; rfl, by simp only [List.mem_cons, not_or]; exact ⟨fun e => hc e.symm, h2⟩⟩

theorem takeWhile_all {p : Char → Bool} (w s : List Char) (hw : ∀ c ∈ w, p c = true) (hs : ∀ c ∈ s.head?, p c = false) : (w ++ s).takeWhile p = w ∧ (w ++ s).dropWhile p = s := by
  induction w with
  | nil =>
    cases s with
    | nil => exact ⟨rfl, rfl⟩
    | cons c s =>
      have := hs c rfl
      simp [this]
  | cons c w ih =>
    have h1 := hw c (by simp)
    obtain ⟨h2, h3⟩ := ih fun c hc => hw c (by simp [hc])
    simp [h1, h2, h3]

theorem takeWhile_split (p : Char → Bool) (s : List Char) : s = s.takeWhile p ++ s.dropWhile p ∧ (∀ c ∈ s.takeWhile p, p c = true) ∧ ∀ c ∈ (s.dropWhile p).head?, p c = false := by
  induction s with
  | nil => simp
  | cons c s ih =>
    obtain ⟨h1, h2, h3⟩ := ih
    by_cases hc : p c = true
    · simp only [List.takeWhile_cons, List.dropWhile_cons, hc, if_true]
      refine ⟨by rw [List.cons_append, ← h1], ?_, h3⟩
      intro d hd
      rcases List.mem_cons.1 hd with rfl | hd
      · exact hc
      · exact h2 d hd
    · simp only [List.takeWhile_cons, List.dropWhile_cons, hc]
      exact ⟨rfl, by simp, by simpa using hc⟩

theorem lex_word {c : Char} {s : List Char} (h : c.isAlpha ∨ c = '_') : lex c s = some (some (word ((c :: s).takeWhile wordChar)), (c :: s).dropWhile wordChar) := by
  have hne : ∀ d : Char, (d.isAlpha = false ∧ d ≠ '_') → c ≠ d := by
    rintro d ⟨h1, h2⟩ rfl
    rcases h with h | h
    · rw [h1] at h; cases h
    · exact h2 h
  have hd : c.isDigit = false := by
    rcases h with h | rfl
    · simp only [Char.isAlpha, Char.isUpper, Char.isLower, Bool.or_eq_true, Bool.and_eq_true, decide_eq_true_eq, ge_iff_le, UInt32.le_iff_toNat_le] at h
      simp only [Char.isDigit, Bool.and_eq_false_iff, decide_eq_false_iff_not, ge_iff_le, UInt32.le_iff_toNat_le]
      simp at h ⊢
      omega
    · decide
  unfold lex
  rw [if_neg (by rintro (rfl | rfl | rfl | rfl) <;> revert h <;> decide)]
  rw [if_neg (by rintro ⟨rfl, _⟩; revert h; decide)]
  iterate 20 rw [if_neg (hne _ (by decide))]
  rw [if_neg (by rw [hd]; decide), if_pos h]

theorem lex_digit {c : Char} {s : List Char} (h : c.isDigit = true) : lex c s = (number ((c :: s).takeWhile Char.isDigit)).map fun n => (some (.int n), (c :: s).dropWhile Char.isDigit) := by
  have hne : ∀ d : Char, d.isDigit = false → c ≠ d := by
    rintro d h1 rfl
    rw [h1] at h; cases h
  unfold lex
  rw [if_neg (by rintro (rfl | rfl | rfl | rfl) <;> revert h <;> decide)]
  rw [if_neg (by rintro ⟨rfl, _⟩; revert h; decide)]
  iterate 20 rw [if_neg (hne _ (by decide))]
  rw [if_pos h]

theorem pair_one {d : Char} {two t : Tok} {s : List Char} (h : s.head? ≠ some d) : pair d two (some t) s = some (some t, s) := by
  cases s with
  | nil => rfl
  | cons x s =>
    simp only [pair]
    rw [if_neg (by simpa using h)]
    rfl

theorem lex_minus {s : List Char} (h : s.head? ≠ some '-') : lex '-' s = some (some .minus, s) := by
  have : lex '-' s = if s.head? = some '-' then some (none, dropLine s) else some (some .minus, s) := by
    unfold lex
    rw [if_neg (by decide)]
    by_cases h : s.head? = some '-'
    · rw [if_pos ⟨rfl, h⟩, if_pos h]
    · rw [if_neg fun hc => h hc.2, if_neg h]
      rfl
  rw [this, if_neg h]

theorem lex_symbol {w s : List Char} {t : Tok} (h : (w, t) ∈ symbols) (hl : ∀ l ∈ "--".toList :: symbols.map Prod.fst, l <+: w ++ s → l.length ≤ w.length) : ∃ c r, w = c :: r ∧ lex c (r ++ s) = some (some t, s) := by
  have hno : ∀ (c d : Char), w = [c] → [c, d] ∈ "--".toList :: symbols.map Prod.fst → s.head? ≠ some d := by
    intro c d hw hm hh
    cases s with
    | nil => cases hh
    | cons x s =>
      cases hh
      subst hw
      have := hl _ hm ⟨s, rfl⟩
      simp at this
  clear hl
  rw [symbols] at h
  repeat' rcases List.mem_cons.1 h with h | h
  case inl => cases h; exact ⟨'(', [], rfl, rfl⟩
  case inr.inl => cases h; exact ⟨')', [], rfl, rfl⟩
  case inr.inr.inl => cases h; exact ⟨'{', [], rfl, rfl⟩
  case inr.inr.inr.inl => cases h; exact ⟨'}', [], rfl, rfl⟩
  case inr.inr.inr.inr.inl => cases h; exact ⟨'[', [], rfl, rfl⟩
  case inr.inr.inr.inr.inr.inl => cases h; exact ⟨']', [], rfl, rfl⟩
  case inr.inr.inr.inr.inr.inr.inl => cases h; exact ⟨',', [], rfl, rfl⟩
  case inr.inr.inr.inr.inr.inr.inr.inl => cases h; exact ⟨';', [], rfl, rfl⟩
  case inr.inr.inr.inr.inr.inr.inr.inr.inl => cases h; exact ⟨'=', [], rfl, pair_one (hno '=' '=' rfl (by decide +kernel))⟩
  case inr.inr.inr.inr.inr.inr.inr.inr.inr.inl => cases h; exact ⟨'=', ['='], rfl, rfl⟩
  case inr.inr.inr.inr.inr.inr.inr.inr.inr.inr.inl => cases h; exact ⟨'!', ['='], rfl, rfl⟩
  case inr.inr.inr.inr.inr.inr.inr.inr.inr.inr.inr.inl => cases h; exact ⟨'<', [], rfl, pair_one (hno '<' '=' rfl (by decide +kernel))⟩
  case inr.inr.inr.inr.inr.inr.inr.inr.inr.inr.inr.inr.inl => cases h; exact ⟨'<', ['='], rfl, rfl⟩
  case inr.inr.inr.inr.inr.inr.inr.inr.inr.inr.inr.inr.inr.inl => cases h; exact ⟨'>', [], rfl, pair_one (hno '>' '=' rfl (by decide +kernel))⟩
  case inr.inr.inr.inr.inr.inr.inr.inr.inr.inr.inr.inr.inr.inr.inl => cases h; exact ⟨'>', ['='], rfl, rfl⟩
  case inr.inr.inr.inr.inr.inr.inr.inr.inr.inr.inr.inr.inr.inr.inr.inl => cases h; exact ⟨'&', ['&'], rfl, rfl⟩
  case inr.inr.inr.inr.inr.inr.inr.inr.inr.inr.inr.inr.inr.inr.inr.inr.inl => cases h; exact ⟨'+', [], rfl, rfl⟩
  case inr.inr.inr.inr.inr.inr.inr.inr.inr.inr.inr.inr.inr.inr.inr.inr.inr.inl => cases h; exact ⟨'-', [], rfl, lex_minus (hno '-' '-' rfl (by decide +kernel))⟩
  case inr.inr.inr.inr.inr.inr.inr.inr.inr.inr.inr.inr.inr.inr.inr.inr.inr.inr.inl => cases h; exact ⟨'*', [], rfl, rfl⟩
  case inr.inr.inr.inr.inr.inr.inr.inr.inr.inr.inr.inr.inr.inr.inr.inr.inr.inr.inr.inl => cases h; exact ⟨'$', [], rfl, rfl⟩
  case inr.inr.inr.inr.inr.inr.inr.inr.inr.inr.inr.inr.inr.inr.inr.inr.inr.inr.inr.inr.inl => cases h; exact ⟨'^', [], rfl, rfl⟩
  case inr.inr.inr.inr.inr.inr.inr.inr.inr.inr.inr.inr.inr.inr.inr.inr.inr.inr.inr.inr.inr.inl => cases h; exact ⟨':', [], rfl, pair_one (hno ':' ':' rfl (by decide +kernel))⟩
  case inr.inr.inr.inr.inr.inr.inr.inr.inr.inr.inr.inr.inr.inr.inr.inr.inr.inr.inr.inr.inr.inr.inl => cases h; exact ⟨':', [':'], rfl, rfl⟩
  all_goals cases h

theorem pair_some {d : Char} {two : Tok} {one o : Option Tok} {s r : List Char} (h : pair d two one s = some (o, r)) : (s = d :: r ∧ o = some two) ∨ (r = s ∧ s.head? ≠ some d ∧ o = one) := by
  unfold pair at h
  split at h
  · next x s' =>
    split at h
    · next hx =>
      cases h
      exact Or.inl ⟨by rw [hx], rfl⟩
    · next hx =>
      obtain ⟨t, rfl, he⟩ := Option.map_eq_some_iff.1 h
      cases he
      exact Or.inr ⟨rfl, by simpa using hx, rfl⟩
  · obtain ⟨t, rfl, he⟩ := Option.map_eq_some_iff.1 h
    cases he
    exact Or.inr ⟨rfl, by simp, rfl⟩

theorem reads_solo {c : Char} {t : Tok} {s : List Char} {ts : List Tok} (hm : ([c], t) ∈ symbols) (hl : ∀ l ∈ "--".toList :: symbols.map Prod.fst, l.length ≤ 1 ∨ l.head? ≠ some c) (h : Reads s ts) :
    Reads (c :: s) (t :: ts) := by
  refine Reads.symbol (w := [c]) hm (fun l hm hp => ?_) h
  rcases hl l hm with hl | hl
  · exact hl
  · obtain ⟨r, hr⟩ := hp
    cases l with
    | nil => exact Nat.zero_le _
    | cons x l =>
      rw [List.cons_append, List.singleton_append, List.cons.injEq] at hr
      exact absurd (by rw [hr.1]; rfl) hl

theorem reads_one {c d : Char} {t : Tok} {s : List Char} {ts : List Tok} (hm : ([c], t) ∈ symbols) (hl : ∀ l ∈ "--".toList :: symbols.map Prod.fst, l.length ≤ 1 ∨ l.head? ≠ some c ∨ l = [c, d]) (hd : s.head? ≠ some d)
    (h : Reads s ts) : Reads (c :: s) (t :: ts) := by
  refine Reads.symbol (w := [c]) hm (fun l hm hp => ?_) h
  obtain ⟨r, hr⟩ := hp
  rcases hl l hm with hl | hl | rfl
  · exact hl
  · cases l with
    | nil => exact Nat.zero_le _
    | cons x l =>
      rw [List.cons_append, List.singleton_append, List.cons.injEq] at hr
      exact absurd (by rw [hr.1]; rfl) hl
  · rw [List.singleton_append] at hr
    cases hr
    exact absurd rfl hd

theorem reads_two {c d : Char} {t : Tok} {s : List Char} {ts : List Tok} (hm : ([c, d], t) ∈ symbols) (h : Reads s ts) : Reads (c :: d :: s) (t :: ts) := by
  have hl : ∀ l ∈ "--".toList :: symbols.map Prod.fst, l.length ≤ 2 := by decide +kernel
  exact Reads.symbol (w := [c, d]) hm (fun l hm _ => hl l hm) h

theorem reads_word {c : Char} {s : List Char} {ts : List Tok} (hc : c.isAlpha ∨ c = '_') (h : Reads ((c :: s).dropWhile wordChar) ts) : Reads (c :: s) (word ((c :: s).takeWhile wordChar) :: ts) := by
  obtain ⟨h1, h2, h3⟩ := takeWhile_split wordChar (c :: s)
  have hwc : wordChar c = true := by
    rcases hc with hc | rfl
    · simp [wordChar, Char.isAlphanum, hc]
    · decide
  have hhead : ((c :: s).takeWhile wordChar).head? = some c := by simp [hwc]
  generalize (c :: s).takeWhile wordChar = w at *
  generalize (c :: s).dropWhile wordChar = r at *
  rw [h1]
  by_cases hk : w ∈ keywords.map Prod.fst
  · obtain ⟨⟨w', t⟩, hm, rfl⟩ := List.mem_map.1 hk
    rw [word_keyword hm]
    exact .keyword hm h3 h
  · rw [word_ident hk]
    exact .ident ⟨c, hhead, hc⟩ h2 h3 hk h

theorem reads_number {c : Char} {s : List Char} {ts : List Tok} {n : Nat} (hc : c.isDigit = true) (hn : number ((c :: s).takeWhile Char.isDigit) = some n) (h : Reads ((c :: s).dropWhile Char.isDigit) ts) : Reads (c :: s) (.int n :: ts) := by
  obtain ⟨h1, h2, h3⟩ := takeWhile_split Char.isDigit (c :: s)
  have hhead : ((c :: s).takeWhile Char.isDigit) ≠ [] := by simp [hc]
  generalize (c :: s).takeWhile Char.isDigit = w at *
  generalize (c :: s).dropWhile Char.isDigit = r at *
  obtain ⟨rfl, hlt⟩ := number_some.1 hn
  rw [h1]
  exact .int hhead h2 h3 hlt h

theorem reads_nil {ts : List Tok} (h : Reads [] ts) : ts = [.eof] := by
  generalize hs : ([] : List Char) = s at h
  cases h with
  | done => rfl
  | symbol hm _ _ =>
    exfalso
    rw [eq_comm, List.append_eq_nil_iff] at hs
    have : ∀ p ∈ symbols, p.1 ≠ [] := by decide +kernel
    exact this _ hm hs.1
  | int hne _ _ _ _ => exact absurd (List.append_eq_nil_iff.1 hs.symm).1 hne
  | keyword hm _ _ =>
    exfalso
    rw [eq_comm, List.append_eq_nil_iff] at hs
    have : ∀ p ∈ keywords, p.1 ≠ [] := by decide +kernel
    exact this _ hm hs.1
  | ident hc _ _ _ _ =>
    exfalso
    rw [eq_comm, List.append_eq_nil_iff] at hs
    obtain ⟨c, hc, _⟩ := hc
    rw [hs.1] at hc
    cases hc
  | _ => cases hs

theorem lex_sound {c : Char} {s r : List Char} {o : Option Tok} {ts : List Tok} (h : lex c s = some (o, r)) (hr : Reads r ts) : Reads (c :: s) (o.toList ++ ts) := by
  unfold lex at h
  by_cases hc : c = ' ' ∨ c = '\t' ∨ c = '\n' ∨ c = '\r'
  · rw [if_pos hc] at h
    cases h
    exact .blank (by simpa using hc) hr
  rw [if_neg hc] at h
  clear hc
  by_cases hc : c = '-' ∧ s.head? = some '-'
  · rw [if_pos hc] at h
    obtain ⟨rfl, hs⟩ := hc
    cases s with
    | nil => cases hs
    | cons x s =>
      cases hs
      cases h
      simp only [dropLine] at hr
      rw [if_neg (by decide)] at hr
      rcases dropLine_cases s with ⟨l, hl, he⟩ | ⟨hl, he⟩
      · rw [he]
        exact .comment hl hr
      · rw [he] at hr
        rw [reads_nil hr]
        exact .lastComment hl
  rw [if_neg hc] at h
  rename' hc => hminus
  by_cases hc : c = '('
  · rw [if_pos hc] at h
    subst hc
    cases h
    exact reads_solo (by decide +kernel) (by decide +kernel) hr
  rw [if_neg hc] at h
  clear hc
  by_cases hc : c = ')'
  · rw [if_pos hc] at h
    subst hc
    cases h
    exact reads_solo (by decide +kernel) (by decide +kernel) hr
  rw [if_neg hc] at h
  clear hc
  by_cases hc : c = '{'
  · rw [if_pos hc] at h
    subst hc
    cases h
    exact reads_solo (by decide +kernel) (by decide +kernel) hr
  rw [if_neg hc] at h
  clear hc
  by_cases hc : c = '}'
  · rw [if_pos hc] at h
    subst hc
    cases h
    exact reads_solo (by decide +kernel) (by decide +kernel) hr
  rw [if_neg hc] at h
  clear hc
  by_cases hc : c = '['
  · rw [if_pos hc] at h
    subst hc
    cases h
    exact reads_solo (by decide +kernel) (by decide +kernel) hr
  rw [if_neg hc] at h
  clear hc
  by_cases hc : c = ']'
  · rw [if_pos hc] at h
    subst hc
    cases h
    exact reads_solo (by decide +kernel) (by decide +kernel) hr
  rw [if_neg hc] at h
  clear hc
  by_cases hc : c = ','
  · rw [if_pos hc] at h
    subst hc
    cases h
    exact reads_solo (by decide +kernel) (by decide +kernel) hr
  rw [if_neg hc] at h
  clear hc
  by_cases hc : c = ';'
  · rw [if_pos hc] at h
    subst hc
    cases h
    exact reads_solo (by decide +kernel) (by decide +kernel) hr
  rw [if_neg hc] at h
  clear hc
  by_cases hc : c = '='
  · rw [if_pos hc] at h
    subst hc
    rcases pair_some h with ⟨rfl, rfl⟩ | ⟨rfl, hd, rfl⟩
    · exact reads_two (by decide +kernel) hr
    · exact reads_one (d := '=') (by decide +kernel) (by decide +kernel) hd hr
  rw [if_neg hc] at h
  clear hc
  by_cases hc : c = '!'
  · rw [if_pos hc] at h
    subst hc
    rcases pair_some h with ⟨rfl, rfl⟩ | ⟨rfl, hd, rfl⟩
    · exact reads_two (by decide +kernel) hr
    · cases r <;> simp [pair] at h
  rw [if_neg hc] at h
  clear hc
  by_cases hc : c = '<'
  · rw [if_pos hc] at h
    subst hc
    rcases pair_some h with ⟨rfl, rfl⟩ | ⟨rfl, hd, rfl⟩
    · exact reads_two (by decide +kernel) hr
    · exact reads_one (d := '=') (by decide +kernel) (by decide +kernel) hd hr
  rw [if_neg hc] at h
  clear hc
  by_cases hc : c = '>'
  · rw [if_pos hc] at h
    subst hc
    rcases pair_some h with ⟨rfl, rfl⟩ | ⟨rfl, hd, rfl⟩
    · exact reads_two (by decide +kernel) hr
    · exact reads_one (d := '=') (by decide +kernel) (by decide +kernel) hd hr
  rw [if_neg hc] at h
  clear hc
  by_cases hc : c = '&'
  · rw [if_pos hc] at h
    subst hc
    rcases pair_some h with ⟨rfl, rfl⟩ | ⟨rfl, hd, rfl⟩
    · exact reads_two (by decide +kernel) hr
    · cases r <;> simp [pair] at h
  rw [if_neg hc] at h
  clear hc
  by_cases hc : c = '+'
  · rw [if_pos hc] at h
    subst hc
    cases h
    exact reads_solo (by decide +kernel) (by decide +kernel) hr
  rw [if_neg hc] at h
  clear hc
  by_cases hc : c = '*'
  · rw [if_pos hc] at h
    subst hc
    cases h
    exact reads_solo (by decide +kernel) (by decide +kernel) hr
  rw [if_neg hc] at h
  clear hc
  by_cases hc : c = '$'
  · rw [if_pos hc] at h
    subst hc
    cases h
    exact reads_solo (by decide +kernel) (by decide +kernel) hr
  rw [if_neg hc] at h
  clear hc
  by_cases hc : c = '^'
  · rw [if_pos hc] at h
    subst hc
    cases h
    exact reads_solo (by decide +kernel) (by decide +kernel) hr
  rw [if_neg hc] at h
  clear hc
  by_cases hc : c = '"'
  · rw [if_pos hc] at h
    subst hc
    obtain ⟨p, hp, he⟩ := Option.map_eq_some_iff.1 h
    cases he
    obtain ⟨rfl, hq⟩ := quoted_some hp
    exact .str hq hr
  rw [if_neg hc] at h
  clear hc
  by_cases hc : c = '-'
  · rw [if_pos hc] at h
    subst hc
    cases h
    exact reads_one (d := '-') (by decide +kernel) (by decide +kernel) (fun hs => hminus ⟨rfl, hs⟩) hr
  rw [if_neg hc] at h
  clear hc
  by_cases hc : c = ':'
  · rw [if_pos hc] at h
    subst hc
    rcases pair_some h with ⟨rfl, rfl⟩ | ⟨rfl, hd, rfl⟩
    · exact reads_two (by decide +kernel) hr
    · exact reads_one (d := ':') (by decide +kernel) (by decide +kernel) hd hr
  rw [if_neg hc] at h
  clear hc
  by_cases hc : c.isDigit = true
  · rw [if_pos hc] at h
    obtain ⟨n, hn, he⟩ := Option.map_eq_some_iff.1 h
    cases he
    exact reads_number hc hn hr
  rw [if_neg hc] at h
  clear hc
  by_cases hc : c.isAlpha ∨ c = '_'
  · rw [if_pos hc] at h
    cases h
    exact reads_word hc hr
  rw [if_neg hc] at h
  cases h

theorem scan_sound {f : Nat} {s : List Char} {ts : List Tok} (h : scan f s = some ts) : Reads s ts := by
  induction f generalizing s ts with
  | zero =>
    cases s with
    | nil => cases h; exact .done
    | cons c s => cases h
  | succ f ih =>
    cases s with
    | nil => cases h; exact .done
    | cons c s =>
      replace h := Option.bind_eq_some_iff.1 (show (lex c s).bind _ = _ from h)
      obtain ⟨p, hp, h⟩ := h
      obtain ⟨ts', hts, rfl⟩ := Option.map_eq_some_iff.1 h
      exact lex_sound hp (ih hts)

theorem scan_step {f : Nat} {c : Char} {s r : List Char} {o : Option Tok} {ts : List Tok} (h : lex c s = some (o, r)) (hr : ∀ g, r.length ≤ g → scan g r = some ts) (hlen : r.length ≤ s.length) (hf : (c :: s).length ≤ f) :
    scan f (c :: s) = some (o.toList ++ ts) := by
  obtain ⟨g, rfl⟩ : ∃ g, f = g + 1 := ⟨f - 1, by simp at hf; omega⟩
  simp only [scan, h, Option.bind_some]
  rw [hr g (by simp at hf; omega)]
  rfl

theorem scan_complete {s : List Char} {ts : List Tok} (h : Reads s ts) : ∀ f, s.length ≤ f → scan f s = some ts := by
  induction h with
  | done => intro f _; cases f <;> rfl
  | @blank c s ts hc _ ih =>
    intro f hf
    have : lex c s = some (none, s) := by
      unfold lex
      rw [if_pos (by simpa using hc)]
    exact scan_step this ih (Nat.le_refl _) hf
  | @comment l s ts hl _ ih =>
    intro f hf
    have : lex '-' ('-' :: (l ++ '\n' :: s)) = some (none, s) := by
      unfold lex
      rw [if_neg (by decide), if_pos ⟨rfl, rfl⟩]
      simp only [dropLine]
      rw [if_neg (by decide), dropLine_line l s hl]
    exact scan_step this ih (by simp; omega) hf
  | @lastComment l hl =>
    intro f hf
    have : lex '-' ('-' :: l) = some (none, []) := by
      unfold lex
      rw [if_neg (by decide), if_pos ⟨rfl, rfl⟩]
      simp only [dropLine]
      rw [if_neg (by decide), dropLine_end l hl]
    exact scan_step (ts := [.eof]) this (fun g _ => by cases g <;> rfl) (by simp) hf
  | @symbol w t s ts hm hl _ ih =>
    intro f hf
    obtain ⟨c, r, rfl, he⟩ := lex_symbol hm hl
    exact scan_step he ih (by simp) hf
  | @str w s ts hq _ ih =>
    intro f hf
    have : lex '"' (w ++ '"' :: s) = some (some (.str w), s) := by
      show (quoted (w ++ '"' :: s)).map (fun p => (some (Tok.str p.1), p.2)) = _
      rw [quoted_at w s hq]
      rfl
    exact scan_step this ih (by simp; omega) hf
  | @int w s ts hne hd hs hlt _ ih =>
    intro f hf
    cases w with
    | nil => exact absurd rfl hne
    | cons c w =>
      obtain ⟨h1, h2⟩ := takeWhile_all (c :: w) s hd hs
      have : lex c (w ++ s) = some (some (.int (decimal (c :: w))), s) := by
        rw [lex_digit (hd c (by simp)), ← List.cons_append, h1, h2, number_some.2 ⟨rfl, hlt⟩]
        rfl
      exact scan_step this ih (by simp) hf
  | @keyword w t s ts hm hs _ ih =>
    intro f hf
    obtain ⟨⟨c, hc, ha⟩, hw⟩ := keyword_chars hm
    cases w with
    | nil => cases hc
    | cons x w =>
      cases hc
      obtain ⟨h1, h2⟩ := takeWhile_all (p := wordChar) (c :: w) s hw hs
      have : lex c (w ++ s) = some (some t, s) := by
        rw [lex_word ha, ← List.cons_append, h1, h2, word_keyword hm]
      exact scan_step this ih (by simp) hf
  | @ident w s ts hc hw hs hk _ ih =>
    intro f hf
    obtain ⟨c, hc, ha⟩ := hc
    cases w with
    | nil => cases hc
    | cons x w =>
      cases hc
      obtain ⟨h1, h2⟩ := takeWhile_all (p := wordChar) (c :: w) s hw hs
      have : lex c (w ++ s) = some (some (.ident (c :: w)), s) := by
        rw [lex_word ha, ← List.cons_append, h1, h2, word_ident hk]
      exact scan_step this ih (by simp) hf

theorem tokenize_iff {s : List Char} {ts : List Tok} : tokenize s = some ts ↔ Reads s ts :=
  ⟨scan_sound, fun h => scan_complete h _ (Nat.le_refl _)⟩

end DD.Ir.App
