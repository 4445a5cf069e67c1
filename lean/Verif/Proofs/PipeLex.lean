import Verif.Spec.Pipe
import Verif.Proofs.ApplicativeLex

/-! # The tokens of the pipe syntax -/

namespace DD.Ir.Pipe

open App (Tok pair wordChar number quoted dropLine decimal number_some dropLine_line dropLine_end dropLine_cases quoted_at quoted_some takeWhile_all takeWhile_split pair_one pair_some)

theorem word_keyword {w : List Char} {t : Tok} (h : (w, t) ∈ keywords) : word w = t := by
  have : ∀ p ∈ keywords, word p.1 = p.2 := by decide +kernel
  exact this _ h

theorem word_ident {w : List Char} (h : w ∉ keywords.map Prod.fst) : word w = .ident w := by
  simp only [keywords, List.map_cons, List.map_nil, List.mem_cons, List.not_mem_nil, or_false, not_or] at h
  obtain ⟨h1, h2, h3, h4, h5, h6, h7, h8, h9, h10, h11, h12, h13, h14, h15, h16, h17, h18, h19⟩ := h
  unfold word
  rw [if_neg h1, if_neg h2, if_neg h3, if_neg h4, if_neg h5, if_neg h6, if_neg h7, if_neg h8, if_neg h9, if_neg h10, if_neg h11, if_neg h12, if_neg h13, if_neg h14, if_neg h15, if_neg h16, if_neg h17, if_neg h18, if_neg h19]

theorem keyword_reserved {w : List Char} {t : Tok} (h : (w, t) ∈ keywords) : w ∉ reserved := by
  have : ∀ p ∈ keywords, p.1 ∉ reserved := by decide +kernel
  exact this _ h

theorem keyword_chars {w : List Char} {t : Tok} (h : (w, t) ∈ keywords) : (∃ c ∈ w.head?, c.isAlpha ∨ c = '_') ∧ ∀ c ∈ w, wordChar c = true := by
  have : ∀ p ∈ keywords, (p.1.head?.any fun c => c.isAlpha || decide (c = '_')) = true ∧ p.1.all wordChar = true := by decide +kernel
  obtain ⟨h1, h2⟩ := this _ h
  refine ⟨?_, List.all_eq_true.1 h2⟩
  cases w with
  | nil => simp at h1
  | cons c w => exact ⟨c, rfl, by simpa using h1⟩

theorem lex_word {c : Char} {s : List Char} (h : c.isAlpha ∨ c = '_') : lex c s = if (c :: s).takeWhile wordChar ∈ reserved then none else some (some (word ((c :: s).takeWhile wordChar)), (c :: s).dropWhile wordChar) := by
  have hne : ∀ d : Char, (d.isAlpha = false ∧ d ≠ '_') → c ≠ d := by
    rintro d ⟨h1, h2⟩ rfl
    rcases h with h | h
    · rw [h1] at h; cases h
    · exact h2 h
  have hd : c.isDigit = false := by
    rcases h with h | rfl
    · simp only [Char.isAlpha, Char.isUpper, Char.isLower, Bool.or_eq_true, Bool.and_eq_true, decide_eq_true_eq, ge_iff_le, UInt32.le_iff_toNat_le] at h
      simp only [Char.isDigit, Bool.and_eq_false_iff, decide_eq_false_iff_not, ge_iff_le, UInt32.le_iff_toNat_le]
      simp at h ⊢
      omega
    · decide
  unfold lex
  rw [if_neg (by rintro (rfl | rfl | rfl | rfl) <;> revert h <;> decide)]
  rw [if_neg (by rintro ⟨rfl, _⟩; revert h; decide)]
  iterate 21 rw [if_neg (hne _ (by decide))]
  rw [if_neg (by rw [hd]; decide), if_pos h]

theorem lex_digit {c : Char} {s : List Char} (h : c.isDigit = true) : lex c s = (number ((c :: s).takeWhile Char.isDigit)).map fun n => (some (.int n), (c :: s).dropWhile Char.isDigit) := by
  have hne : ∀ d : Char, d.isDigit = false → c ≠ d := by
    rintro d h1 rfl
    rw [h1] at h; cases h
  unfold lex
  rw [if_neg (by rintro (rfl | rfl | rfl | rfl) <;> revert h <;> decide)]
  rw [if_neg (by rintro ⟨rfl, _⟩; revert h; decide)]
  iterate 21 rw [if_neg (hne _ (by decide))]
  rw [if_pos h]

theorem lex_minus {s : List Char} (h : s.head? ≠ some '-') : lex '-' s = some (some .minus, s) := by
  have : lex '-' s = if s.head? = some '-' then some (none, dropLine s) else some (some .minus, s) := by
    unfold lex
    rw [if_neg (by decide)]
    by_cases h : s.head? = some '-'
    · rw [if_pos ⟨rfl, h⟩, if_pos h]
    · rw [if_neg fun hc => h hc.2, if_neg h]
      rfl
  rw [this, if_neg h]

theorem lex_eq {s : List Char} (h1 : s.head? ≠ some '=') (h2 : s.head? ≠ some '>') : lex '=' s = some (some .eq, s) := by
  have : lex '=' s = if s.head? = some '>' then none else pair '=' .eqeq (some .eq) s := rfl
  rw [this, if_neg h2, pair_one h1]

theorem lex_symbol {w s : List Char} {t : Tok} (h : (w, t) ∈ symbols) (hl : ∀ l ∈ longer, l <+: w ++ s → l.length ≤ w.length) : ∃ c r, w = c :: r ∧ lex c (r ++ s) = some (some t, s) := by
  have hno : ∀ (c d : Char), w = [c] → [c, d] ∈ longer → s.head? ≠ some d := by
    intro c d hw hm hh
    cases s with
    | nil => cases hh
    | cons x s =>
      cases hh
      subst hw
      have := hl _ hm ⟨s, rfl⟩
      simp at this
  clear hl
  rw [symbols, App.symbols] at h
  repeat' rcases List.mem_cons.1 h with h | h
  case inl => cases h; exact ⟨'|', [], rfl, rfl⟩
  case inr.inl => cases h; exact ⟨'(', [], rfl, rfl⟩
  case inr.inr.inl => cases h; exact ⟨')', [], rfl, rfl⟩
  case inr.inr.inr.inl => cases h; exact ⟨'{', [], rfl, rfl⟩
  case inr.inr.inr.inr.inl => cases h; exact ⟨'}', [], rfl, rfl⟩
  case inr.inr.inr.inr.inr.inl => cases h; exact ⟨'[', [], rfl, rfl⟩
  case inr.inr.inr.inr.inr.inr.inl => cases h; exact ⟨']', [], rfl, rfl⟩
  case inr.inr.inr.inr.inr.inr.inr.inl => cases h; exact ⟨',', [], rfl, rfl⟩
  case inr.inr.inr.inr.inr.inr.inr.inr.inl => cases h; exact ⟨';', [], rfl, rfl⟩
  case inr.inr.inr.inr.inr.inr.inr.inr.inr.inl => cases h; exact ⟨'=', [], rfl, lex_eq (hno '=' '=' rfl (by decide +kernel)) (hno '=' '>' rfl (by decide +kernel))⟩
  case inr.inr.inr.inr.inr.inr.inr.inr.inr.inr.inl => cases h; exact ⟨'=', ['='], rfl, rfl⟩
  case inr.inr.inr.inr.inr.inr.inr.inr.inr.inr.inr.inl => cases h; exact ⟨'!', ['='], rfl, rfl⟩
  case inr.inr.inr.inr.inr.inr.inr.inr.inr.inr.inr.inr.inl => cases h; exact ⟨'<', [], rfl, pair_one (hno '<' '=' rfl (by decide +kernel))⟩
  case inr.inr.inr.inr.inr.inr.inr.inr.inr.inr.inr.inr.inr.inl => cases h; exact ⟨'<', ['='], rfl, rfl⟩
  case inr.inr.inr.inr.inr.inr.inr.inr.inr.inr.inr.inr.inr.inr.inl => cases h; exact ⟨'>', [], rfl, pair_one (hno '>' '=' rfl (by decide +kernel))⟩
  case inr.inr.inr.inr.inr.inr.inr.inr.inr.inr.inr.inr.inr.inr.inr.inl => cases h; exact ⟨'>', ['='], rfl, rfl⟩
  case inr.inr.inr.inr.inr.inr.inr.inr.inr.inr.inr.inr.inr.inr.inr.inr.inl => cases h; exact ⟨'&', ['&'], rfl, rfl⟩
  case inr.inr.inr.inr.inr.inr.inr.inr.inr.inr.inr.inr.inr.inr.inr.inr.inr.inl => cases h; exact ⟨'+', [], rfl, rfl⟩
  case inr.inr.inr.inr.inr.inr.inr.inr.inr.inr.inr.inr.inr.inr.inr.inr.inr.inr.inl => cases h; exact ⟨'-', [], rfl, lex_minus (hno '-' '-' rfl (by decide +kernel))⟩
  case inr.inr.inr.inr.inr.inr.inr.inr.inr.inr.inr.inr.inr.inr.inr.inr.inr.inr.inr.inl => cases h; exact ⟨'*', [], rfl, rfl⟩
  case inr.inr.inr.inr.inr.inr.inr.inr.inr.inr.inr.inr.inr.inr.inr.inr.inr.inr.inr.inr.inl => cases h; exact ⟨'$', [], rfl, rfl⟩
  case inr.inr.inr.inr.inr.inr.inr.inr.inr.inr.inr.inr.inr.inr.inr.inr.inr.inr.inr.inr.inr.inl => cases h; exact ⟨'^', [], rfl, rfl⟩
  case inr.inr.inr.inr.inr.inr.inr.inr.inr.inr.inr.inr.inr.inr.inr.inr.inr.inr.inr.inr.inr.inr.inl => cases h; exact ⟨':', [], rfl, pair_one (hno ':' ':' rfl (by decide +kernel))⟩
  case inr.inr.inr.inr.inr.inr.inr.inr.inr.inr.inr.inr.inr.inr.inr.inr.inr.inr.inr.inr.inr.inr.inr.inl => cases h; exact ⟨':', [':'], rfl, rfl⟩
  all_goals cases h

theorem reads_solo {c : Char} {t : Tok} {s : List Char} {ts : List Tok} (hm : ([c], t) ∈ symbols) (hl : ∀ l ∈ longer, l.length ≤ 1 ∨ l.head? ≠ some c) (h : Reads s ts) :
    Reads (c :: s) (t :: ts) := by
  refine Reads.symbol (w := [c]) hm (fun l hm hp => ?_) h
  rcases hl l hm with hl | hl
  · exact hl
  · obtain ⟨r, hr⟩ := hp
    cases l with
    | nil => exact Nat.zero_le _
    | cons x l =>
      rw [List.cons_append, List.singleton_append, List.cons.injEq] at hr
      exact absurd (by rw [hr.1]; rfl) hl

theorem reads_one {c d : Char} {t : Tok} {s : List Char} {ts : List Tok} (hm : ([c], t) ∈ symbols) (hl : ∀ l ∈ longer, l.length ≤ 1 ∨ l.head? ≠ some c ∨ l = [c, d]) (hd : s.head? ≠ some d)
    (h : Reads s ts) : Reads (c :: s) (t :: ts) := by
  refine Reads.symbol (w := [c]) hm (fun l hm hp => ?_) h
  obtain ⟨r, hr⟩ := hp
  rcases hl l hm with hl | hl | rfl
  · exact hl
  · cases l with
    | nil => exact Nat.zero_le _
    | cons x l =>
      rw [List.cons_append, List.singleton_append, List.cons.injEq] at hr
      exact absurd (by rw [hr.1]; rfl) hl
  · rw [List.singleton_append] at hr
    cases hr
    exact absurd rfl hd

theorem reads_two {c d : Char} {t : Tok} {s : List Char} {ts : List Tok} (hm : ([c, d], t) ∈ symbols) (h : Reads s ts) : Reads (c :: d :: s) (t :: ts) := by
  have hl : ∀ l ∈ longer, l.length ≤ 2 := by decide +kernel
  exact Reads.symbol (w := [c, d]) hm (fun l hm _ => hl l hm) h

/-- `=` before another character. -/
theorem reads_eq {s : List Char} {ts : List Tok} (h1 : s.head? ≠ some '=') (h2 : s.head? ≠ some '>') (h : Reads s ts) : Reads ('=' :: s) (.eq :: ts) := by
  refine Reads.symbol (w := ['=']) (by decide +kernel) (fun l hm hp => ?_) h
  have hl : ∀ l ∈ longer, l.length ≤ 1 ∨ l.head? ≠ some '=' ∨ l = ['=', '='] ∨ l = ['=', '>'] := by decide +kernel
  obtain ⟨r, hr⟩ := hp
  rcases hl l hm with hl | hl | rfl | rfl
  · exact hl
  · cases l with
    | nil => exact Nat.zero_le _
    | cons x l =>
      rw [List.cons_append, List.singleton_append, List.cons.injEq] at hr
      exact absurd (by rw [hr.1]; rfl) hl
  · rw [List.singleton_append] at hr
    cases hr
    exact absurd rfl h1
  · rw [List.singleton_append] at hr
    cases hr
    exact absurd rfl h2

theorem reads_word {c : Char} {s : List Char} {ts : List Tok} (hc : c.isAlpha ∨ c = '_') (hres : (c :: s).takeWhile wordChar ∉ reserved) (h : Reads ((c :: s).dropWhile wordChar) ts) : Reads (c :: s) (word ((c :: s).takeWhile wordChar) :: ts) := by
  obtain ⟨h1, h2, h3⟩ := takeWhile_split wordChar (c :: s)
  have hwc : wordChar c = true := by
    rcases hc with hc | rfl
    · simp [wordChar, Char.isAlphanum, hc]
    · decide
  have hhead : ((c :: s).takeWhile wordChar).head? = some c := by simp [hwc]
  generalize (c :: s).takeWhile wordChar = w at *
  generalize (c :: s).dropWhile wordChar = r at *
  rw [h1]
  by_cases hk : w ∈ keywords.map Prod.fst
  · obtain ⟨⟨w', t⟩, hm, rfl⟩ := List.mem_map.1 hk
    rw [word_keyword hm]
    exact .keyword hm h3 h
  · rw [word_ident hk]
    exact .ident ⟨c, hhead, hc⟩ h2 h3 hk hres h

theorem reads_number {c : Char} {s : List Char} {ts : List Tok} {n : Nat} (hc : c.isDigit = true) (hn : number ((c :: s).takeWhile Char.isDigit) = some n) (h : Reads ((c :: s).dropWhile Char.isDigit) ts) : Reads (c :: s) (.int n :: ts) := by
  obtain ⟨h1, h2, h3⟩ := takeWhile_split Char.isDigit (c :: s)
  have hhead : ((c :: s).takeWhile Char.isDigit) ≠ [] := by simp [hc]
  generalize (c :: s).takeWhile Char.isDigit = w at *
  generalize (c :: s).dropWhile Char.isDigit = r at *
  obtain ⟨rfl, hlt⟩ := number_some.1 hn
  rw [h1]
  exact .int hhead h2 h3 hlt h

theorem reads_nil {ts : List Tok} (h : Reads [] ts) : ts = [.eof] := by
  generalize hs : ([] : List Char) = s at h
  cases h with
  | done => rfl
  | symbol hm _ _ =>
    exfalso
    rw [eq_comm, List.append_eq_nil_iff] at hs
    have : ∀ p ∈ symbols, p.1 ≠ [] := by decide +kernel
    exact this _ hm hs.1
  | int hne _ _ _ _ => exact absurd (List.append_eq_nil_iff.1 hs.symm).1 hne
  | keyword hm _ _ =>
    exfalso
    rw [eq_comm, List.append_eq_nil_iff] at hs
    have : ∀ p ∈ keywords, p.1 ≠ [] := by decide +kernel
    exact this _ hm hs.1
  | ident hc _ _ _ _ _ =>
    exfalso
    rw [eq_comm, List.append_eq_nil_iff] at hs
    obtain ⟨c, hc, _⟩ := hc
    rw [hs.1] at hc
    cases hc
  | _ => cases hs

theorem lex_sound {c : Char} {s r : List Char} {o : Option Tok} {ts : List Tok} (h : lex c s = some (o, r)) (hr : Reads r ts) : Reads (c :: s) (o.toList ++ ts) := by
  unfold lex at h
  by_cases hc : c = ' ' ∨ c = '\t' ∨ c = '\n' ∨ c = '\r'
  · rw [if_pos hc] at h
    cases h
    exact .blank (by simpa using hc) hr
  rw [if_neg hc] at h
  clear hc
  by_cases hc : c = '-' ∧ s.head? = some '-'
  · rw [if_pos hc] at h
    obtain ⟨rfl, hs⟩ := hc
    cases s with
    | nil => cases hs
    | cons x s =>
      cases hs
      cases h
      simp only [dropLine] at hr
      rw [if_neg (by decide)] at hr
      rcases dropLine_cases s with ⟨l, hl, he⟩ | ⟨hl, he⟩
      · rw [he]
        exact .comment hl hr
      · rw [he] at hr
        rw [reads_nil hr]
        exact .lastComment hl
  rw [if_neg hc] at h
  rename' hc => hminus
  by_cases hc : c = '('
  · rw [if_pos hc] at h
    subst hc
    cases h
    exact reads_solo (by decide +kernel) (by decide +kernel) hr
  rw [if_neg hc] at h
  clear hc
  by_cases hc : c = ')'
  · rw [if_pos hc] at h
    subst hc
    cases h
    exact reads_solo (by decide +kernel) (by decide +kernel) hr
  rw [if_neg hc] at h
  clear hc
  by_cases hc : c = '{'
  · rw [if_pos hc] at h
    subst hc
    cases h
    exact reads_solo (by decide +kernel) (by decide +kernel) hr
  rw [if_neg hc] at h
  clear hc
  by_cases hc : c = '}'
  · rw [if_pos hc] at h
    subst hc
    cases h
    exact reads_solo (by decide +kernel) (by decide +kernel) hr
  rw [if_neg hc] at h
  clear hc
  by_cases hc : c = '['
  · rw [if_pos hc] at h
    subst hc
    cases h
    exact reads_solo (by decide +kernel) (by decide +kernel) hr
  rw [if_neg hc] at h
  clear hc
  by_cases hc : c = ']'
  · rw [if_pos hc] at h
    subst hc
    cases h
    exact reads_solo (by decide +kernel) (by decide +kernel) hr
  rw [if_neg hc] at h
  clear hc
  by_cases hc : c = ','
  · rw [if_pos hc] at h
    subst hc
    cases h
    exact reads_solo (by decide +kernel) (by decide +kernel) hr
  rw [if_neg hc] at h
  clear hc
  by_cases hc : c = ';'
  · rw [if_pos hc] at h
    subst hc
    cases h
    exact reads_solo (by decide +kernel) (by decide +kernel) hr
  rw [if_neg hc] at h
  clear hc
  by_cases hc : c = '|'
  · rw [if_pos hc] at h
    subst hc
    cases h
    exact reads_solo (by decide +kernel) (by decide +kernel) hr
  rw [if_neg hc] at h
  clear hc
  by_cases hc : c = '&'
  · rw [if_pos hc] at h
    subst hc
    rcases pair_some h with ⟨rfl, rfl⟩ | ⟨rfl, hd, rfl⟩
    · exact reads_two (by decide +kernel) hr
    · cases r <;> simp [pair] at h
  rw [if_neg hc] at h
  clear hc
  by_cases hc : c = '+'
  · rw [if_pos hc] at h
    subst hc
    cases h
    exact reads_solo (by decide +kernel) (by decide +kernel) hr
  rw [if_neg hc] at h
  clear hc
  by_cases hc : c = '*'
  · rw [if_pos hc] at h
    subst hc
    cases h
    exact reads_solo (by decide +kernel) (by decide +kernel) hr
  rw [if_neg hc] at h
  clear hc
  by_cases hc : c = '^'
  · rw [if_pos hc] at h
    subst hc
    cases h
    exact reads_solo (by decide +kernel) (by decide +kernel) hr
  rw [if_neg hc] at h
  clear hc
  by_cases hc : c = '='
  · rw [if_pos hc] at h
    subst hc
    by_cases hg : s.head? = some '>'
    · rw [if_pos hg] at h
      cases h
    rw [if_neg hg] at h
    rcases pair_some h with ⟨rfl, rfl⟩ | ⟨rfl, hd, rfl⟩
    · exact reads_two (by decide +kernel) hr
    · exact reads_eq hd hg hr
  rw [if_neg hc] at h
  clear hc
  by_cases hc : c = '!'
  · rw [if_pos hc] at h
    subst hc
    rcases pair_some h with ⟨rfl, rfl⟩ | ⟨rfl, hd, rfl⟩
    · exact reads_two (by decide +kernel) hr
    · cases r <;> simp [pair] at h
  rw [if_neg hc] at h
  clear hc
  by_cases hc : c = '<'
  · rw [if_pos hc] at h
    subst hc
    rcases pair_some h with ⟨rfl, rfl⟩ | ⟨rfl, hd, rfl⟩
    · exact reads_two (by decide +kernel) hr
    · exact reads_one (d := '=') (by decide +kernel) (by decide +kernel) hd hr
  rw [if_neg hc] at h
  clear hc
  by_cases hc : c = '>'
  · rw [if_pos hc] at h
    subst hc
    rcases pair_some h with ⟨rfl, rfl⟩ | ⟨rfl, hd, rfl⟩
    · exact reads_two (by decide +kernel) hr
    · exact reads_one (d := '=') (by decide +kernel) (by decide +kernel) hd hr
  rw [if_neg hc] at h
  clear hc
  by_cases hc : c = '$'
  · rw [if_pos hc] at h
    subst hc
    cases h
    exact reads_solo (by decide +kernel) (by decide +kernel) hr
  rw [if_neg hc] at h
  clear hc
  by_cases hc : c = '"'
  · rw [if_pos hc] at h
    subst hc
    obtain ⟨p, hp, he⟩ := Option.map_eq_some_iff.1 h
    cases he
    obtain ⟨rfl, hq⟩ := quoted_some hp
    exact .str hq hr
  rw [if_neg hc] at h
  clear hc
  by_cases hc : c = '-'
  · rw [if_pos hc] at h
    subst hc
    cases h
    exact reads_one (d := '-') (by decide +kernel) (by decide +kernel) (fun hs => hminus ⟨rfl, hs⟩) hr
  rw [if_neg hc] at h
  clear hc
  by_cases hc : c = ':'
  · rw [if_pos hc] at h
    subst hc
    rcases pair_some h with ⟨rfl, rfl⟩ | ⟨rfl, hd, rfl⟩
    · exact reads_two (by decide +kernel) hr
    · exact reads_one (d := ':') (by decide +kernel) (by decide +kernel) hd hr
  rw [if_neg hc] at h
  clear hc
  by_cases hc : c.isDigit = true
  · rw [if_pos hc] at h
    obtain ⟨n, hn, he⟩ := Option.map_eq_some_iff.1 h
    cases he
    exact reads_number hc hn hr
  rw [if_neg hc] at h
  clear hc
  by_cases hc : c.isAlpha ∨ c = '_'
  · rw [if_pos hc] at h
    by_cases hres : (c :: s).takeWhile wordChar ∈ reserved
    · rw [if_pos hres] at h
      cases h
    rw [if_neg hres] at h
    cases h
    exact reads_word hc hres hr
  rw [if_neg hc] at h
  cases h

theorem scan_sound {f : Nat} {s : List Char} {ts : List Tok} (h : scan f s = some ts) : Reads s ts := by
  induction f generalizing s ts with
  | zero =>
    cases s with
    | nil => cases h; exact .done
    | cons c s => cases h
  | succ f ih =>
    cases s with
    | nil => cases h; exact .done
    | cons c s =>
      replace h := Option.bind_eq_some_iff.1 (show (lex c s).bind _ = _ from h)
      obtain ⟨p, hp, h⟩ := h
      obtain ⟨ts', hts, rfl⟩ := Option.map_eq_some_iff.1 h
      exact lex_sound hp (ih hts)

theorem scan_step {f : Nat} {c : Char} {s r : List Char} {o : Option Tok} {ts : List Tok} (h : lex c s = some (o, r)) (hr : ∀ g, r.length ≤ g → scan g r = some ts) (hlen : r.length ≤ s.length) (hf : (c :: s).length ≤ f) :
    scan f (c :: s) = some (o.toList ++ ts) := by
  obtain ⟨g, rfl⟩ : ∃ g, f = g + 1 := ⟨f - 1, by simp at hf; omega⟩
  simp only [scan, h, Option.bind_some]
  rw [hr g (by simp at hf; omega)]
  rfl

theorem scan_complete {s : List Char} {ts : List Tok} (h : Reads s ts) : ∀ f, s.length ≤ f → scan f s = some ts := by
  induction h with
  | done => intro f _; cases f <;> rfl
  | @blank c s ts hc _ ih =>
    intro f hf
    have : lex c s = some (none, s) := by
      unfold lex
      rw [if_pos (by simpa using hc)]
    exact scan_step this ih (Nat.le_refl _) hf
  | @comment l s ts hl _ ih =>
    intro f hf
    have : lex '-' ('-' :: (l ++ '\n' :: s)) = some (none, s) := by
      unfold lex
      rw [if_neg (by decide), if_pos ⟨rfl, rfl⟩]
      simp only [dropLine]
      rw [if_neg (by decide), dropLine_line l s hl]
    exact scan_step this ih (by simp; omega) hf
  | @lastComment l hl =>
    intro f hf
    have : lex '-' ('-' :: l) = some (none, []) := by
      unfold lex
      rw [if_neg (by decide), if_pos ⟨rfl, rfl⟩]
      simp only [dropLine]
      rw [if_neg (by decide), dropLine_end l hl]
    exact scan_step (ts := [.eof]) this (fun g _ => by cases g <;> rfl) (by simp) hf
  | @symbol w t s ts hm hl _ ih =>
    intro f hf
    obtain ⟨c, r, rfl, he⟩ := lex_symbol hm hl
    exact scan_step he ih (by simp) hf
  | @str w s ts hq _ ih =>
    intro f hf
    have : lex '"' (w ++ '"' :: s) = some (some (.str w), s) := by
      show (quoted (w ++ '"' :: s)).map (fun p => (some (Tok.str p.1), p.2)) = _
      rw [quoted_at w s hq]
      rfl
    exact scan_step this ih (by simp; omega) hf
  | @int w s ts hne hd hs hlt _ ih =>
    intro f hf
    cases w with
    | nil => exact absurd rfl hne
    | cons c w =>
      obtain ⟨h1, h2⟩ := takeWhile_all (c :: w) s hd hs
      have : lex c (w ++ s) = some (some (.int (decimal (c :: w))), s) := by
        rw [lex_digit (hd c (by simp)), ← List.cons_append, h1, h2, number_some.2 ⟨rfl, hlt⟩]
        rfl
      exact scan_step this ih (by simp) hf
  | @keyword w t s ts hm hs _ ih =>
    intro f hf
    obtain ⟨⟨c, hc, ha⟩, hw⟩ := keyword_chars hm
    cases w with
    | nil => cases hc
    | cons x w =>
      cases hc
      obtain ⟨h1, h2⟩ := takeWhile_all (p := wordChar) (c :: w) s hw hs
      have : lex c (w ++ s) = some (some t, s) := by
        rw [lex_word ha, ← List.cons_append, h1, h2, if_neg (keyword_reserved hm), word_keyword hm]
      exact scan_step this ih (by simp) hf
  | @ident w s ts hc hw hs hk hres _ ih =>
    intro f hf
    obtain ⟨c, hc, ha⟩ := hc
    cases w with
    | nil => cases hc
    | cons x w =>
      cases hc
      obtain ⟨h1, h2⟩ := takeWhile_all (p := wordChar) (c :: w) s hw hs
      have : lex c (w ++ s) = some (some (.ident (c :: w)), s) := by
        rw [lex_word ha, ← List.cons_append, h1, h2, if_neg (show c :: w ∉ reserved from hres), word_ident hk]
      exact scan_step this ih (by simp) hf

theorem tokenize_iff {s : List Char} {ts : List Tok} : tokenize s = some ts ↔ Reads s ts :=
  ⟨scan_sound, fun h => scan_complete h _ (Nat.le_refl _)⟩

/-- The end of the text is the last token, and no other. -/
theorem reads_eof {s : List Char} {ts : List Tok} (h : Reads s ts) : ∃ a, ts = a ++ [.eof] ∧ .eof ∉ a := by
  have hsym : ∀ p ∈ symbols, p.2 ≠ .eof := by decide +kernel
  have hkey : ∀ p ∈ keywords, p.2 ≠ .eof := by decide +kernel
  have step : ∀ {t : Tok} {ts : List Tok}, t ≠ .eof → (∃ a, ts = a ++ [.eof] ∧ .eof ∉ a) → ∃ a, t :: ts = a ++ [.eof] ∧ .eof ∉ a := by
    rintro t ts ht ⟨a, rfl, ha⟩
    exact ⟨t :: a, rfl, by simp only [List.mem_cons, not_or]; exact ⟨fun e => ht e.symm, ha⟩⟩
  induction h with
  | done => exact ⟨[], rfl, by simp⟩
  | blank _ _ ih => exact ih
  | comment _ _ ih => exact ih
  | lastComment _ => exact ⟨[], rfl, by simp⟩
  | symbol hm _ _ ih => exact step (hsym _ hm) ih
  | str _ _ ih => exact step (by simp) ih
  | int _ _ _ _ _ ih => exact step (by simp) ih
  | keyword hm _ _ ih => exact step (hkey _ hm) ih
  | ident _ _ _ _ _ _ ih => exact step (by simp) ih

end DD.Ir.Pipe
