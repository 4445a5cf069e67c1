import Verif.Proofs.Pipe

/-! # The pipe syntax and the applicative syntax write the same programs -/

namespace DD.Ir.Pipe

open App (Tok Exp St)

theorem expr_applicative {a : List Tok} {e : Exp} (h : SpellsExpr a e) : ∃ b, App.SpellsExpr b e := by
  refine SpellsExpr.rec (motive_1 := fun _ e _ => ∃ b, App.SpellsExpr b e) (motive_2 := fun _ l _ => l ≠ [] → ∃ b, App.SpellsExprs b l) (motive_3 := fun _ e _ => ∃ b, App.SpellsExpr b e)
    (motive_4 := fun _ e _ => ∃ b, App.SpellsExpr b e) (motive_5 := fun _ e e' _ => (∃ b, App.SpellsExpr b e) → ∃ b, App.SpellsExpr b e')
    ?_ ?_ ?_ ?_ ?_ ?_ ?_ ?_ ?_ ?_ ?_ ?_ ?_ ?_ ?_ ?_ ?_ ?_ ?_ ?_ ?_ ?_ ?_ ?_ h
  · intro n; exact ⟨_, .input n⟩
  · intro n; exact ⟨_, .imported n⟩
  · intro n; exact ⟨_, .name n⟩
  · intro n m; exact ⟨_, .qualified n m⟩
  · intro a e _ ih; exact ih
  · intro h; exact absurd rfl h
  · rintro a e b l _ _ ⟨c, hc⟩ ih _
    cases l with
    | nil => exact ⟨_, .one hc⟩
    | cons e' l =>
      obtain ⟨d, hd⟩ := ih (by simp)
      exact ⟨_, .more hc hd⟩
  · rintro a e b l _ _ ⟨c, hc⟩ ih _
    cases l with
    | nil => exact ⟨_, .one (.negate hc)⟩
    | cons e' l =>
      obtain ⟨d, hd⟩ := ih (by simp)
      exact ⟨_, .more (.negate hc) hd⟩
  · intro a e _ ih; exact ih
  · rintro a e b e' l _ _ ⟨c, hc⟩ ih
    obtain ⟨d, hd⟩ := ih (by simp)
    exact ⟨_, .concat (.more hc hd)⟩
  · intro a e b e' _ _ ih1 ih2; exact ih2 ih1
  · intro a e _ ih; exact ih
  · intro a e b e' _ _ ih1 ih2; exact ih2 ih1
  · rintro e a p hp ⟨c, hc⟩; exact ⟨_, .map hc hp⟩
  · rintro e a p hp ⟨c, hc⟩; exact ⟨_, .map hc hp⟩
  · rintro e a r b p _ hp ⟨d, hd⟩ ⟨c, hc⟩; exact ⟨_, .join hc hd hp⟩
  · rintro e x r hr ⟨c, hc⟩; exact ⟨_, .reduce hc hr⟩
  · rintro e a t ht ⟨c, hc⟩; exact ⟨_, .flatMap hc ht⟩
  · rintro e ⟨c, hc⟩; exact ⟨_, .arrange hc⟩
  · rintro e ⟨c, hc⟩; exact ⟨_, .negate hc⟩
  · rintro e a t ht ⟨c, hc⟩; exact ⟨_, .filter hc ht⟩
  · rintro e a t ht ⟨c, hc⟩; exact ⟨_, .enterAt hc ht⟩
  · rintro e ⟨c, hc⟩; exact ⟨_, .liftIter hc⟩
  · rintro e l ⟨c, hc⟩; exact ⟨_, .inspect l hc⟩

theorem program_applicative {a : List Tok} {p : List St} (h : SpellsProgram a p) : ∃ b, App.SpellsProgram b p := by
  refine SpellsProgram.rec (motive_1 := fun _ s _ => ∃ b, App.SpellsStmt b s) (motive_2 := fun _ p _ => ∃ b, App.SpellsProgram b p) ?_ ?_ ?_ ?_ ?_ ?_ h
  · intro n a e h
    obtain ⟨b, hb⟩ := expr_applicative h
    exact ⟨_, .letS hb⟩
  · intro n a e h
    obtain ⟨b, hb⟩ := expr_applicative h
    exact ⟨_, .varS hb⟩
  · intro n a e h
    obtain ⟨b, hb⟩ := expr_applicative h
    exact ⟨_, .exportS hb⟩
  · rintro n a b _ ⟨c, hc⟩; exact ⟨_, .scopeS hc⟩
  · exact ⟨_, .nil⟩
  · rintro a s b p _ _ ⟨c, hc⟩ ⟨d, hd⟩; exact ⟨_, .cons hc hd⟩

theorem arg_paren {a : List Tok} {e : Exp} (h : SpellsExpr a e) : SpellsArg (.lparen :: (a ++ [.rparen])) e := .atom (.paren h)

theorem expr_of_applicative {a : List Tok} {e : Exp} (h : App.SpellsExpr a e) : ∃ b, SpellsExpr b (plain e) := by
  refine App.SpellsExpr.rec (motive_1 := fun _ e _ => ∃ b, SpellsExpr b (plain e)) (motive_2 := fun _ l _ => plainAll l ≠ [] ∧ (∃ b, SpellsParts b (plainAll l)) ∧ ∃ b, SpellsExpr b (sumOf (plainAll l)))
    ?_ ?_ ?_ ?_ ?_ ?_ ?_ ?_ ?_ ?_ ?_ ?_ ?_ ?_ ?_ ?_ ?_ h
  · intro n; exact ⟨_, .atom (.input n)⟩
  · intro n; exact ⟨_, .atom (.imported n)⟩
  · intro n; exact ⟨_, .atom (.name n)⟩
  · intro n m; exact ⟨_, .atom (.qualified n m)⟩
  · rintro a e b p _ hp ⟨c, hc⟩; exact ⟨_, .op hc (.map hp)⟩
  · rintro a e b e' c p _ _ hp ⟨d, hd⟩ ⟨d', hd'⟩; exact ⟨_, .op hd (.join (arg_paren hd') hp)⟩
  · rintro a e x r _ hr ⟨c, hc⟩; exact ⟨_, .op hc (.reduce hr)⟩
  · rintro a e b t _ ht ⟨c, hc⟩; exact ⟨_, .op hc (.filter ht)⟩
  · rintro a e _ ⟨c, hc⟩; exact ⟨_, .op hc .negate⟩
  · rintro a e b t _ ht ⟨c, hc⟩; exact ⟨_, .op hc (.enterAt ht)⟩
  · rintro a e _ ⟨c, hc⟩; exact ⟨_, .op hc .liftIter⟩
  · rintro a e b t _ ht ⟨c, hc⟩; exact ⟨_, .op hc (.flatMap ht)⟩
  · rintro a e l _ ⟨c, hc⟩; exact ⟨_, .op hc (.inspect l)⟩
  · rintro a l _ ⟨_, _, h⟩; exact h
  · rintro a e _ ⟨c, hc⟩; exact ⟨_, .op hc .arrange⟩
  · rintro a e _ ⟨c, hc⟩
    exact ⟨by simp [plainAll], ⟨_, .plus (.paren hc) .nil⟩, ⟨c, hc⟩⟩
  · rintro a b e l _ _ ⟨c, hc⟩ ⟨hne, ⟨d, hd⟩, _⟩
    refine ⟨by simp [plainAll], ⟨_, .plus (.paren hc) hd⟩, ?_⟩
    simp only [plainAll]
    cases hl : plainAll l with
    | nil => exact absurd hl hne
    | cons e' l' =>
      rw [hl] at hd
      exact ⟨_, .sum (.paren hc) hd⟩

theorem program_of_applicative {a : List Tok} {p : List St} (h : App.SpellsProgram a p) : ∃ b, SpellsProgram b (plainProgram p) := by
  refine App.SpellsProgram.rec (motive_1 := fun _ s _ => ∃ b, SpellsStmt b (plainStmt s)) (motive_2 := fun _ p _ => ∃ b, SpellsProgram b (plainProgram p)) ?_ ?_ ?_ ?_ ?_ ?_ ?_ h
  · intro n a e h
    obtain ⟨b, hb⟩ := expr_of_applicative h
    exact ⟨_, .letS hb⟩
  · intro n a e h
    obtain ⟨b, hb⟩ := expr_of_applicative h
    exact ⟨_, .varS hb⟩
  · intro n a e h
    obtain ⟨b, hb⟩ := expr_of_applicative h
    exact ⟨_, .exportS hb⟩
  · rintro n a b _ ⟨c, hc⟩; exact ⟨_, .scopeS hc⟩
  · rintro n a b _ ⟨c, hc⟩; exact ⟨_, .scopeS hc⟩
  · exact ⟨_, .nil⟩
  · rintro a s b p _ _ ⟨c, hc⟩ ⟨d, hd⟩; exact ⟨_, .cons hc hd⟩

end DD.Ir.Pipe
