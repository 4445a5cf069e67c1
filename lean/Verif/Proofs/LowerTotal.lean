import Verif.Spec.LowerOk
import Verif.Proofs.LowerOrder

/-!
# Which programs are lowered: expressions, names and steps
-/

namespace DD.Ir
variable {L P Q N : Type*}

/-! ### Names -/

mutual
/-- An expression uses a field. -/
def Expr.Uses (s f : N) : Expr L P Q N → Prop
  | .input _ => False
  | .imported _ => False
  | .name _ => False
  | .qualified s' f' => s' = s ∧ f' = f
  | .linear e _ => e.Uses s f
  | .join l r _ => l.Uses s f ∨ r.Uses s f
  | .reduce e _ => e.Uses s f
  | .inspect e _ => e.Uses s f
  | .concat es => ExprsUse s f es
  | .arrange e => e.Uses s f
/-- One of the expressions uses a field. -/
def ExprsUse (s f : N) : List (Expr L P Q N) → Prop
  | [] => False
  | e :: es => e.Uses s f ∨ ExprsUse s f es
end

mutual
theorem mem_exprFree {m : N} : ∀ e : Expr L P Q N, m ∈ exprFree e ↔ e.Mentions m
  | .input _ => by simp [exprFree, Expr.Mentions]
  | .imported _ => by simp [exprFree, Expr.Mentions]
  | .name _ => by simp [exprFree, Expr.Mentions]
  | .qualified _ _ => by simp [exprFree, Expr.Mentions]
  | .linear e _ => by simp [exprFree, Expr.Mentions, mem_exprFree e]
  | .join l r _ => by simp [exprFree, Expr.Mentions, mem_exprFree l, mem_exprFree r]
  | .reduce e _ => by simp [exprFree, Expr.Mentions, mem_exprFree e]
  | .inspect e _ => by simp [exprFree, Expr.Mentions, mem_exprFree e]
  | .concat es => by simp [exprFree, Expr.Mentions, mem_exprsFree es]
  | .arrange e => by simp [exprFree, Expr.Mentions, mem_exprFree e]
theorem mem_exprsFree {m : N} : ∀ es : List (Expr L P Q N), m ∈ exprsFree es ↔ ExprsMention m es
  | [] => by simp [exprsFree, ExprsMention]
  | e :: es => by simp [exprsFree, ExprsMention, mem_exprFree e, mem_exprsFree es]
end

section
variable [DecidableEq N]

mutual
theorem mem_stmtFree {m : N} : ∀ s : Stmt L P Q N, m ∈ stmtFree s ↔ StmtMentions m s
  | .letS _ e => by simp [stmtFree, StmtMentions, mem_exprFree e]
  | .varS _ e => by simp [stmtFree, StmtMentions, mem_exprFree e]
  | .exportS _ e => by simp [stmtFree, StmtMentions, mem_exprFree e]
  | .scopeS _ b => by simp [stmtFree, StmtMentions, mem_stmtsFree b, and_comm]
theorem mem_stmtsFree {m : N} : ∀ ss : List (Stmt L P Q N), m ∈ stmtsFree ss ↔ StmtsMention m ss
  | [] => by simp [stmtsFree, StmtsMention]
  | s :: ss => by simp [stmtsFree, StmtsMention, mem_stmtFree s, mem_stmtsFree ss]
end

theorem mem_bodyFree {m : N} {b : List (Stmt L P Q N)} : m ∈ bodyFree b ↔ m ∉ localNames b ∧ StmtsMention m b := by
  simp [bodyFree, mem_stmtsFree, and_comm]

mutual
theorem mem_collectQualified {s f : N} : ∀ (e : Expr L P Q N) (out : List N), f ∈ collectQualified s e out ↔ f ∈ out ∨ e.Uses s f
  | .input _, out => by simp [collectQualified, Expr.Uses]
  | .imported _, out => by simp [collectQualified, Expr.Uses]
  | .name _, out => by simp [collectQualified, Expr.Uses]
  | .qualified s' f', out => by
    simp only [collectQualified, Expr.Uses]
    by_cases h : s' = s ∧ f' ∉ out
    · rw [if_pos h]
      simp only [List.mem_append, List.mem_singleton, h.1, true_and, eq_comm]
    · rw [if_neg h]
      constructor
      · exact .inl
      · rintro (h' | ⟨h1, rfl⟩)
        · exact h'
        · by_contra h2
          exact h ⟨h1, h2⟩
  | .linear e _, out => by simp only [collectQualified, Expr.Uses, mem_collectQualified e out]
  | .join l r _, out => by simp only [collectQualified, Expr.Uses, mem_collectQualified l out, mem_collectQualified r, or_assoc]
  | .reduce e _, out => by simp only [collectQualified, Expr.Uses, mem_collectQualified e out]
  | .inspect e _, out => by simp only [collectQualified, Expr.Uses, mem_collectQualified e out]
  | .concat es, out => by simp only [collectQualified, Expr.Uses, mem_collectsQualified es out]
  | .arrange e, out => by simp only [collectQualified, Expr.Uses, mem_collectQualified e out]
theorem mem_collectsQualified {s f : N} : ∀ (es : List (Expr L P Q N)) (out : List N), f ∈ collectsQualified s es out ↔ f ∈ out ∨ ExprsUse s f es
  | [], out => by simp [collectsQualified, ExprsUse]
  | e :: es, out => by simp only [collectsQualified, ExprsUse, mem_collectsQualified es, mem_collectQualified e, or_assoc]
end

omit [DecidableEq N] in
theorem exprsUse_iff {s f : N} {es : List (Expr L P Q N)} : ExprsUse s f es ↔ ∃ e ∈ es, e.Uses s f := by
  induction es with
  | nil => simp [ExprsUse]
  | cons e es ih => simp [ExprsUse, ih]

theorem mem_qualifiedFields {s f : N} {body : List (Stmt L P Q N)} : f ∈ qualifiedFields body s ↔ ∃ t ∈ body, ∃ e, t.expr? = some e ∧ e.Uses s f := by
  rw [qualifiedFields, mem_collectsQualified, exprsUse_iff]
  simp only [List.not_mem_nil, false_or, List.mem_filterMap]
  exact ⟨fun ⟨e, ⟨t, h1, h2⟩, h3⟩ => ⟨t, h1, e, h2, h3⟩, fun ⟨t, h1, e, h2, h3⟩ => ⟨e, ⟨t, h1, h2⟩, h3⟩⟩

end

theorem exprsOk_iff {root : Bool} {v : N → Prop} {f : N → N → Prop} {es : List (Expr L P Q N)} : ExprsOk root v f es ↔ ∀ e ∈ es, ExprOk root v f e := by
  induction es with
  | nil => simp [ExprsOk]
  | cons e es ih => simp [ExprsOk, ih]

theorem stmtsOk_iff {root : Bool} {v : N → Prop} {f : N → N → Prop} {ss : List (Stmt L P Q N)} : StmtsOk root v f ss ↔ ∀ s ∈ ss, StmtOk root v f s := by
  induction ss with
  | nil => simp [StmtsOk]
  | cons e es ih => simp [StmtsOk, ih]

theorem stmtsMention_iff {m : N} {ss : List (Stmt L P Q N)} : StmtsMention m ss ↔ ∃ s ∈ ss, StmtMentions m s := by
  induction ss with
  | nil => simp [StmtsMention]
  | cons e es ih => simp [StmtsMention, ih]

mutual
theorem exprOk_mono {r : Bool} {v v' : N → Prop} {f f' : N → N → Prop} : ∀ e : Expr L P Q N, ExprOk r v f e → (∀ m, e.Mentions m → v m → v' m) → (∀ s g, e.Uses s g → f s g → f' s g) → ExprOk r v' f' e
  | .input _, h, _, _ => h
  | .imported _, h, _, _ => h
  | .name n, h, hv, _ => hv n (by simp only [Expr.Mentions]) h
  | .qualified s g, h, _, hf => hf s g (by simp only [Expr.Uses, and_self]) h
  | .linear e _, h, hv, hf => exprOk_mono e h hv hf
  | .join l r _, h, hv, hf => ⟨exprOk_mono l h.1 (fun m hm => hv m (.inl hm)) fun s g hu => hf s g (.inl hu), exprOk_mono r h.2 (fun m hm => hv m (.inr hm)) fun s g hu => hf s g (.inr hu)⟩
  | .reduce e _, h, hv, hf => exprOk_mono e h hv hf
  | .inspect e _, h, hv, hf => exprOk_mono e h hv hf
  | .concat es, h, hv, hf => exprsOk_mono es h hv hf
  | .arrange e, h, hv, hf => exprOk_mono e h hv hf
theorem exprsOk_mono {r : Bool} {v v' : N → Prop} {f f' : N → N → Prop} : ∀ es : List (Expr L P Q N), ExprsOk r v f es → (∀ m, ExprsMention m es → v m → v' m) →
    (∀ s g, ExprsUse s g es → f s g → f' s g) → ExprsOk r v' f' es
  | [], h, _, _ => h
  | e :: es, h, hv, hf => ⟨exprOk_mono e h.1 (fun m hm => hv m (.inl hm)) fun s g hu => hf s g (.inl hu), exprsOk_mono es h.2 (fun m hm => hv m (.inr hm)) fun s g hu => hf s g (.inr hu)⟩
end

mutual
theorem exprOk_mentions {r : Bool} {v : N → Prop} {f : N → N → Prop} {m : N} : ∀ e : Expr L P Q N, ExprOk r v f e → e.Mentions m → v m ∨ ∃ g, f m g
  | .input _, _, hm => hm.elim
  | .imported _, _, hm => hm.elim
  | .name n, h, hm => by cases (show m = n from hm); exact .inl h
  | .qualified s g, h, hm => by cases (show m = s from hm); exact .inr ⟨g, h⟩
  | .linear e _, h, hm => exprOk_mentions e h hm
  | .join l r _, h, hm => hm.elim (exprOk_mentions l h.1) (exprOk_mentions r h.2)
  | .reduce e _, h, hm => exprOk_mentions e h hm
  | .inspect e _, h, hm => exprOk_mentions e h hm
  | .concat es, h, hm => exprsOk_mentions es h hm
  | .arrange e, h, hm => exprOk_mentions e h hm
theorem exprsOk_mentions {r : Bool} {v : N → Prop} {f : N → N → Prop} {m : N} : ∀ es : List (Expr L P Q N), ExprsOk r v f es → ExprsMention m es → v m ∨ ∃ g, f m g
  | [], _, hm => hm.elim
  | e :: es, h, hm => hm.elim (exprOk_mentions e h.1) (exprsOk_mentions es h.2)
end

mutual
theorem exprOk_uses {r : Bool} {v : N → Prop} {f : N → N → Prop} {s g : N} : ∀ e : Expr L P Q N, ExprOk r v f e → e.Uses s g → f s g
  | .input _, _, hm => hm.elim
  | .imported _, _, hm => hm.elim
  | .name n, _, hm => hm.elim
  | .qualified s' g', h, hm => by
    obtain ⟨rfl, rfl⟩ := (show s' = s ∧ g' = g from hm)
    exact h
  | .linear e _, h, hm => exprOk_uses e h hm
  | .join l r _, h, hm => hm.elim (exprOk_uses l h.1) (exprOk_uses r h.2)
  | .reduce e _, h, hm => exprOk_uses e h hm
  | .inspect e _, h, hm => exprOk_uses e h hm
  | .concat es, h, hm => exprsOk_uses es h hm
  | .arrange e, h, hm => exprOk_uses e h hm
theorem exprsOk_uses {r : Bool} {v : N → Prop} {f : N → N → Prop} {s g : N} : ∀ es : List (Expr L P Q N), ExprsOk r v f es → ExprsUse s g es → f s g
  | [], _, hm => hm.elim
  | e :: es, h, hm => hm.elim (exprOk_uses e h.1) (exprsOk_uses es h.2)
end

mutual
theorem uses_mentions {s g : N} : ∀ e : Expr L P Q N, e.Uses s g → e.Mentions s
  | .input _, hm => hm.elim
  | .imported _, hm => hm.elim
  | .name n, hm => hm.elim
  | .qualified s' g', hm => (show s' = s ∧ g' = g from hm).1.symm
  | .linear e _, hm => uses_mentions e hm
  | .join l r _, hm => hm.elim (fun h => .inl (uses_mentions l h)) fun h => .inr (uses_mentions r h)
  | .reduce e _, hm => uses_mentions e hm
  | .inspect e _, hm => uses_mentions e hm
  | .concat es, hm => usesAny_mentions es hm
  | .arrange e, hm => uses_mentions e hm
theorem usesAny_mentions {s g : N} : ∀ es : List (Expr L P Q N), ExprsUse s g es → ExprsMention s es
  | [], hm => hm.elim
  | e :: es, hm => hm.elim (fun h => .inl (uses_mentions e h)) fun h => .inr (usesAny_mentions es h)
end

theorem isValue_local {b : List (Stmt L P Q N)} {m : N} (h : IsValue b m) : m ∈ localNames b := by
  rcases h with ⟨e, h⟩ | ⟨e, h⟩ <;> exact mem_localNames h rfl

theorem inside_mono {b : List (Stmt L P Q N)} {v v' : N → Prop} {m : N} (h : Inside b v m) (hv : m ∉ localNames b → v m → v' m) : Inside b v' m :=
  h.imp_right fun h => ⟨h.1, hv h.1 h.2⟩

mutual
theorem stmtOk_mono {r : Bool} {v v' : N → Prop} {f : N → N → Prop} : ∀ s : Stmt L P Q N, StmtOk r v f s → (∀ m, StmtMentions m s → v m → v' m) → StmtOk r v' f s
  | .letS _ e, h, hv => exprOk_mono e h hv fun _ _ _ h => h
  | .varS _ e, h, hv => exprOk_mono e h hv fun _ _ _ h => h
  | .exportS _ e, h, hv => ⟨h.1, exprOk_mono e h.2 hv fun _ _ _ h => h⟩
  | .scopeS _ b, h, hv => ⟨h.1, stmtsOk_mono b h.2 fun m hm hi => inside_mono hi fun hn => hv m ⟨hn, hm⟩⟩
theorem stmtsOk_mono {r : Bool} {v v' : N → Prop} {f : N → N → Prop} : ∀ ss : List (Stmt L P Q N), StmtsOk r v f ss → (∀ m, StmtsMention m ss → v m → v' m) → StmtsOk r v' f ss
  | [], h, _ => h
  | s :: ss, h, hv => ⟨stmtOk_mono s h.1 fun m hm => hv m (.inl hm), stmtsOk_mono ss h.2 fun m hm => hv m (.inr hm)⟩
end

theorem bodyOk_mono {r : Bool} {v v' : N → Prop} {b : List (Stmt L P Q N)} (h : BodyOk r v b) (hv : ∀ m, m ∉ localNames b → StmtsMention m b → v m → v' m) : BodyOk r v' b :=
  ⟨h.1, stmtsOk_mono b h.2 fun m hm hi => inside_mono hi fun hn => hv m hn hm⟩

theorem outside_of {b : List (Stmt L P Q N)} {v : N → Prop} {m : N} (hn : m ∉ localNames b) (h : Inside b v m ∨ ∃ g, FieldOf b m g) : v m := by
  rcases h with (h | h) | ⟨g, b', h, -⟩
  · exact absurd (isValue_local h) hn
  · exact h.2
  · exact absurd (mem_localNames h rfl) hn

mutual
theorem stmtOk_mentions {r : Bool} {v : N → Prop} {f : N → N → Prop} {m : N} : ∀ s : Stmt L P Q N, StmtOk r v f s → StmtMentions m s → v m ∨ ∃ g, f m g
  | .letS _ e, h, hm => exprOk_mentions e h hm
  | .varS _ e, h, hm => exprOk_mentions e h hm
  | .exportS _ e, h, hm => exprOk_mentions e h.2 hm
  | .scopeS _ b, h, hm => .inl (outside_of hm.1 (stmtsOk_mentions b h.2 hm.2))
theorem stmtsOk_mentions {r : Bool} {v : N → Prop} {f : N → N → Prop} {m : N} : ∀ ss : List (Stmt L P Q N), StmtsOk r v f ss → StmtsMention m ss → v m ∨ ∃ g, f m g
  | [], _, hm => hm.elim
  | s :: ss, h, hm => hm.elim (stmtOk_mentions s h.1) (stmtsOk_mentions ss h.2)
end

theorem bodyOk_free {r : Bool} {v : N → Prop} {b : List (Stmt L P Q N)} {m : N} (h : BodyOk r v b) (hn : m ∉ localNames b) (hm : StmtsMention m b) : v m := outside_of hn (stmtsOk_mentions b h.2 hm)

theorem stmtOk_uses {r : Bool} {v : N → Prop} {f : N → N → Prop} {t : Stmt L P Q N} {e : Expr L P Q N} (h : StmtOk r v f t) (he : t.expr? = some e) {s g : N} (hu : e.Uses s g) : f s g := by
  cases t with
  | letS n e' => cases he; exact exprOk_uses e h hu
  | varS n e' => cases he; exact exprOk_uses e h hu
  | exportS n e' => cases he; exact exprOk_uses e h.2 hu
  | scopeS n b => cases he

/-! ### Expressions -/

section
variable [DecidableEq N] {inputName : Nat → N}

/-- The names that have a reference. -/
def LowerState.Val (st : LowerState L P Q N) (m : N) : Prop := (st.env.lookup m).isSome = true

/-- The fields that have a reference. -/
def LowerState.Fld (st : LowerState L P Q N) (s f : N) : Prop := ∃ c, st.children.lookup s = some c ∧ f ∈ c.2

theorem qualified_isSome {st : LowerState L P Q N} {s f : N} : (st.qualified s f).isSome = true ↔ st.Fld s f := by
  unfold LowerState.qualified LowerState.Fld
  cases h : st.children.lookup s with
  | none => simp
  | some c => simp [List.isSome_idxOf?]

theorem external_isSome {st : LowerState L P Q N} {n : N} {src : Source N} : (st.external n src).isSome = true ↔ st.isRoot = true := by
  unfold LowerState.external
  by_cases h : st.isRoot = true
  · rw [if_pos h]
    cases st.imports.findIdx? fun i => decide (i.src = src) <;> simp [h]
  · rw [if_neg h]
    simp [h]

theorem isSome_map' {A B : Type*} {o : Option A} {f : A → B} : (o.map f).isSome = true ↔ o.isSome = true := by simp

theorem exprOk_congr {st st' : LowerState L P Q N} (h : Ext st st') (e : Expr L P Q N) : ExprOk st'.isRoot st'.Val st'.Fld e ↔ ExprOk st.isRoot st.Val st.Fld e := by
  have : st'.Val = st.Val := by funext m; unfold LowerState.Val; rw [h.env]
  have h2 : st'.Fld = st.Fld := by funext s f; unfold LowerState.Fld; rw [h.children]
  rw [this, h2, h.isRoot]

theorem exprsOk_congr {st st' : LowerState L P Q N} (h : Ext st st') (es : List (Expr L P Q N)) : ExprsOk st'.isRoot st'.Val st'.Fld es ↔ ExprsOk st.isRoot st.Val st.Fld es := by
  simp only [exprsOk_iff, exprOk_congr h]

mutual
theorem lowerExpr_isSome : ∀ (e : Expr L P Q N) (st : LowerState L P Q N), (lowerExpr inputName e st).isSome = true ↔ ExprOk st.isRoot st.Val st.Fld e
  | .input n, st => by simp only [lowerExpr, ExprOk, external_isSome]
  | .imported n, st => by simp only [lowerExpr, ExprOk, external_isSome]
  | .name n, st => by simp only [lowerExpr, ExprOk, isSome_map', LowerState.Val]
  | .qualified s f, st => by simp only [lowerExpr, ExprOk, isSome_map', qualified_isSome]
  | .linear e _, st => by simp only [lowerExpr, ExprOk, isSome_map', lowerExpr_isSome e st]
  | .arrange e, st => by simp only [lowerExpr, ExprOk, isSome_map', lowerExpr_isSome e st]
  | .reduce e _, st => by simp only [lowerExpr, ExprOk, isSome_map', lowerExpr_isSome e st]
  | .inspect e _, st => by simp only [lowerExpr, ExprOk, isSome_map', lowerExpr_isSome e st]
  | .concat es, st => by simp only [lowerExpr, ExprOk, isSome_map', lowerExprs_isSome es st]
  | .join l r _, st => by
    simp only [lowerExpr, ExprOk]
    rw [← lowerExpr_isSome l st]
    cases h : lowerExpr inputName l st with
    | none => simp
    | some p =>
      simp only [Option.bind_some, isSome_map', Option.isSome_some, true_and]
      rw [lowerExpr_isSome r, exprOk_congr ((lowerExpr_ext l (r := p.2) (st' := p.1) h).trans (Ext.push p.1 _))]
theorem lowerExprs_isSome : ∀ (es : List (Expr L P Q N)) (st : LowerState L P Q N), (lowerExprs inputName es st).isSome = true ↔ ExprsOk st.isRoot st.Val st.Fld es
  | [], st => by simp [lowerExprs, ExprsOk]
  | e :: es, st => by
    simp only [lowerExprs, ExprsOk]
    rw [← lowerExpr_isSome e st]
    cases h : lowerExpr inputName e st with
    | none => simp
    | some p =>
      simp only [Option.bind_some, isSome_map', Option.isSome_some, true_and]
      rw [lowerExprs_isSome es, exprsOk_congr (lowerExpr_ext e (r := p.2) (st' := p.1) h)]
end

end

end DD.Ir
