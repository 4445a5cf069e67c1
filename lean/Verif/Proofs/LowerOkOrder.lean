import Verif.Proofs.LowerDecide

/-!
# Whether a program makes sense does not depend on the order of its statements
-/

namespace DD.Ir
variable {L P Q N : Type*}

theorem Reordered.mention {body body' : List (Stmt L P Q N)} (h : Reordered body body') : ∀ m, StmtsMention m body ↔ StmtsMention m body' := by
  induction h with
  | perm h => intro m; simp only [stmtsMention_iff, h.mem_iff]
  | @inside before after n body body' h ih =>
    intro m
    have : StmtMentions m (.scopeS n body) ↔ StmtMentions m (.scopeS n body') := by simp only [StmtMentions, ih, h.names.mem_iff]
    simp only [stmtsMention_iff, List.mem_append, List.mem_cons, or_and_right, exists_or, exists_eq_left, this]
  | trans _ _ ih1 ih2 => intro m; exact (ih1 m).trans (ih2 m)

theorem Reordered.isValue {body body' : List (Stmt L P Q N)} (h : Reordered body body') (m : N) : IsValue body m ↔ IsValue body' m := by
  induction h with
  | perm h => simp only [IsValue, h.mem_iff]
  | inside before after n h ih => simp only [IsValue, List.mem_append, List.mem_cons, reduceCtorEq, false_or]
  | trans _ _ ih1 ih2 => exact ih1.trans ih2

theorem Reordered.insideIff {body body' : List (Stmt L P Q N)} (h : Reordered body body') {outer outer' : N → Prop} (ho : ∀ m, outer m ↔ outer' m) (m : N) :
    Inside body outer m ↔ Inside body' outer' m := by
  simp only [Inside, h.isValue, h.names.mem_iff, ho]

theorem Reordered.fieldOf {body body' : List (Stmt L P Q N)} (h : Reordered body body') (s f : N) : FieldOf body s f ↔ FieldOf body' s f := by
  induction h with
  | perm h => simp only [FieldOf, h.mem_iff]
  | @inside before after n body body' h ih =>
    have : (∃ b, (s = n ∧ b = body) ∧ Inside b (fun m => StmtsMention m b) f) ↔ ∃ b, (s = n ∧ b = body') ∧ Inside b (fun m => StmtsMention m b) f := by
      simp only [and_assoc, exists_and_left, exists_eq_left, h.insideIff h.mention]
    simp only [FieldOf, List.mem_append, List.mem_cons, Stmt.scopeS.injEq, or_and_right, exists_or, this]
  | trans _ _ ih1 ih2 => exact ih1.trans ih2

theorem acyclic_of {body body' : List (Stmt L P Q N)} (h : ∀ s' ∈ body', ∃ s ∈ body, s.item? = s'.item? ∧ ∀ m, StmtMentions m s' → StmtMentions m s) (ha : Acyclic body) : Acyclic body' := by
  obtain ⟨rank, hr⟩ := ha
  refine ⟨rank, fun s' hs' n hn t' ht' m hm hmen => ?_⟩
  obtain ⟨s, h1, h2, h3⟩ := h s' hs'
  obtain ⟨t, h4, h5, -⟩ := h t' ht'
  exact hr s h1 n (h2.trans hn) t h4 m (h5.trans hm) (h3 m hmen)

theorem Reordered.acyclic {body body' : List (Stmt L P Q N)} (h : Reordered body body') : Acyclic body ↔ Acyclic body' := by
  induction h with
  | perm h => simp only [Acyclic, h.mem_iff]
  | @inside before after n body body' h ih =>
    have key : ∀ {b b' : List (Stmt L P Q N)}, (∀ m, StmtMentions m (.scopeS n b') → StmtMentions m (.scopeS n b)) →
        Acyclic (before ++ .scopeS n b :: after) → Acyclic (before ++ .scopeS n b' :: after) := by
      intro b b' hb
      refine acyclic_of fun s' hs' => ?_
      simp only [List.mem_append, List.mem_cons] at hs'
      rcases hs' with hs' | rfl | hs'
      · exact ⟨s', by simp [hs'], rfl, fun m h => h⟩
      · exact ⟨.scopeS n b, by simp, rfl, hb⟩
      · exact ⟨s', by simp [hs'], rfl, fun m h => h⟩
    have hb : ∀ m, StmtMentions m (.scopeS n body) ↔ StmtMentions m (.scopeS n body') := by
      intro m
      simp only [StmtMentions, h.mention, h.names.mem_iff]
    exact ⟨key fun m => (hb m).2, key fun m => (hb m).1⟩
  | trans _ _ ih1 ih2 => exact ih1.trans ih2

theorem Reordered.stmtsOk {body body' : List (Stmt L P Q N)} (h : Reordered body body') : ∀ (root : Bool) (val : N → Prop) (field : N → N → Prop),
    StmtsOk root val field body ↔ StmtsOk root val field body' := by
  induction h with
  | perm h => intro root val field; simp only [stmtsOk_iff, h.mem_iff]
  | @inside before after n body body' h ih =>
    intro root val field
    have : StmtOk root val field (.scopeS n body) ↔ StmtOk root val field (.scopeS n body') := by
      have h1 : Inside body val = Inside body' val := funext fun m => propext (h.insideIff (fun _ => Iff.rfl) m)
      have h2 : FieldOf body = FieldOf body' := funext fun s => funext fun f => propext (h.fieldOf s f)
      simp only [StmtOk, h.acyclic, ih, h1, h2]
    simp only [stmtsOk_iff, List.mem_append, List.mem_cons, or_imp, forall_and, forall_eq, this]
  | trans _ _ ih1 ih2 => intro root val field; exact (ih1 root val field).trans (ih2 root val field)

theorem Reordered.programOk {body body' : List (Stmt L P Q N)} (h : Reordered body body') : ProgramOk body ↔ ProgramOk body' := by
  have h1 : Inside body (fun _ => False) = Inside body' (fun _ => False) := funext fun m => propext (h.insideIff (fun _ => Iff.rfl) m)
  have h2 : FieldOf body = FieldOf body' := funext fun s => funext fun f => propext (h.fieldOf s f)
  simp only [ProgramOk, BodyOk, h.acyclic, h.stmtsOk, h1, h2]

theorem Reordered.exports {body body' : List (Stmt L P Q N)} (h : Reordered body body') : (exportsIn body).Perm (exportsIn body') := by
  induction h with
  | perm h => exact h.filterMap _
  | inside before after n h ih =>
    refine List.Perm.of_eq ?_
    simp only [exportsIn, List.filterMap_append]
    rfl
  | trans _ _ ih1 ih2 => exact ih1.trans ih2

theorem Reordered.exportsAtRoot {body body' : List (Stmt L P Q N)} (h : Reordered body body') : ExportsAtRoot body ↔ ExportsAtRoot body' := by
  induction h with
  | perm h => simp only [exportsAtRoot_iff, h.mem_iff]
  | @inside before after n body body' h ih =>
    have : StmtExportsAtRoot (.scopeS n body) ↔ StmtExportsAtRoot (.scopeS n body') := by
      have : exportsIn body = [] ↔ exportsIn body' = [] := by simp only [← List.length_eq_zero_iff, h.exports.length_eq]
      simp only [StmtExportsAtRoot, ih, this]
    simp only [exportsAtRoot_iff, List.mem_append, List.mem_cons, or_imp, forall_and, forall_eq, this]
  | trans _ _ ih1 ih2 => exact ih1.trans ih2

end DD.Ir
