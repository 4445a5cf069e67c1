import Verif.Proofs.LowerTree

/-!
# The order of statements
-/

namespace DD.Ir
variable {L P Q N Col Arr : Type*} {sem : Sem L P Q N Col Arr}

theorem Reordered.names {body body' : List (Stmt L P Q N)} (h : Reordered body body') : (localNames body).Perm (localNames body') := by
  induction h with
  | perm h => exact h.filterMap _
  | inside before after n h ih => simp [localNames, List.filterMap_append, Stmt.name?]
  | trans _ _ ih1 ih2 => exact ih1.trans ih2

theorem Reordered.stmtsDistinct {body body' : List (Stmt L P Q N)} (h : Reordered body body') : StmtsDistinct body ↔ StmtsDistinct body' := by
  induction h with
  | perm h => simp only [stmtsDistinct_iff, h.mem_iff]
  | @inside before after n body body' h ih =>
    have : StmtDistinct (.scopeS n body) ↔ StmtDistinct (.scopeS n body') := by
      simp only [StmtDistinct, ih, h.names.nodup_iff]
    simp only [stmtsDistinct_iff, List.mem_append, List.mem_cons, or_imp, forall_and, forall_eq, this]
  | trans _ _ ih1 ih2 => exact ih1.trans ih2

theorem Reordered.distinct {body body' : List (Stmt L P Q N)} (h : Reordered body body') : Distinct body ↔ Distinct body' :=
  and_congr h.names.nodup_iff h.stmtsDistinct

theorem Reordered.stmtsSem {body body' : List (Stmt L P Q N)} (h : Reordered body body') : ∀ (depth : Nat) (ext : Source N → Option Col) (env : N → Option (Rendered Col Arr))
    (fields : N → N → Option (Rendered Col Arr)), StmtsSem sem depth ext env fields body ↔ StmtsSem sem depth ext env fields body' := by
  induction h with
  | perm h => intro depth ext env fields; simp only [stmtsSem_iff, h.mem_iff]
  | @inside before after n body body' h ih =>
    intro depth ext env fields
    have : StmtSem sem depth ext env fields (.scopeS n body) ↔ StmtSem sem depth ext env fields (.scopeS n body') := by
      simp only [StmtSem, ih, h.names.mem_iff]
    simp only [stmtsSem_iff, List.mem_append, List.mem_cons, or_imp, forall_and, forall_eq, this]
  | trans _ _ ih1 ih2 => intro depth ext env fields; exact (ih1 depth ext env fields).trans (ih2 depth ext env fields)

theorem Reordered.program {body body' : List (Stmt L P Q N)} (h : Reordered body body') (he : exportsIn body = exportsIn body') (inputs : Nat → Col) (traces : N → Col) (outs : List (N × Col)) :
    ProgramSem sem body inputs traces outs ↔ ProgramSem sem body' inputs traces outs := by
  simp only [ProgramSem, BodySem, h.stmtsSem, h.names.mem_iff, he]

end DD.Ir
