import Verif.Proofs.LowerWF
import Verif.Proofs.LowerOkOrder
import Verif.Props.ScopeIr

/-!
# Lowering a program of `interactive` does not change what it computes (C69)

What a program computes is given by the equations of its statements (`ProgramSem`), in which the order of statements plays no role, and what its scope tree computes by the equations of its
dataflow (`ScopeSem`). `sem` is what a backend's operators compute, and can be anything.
-/

namespace DD
open Ir

/-- **C69.** Whenever a program without duplicate names is lowered, without a panic, its references are in order, its exports are those of the program, and, if it is given the inputs and named
traces that it asks for, it computes what the program's statements say, for every backend and in scopes nested to any depth. -/
theorem C69_lower {L P Q N Col Arr : Type*} [LinearOrder N] (sem : Sem L P Q N Col Arr) (inputName : Nat → N) (root : N) (body : List (Stmt L P Q N)) (hd : Distinct body) (s : Scope L P Q N)
    (h : lowerTree inputName root body = some s) (inputs : Nat → Col) (traces : N → Col) :
    ScopeWF s ∧ s.exports.map Export.name = (exportsIn body).map Prod.fst ∧ ∃ I, s.imports.mapM (fun i => external inputs traces i.src) = some I ∧
      ∀ outs, ProgramSem sem body inputs traces outs ↔ outs.map Prod.fst = (exportsIn body).map Prod.fst ∧ ScopeSem sem s 0 I (outs.map Prod.snd) :=
  ⟨lowerTree_wf hd h, lowerTree_ok hd h inputs traces⟩

/-- **C69 with C66.** Lowered and then optimized, it still does, for every backend that can fuse the operators that are fused. -/
theorem C69_optimized {L P Q N Col Arr : Type*} [DecidableEq L] [DecidableEq P] [DecidableEq Q] [LinearOrder N] (sem : Sem L P Q N Col Arr) (R : L → L → Prop) (hF : sem.Fuses R)
    (inputName : Nat → N) (root : N) (body : List (Stmt L P Q N)) (hd : Distinct body) (s : Scope L P Q N) (h : lowerTree inputName root body = some s) (hc : ScopeChains R s)
    (inputs : Nat → Col) (traces : N → Col) :
    ∃ s' I, optScope s = some s' ∧ s'.exports.map Export.name = (exportsIn body).map Prod.fst ∧ s'.imports.mapM (fun i => external inputs traces i.src) = some I ∧
      ∀ outs, ProgramSem sem body inputs traces outs ↔ outs.map Prod.fst = (exportsIn body).map Prod.fst ∧ ScopeSem sem s' 0 I (outs.map Prod.snd) := by
  obtain ⟨hw, he, I, hi, ho⟩ := C69_lower sem inputName root body hd s h inputs traces
  obtain ⟨s', h1, -, h2, -, -, h3, h4⟩ := C66_optimize sem R hF s hw hc
  exact ⟨s', I, h1, h3.trans he, by rw [h2]; exact hi, fun outs => by rw [ho, h4]⟩

/-- **C69, order.** The order in which statements are written, in the program and in the scopes nested in it, does not matter: if two programs differ in it only, then what they are lowered to
computes the same. -/
theorem C69_order {L P Q N Col Arr : Type*} [LinearOrder N] (sem : Sem L P Q N Col Arr) (inputName : Nat → N) (root : N) (body body' : List (Stmt L P Q N)) (hd : Distinct body)
    (hr : Reordered body body') (he : exportsIn body = exportsIn body') (s s' : Scope L P Q N) (h : lowerTree inputName root body = some s) (h' : lowerTree inputName root body' = some s')
    (inputs : Nat → Col) (traces : N → Col) :
    ∃ I I', s.imports.mapM (fun i => external inputs traces i.src) = some I ∧ s'.imports.mapM (fun i => external inputs traces i.src) = some I' ∧
      ∀ outs, outs.length = (exportsIn body).length → (ScopeSem sem s 0 I outs ↔ ScopeSem sem s' 0 I' outs) := by
  obtain ⟨-, -, I, hi, ho⟩ := C69_lower sem inputName root body hd s h inputs traces
  obtain ⟨-, -, I', hi', ho'⟩ := C69_lower sem inputName root body' (hr.distinct.1 hd) s' h' inputs traces
  refine ⟨I, I', hi, hi', fun outs hl => ?_⟩
  have hn : (List.zip ((exportsIn body).map Prod.fst) outs).map Prod.fst = (exportsIn body).map Prod.fst := by rw [List.map_fst_zip]; simp [hl]
  have hs : (List.zip ((exportsIn body).map Prod.fst) outs).map Prod.snd = outs := by rw [List.map_snd_zip]; simp [hl]
  have := ho (List.zip ((exportsIn body).map Prod.fst) outs)
  rw [hr.program he, ho', ← he, hn, hs] at this
  simpa using this.symm

/-- **C69, accepted programs.** A program without duplicate names is lowered, without a panic, whenever it makes sense: every name used has a value, every field used is a name inside its scope,
inputs, named traces and exports are at the root, and `let`s and scopes do not depend on each other in a cycle. `var`s may be used before they are defined, and in cycles. -/
theorem C69_accepts {L P Q N : Type*} [LinearOrder N] (inputName : Nat → N) (root : N) (body : List (Stmt L P Q N)) (hd : Distinct body) (hok : ProgramOk body) :
    ∃ s, lowerTree inputName root body = some s := Option.isSome_iff_exists.1 (lowerTree_accept hd hok)

/-- **C69, rejected programs.** And no other program is, apart from those with exports in nested scopes. -/
theorem C69_rejects {L P Q N : Type*} [LinearOrder N] (inputName : Nat → N) (root : N) (body : List (Stmt L P Q N)) (hd : Distinct body) (he : ExportsAtRoot body) (hok : ¬ ProgramOk body) :
    lowerTree inputName root body = none := by
  cases h : lowerTree inputName root body with
  | none => rfl
  | some s => exact absurd (lowerTree_reject hd he (by rw [h]; rfl)) hok

/-- **C69, order of accepted programs.** Whether a program is lowered does not depend on the order of its statements either. -/
theorem C69_accepts_order {L P Q N : Type*} [LinearOrder N] (inputName : Nat → N) (root : N) (body body' : List (Stmt L P Q N)) (hd : Distinct body) (he : ExportsAtRoot body)
    (hr : Reordered body body') : (∃ s, lowerTree inputName root body = some s) ↔ ∃ s', lowerTree inputName root body' = some s' := by
  rw [← Option.isSome_iff_exists, ← Option.isSome_iff_exists]
  exact ⟨fun h => lowerTree_accept (hr.distinct.1 hd) (hr.programOk.1 (lowerTree_reject hd he h)),
    fun h => lowerTree_accept hd (hr.programOk.2 (lowerTree_reject (hr.distinct.1 hd) (hr.exportsAtRoot.1 he) h))⟩

/-! ### A program -/

namespace Ir

/-- The names of examples. -/
abbrev ExStmt := Stmt Nat Nat Nat Nat

/-- `export 10 = 2::4 | arrange; 2: { let 3 = 4 | join(0, 7); var 4 = 1 + 3 | reduce 9; } let 1 = 5 | linear 6; let 5 = input 1; let 0 = input 0 | linear 6;`: reachability, out of order. -/
def exBody : List ExStmt :=
  [.exportS 10 (.arrange (.qualified 2 4)),
   .scopeS 2 [.letS 3 (.join (.name 4) (.name 0) 7), .varS 4 (.reduce (.concat [.name 1, .name 3]) 9)],
   .letS 1 (.linear (.name 5) 6), .letS 5 (.input 1), .letS 0 (.linear (.input 0) 6)]

/-- The loop. -/
def exLoop : Scope Nat Nat Nat Nat := ⟨2, [⟨0, .parent (.loc 1)⟩, ⟨1, .parent (.loc 0)⟩], [4],
  [.op (.arrange (.var 0)), .op (.arrange (.imp 0)), .op (.join (.loc 0) (.loc 1) 7), .op (.concat [.imp 1, .loc 2]), .op (.arrange (.loc 3)), .op (.reduce (.loc 4) 9)],
  [⟨0, .loc 5⟩], [⟨4, .var 0⟩]⟩

theorem exBody_distinct : Distinct exBody := by
  refine ⟨show [2, 1, 5, 0].Nodup by decide, ?_⟩
  simp only [exBody, StmtsDistinct, StmtDistinct, and_true, true_and]
  exact show [3, 4].Nodup by decide

/-- The scope tree of the program. -/
def exTree : Scope Nat Nat Nat Nat := ⟨50, [⟨101, .input 1⟩, ⟨100, .input 0⟩], [],
  [.op (.linear (.imp 0) [6]), .op (.linear (.imp 1) [6]), .sub exLoop, .op (.arrange (.childExport 2 0))], [], [⟨10, .loc 3⟩]⟩

/-- The names of inputs. -/
def exInput (n : Nat) : Nat := 100 + n

theorem exBody_lowered : lowerTree exInput 50 exBody = some exTree := rfl

/-- The program with its statements in the order of their uses, and in the loop as well. -/
def exBody' : List ExStmt :=
  [.letS 0 (.linear (.input 0) 6), .letS 5 (.input 1), .letS 1 (.linear (.name 5) 6),
   .scopeS 2 [.varS 4 (.reduce (.concat [.name 1, .name 3]) 9), .letS 3 (.join (.name 4) (.name 0) 7)],
   .exportS 10 (.arrange (.qualified 2 4))]

theorem exBody_reordered : Reordered exBody exBody' := by
  refine .trans (.inside [_] _ 2 (.perm (.swap _ _ _))) (.perm ?_)
  exact show exBody'.reverse.Perm exBody' from List.reverse_perm _

end Ir

/-- What the program's scope tree computes is what its equations say. -/
example {Col Arr : Type*} (sem : Sem Nat Nat Nat Nat Col Arr) (inputs traces : Nat → Col) (out : Col) :
    ProgramSem sem exBody inputs traces [(10, out)] ↔ ScopeSem sem exTree 0 [inputs 1, inputs 0] [out] := by
  obtain ⟨-, -, I, h1, h2⟩ := C69_lower sem exInput 50 exBody exBody_distinct exTree exBody_lowered inputs traces
  cases h1
  rw [h2]
  simp [exBody, exportsIn, Stmt.export?]

/-- It is lowered in the other order too, and computes the same. -/
example {Col Arr : Type*} (sem : Sem Nat Nat Nat Nat Col Arr) (inputs traces : Nat → Col) (out : Col) :
    ∃ s' I', lowerTree exInput 50 exBody' = some s' ∧ s'.imports.mapM (fun i => external inputs traces i.src) = some I' ∧ (ScopeSem sem exTree 0 [inputs 1, inputs 0] [out] ↔ ScopeSem sem s' 0 I' [out]) := by
  obtain ⟨s', hs'⟩ : ∃ s', lowerTree exInput 50 exBody' = some s' := ⟨_, rfl⟩
  obtain ⟨I, I', h1, h2, h3⟩ := C69_order sem exInput 50 exBody exBody' exBody_distinct exBody_reordered rfl exTree s' exBody_lowered hs' inputs traces
  cases h1
  exact ⟨s', I', hs', h2, h3 [out] rfl⟩

/-- The program makes sense. -/
theorem Ir.exBody_ok : ProgramOk exBody := by
  refine ⟨⟨fun n => if n = 2 then 2 else if n = 1 then 1 else 0, ?_⟩, ?_⟩
  · simp only [exBody, List.forall_mem_cons, Stmt.item?, StmtMentions, StmtsMention, Expr.Mentions, ExprsMention, localNames, Stmt.name?, List.filterMap_cons]
    simp
  · have h3 : Acyclic ([.letS 3 (.join (.name 4) (.name 0) 7), .varS 4 (.reduce (.concat [.name 1, .name 3]) 9)] : List ExStmt) := by
      refine ⟨fun _ => 0, ?_⟩
      simp [Stmt.item?, StmtMentions, Expr.Mentions]
    simp only [exBody, StmtsOk, StmtOk, ExprOk, ExprsOk]
    refine ⟨⟨trivial, ?_⟩, ⟨h3, ⟨?_, ?_⟩, ⟨?_, ?_, trivial⟩, trivial⟩, ?_, trivial, trivial, trivial⟩
    · exact ⟨_, .tail _ (.head _), .inl (.inr ⟨_, .tail _ (.head _)⟩)⟩
    · exact .inl (.inr ⟨_, .tail _ (.head _)⟩)
    · exact .inr ⟨show 0 ∉ [3, 4] by decide, .inl (.inl ⟨_, .tail _ (.tail _ (.tail _ (.tail _ (.head _))))⟩)⟩
    · exact .inr ⟨show 1 ∉ [3, 4] by decide, .inl (.inl ⟨_, .tail _ (.tail _ (.head _))⟩)⟩
    · exact .inl (.inl ⟨_, .head _⟩)
    · exact .inl (.inl ⟨_, .tail _ (.tail _ (.tail _ (.head _)))⟩)

/-- So it is lowered. -/
example : ∃ s, lowerTree exInput 50 exBody = some s := C69_accepts exInput 50 exBody exBody_distinct exBody_ok

/-- Two `let`s that use each other do not make sense, and are rejected. A `let` and a `var` that do are accepted. -/
example : lowerTree exInput 50 ([.letS 0 (.name 1), .letS 1 (.name 0)] : List ExStmt) = none ∧ (∃ s, lowerTree exInput 50 ([.letS 0 (.name 1), .varS 1 (.name 0)] : List ExStmt) = some s) := by
  refine ⟨C69_rejects exInput 50 _ ⟨show [0, 1].Nodup by decide, trivial, trivial, trivial⟩ ⟨trivial, trivial, trivial⟩ ?_, _, rfl⟩
  rintro ⟨⟨rank, h⟩, -⟩
  have h1 := h _ (.head _) 0 rfl _ (.tail _ (.head _)) 1 rfl rfl
  have h2 := h _ (.tail _ (.head _)) 1 rfl _ (.head _) 0 rfl rfl
  omega

/-- An input in a nested scope is rejected. -/
example : lowerTree exInput 50 ([.scopeS 2 [.letS 1 (.input 0)]] : List ExStmt) = none := rfl

/-- An export in a nested scope is accepted, and ignored. -/
example : lowerTree exInput 50 ([.scopeS 2 [.exportS 1 (.input 0)]] : List ExStmt) = some ⟨50, [], [], [.sub ⟨2, [], [], [], [], []⟩], [], []⟩ := rfl

/-! ### Where it fails

`lower.rs` says that duplicate names are rejected. Two `let`s, two scopes, or a `let` and a scope of the same name are (by a panic), but not a `var` and something else, nor two `var`s. -/

namespace Ir

/-- `var 0 = input 0; let 0 = 0 | linear 6; export 1 = 0;` -/
def twiceBody : List ExStmt := [.varS 0 (.input 0), .letS 0 (.linear (.name 0) 6), .exportS 1 (.name 0)]

/-- `var 0 = input 0; var 0 = input 1; export 1 = 0;` -/
def varsBody : List ExStmt := [.varS 0 (.input 0), .varS 0 (.input 1), .exportS 1 (.name 0)]

/-- `let 0 = input 0; let 0 = input 1;` -/
def letsBody : List ExStmt := [.letS 0 (.input 0), .letS 0 (.input 1)]

/-- `let 0 = input 0; 0: { let 1 = 2; }` -/
def bothBody : List ExStmt := [.letS 0 (.input 0), .scopeS 0 [.letS 1 (.name 1)]]

end Ir

/-- Some duplicates are rejected. -/
example : lowerTree exInput 50 letsBody = none ∧ lowerTree exInput 50 bothBody = none := ⟨rfl, rfl⟩

/-- **Duplicate names are not rejected**: a `var` and a `let` of the same name are lowered, to a dataflow in which the `let` reads the `var` and the export reads the `let`, while as equations they
have a solution only when the operator changes nothing. -/
theorem C69_duplicate_defect {Col Arr : Type*} (sem : Sem Nat Nat Nat Nat Col Arr) (inputs traces : Nat → Col) :
    ¬ Distinct twiceBody ∧ ∃ s, lowerTree exInput 50 twiceBody = some s ∧ s.imports.mapM (fun i => external inputs traces i.src) = some [inputs 0] ∧
      (∀ outs, ScopeSem sem s 0 [inputs 0] outs ↔ outs = [sem.linear 0 [6] (sem.feedback 0 (inputs 0))]) ∧
      ∀ outs, ProgramSem sem twiceBody inputs traces outs → sem.linear 0 [6] (sem.feedback 0 (inputs 0)) = sem.feedback 0 (inputs 0) := by
  refine ⟨fun h => ?_, ⟨50, [⟨100, .input 0⟩], [0], [.op (.linear (.var 0) [6])], [⟨0, .imp 0⟩], [⟨1, .loc 0⟩]⟩, rfl, rfl, ?_, ?_⟩
  · exact absurd (show [0, 0].Nodup from h.1) (by decide)
  · intro outs
    simp only [ScopeSem, ItemsSem, ItemSem]
    constructor
    · rintro ⟨vars, vals, h1, ⟨v, ⟨r, h2, rfl⟩, h3⟩, ⟨-, h4, -⟩, h5⟩
      obtain ⟨c, h6, h7⟩ := h4 ⟨0, .imp 0⟩ (by simp)
      cases h6
      obtain ⟨x, rfl⟩ := List.length_eq_one_iff.1 h1
      cases h7
      cases h2
      cases h3
      cases h5
      rfl
    · rintro rfl
      refine ⟨[sem.feedback 0 (inputs 0)], [.op (.coll (sem.linear 0 [6] (sem.feedback 0 (inputs 0))))], rfl, ⟨_, ⟨_, rfl, rfl⟩, rfl⟩, ⟨by simp, fun b hb => ?_, fun v hv hn => ?_⟩, rfl⟩
      · cases List.mem_singleton.1 hb
        exact ⟨_, rfl, rfl⟩
      · have : v = 0 := by simpa using hv
        subst this
        simp at hn
  · rintro outs ⟨env, fields, ⟨-, h⟩, -⟩
    simp only [twiceBody, StmtsSem, StmtSem] at h
    obtain ⟨⟨x, h1, h2⟩, ⟨y, h3, h4⟩, -⟩ := h
    simp only [exprSem, external, Option.map_some, Option.some.injEq] at h1
    subst h1
    simp only [exprSem, h2, Option.map_some, Option.some.injEq] at h3
    subst h3
    rw [h2] at h4
    simpa [Rendered.collection] using h4.symm

/-- **Duplicate names are not rejected**: two `var`s of the same name are lowered to two binds of the second, and rendering them panics: there is no dataflow. -/
theorem C69_duplicate_defect_vars {Col Arr : Type*} (sem : Sem Nat Nat Nat Nat Col Arr) :
    ∃ s, lowerTree exInput 50 varsBody = some s ∧ ∀ depth imports outs, ¬ ScopeSem sem s depth imports outs := by
  refine ⟨⟨50, [⟨100, .input 0⟩, ⟨101, .input 1⟩], [0, 0], [], [⟨1, .imp 0⟩, ⟨1, .imp 1⟩], [⟨1, .var 1⟩]⟩, rfl, ?_⟩
  simp only [ScopeSem]
  rintro depth imports outs ⟨vars, vals, -, -, ⟨h, -, -⟩, -⟩
  exact absurd (show [1, 1].Nodup from h) (by decide)

/-- There are backends for which the operator does change something. -/
example : ∃ sem : Sem Nat Nat Nat Nat Nat Nat, sem.linear 0 [6] (sem.feedback 0 3) ≠ sem.feedback 0 3 :=
  ⟨⟨fun _ _ c => c + 1, (· + ·), id, id, fun a b _ => a + b, fun a _ => a, fun _ c => c, id, id, fun _ c => c, fun _ c => c, 0⟩, by decide⟩

end DD
