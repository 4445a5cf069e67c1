import Verif.Proofs.VecLinear
import Verif.Proofs.ScopeIrOpt

/-!
# Optimizing a program of `interactive` does not change what it computes (C66)

What a program computes is given by the equations of its dataflow: `ScopeSem sem s depth imports outs` says that there are streams, for each operator, child and variable of the scope, such
that each is what its operator computes from its inputs, and `outs` are those exported. `sem` is what a backend's operators compute, and can be anything, except that it must be able to fuse
linear operators, which is what the optimizer is built on. What `inspect` prints is not part of it.
-/

namespace DD
open Ir

/-- **C66.** Optimizing a program, whose references point at earlier items of the right kind, does not panic, keeps its imports, variables and the names of its exports, gives such a program,
and for every backend that can fuse the operators that are fused, the program computes the same from all inputs, and in all nested scopes. -/
theorem C66_optimize {L P Q N Col Arr : Type*} [DecidableEq L] [DecidableEq P] [DecidableEq Q] [DecidableEq N] (sem : Sem L P Q N Col Arr) (R : L → L → Prop) (hF : sem.Fuses R)
    (s : Scope L P Q N) (hw : ScopeWF s) (hc : ScopeChains R s) :
    ∃ s', optScope s = some s' ∧ ScopeWF s' ∧ s'.imports = s.imports ∧ s'.vars = s.vars ∧ s'.binds.map Bind.var = s.binds.map Bind.var ∧
      s'.exports.map Export.name = s.exports.map Export.name ∧
      ∀ depth imports outs, ScopeSem sem s depth imports outs ↔ ScopeSem sem s' depth imports outs := by
  obtain ⟨s', h1, h2⟩ := optScope_ok hF s hw hc
  exact ⟨s', h1, h2.wf, h2.imports, h2.vars, h2.binds, h2.exports, h2.equiv⟩

/-- **C66 for vectors, in part.** The backend on vectors, whatever its terms, arrangements and other operators: programs in which no record passes through an `enter_at` and then, through linear
operators only, another `enter_at` or a `lift_iter`. Missing: the other programs, for which it is false. -/
theorem C66_vec_partial {E P Q N Arr : Type*} [DecidableEq E] [DecidableEq P] [DecidableEq Q] [DecidableEq N] (ev : E → Value → Value → Option Value)
    (sem : Sem (LinearOp E) P Q N (Option (List VRec)) Arr) (hl : sem.linear = renderLinear ev) (s : Scope (LinearOp E) P Q N) (hw : ScopeWF s) (hc : ScopeChains TimeApart s) :
    ∃ s', optScope s = some s' ∧ ∀ depth imports outs, ScopeSem sem s depth imports outs ↔ ScopeSem sem s' depth imports outs := by
  obtain ⟨s', h1, -, -, -, -, -, h2⟩ := C66_optimize sem TimeApart (vec_fuses hl) s hw hc
  exact ⟨s', h1, h2⟩

/-! ### A program -/

namespace Ir

/-- Terms for examples: a part of the record. -/
inductive Part where | key | val | one
deriving DecidableEq

/-- Their values. -/
def partOf : Part → Value → Value → Option Value
  | .key, k, _ => some k
  | .val, _, v => some v
  | .one, _, _ => some (.int 1)

/-- Scopes for examples. -/
abbrev ExScope := Scope (LinearOp Part) Nat Nat String

/-- A loop with a delay, a chain of linear operators, an arrangement arranged again and a join written twice. -/
def exChild : ExScope := ⟨"loop", [⟨"x", .parent (.loc 0)⟩], ["v"],
  [.op (.linear (.imp 0) [.enterAt .key]), .op (.linear (.loc 0) [.project .val .key]), .op (.linear (.loc 1) [.negate]), .op (.concat [.loc 2, .var 0]),
   .op (.reduce (.loc 3) 7), .op (.arrange (.loc 4)), .op (.join (.loc 5) (.loc 4) 3), .op (.join (.loc 4) (.loc 4) 3)],
  [⟨0, .loc 6⟩], [⟨"y", .loc 7⟩]⟩

/-- A program with the loop, and an operator on its result written twice. -/
def exScope : ExScope := ⟨"root", [⟨"in", .input 0⟩], [],
  [.op (.linear (.imp 0) [.filter .one]), .sub exChild, .op (.linear (.childExport 1 0) [.negate]), .op (.linear (.childExport 1 0) [.negate])], [], [⟨"out", .loc 2⟩, ⟨"out2", .loc 3⟩]⟩

/-- What is left of the loop. -/
def exChild' : ExScope := ⟨"loop", [⟨"x", .parent (.loc 0)⟩], ["v"],
  [.op (.linear (.imp 0) [.enterAt .key, .project .val .key, .negate]), .op (.concat [.loc 0, .var 0]), .op (.reduce (.loc 1) 7), .op (.join (.loc 2) (.loc 2) 3)], [⟨0, .loc 3⟩], [⟨"y", .loc 3⟩]⟩

/-- What is left of the program. -/
def exScope' : ExScope := ⟨"root", [⟨"in", .input 0⟩], [],
  [.op (.linear (.imp 0) [.filter .one]), .sub exChild', .op (.linear (.childExport 1 0) [.negate])], [], [⟨"out", .loc 2⟩, ⟨"out2", .loc 2⟩]⟩

theorem exScope_optimized : optScope exScope = some exScope' := rfl

/-- Checks that references are in order. -/
def refOkB {L P Q N : Type*} (items : List (Item L P Q N)) (i : Nat) : Ref → Bool
  | .loc j => decide (j < i) && match items[j]? with
    | some (.op _) => true
    | _ => false
  | .childExport j _ => decide (j < i) && match items[j]? with
    | some (.sub _) => true
    | _ => false
  | .imp _ => true
  | .var _ => true

theorem refOk_of_refOkB {L P Q N : Type*} {items : List (Item L P Q N)} {i : Nat} {r : Ref} (h : refOkB items i r = true) : RefOk items i r := by
  cases r with
  | loc j =>
    simp only [refOkB, Bool.and_eq_true, decide_eq_true_eq] at h
    refine ⟨h.1, ?_⟩
    cases hj : items[j]? with
    | none => rw [hj] at h; cases h.2
    | some it => cases it with
      | op n => exact ⟨n, rfl⟩
      | sub c => rw [hj] at h; cases h.2
  | childExport j k =>
    simp only [refOkB, Bool.and_eq_true, decide_eq_true_eq] at h
    refine ⟨h.1, ?_⟩
    cases hj : items[j]? with
    | none => rw [hj] at h; cases h.2
    | some it => cases it with
      | sub c => exact ⟨c, rfl⟩
      | op n => rw [hj] at h; cases h.2
  | imp k => trivial
  | var k => trivial

theorem refsOk_of_check {L P Q N : Type*} {s : Scope L P Q N}
    (h : (((List.range s.items.length).all fun i => (s.items[i]?).elim true fun it => it.refs.all (refOkB s.items i)) && (s.binds.all fun b => refOkB s.items s.items.length b.value) &&
      (s.exports.all fun e => refOkB s.items s.items.length e.value)) = true) : RefsOk s := by
  simp only [Bool.and_eq_true, List.all_eq_true, List.mem_range] at h
  refine ⟨?_, fun b hb => refOk_of_refOkB (h.1.2 b hb), fun e he => refOk_of_refOkB (h.2 e he)⟩
  intro i it hit r hr
  have := h.1.1 i (List.getElem?_eq_some_iff.1 hit).1
  rw [hit] at this
  exact refOk_of_refOkB (List.all_eq_true.1 this r hr)

theorem exScope_wf : ScopeWF exScope := by
  refine ⟨refsOk_of_check rfl, trivial, ⟨refsOk_of_check rfl, ?_⟩, trivial, trivial, trivial⟩
  simp only [ItemsWF, ItemWF, and_self]

/-- If delays and operators reading times take their input from outside, they are apart. -/
theorem chainsOk_of_first {P Q N : Type*} {items : List (Item (LinearOp Part) P Q N)}
    (h : ∀ (i : Nat) (ops : List (LinearOp Part)) (j : Nat), items[i]? = some (.op (.linear (.loc j) ops)) → ∀ y ∈ ops, y.isEnterAt = false ∧ y ≠ .liftIter) : ChainsOk TimeApart items := by
  rintro j i hji x _ y hy ⟨-, hc⟩
  have hlast : ∃ k, Feeds items k i := by
    cases hji with
    | single h => exact ⟨_, h⟩
    | tail _ h => exact ⟨_, h⟩
  obtain ⟨k, ops, hk⟩ := hlast
  rw [opsAt_of hk] at hy
  obtain ⟨h1, h2⟩ := h i ops k hk y hy
  rcases hc with hc | hc
  · rw [h1] at hc; cases hc
  · exact h2 hc

theorem exScope_chains : ScopeChains TimeApart exScope := by
  have hchild : ChainsOk TimeApart exChild.items := by
    apply chainsOk_of_first
    intro i ops j hi y hy
    rcases i with _ | _ | _ | _ | _ | _ | _ | _ | _ <;> cases hi <;> cases List.mem_singleton.1 hy <;> exact ⟨rfl, fun h => by cases h⟩
  have hroot : ChainsOk TimeApart exScope.items := by
    apply chainsOk_of_first
    intro i ops j hi y hy
    rcases i with _ | _ | _ | _ | _ <;> cases hi
  refine ⟨hroot, trivial, ⟨hchild, ?_⟩, trivial, trivial, trivial⟩
  simp only [ItemsChains, ItemChains, and_self]

/-- What vectors compute is the same for the program and for what is left of it, with any joins and reduces, any inputs, and any meaning of loops. -/
example {Arr : Type*} (sem : Sem (LinearOp Part) Nat Nat String (Option (List VRec)) Arr) (hl : sem.linear = renderLinear partOf) (imports outs : List (Option (List VRec))) :
    ScopeSem sem exScope 0 imports outs ↔ ScopeSem sem exScope' 0 imports outs := by
  obtain ⟨s', h1, h2⟩ := C66_vec_partial partOf sem hl exScope exScope_wf exScope_chains
  rw [exScope_optimized] at h1
  cases h1
  exact h2 0 imports outs

/-! ### Where it fails -/

/-- In a loop: `x | enter_at(key) | lift_iter`. -/
def lateChild : ExScope := ⟨"loop", [⟨"x", .parent (.imp 0)⟩], [], [.op (.linear (.imp 0) [.enterAt .key]), .op (.linear (.loc 0) [.liftIter])], [], [⟨"y", .loc 1⟩]⟩

/-- The program with this loop. -/
def lateScope : ExScope := ⟨"root", [⟨"in", .input 0⟩], [], [.sub lateChild], [], [⟨"out", .childExport 0 0⟩]⟩

/-- In a loop: `x | enter_at(key) | enter_at(val)`. -/
def twiceChild : ExScope := ⟨"loop", [⟨"x", .parent (.imp 0)⟩], [], [.op (.linear (.imp 0) [.enterAt .key]), .op (.linear (.loc 0) [.enterAt .val])], [], [⟨"y", .loc 1⟩]⟩

/-- A record. -/
def lateInput : List (Option (List VRec)) := [some [((.int 1, .int 0), tmin, 1)]]

end Ir

section
variable {Arr : Type*} {sem : Sem (LinearOp Part) Nat Nat String (Option (List VRec)) Arr}

/-- What a scope with two linear operators in a row computes. -/
theorem scopeSem_two (a b : List (LinearOp Part)) (depth : Nat) (c : Option (List VRec)) (outs : List (Option (List VRec))) :
    ScopeSem sem (⟨"loop", [⟨"x", .parent (.imp 0)⟩], [], [.op (.linear (.imp 0) a), .op (.linear (.loc 0) b)], [], [⟨"y", .loc 1⟩]⟩ : ExScope) depth [c] outs ↔
      outs = [sem.linear depth b (sem.linear depth a c)] := by
  simp [ScopeSem, ItemsSem, ItemSem, renderNode, resolve, VarsOk, exportsOf, Rendered.collection, eq_comm]

/-- What a scope with one linear operator computes. -/
theorem scopeSem_one (a : List (LinearOp Part)) (depth : Nat) (c : Option (List VRec)) (outs : List (Option (List VRec))) :
    ScopeSem sem (⟨"loop", [⟨"x", .parent (.imp 0)⟩], [], [.op (.linear (.imp 0) a)], [], [⟨"y", .loc 0⟩]⟩ : ExScope) depth [c] outs ↔ outs = [sem.linear depth a c] := by
  simp [ScopeSem, ItemsSem, ItemSem, renderNode, resolve, VarsOk, exportsOf, Rendered.collection, eq_comm]

/-- What a program with one child computes. -/
theorem scopeSem_child (child : ExScope) (hi : child.imports = [⟨"x", .parent (.imp 0)⟩]) (g : Option (List VRec) → Option (List VRec))
    (hg : ∀ c outs, ScopeSem sem child 1 [c] outs ↔ outs = [g c]) (c : Option (List VRec)) (outs : List (Option (List VRec))) :
    ScopeSem sem (⟨"root", [⟨"in", .input 0⟩], [], [.sub child], [], [⟨"out", .childExport 0 0⟩]⟩ : ExScope) 0 [c] outs ↔ outs = [sem.leaveDynamic 1 (sem.leave (g (sem.enter c)))] := by
  simp [ScopeSem, ItemsSem, ItemSem, hi, childImport, hg, resolve, VarsOk, exportsOf, Rendered.collection, eq_comm]

/-- **C66 is false for vectors** when an `enter_at` is followed by a `lift_iter`: after optimizing, the iteration recorded is that before the delay. The program's output at the root differs. -/
theorem C66_vec_defect (sem : Sem (LinearOp Part) Nat Nat String (Option (List VRec)) Arr) (hl : sem.linear = renderLinear partOf) (he : ∀ c, sem.enter c = c) (hv : ∀ c, sem.leave c = c)
    (hd : ∀ level c, sem.leaveDynamic level c = c.map (List.map fun r => (r.1, leaveTime level r.2.1, r.2.2))) :
    ScopeWF lateScope ∧ ∃ s', optScope lateScope = some s' ∧
      (∀ outs, ScopeSem sem lateScope 0 lateInput outs ↔ outs = [some [((.int 1, .tuple [.int 0, .int 256]), tmin, 1)]]) ∧
      (∀ outs, ScopeSem sem s' 0 lateInput outs ↔ outs = [some [((.int 1, .tuple [.int 0, .int 0]), tmin, 1)]]) := by
  refine ⟨⟨refsOk_of_check rfl, ⟨refsOk_of_check rfl, trivial, trivial, trivial⟩, trivial⟩,
    ⟨"root", [⟨"in", .input 0⟩], [], [.sub ⟨"loop", [⟨"x", .parent (.imp 0)⟩], [], [.op (.linear (.imp 0) [.enterAt .key, .liftIter])], [], [⟨"y", .loc 0⟩]⟩], [], [⟨"out", .childExport 0 0⟩]⟩, rfl, ?_, ?_⟩
  · intro outs
    rw [lateScope, lateInput, scopeSem_child lateChild rfl _ fun c outs => scopeSem_two _ _ 1 c outs, hd, hv, he, hl]
    rfl
  · intro outs
    rw [lateInput, scopeSem_child _ rfl _ fun c outs => scopeSem_one _ 1 c outs, hd, hv, he, hl]
    rfl

/-- **C66 is false for vectors** when an `enter_at` is followed by an `enter_at`: after optimizing, only the second delay remains. -/
theorem C66_vec_defect_twice (sem : Sem (LinearOp Part) Nat Nat String (Option (List VRec)) Arr) (hl : sem.linear = renderLinear partOf) :
    ScopeWF twiceChild ∧ ∃ s', optScope twiceChild = some s' ∧
      (∀ outs, ScopeSem sem twiceChild 1 lateInput outs ↔ outs = [some [((.int 1, .int 0), (0, ⟨⟨[256]⟩, by simp [PointStamp.Norm]⟩), 1)]]) ∧
      (∀ outs, ScopeSem sem s' 1 lateInput outs ↔ outs = [some [((.int 1, .int 0), tmin, 1)]]) := by
  refine ⟨⟨refsOk_of_check rfl, trivial, trivial, trivial⟩,
    ⟨"loop", [⟨"x", .parent (.imp 0)⟩], [], [.op (.linear (.imp 0) [.enterAt .key, .enterAt .val])], [], [⟨"y", .loc 0⟩]⟩, rfl, ?_, ?_⟩
  · intro outs
    rw [twiceChild, lateInput, scopeSem_two, hl]
    rfl
  · intro outs
    rw [lateInput, scopeSem_one, hl]
    rfl

end

/-- Such backends exist. -/
example : ∃ sem : Sem (LinearOp Part) Nat Nat String (Option (List VRec)) (Option (List VRec)), sem.linear = renderLinear partOf ∧ (∀ c, sem.enter c = c) ∧ (∀ c, sem.leave c = c) ∧
    ∀ level c, sem.leaveDynamic level c = c.map (List.map fun r => (r.1, leaveTime level r.2.1, r.2.2)) :=
  ⟨⟨renderLinear partOf, fun a b => a.bind fun x => b.map fun y => x ++ y, id, id, fun a _ _ => a, fun a _ => a, fun _ c => c, id, id,
    fun level c => c.map (List.map fun r => (r.1, leaveTime level r.2.1, r.2.2)), fun _ c => c, some []⟩, rfl, fun _ => rfl, fun _ => rfl, fun _ _ => rfl⟩

end DD
