import Verif.Model.Clone
import Verif.Spec.ScopeIr

/-!
# What is asked of clones

A run of a program gives a collection to each operator and variable of each of its scopes. Seen from outside a scope, the collection of a site inside it is that collection with the scope's round
of iteration appended to its values, as it leaves the scope.
-/

namespace DD.Ir
variable {L P Q N : Type*}

/-- What the operators and children of a scope compute in some run; for a child, also what enters it, what its variables, operators and children compute, and its exports. -/
inductive RunPart (Col Arr : Type*) where
  | op (r : Rendered Col Arr)
  | sub (imports vars : List Col) (parts : List (RunPart Col Arr)) (outs : List Col)

/-- The reference is to something the scope has. -/
def RefIn (s : Scope L P Q N) : Ref → Prop
  | .loc _ => True
  | .imp k => k < s.imports.length
  | .var v => v < s.vars.length
  | .childExport i j => ∀ c, s.items[i]? = some (.sub c) → j < c.exports.length

mutual
/-- All references inside a child are to something its scopes have, and it imports from its parent only. -/
def ItemClosed : Item L P Q N → Prop
  | .op _ => True
  | .sub s => (∀ i ∈ s.imports, ∃ r, i.src = .parent r) ∧ ScopeClosed s
/-- The same for all children. -/
def ItemsClosed : List (Item L P Q N) → Prop
  | [] => True
  | it :: its => ItemClosed it ∧ ItemsClosed its
/-- All references in a scope, and in those inside it, are to something their scopes have, and only the outermost scope has external sources. -/
def ScopeClosed : ScopeOf N (Item L P Q N) → Prop
  | ⟨name, imports, vars, items, binds, exports⟩ => (∀ r ∈ refsOf (⟨name, imports, vars, items, binds, exports⟩ : Scope L P Q N), RefIn (⟨name, imports, vars, items, binds, exports⟩ : Scope L P Q N) r) ∧
      (∀ b ∈ binds, b.var < vars.length) ∧ ItemsClosed items
end

/-- The program has an operator or variable at this address. -/
def HasSite : List Nat → Site → Scope L P Q N → Prop
  | [], .var v, s => v < s.vars.length
  | [], .op i, s => ∃ n, s.items[i]? = some (.op n)
  | i :: path, site, s => ∃ c, s.items[i]? = some (.sub c) ∧ HasSite path site c

section
variable {Col Arr : Type*} (sem : Sem L P Q N Col Arr)

/-- What the scope around it sees of a part. -/
def RunPart.value (depth : Nat) : RunPart Col Arr → RItem Col Arr
  | .op r => .op r
  | .sub _ _ _ outs => .sub (outs.map fun c => sem.leaveDynamic (depth + 1) (sem.leave c))

mutual
/-- The part is what an item computes. -/
def SolvesItem : Item L P Q N → Nat → (Ref → Option (Rendered Col Arr)) → RunPart Col Arr → Prop
  | .op n, depth, res, p => ∃ r, renderNode sem depth res n = some r ∧ p = .op r
  | .sub child, depth, res, p => ∃ entering vars parts outs, child.imports.mapM (childImport sem res) = some entering ∧
      Solves child (depth + 1) (entering.map sem.enter) vars parts outs ∧ p = .sub (entering.map sem.enter) vars parts outs
/-- The parts are what the items compute, each from those before it. -/
def SolvesItems : List (Item L P Q N) → Nat → List Col → List Col → List (RunPart Col Arr) → List (RunPart Col Arr) → Prop
  | [], _, _, _, _, parts => parts = []
  | it :: its, depth, imports, vars, before, parts => ∃ p ps, parts = p :: ps ∧ SolvesItem it depth (resolve ((before.map (RunPart.value sem depth))[·]?) imports vars) p ∧
      SolvesItems its depth imports vars (before ++ [p]) ps
/-- A run of a scope: its variables are `vars`, its operators and children compute `parts`, and its exports are `outs`. -/
def Solves : ScopeOf N (Item L P Q N) → Nat → List Col → List Col → List (RunPart Col Arr) → List Col → Prop
  | ⟨_, _, names, items, binds, exports⟩, depth, imports, vars, parts, outs =>
    vars.length = names.length ∧ SolvesItems items depth imports vars [] parts ∧
      VarsOk sem depth (resolve ((parts.map (RunPart.value sem depth))[·]?) imports vars) binds vars ∧
      exportsOf sem (resolve ((parts.map (RunPart.value sem depth))[·]?) imports vars) exports = some outs
end

/-- The collection of a site, seen from the scope `s`. The collection of an arrangement is what it arranges. -/
def hostOf (lift : L) : List Nat → Site → Scope L P Q N → Nat → List Col → List Col → List (RunPart Col Arr) → Option Col
  | [], .var v, _, _, _, vars, _ => vars[v]?
  | [], .op i, s, depth, imports, vars, parts => match s.items[i]? with
    | some (.op (.arrange input)) => (resolve ((parts.map (RunPart.value sem depth))[·]?) imports vars input).map fun r => r.collection sem
    | _ => match parts[i]? with
      | some (.op r) => some (r.collection sem)
      | _ => none
  | i :: path, site, s, depth, _, _, parts => match s.items[i]?, parts[i]? with
    | some (.sub c), some (.sub imports vars parts _) => (hostOf lift path site c (depth + 1) imports vars parts).map fun x => sem.leaveDynamic (depth + 1) (sem.leave (sem.linear (depth + 1) [lift] x))
    | _, _ => none

end

end DD.Ir
