import Verif.Model.ScopeIr
import Mathlib.Logic.Relation

/-!
# What is asked of scope trees

References point at earlier items, of the right kind. The linear operators that an optimizer may bring together can be fused.
-/

namespace DD.Ir
variable {L P Q N : Type*}

/-- The reference points at an item before `i` (of the documented order of items), an operator or a child as it should be. -/
def RefOk (items : List (Item L P Q N)) (i : Nat) : Ref → Prop
  | .loc j => j < i ∧ ∃ n, items[j]? = some (.op n)
  | .childExport j _ => j < i ∧ ∃ c, items[j]? = some (.sub c)
  | .imp _ => True
  | .var _ => True

/-- The references of a scope are in order. -/
structure RefsOk (s : Scope L P Q N) : Prop where
  items : ∀ i it, s.items[i]? = some it → ∀ r ∈ it.refs, RefOk s.items i r
  binds : ∀ b ∈ s.binds, RefOk s.items s.items.length b.value
  exports : ∀ e ∈ s.exports, RefOk s.items s.items.length e.value

mutual
/-- The references in a child are in order. -/
def ItemWF : Item L P Q N → Prop
  | .op _ => True
  | .sub s => ScopeWF s
/-- The references in all children are in order. -/
def ItemsWF : List (Item L P Q N) → Prop
  | [] => True
  | it :: its => ItemWF it ∧ ItemsWF its
/-- The references in a scope and all scopes inside it are in order. -/
def ScopeWF : ScopeOf N (Item L P Q N) → Prop
  | ⟨name, imports, vars, items, binds, exports⟩ => RefsOk (⟨name, imports, vars, items, binds, exports⟩ : Scope L P Q N) ∧ ItemsWF items
end

/-- The input of the linear operator `i` is the item `j`. -/
def Feeds (items : List (Item L P Q N)) (j i : Nat) : Prop := ∃ ops, items[i]? = some (.op (.linear (.loc j) ops))

/-- The linear operators of an item. -/
def opsAt (items : List (Item L P Q N)) (i : Nat) : List L := ((items[i]?).bind Item.linear?).elim [] Prod.snd

/-- Whenever records pass from one linear operator to another, through linear operators only, their operators are related by `R`. -/
def ChainsOk (R : L → L → Prop) (items : List (Item L P Q N)) : Prop :=
  ∀ j i, Relation.TransGen (Feeds items) j i → ∀ x ∈ opsAt items j, ∀ y ∈ opsAt items i, R x y

mutual
/-- The same in a child. -/
def ItemChains (R : L → L → Prop) : Item L P Q N → Prop
  | .op _ => True
  | .sub s => ScopeChains R s
/-- The same in all children. -/
def ItemsChains (R : L → L → Prop) : List (Item L P Q N) → Prop
  | [] => True
  | it :: its => ItemChains R it ∧ ItemsChains R its
/-- The same in a scope and all scopes inside it. -/
def ScopeChains (R : L → L → Prop) : ScopeOf N (Item L P Q N) → Prop
  | ⟨_, _, _, items, _, _⟩ => ChainsOk R items ∧ ItemsChains R items
end

/-- Lists of linear operators can be fused if all pairs from both are related by `R`. -/
def Sem.Fuses {Col Arr : Type*} (sem : Sem L P Q N Col Arr) (R : L → L → Prop) : Prop :=
  ∀ depth a b c, (∀ x ∈ a, ∀ y ∈ b, R x y) → sem.linear depth (a ++ b) c = sem.linear depth b (sem.linear depth a c)

end DD.Ir
