import Verif.Proofs.SurfaceKnown

/-!
# C71: names in scalar terms of `interactive` mean the fields of the pattern that binds them

`cons` are the declared constructors with tags and arities, `rows` the rows a term is evaluated on. `means` is what a term means as it is written: a name is the field of the payload its pattern matched. `elaborate` is the parser's treatment of names, whose result is evaluated.
-/

namespace DD
open Ir
variable {N : Type*} [DecidableEq N] {norm : Overflow} {cons : N → Option (Nat × Nat)}

/-- A term that is accepted evaluates to what it means, if in each `case` the tags of patterns have no gaps or the default uses no binder. Without that proviso it does not: `C71_default_defect`. -/
theorem C71_names_partial (hc : ∀ c p, cons c = some p → p.1 < 2 ^ 32) (rows : List Value) (s : Surface N) (t : Term) (h : elaborate cons [] 0 s = some t) (hs : s.Scoped rows.length 0) (hg : s.Gapless cons) :
    (eval norm t rows).map Prod.fst = means norm cons rows s [] fun _ => none := by
  have h1 : Scoped rows.length t 0 := elaborate_scoped s rows.length [] 0 t (by simp) hs h
  have h2 := eval_denote (norm := norm) (rows := rows) t [] h1
  rw [List.reverse_nil, List.append_nil] at h2
  rw [h2, Option.map_map, ← elaborate_means hc s [] 0 t [] (fun _ => none) h hs hg ⟨rfl, by simp⟩]
  exact congrFun Option.map_id _

/-- The same inside patterns and folds: `binders` are the names bound by enclosing patterns, with the depth at which each was bound and the field it names. -/
theorem C71_names_inside_partial (hc : ∀ c p, cons c = some p → p.1 < 2 ^ 32) (rows bs : List Value) (binders : List (N × Nat × Nat)) (env : N → Option Value) (hb : ∀ p ∈ binders, 1 ≤ p.2.1 ∧ p.2.1 ≤ bs.length)
    (he : ∀ x p, binders.reverse.find? (fun p => p.1 = x) = some p → env x = (bs[bs.length - p.2.1]?).bind fun v => v.fields.bind fun xs => xs[p.2.2]?)
    (s : Surface N) (t : Term) (h : elaborate cons binders bs.length s = some t) (hs : s.Scoped rows.length bs.length) (hg : s.Gapless cons) :
    (eval norm t (rows ++ bs.reverse)).map Prod.fst = means norm cons rows s bs env := by
  have h1 : Scoped rows.length t bs.length := elaborate_scoped s rows.length binders _ t hb hs h
  rw [eval_denote (norm := norm) (rows := rows) t bs h1, Option.map_map, ← elaborate_means hc s binders _ t bs env h hs hg
    ⟨rfl, fun x p hp => ⟨(hb p (List.mem_reverse.1 (List.mem_of_find?_eq_some hp))).1, (hb p (List.mem_reverse.1 (List.mem_of_find?_eq_some hp))).2, he x p hp⟩⟩]
  exact congrFun Option.map_id _

/-- A term is accepted exactly if its names are bound, its constructors are declared with their arities, and each `case` has an arm or a default for all tags up to its greatest one. -/
theorem C71_accepts (s : Surface N) : (elaborate cons [] 0 s).isSome = true ↔ s.Known cons fun _ => False := by
  rw [elaborate_known]
  simp

/-! ### Instances -/

/-- `A` has tag 0 and one field, `B` tag 1 and one field. -/
def surfaceCons (c : String) : Option (Nat × Nat) := if c = "A" then some (0, 1) else if c = "B" then some (1, 1) else none

/-- `case $0 { A(a) => case $1 { A(b) => tuple(a, b), B(a) => fold(list(a, ^0[0]), 0, ^0 + ^1 + a) }, _ => 0 }`: a name bound twice, and used below a fold. -/
def surfaceNested : Surface String :=
  .case (.var 0) (.con "A" ["a"] (.case (.var 1) (.con "A" ["b"] (.tuple [.name "a", .name "b"])
    (.con "B" ["a"] (.fold (.list [.name "a", .proj (.bound 0) 0]) (.int 0) (.binary .add (.binary .add (.bound 0) (.bound 1)) (.name "a"))) .nil)))
    (.default (.int 0) .nil))

/-- It is `$0 = A(7)`, `$1 = B(9)`: four times 9. -/
example : (elaborate surfaceCons [] 0 surfaceNested).bind (fun t => (eval checked t [.variant 0 (.tuple [.int 7]), .variant 1 (.tuple [.int 9])]).map Prod.fst) = some (.int 36) := by
  simp [surfaceNested, elaborate, elaborateArms, elaborates, surfaceCons, resolveBinder, fillArms, List.range, List.range.loop, eval, evalArms, evalRef, buildSeq, foldLoop, Value.fields, evalBinary, Value.asInt, checked]

/-- It is `$0 = A(7)`, `$1 = A(9)`: both names. -/
example : (elaborate surfaceCons [] 0 surfaceNested).bind (fun t => (eval checked t [.variant 0 (.tuple [.int 7]), .variant 0 (.tuple [.int 9])]).map Prod.fst) = some (.tuple [.int 7, .int 9]) := by
  simp [surfaceNested, elaborate, elaborateArms, elaborates, surfaceCons, resolveBinder, fillArms, List.range, List.range.loop, eval, evalArms, evalRef, buildSeq, Value.fields]

example : surfaceNested.Scoped 2 0 := by simp [surfaceNested, Surface.Scoped, Arms.Scoped, Surface.AllScoped]

example : surfaceNested.Gapless surfaceCons := by
  simp only [surfaceNested, Surface.Gapless, Arms.Gapless, Surface.AllGapless, Arms.DefaultPlain, Surface.Plain, true_and, and_true, or_true]

example : surfaceNested.Known surfaceCons fun _ => False := by
  rw [← C71_accepts]
  simp [surfaceNested, elaborate, elaborateArms, elaborates, surfaceCons, resolveBinder, fillArms, List.range, List.range.loop]

/-- `case $0 { A(a) => case $1 { B(b) => b, _ => a } }`. -/
def surfaceDefault : Surface String := .case (.var 0) (.con "A" ["a"] (.case (.var 1) (.con "B" ["b"] (.name "b") (.default (.name "a") .nil))) .nil)

/-- In `case $0 { A(a) => case $1 { B(b) => b, _ => a } }` with `$0 = A(7)` and `$1 = A(9)` the default is taken and means 7, but evaluation gives 9: the default fills the gap at tag 0, where it is evaluated with the payload
bound, but its name was resolved without. -/
theorem C71_default_defect : means checked surfaceCons [.variant 0 (.tuple [.int 7]), .variant 0 (.tuple [.int 9])] surfaceDefault [] (fun _ => none) = some (.int 7) ∧
    (elaborate surfaceCons [] 0 surfaceDefault).bind (fun t => (eval checked t [.variant 0 (.tuple [.int 7]), .variant 0 (.tuple [.int 9])]).map Prod.fst) = some (.int 9) := by
  constructor
  · simp [surfaceDefault, means, armMeans, defaultMeans, surfaceCons, bindNames, Value.fields]
  · simp [surfaceDefault, elaborate, elaborateArms, surfaceCons, resolveBinder, fillArms, List.range, List.range.loop, eval, evalArms, evalRef, Value.fields]

end DD
