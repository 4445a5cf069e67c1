import Verif.Proofs.Shapes
import Verif.Props.Reverse

/-!
# C75: the shapes that explanations infer
-/

namespace DD

open Ir Ir.Ex

variable {N : Type*}

/-- **C75** (ends). The inference of shapes ends without a panic, and more rounds do not change what it infers. -/
theorem C75_ends (root : XScope N) (hw : ScopeWF root) (hc : ScopeClosed root) (src : List (Nat × Nat)) (hsrc : src.length = root.imports.length) (fuel : Nat) (hf : scopeSize root < fuel) :
    ∃ shapes n, ∀ rounds, n < rounds → siteShapes root fuel src rounds = some shapes := by
  obtain ⟨m, h⟩ := shapesLoop_total (refsResolve hw hc hf hsrc) _ (shapesOk_nil (root := root) (src := src)) (le_refl _)
  exact ⟨m, _, h⟩

/-- **C75** (shapes). In a program with flat projections that collects no lists and concatenates only what has the same shape, each collection that can have a record gets a shape, and all its records have this shape.
With `collect` this is false (`C75_collect_defect`). -/
theorem C75_shapes_partial (norm : Overflow) (root : XScope N) (fuel rounds : Nat) (src : List (Nat × Nat)) (shapes : Shapes) (h : siteShapes root fuel src rounds = some shapes)
    (hone : ∀ path s, scopeAt root path = some s → (s.binds.map Bind.var).Nodup) (hflat : ∀ path s (i : Nat) node, scopeAt root path = some s → s.items[i]? = some (.op node) → FlatNode node)
    (hcat : ConcatsAgree root (shapeIn src shapes)) (sources : Nat → Value × Value → Prop) (hsrc : ∀ k r, sources k r → ∃ sh : Nat × Nat, src[k]? = some sh ∧ HasShape sh.1 sh.2 r)
    (t : Target) (r : Value × Value) (hr : CanHold norm root sources t r) : ∃ k v, shapeIn src shapes t = some (k, v) ∧ HasShape k v r := by
  obtain ⟨sh, h1, h2⟩ := hold_shape (siteShapes_done h) hone hflat hcat hsrc hr
  exact ⟨sh.1, sh.2, h1, h2⟩

/-- **C75** (export). The shape of the first export is that of the collection it names. -/
theorem C75_export (root : XScope N) (fuel rounds : Nat) (src : List (Nat × Nat)) (sh : Nat × Nat) (h : exportShape root fuel src rounds = some sh) :
    ∃ shapes first t, siteShapes root fuel src rounds = some shapes ∧ root.exports.head? = some first ∧ Names root [] first.value t ∧ shapeIn src shapes t = some sh := by
  simp only [exportShape, Option.bind_eq_some_iff] at h
  obtain ⟨shapes, h1, first, h2, t, h3, h4⟩ := h
  refine ⟨shapes, first, t, h1, h2, resolveRef_names h3, ?_⟩
  cases t <;> exact h4

namespace Ir.Ex

/-- Equality of values, in the examples. -/
local instance : DecidableEq Value := fun a b => decidable_of_iff _ (Value.cmp_eq a b)

/-- The nodes reached from the roots: `reach` is joined with the edges, and the targets are added. -/
def shReach : XScope String := ⟨"reach", [⟨"edges", .parent (.loc 0)⟩, ⟨"roots", .parent (.imp 1)⟩], ["reach"],
  [.op (.join (.var 0) (.imp 0) ⟨.tuple [.spread (.var 2)], .tuple []⟩), .op (.concat [.imp 1, .loc 0]), .op (.reduce (.loc 1) .distinct)], [⟨0, .loc 2⟩], [⟨"reach", .var 0⟩]⟩

/-- The program around it. The edges are read as pairs and keyed by their first node. -/
def shRoot : XScope String := ⟨"root", [⟨"in", .input 0⟩, ⟨"in", .input 1⟩], [],
  [.op (.linear (.imp 0) [.project (.tuple [.proj (.var 0) 0]) (.tuple [.proj (.var 0) 1])]), .sub shReach], [], [⟨"result", .childExport 1 0⟩]⟩

/-- The inferred shapes. -/
example : siteShapes shRoot 20 [(2, 0), (1, 0)] 9 = some [(⟨[1], .op 0⟩, (1, 0)), (⟨[1], .var 0⟩, (1, 0)), (⟨[1], .op 2⟩, (1, 0)), (⟨[1], .op 1⟩, (1, 0)), (⟨[], .op 0⟩, (1, 1))] := by decide +kernel

/-- The shape of the first export. -/
example : exportShape shRoot 20 [(2, 0), (1, 0)] 9 = some (1, 0) := by decide +kernel

/-- The scopes of the program. -/
theorem shRoot_scopes {path : List Nat} {s : XScope String} (h : scopeAt shRoot path = some s) : (path = [] ∧ s = shRoot) ∨ (path = [1] ∧ s = shReach) := by
  match path, h with
  | [], h => exact .inl ⟨rfl, (Option.some.inj h).symm⟩
  | [1], h => exact .inr ⟨rfl, (Option.some.inj h).symm⟩
  | 0 :: _, h => cases h
  | 1 :: 0 :: _, h => cases h
  | 1 :: 1 :: _, h => cases h
  | 1 :: 2 :: _, h => cases h
  | 1 :: (_ + 3) :: _, h => cases h
  | (_ + 2) :: _, h => cases h

/-- The root 1 and the edge from 1 to 2. -/
def shInput (k : Nat) (r : Value × Value) : Prop := (k = 0 ∧ r = (.tuple [rvInt 1, rvInt 2], .tuple [])) ∨ (k = 1 ∧ r = (.tuple [rvInt 1], .tuple []))

/-- A variable that is bound to itself; the export is the source. -/
def shIdle : XScope String := ⟨"root", [⟨"in", .input 0⟩], [], [.sub ⟨"loop", [], ["x"], [], [⟨0, .var 0⟩], []⟩], [], [⟨"out", .imp 0⟩]⟩

/-- Collected lists, concatenated. -/
def shCollect : XScope String := ⟨"root", [⟨"in", .input 0⟩], [], [.op (.reduce (.imp 0) .collect), .op (.concat [.loc 0])], [], [⟨"out", .loc 1⟩]⟩

/-- The records with the keys 1 and the values 2 and 3. -/
def shSource : RowColl := [(.tuple [rvInt 1], .tuple [rvInt 2]), (.tuple [rvInt 1], .tuple [rvInt 3])]

/-- The values collected for the key. -/
def shList : Value := .list [.tuple [rvInt 2], .tuple [rvInt 3]]

/-- How explanations of the program look up demands, if its collections have the records that it computes. -/
def shEnv (shapes : Shapes) : RevEnv String where
  norm := some
  root := shCollect
  fuel := 9
  shapes a := shapes.lookup a
  sourceShapes := [(1, 1)]
  pair
    | .source _ => shSource
    | .site _ => [(.tuple [rvInt 1], shList)]
  vars _ := []

theorem shCollect_round : ((shEnv [(⟨[], .op 1⟩, (1, 1)), (⟨[], .op 0⟩, (1, 1))]).round [(.tuple [rvInt 1], .tuple [shList, rvInt 7])] [shSource] [[]]).map Prod.snd = some [[]] := by decide +kernel

end Ir.Ex

/-- The hypotheses of C75 are met: by the program for reachability, where 2 is reached. -/
example : ∃ shapes, siteShapes shRoot 20 [(2, 0), (1, 0)] 9 = some shapes ∧ (∀ path s, scopeAt shRoot path = some s → (s.binds.map Bind.var).Nodup) ∧
    (∀ path s (i : Nat) node, scopeAt shRoot path = some s → s.items[i]? = some (.op node) → FlatNode node) ∧ ConcatsAgree shRoot (shapeIn [(2, 0), (1, 0)] shapes) ∧
    (∀ k r, shInput k r → ∃ sh : Nat × Nat, [(2, 0), (1, 0)][k]? = some sh ∧ HasShape sh.1 sh.2 r) ∧ CanHold some shRoot shInput (.site ⟨[1], .var 0⟩) (.tuple [rvInt 2], .tuple []) := by
  refine ⟨_, (by decide +kernel : siteShapes shRoot 20 [(2, 0), (1, 0)] 9 = some [(⟨[1], .op 0⟩, (1, 0)), (⟨[1], .var 0⟩, (1, 0)), (⟨[1], .op 2⟩, (1, 0)), (⟨[1], .op 1⟩, (1, 0)), (⟨[], .op 0⟩, (1, 1))]),
    ?_, ?_, ?_, ?_, ?_⟩
  · intro path s h
    rcases shRoot_scopes h with ⟨-, rfl⟩ | ⟨-, rfl⟩ <;> decide
  · intro path s i node h hn
    rcases shRoot_scopes h with ⟨-, rfl⟩ | ⟨-, rfl⟩
    · match i, hn with
      | 0, hn =>
        cases hn
        intro key val hm
        cases List.mem_singleton.1 hm
        exact ⟨⟨_, rfl, by simp⟩, ⟨_, rfl, by simp⟩⟩
      | 1, hn => cases hn
    · match i, hn with
      | 0, hn => cases hn; exact ⟨⟨_, rfl, by simp⟩, ⟨_, rfl, by simp⟩⟩
      | 1, hn => cases hn; trivial
      | 2, hn => cases hn; exact fun h => by cases h
  · intro path s i refs r r' t t' sh sh' h hn hr hr' ht ht' hsh hsh'
    rcases shRoot_scopes h with ⟨-, rfl⟩ | ⟨rfl, rfl⟩
    · match i, hn with
      | 0, hn => cases hn
      | 1, hn => cases hn
    · match i, hn with
      | 0, hn => cases hn
      | 2, hn => cases hn
      | 1, hn =>
        cases hn
        have key : ∀ r ∈ [Ref.imp 1, .loc 0], ∀ t, Names shRoot [1] r t → ∀ sh,
            shapeIn [(2, 0), (1, 0)] [(⟨[1], .op 0⟩, (1, 0)), (⟨[1], .var 0⟩, (1, 0)), (⟨[1], .op 2⟩, (1, 0)), (⟨[1], .op 1⟩, (1, 0)), (⟨[], .op 0⟩, (1, 1))] t = some sh → sh = (1, 0) := by
          intro r hr t ht sh hsh
          rcases (by simpa using hr : r = .imp 1 ∨ r = .loc 0) with rfl | rfl
          · cases ht.det (.imp [] 1 1 _ _ _ _ rfl rfl (.source 1))
            exact (Option.some.inj hsh).symm
          · cases ht.det (.loc _ _)
            exact (Option.some.inj hsh).symm
        rw [key r hr t ht sh hsh, key r' hr' t' ht' sh' hsh']
  · rintro k r (⟨rfl, rfl⟩ | ⟨rfl, rfl⟩)
    · exact ⟨_, rfl, _, _, rfl, rfl, rfl⟩
    · exact ⟨_, rfl, _, _, rfl, rfl, rfl⟩
  · have reached : ∀ n, CanHold some shRoot shInput (.site ⟨[1], .op 1⟩) (.tuple [rvInt n], .tuple []) → CanHold some shRoot shInput (.site ⟨[1], .var 0⟩) (.tuple [rvInt n], .tuple []) := by
      intro n h
      exact .var [1] shReach ⟨0, .loc 2⟩ _ _ rfl List.mem_cons_self (.loc _ _) (.reduce [1] shReach 2 (.loc 1) .distinct (.site ⟨[1], .op 1⟩) (.tuple [rvInt n]) [(.tuple [], 1)] (.tuple [], 1) rfl rfl (.loc _ _) (by simp)
        (fun p hp => by cases List.mem_singleton.1 hp; exact h) (by simp [reducer]))
    have h1 : CanHold some shRoot shInput (.site ⟨[1], .var 0⟩) (.tuple [rvInt 1], .tuple []) :=
      reached 1 (.concat [1] shReach 1 [.imp 1, .loc 0] (.imp 1) (.source 1) _ rfl rfl (by simp) (.imp [] 1 1 _ _ _ _ rfl rfl (.source 1)) (.source 1 _ (.inr ⟨rfl, rfl⟩)))
    have h2 : CanHold some shRoot shInput (.site ⟨[], .op 0⟩) (.tuple [rvInt 1], .tuple [rvInt 2]) :=
      .linear [] shRoot 0 (.imp 0) _ (.source 0) (.tuple [rvInt 1, rvInt 2], .tuple []) _ rfl rfl (.source 0) (.source 0 _ (.inl ⟨rfl, rfl⟩))
        ⟨_, ⟨by simp [denote, denoteFields, Value.fields], by simp [denote, denoteFields, Value.fields]⟩, rfl⟩
    exact reached 2 (.concat [1] shReach 1 [.imp 1, .loc 0] (.loc 0) _ _ rfl rfl (by simp) (.loc _ _) (.join [1] shReach 0 (.var 0) (.imp 0) _ _ _ (.tuple [rvInt 1]) (.tuple []) (.tuple [rvInt 2]) _ rfl rfl (.var _ _)
      (.imp [] 1 0 _ _ _ _ rfl rfl (.loc _ _)) h1 h2 (by simp [denote, denoteFields, Value.fields]) (by simp [denote, denoteFields, Value.fields])))

/-- The hypotheses of C75 are met by the loop of C74. -/
example : ScopeWF rvRoot ∧ ScopeClosed rvRoot ∧ [(1, 0)].length = rvRoot.imports.length ∧ scopeSize rvRoot < 20 := ⟨rvRoot_wf, rvRoot_closed, rfl, by decide +kernel⟩

/-- **C75** (defect). A variable that is bound to itself gets no shape. It stays empty, and the program exports something else, but explanations of the export panic. -/
theorem C75_empty_defect (norm : Overflow) (pair : Target → RowColl) (query : RowColl) : ∃ shapes, siteShapes shIdle 9 [(1, 0)] 9 = some shapes ∧ exportShape shIdle 9 [(1, 0)] 9 = some (1, 0) ∧
    (∀ sources r, ¬ CanHold norm shIdle sources (.site ⟨[0], .var 0⟩) r) ∧
    (⟨norm, shIdle, 9, fun a => shapes.lookup a, [(1, 0)], pair, fun _ => []⟩ : RevEnv String).reverse query = none := by
  refine ⟨[], by decide +kernel, by decide +kernel, ?_, rfl⟩
  intro sources r h
  generalize ht : Target.site ⟨[0], .var 0⟩ = t at h
  induction h with
  | var path s b t r hs hb hn _ ih =>
    simp only [Target.site.injEq, Addr.mk.injEq, Site.var.injEq] at ht
    obtain ⟨rfl, -⟩ := ht
    cases hs
    rcases List.mem_singleton.1 hb with rfl
    exact ih ((Names.var [0] 0).det hn)
  | _ => cases ht

/-- **C75** (defect). A list that is collected is not a value of one field, as is inferred. So a round of the explanation of a collected list, read through a concatenation, finds no records that the list depends on, though the list
comes from two records of the source. -/
theorem C75_collect_defect : ∃ shapes, siteShapes shCollect 9 [(1, 1)] 9 = some shapes ∧ shapeIn [(1, 1)] shapes (.site ⟨[], .op 0⟩) = some (1, 1) ∧
    CanHold some shCollect (fun _ r => r ∈ shSource) (.site ⟨[], .op 1⟩) (.tuple [rvInt 1], shList) ∧ ¬ HasShape 1 1 (.tuple [rvInt 1], shList) ∧
    ((shEnv shapes).round [(.tuple [rvInt 1], .tuple [shList, rvInt 7])] [shSource] [[]]).map Prod.snd = some [[]] := by
  refine ⟨_, (by decide +kernel : siteShapes shCollect 9 [(1, 1)] 9 = some [(⟨[], .op 1⟩, (1, 1)), (⟨[], .op 0⟩, (1, 1))]), by decide +kernel, ?_, ?_, shCollect_round⟩
  · refine .concat [] shCollect 1 [.loc 0] (.loc 0) _ _ rfl rfl (by simp) (.loc _ _) ?_
    exact .reduce [] shCollect 0 (.imp 0) .collect (.source 0) (.tuple [rvInt 1]) [(.tuple [rvInt 2], 1), (.tuple [rvInt 3], 1)] (shList, 1) rfl rfl (.source 0) (by simp)
      (fun p hp => .source 0 _ (by rcases (by simpa using hp : p = (.tuple [rvInt 2], 1) ∨ p = (.tuple [rvInt 3], 1)) with rfl | rfl <;> simp [shSource])) (by simp [reducer, shList])
  · rintro ⟨ks, vs, h, -⟩
    cases h

end DD
