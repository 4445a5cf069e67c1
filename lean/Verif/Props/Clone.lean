import Verif.Proofs.CloneSplice
import Verif.Proofs.LowerClosed
import Verif.Props.ScopeIr
import Verif.Props.Lower

/-!
# C73: clones of programs compute what the programs compute, and show what happens inside them

`p` is a program whose references are in order (`ScopeWF`) and to something that is there (`ScopeClosed`). Runs are solutions of the equations of the dataflow (`Solves`), for any backend.
-/

namespace DD
open Ir
variable {L P Q N Col Arr : Type*}

theorem Ir.placed_fst (f : Ref → Ref) (l : List (Addr × Ref)) : (l.map (placed f [])).map Prod.fst = l.map Prod.fst := by
  rw [List.map_map]; exact List.map_congr_left fun a _ => rfl

/-- **C73, cloning.** Cloning never panics. What was in the scope stays as it was, and the clone follows it; the exports keep their names and order. Each operator and variable of the program, in all its
scopes, is listed exactly once, and nothing else is. -/
theorem C73_clones (lift : L) (host : Nat → N) (p out : Scope L P Q N) (m : List Ref) (hw : ScopeWF p) (hc : ScopeClosed p) (hm : m.length = p.imports.length) :
    ∃ out' vis, cloneInto lift host p out m = some (out', vis) ∧ out'.name = out.name ∧ out'.imports = out.imports ∧ out'.vars = out.vars ++ p.vars ∧
      (∃ items, items.length = p.items.length ∧ out'.items = out.items ++ items) ∧ (∃ binds, binds.length = p.binds.length ∧ out'.binds = out.binds ++ binds) ∧
      (∃ exports, exports.map Export.name = p.exports.map Export.name ∧ out'.exports = out.exports ++ exports) ∧
      (vis.map Prod.fst).Nodup ∧ ∀ path site, (⟨path, site⟩ : Addr) ∈ vis.map Prod.fst ↔ HasSite path site p := by
  refine ⟨_, _, cloneRec_ok lift host p out m [] hw hc hm, rfl, rfl, rfl, ⟨_, by simp, rfl⟩, ⟨_, by simp, rfl⟩, ⟨_, by simp [Function.comp_def], rfl⟩, ?_, ?_⟩
  · rw [placed_fst]; exact visScope_nodup p
  · intro path site
    rw [← visScope_hasSite path site p, placed_fst]

/-- **C73, the identity.** A program cloned into a fresh root has the same imports and the same named exports, and computes the same. -/
theorem C73_identity (sem : Sem L P Q N Col Arr) (lift : L) (host : Nat → N) (p : Scope L P Q N) (hw : ScopeWF p) (hc : ScopeClosed p) :
    ∃ q, cloneIdentity lift host p = some q ∧ q.imports = p.imports ∧ q.exports.map Export.name = p.exports.map Export.name ∧
      ∀ depth imports outs, ScopeSem sem q depth imports outs ↔ ScopeSem sem p depth imports outs := by
  have h := cloneRec_ok lift host p ⟨p.name, p.imports, [], [], [], []⟩ ((List.range p.imports.length).map .imp) [] hw hc (by simp)
  simp only [List.length_nil, shiftRef_id, List.nil_append, Nat.zero_add] at h
  have e : (p.items.map (hostItem lift host)).map (Item.mapRefs id) = p.items.map (hostItem lift host) := by
    rw [List.map_map]; exact List.map_congr_left fun x _ => Item.mapRefs_id _
  simp only [e, id, List.map_id'] at h
  exact ⟨{ p with items := p.items.map (hostItem lift host) }, by rw [cloneIdentity, cloneInto, h]; rfl, rfl, rfl, fun depth imports outs => identity_sem hw hc⟩

/-- **C73, what a clone computes.** The program is cloned into `out`, and the scope is completed to `w`: by items and binds after those of the clone, and by variables; other binds do not set the clone's
variables. The references given for the imports are to collections `entering`, of what was in the scope before. Then every run of `w` contains a run of the program on `entering`: its exports are those of
the run, and the reference listed for each site leads to the collection of the site in this run, brought up to the scope `w`: at the end of each scope around it, the round of the iteration is appended to
the values and the collection leaves the scope. -/
theorem C73_run (sem : Sem L P Q N Col Arr) (lift : L) (host : Nat → N) (p out out' w : Scope L P Q N) (m : List Ref) (vis : List (Addr × Ref)) (hw : ScopeWF p) (hc : ScopeClosed p)
    (hm : m.length = p.imports.length) (hclone : cloneInto lift host p out m = some (out', vis)) (moreItems : List (Item L P Q N)) (moreVars : List N) (moreBinds : List Bind)
    (hitems : w.items = out'.items ++ moreItems) (hvars : w.vars = out'.vars ++ moreVars) (hbinds : w.binds = out'.binds ++ moreBinds)
    (hother : ∀ b ∈ out.binds ++ moreBinds, ∀ v, v < p.vars.length → b.var ≠ out.vars.length + v)
    (depth : Nat) (imports vars entering : List Col) (vals : List (RItem Col Arr)) (hlen : vars.length = w.vars.length) (hrun : ItemsSem sem w.items depth imports vars [] vals)
    (hloop : VarsOk sem depth (resolve (vals[·]?) imports vars) w.binds vars)
    (hent : ∀ (k : Nat) r, m[k]? = some r → ∃ c, entering[k]? = some c ∧ resolve ((vals.take out.items.length)[·]?) imports vars r = some (.coll c)) :
    ∃ parts outs, Solves sem p depth entering ((vars.drop out.vars.length).take p.vars.length) parts outs ∧
      (∀ a r, (a, r) ∈ vis → ∃ x, resolve (vals[·]?) imports vars r = some x ∧
        hostOf sem lift a.path a.site p depth entering ((vars.drop out.vars.length).take p.vars.length) parts = some (x.collection sem)) ∧
      exportsOf sem (resolve (vals[·]?) imports vars) (out'.exports.drop out.exports.length) = some outs := by
  have h := cloneRec_ok lift host p out m [] hw hc hm
  rw [cloneInto, h] at hclone
  cases hclone
  obtain ⟨parts, outs, h1, h2, h3⟩ := splice_run (lift := lift) (host := host) (moreItems := moreItems) (moreBinds := moreBinds) hw hc hm hitems (by rw [hvars]; simp) hbinds hother hlen hrun hloop hent
  refine ⟨parts, outs, h1, ?_, ?_⟩
  · intro a r har
    obtain ⟨b, hb, e⟩ := List.mem_map.1 har
    cases e
    obtain ⟨x, h4, h5⟩ := h2 b hb
    exact ⟨x, h4, h5⟩
  · simp only [List.drop_left]
    rw [← h3]
    exact exportsOf_map

/-- **C73, every run of the program is found in the clone.** Given values for what was in the scope before, and a run of the program on the collections that the imports stand for, there are values for
the clone that satisfy its equations, with the exports of the run. -/
theorem C73_extends (sem : Sem L P Q N Col Arr) (lift : L) (host : Nat → N) (p out out' : Scope L P Q N) (m : List Ref) (vis : List (Addr × Ref)) (hw : ScopeWF p) (hc : ScopeClosed p)
    (hm : m.length = p.imports.length) (hclone : cloneInto lift host p out m = some (out', vis)) (depth : Nat) (imports vars entering outs : List Col) (vals : List (RItem Col Arr)) (parts : List (RunPart Col Arr))
    (hrun : ItemsSem sem out.items depth imports vars [] vals) (hent : ∀ (k : Nat) r, m[k]? = some r → ∃ c, entering[k]? = some c ∧ resolve (vals[·]?) imports vars r = some (.coll c))
    (hsol : Solves sem p depth entering ((vars.drop out.vars.length).take p.vars.length) parts outs) :
    ∃ more, ItemsSem sem out'.items depth imports vars [] (vals ++ more) ∧
      (∀ b ∈ out'.binds.drop out.binds.length, ∃ c, resolve ((vals ++ more)[·]?) imports vars b.value = some c ∧ vars[b.var]? = some (sem.feedback depth (c.collection sem))) ∧
      exportsOf sem (resolve ((vals ++ more)[·]?) imports vars) (out'.exports.drop out.exports.length) = some outs := by
  have h := cloneRec_ok lift host p out m [] hw hc hm
  rw [cloneInto, h] at hclone
  cases hclone
  have hw' := (scopeWF_iff.1 hw).1
  obtain ⟨h1, h2⟩ := splice_extend (lift := lift) (host := host) hw hc hm hrun hent hsol
  obtain ⟨g1, -, g3, g4⟩ := solves_iff.1 hsol
  refine ⟨_, h1, ?_, ?_⟩
  · simp only [List.drop_left]
    intro b hb
    obtain ⟨x, hx, rfl⟩ := List.mem_map.1 hb
    obtain ⟨c, h3, h4⟩ := g3.2.1 x hx
    refine ⟨c, by rw [h2 _ (mem_refsOf_bind hx) (hw'.binds x hx)]; exact h3, ?_⟩
    rwa [List.getElem?_take, if_pos ((scopeClosed_iff.1 hc).2.1 x hx), List.getElem?_drop] at h4
  · simp only [List.drop_left]
    rw [← g4]
    exact exportsOf_map.trans (exportsOf_congr fun e he => h2 _ (mem_refsOf_export he) (hw'.exports e he))

/-- **C73 with C69.** All programs that are lowered can be cloned: what is asked of `p` above holds of them. A clone of a lowered program computes what the program as written says. -/
theorem C73_lowered [LinearOrder N] (sem : Sem L P Q N Col Arr) (lift : L) (host : Nat → N) (inputName : Nat → N) (root : N) (body : List (Stmt L P Q N)) (hd : Distinct body) (p : Scope L P Q N)
    (h : lowerTree inputName root body = some p) (inputs : Nat → Col) (traces : N → Col) :
    ScopeWF p ∧ ScopeClosed p ∧ ∃ q I, cloneIdentity lift host p = some q ∧ q.exports.map Export.name = (exportsIn body).map Prod.fst ∧
      q.imports.mapM (fun i => external inputs traces i.src) = some I ∧
      ∀ outs, ProgramSem sem body inputs traces outs ↔ outs.map Prod.fst = (exportsIn body).map Prod.fst ∧ ScopeSem sem q 0 I (outs.map Prod.snd) := by
  obtain ⟨hw, he, I, hi, ho⟩ := C69_lower sem inputName root body hd p h inputs traces
  have hc := lowerTree_closed hd h
  obtain ⟨q, h1, h2, h3, h4⟩ := C73_identity sem lift host p hw hc
  exact ⟨hw, hc, q, I, h1, h3.trans he, by rw [h2]; exact hi, fun outs => by rw [ho, h4]⟩

/-! ### A program -/

namespace Ir

/-- A loop that adds what enters to its variable, and arranges the result. -/
def clChild : ExScope := ⟨"loop", [⟨"x", .parent (.imp 0)⟩], ["v"], [.op (.concat [.imp 0, .var 0]), .op (.arrange (.loc 0)), .op (.reduce (.loc 1) 7)], [⟨0, .loc 0⟩], [⟨"y", .loc 2⟩]⟩

/-- A program with the loop. -/
def clRoot : ExScope := ⟨"root", [⟨"in", .input 0⟩], [], [.sub clChild, .op (.linear (.childExport 0 0) [.negate])], [], [⟨"out", .loc 1⟩]⟩

theorem clRoot_wf : ScopeWF clRoot := by
  refine ⟨refsOk_of_check rfl, ⟨refsOk_of_check rfl, ?_⟩, trivial, trivial⟩
  simp only [ItemsWF, ItemWF, and_self]

theorem clRoot_closed : ScopeClosed clRoot := by
  refine ⟨?_, fun b hb => (by cases hb), ⟨?_, ?_, ?_, trivial, trivial, trivial, trivial⟩, trivial, trivial⟩
  · intro r hr
    rcases (by simpa [refsOf, clRoot, Item.refs, Node.refs, clChild, Source.refs] using hr : r = .imp 0 ∨ r = .childExport 0 0 ∨ r = .loc 1) with rfl | rfl | rfl
    · exact Nat.zero_lt_one
    · intro c hc; cases hc; exact Nat.zero_lt_one
    · trivial
  · intro i hi
    cases List.mem_singleton.1 hi
    exact ⟨_, rfl⟩
  · intro r hr
    rcases (by simpa [refsOf, Item.refs, Node.refs] using hr : r = .imp 0 ∨ r = .var 0 ∨ r = .loc 0 ∨ r = .loc 1 ∨ r = .loc 0 ∨ r = .loc 2) with rfl | rfl | rfl | rfl | rfl | rfl
    · exact Nat.zero_lt_one
    · exact Nat.zero_lt_one
    all_goals trivial
  · intro b hb
    cases List.mem_singleton.1 hb
    exact Nat.zero_lt_one

/-- The clone: the sites of the loop are lifted and exported. -/
def clClone : ExScope := ⟨"root", [⟨"in", .input 0⟩], [],
  [.sub ⟨"loop", [⟨"x", .parent (.imp 0)⟩], ["v"],
     [.op (.concat [.imp 0, .var 0]), .op (.arrange (.loc 0)), .op (.reduce (.loc 1) 7),
      .op (.linear (.var 0) [.liftIter]), .op (.linear (.loc 0) [.liftIter]), .op (.linear (.loc 0) [.liftIter]), .op (.linear (.loc 2) [.liftIter])], [⟨0, .loc 0⟩],
     [⟨"y", .loc 2⟩, ⟨"$host:1", .loc 3⟩, ⟨"$host:2", .loc 4⟩, ⟨"$host:3", .loc 5⟩, ⟨"$host:4", .loc 6⟩]⟩,
   .op (.linear (.childExport 0 0) [.negate])], [], [⟨"out", .loc 1⟩]⟩

/-- Names of lifted exports. -/
def hostName (i : Nat) : String := "$host:" ++ String.ofList (Nat.toDigits 10 i)

example : cloneInto .liftIter hostName clRoot ⟨"root", [⟨"in", .input 0⟩], [], [], [], []⟩ [.imp 0] = some (clClone,
    [(⟨[0], .var 0⟩, .childExport 0 1), (⟨[0], .op 0⟩, .childExport 0 2), (⟨[0], .op 1⟩, .childExport 0 3), (⟨[0], .op 2⟩, .childExport 0 4), (⟨[], .op 1⟩, .loc 1)]) := rfl

/-- Collections that record what was done to them. -/
def clSem : Sem (LinearOp Part) Nat Nat String Nat Nat where
  linear depth ops c := 100 * c + 10 * depth + ops.length
  concat a b := a + b
  arrange c := c
  asCollection a := a
  join a b p := a + b + p
  reduce a q := a + q
  inspect _ c := c
  enter c := 2 * c
  leave c := c + 1
  leaveDynamic depth c := c + 1000 * depth
  feedback _ _ := 3
  never := 0

/-- A run of the program. -/
theorem clRoot_run : Solves clSem clRoot 0 [5] [] [.sub [10] [3] [.op (.coll 13), .op (.arr 13), .op (.arr 20)] [20], .op (.coll 102101)] [102101] := by
  refine ⟨rfl, ⟨_, _, rfl, ⟨[5], [3], [.op (.coll 13), .op (.arr 13), .op (.arr 20)], [20], rfl, ⟨rfl, ?_, ?_, rfl⟩, rfl⟩, _, _, rfl, ⟨_, rfl, rfl⟩, rfl⟩, ?_, rfl⟩
  · exact ⟨_, _, rfl, ⟨_, rfl, rfl⟩, _, _, rfl, ⟨_, rfl, rfl⟩, _, _, rfl, ⟨_, rfl, rfl⟩, rfl⟩
  · refine ⟨by simp, fun b hb => ?_, fun v hv hn => ?_⟩
    · cases List.mem_singleton.1 hb; exact ⟨_, rfl, rfl⟩
    · obtain rfl : v = 0 := by simpa using hv
      exact (hn (by simp)).elim
  · exact ⟨by simp, fun b hb => (by cases hb), fun v hv => (by cases hv)⟩

/-- What the sites of the loop look like from the root, in this run. -/
example : hostOf clSem .liftIter [0] (.op 1) clRoot 0 [5] [] [.sub [10] [3] [.op (.coll 13), .op (.arr 13), .op (.arr 20)] [20], .op (.coll 102101)] = some 2312 := rfl

end Ir

/-- The hypotheses of C73 are met, by a program that has a run. -/
example : ∃ q, cloneIdentity .liftIter hostName clRoot = some q ∧ ScopeSem clSem q 0 [5] [102101] := by
  obtain ⟨q, h1, -, -, h2⟩ := C73_identity clSem .liftIter hostName clRoot clRoot_wf clRoot_closed
  exact ⟨q, h1, (h2 0 [5] [102101]).2 ((scopeSem_iff_solves _ _ _ _).2 ⟨_, _, clRoot_run⟩)⟩

/-- The program is cloned after an operator, and its import stands for this operator's collection. -/
example : ∃ out' vis more, cloneInto .liftIter hostName clRoot ⟨"root", [⟨"in", .input 0⟩], ["u"], [.op (.linear (.imp 0) [.negate])], [⟨0, .loc 0⟩], []⟩ [.var 0] = some (out', vis) ∧
    ItemsSem clSem out'.items 0 [7] [5] [] (.op (.coll 701) :: more) := by
  obtain ⟨out', vis, h1, -⟩ := C73_clones .liftIter hostName clRoot ⟨"root", [⟨"in", .input 0⟩], ["u"], [.op (.linear (.imp 0) [.negate])], [⟨0, .loc 0⟩], []⟩ [.var 0] clRoot_wf clRoot_closed rfl
  obtain ⟨more, h2, -⟩ := C73_extends clSem .liftIter hostName clRoot _ out' [.var 0] vis clRoot_wf clRoot_closed rfl h1 0 [7] [5] [5] [102101] [.op (.coll 701)] _
    (by simp only [ItemsSem, ItemSem]; exact ⟨_, ⟨_, rfl, rfl⟩, rfl⟩) (fun k r hk => by
      cases k with
      | zero => cases hk; exact ⟨5, rfl, rfl⟩
      | succ k => cases hk) clRoot_run
  exact ⟨out', vis, more, h1, h2⟩

/-- A lowered program that is cloned. -/
example {Col Arr : Type*} (sem : Sem Nat Nat Nat Nat Col Arr) (inputs traces : Nat → Col) (out : Col) :
    ∃ q I, cloneIdentity 9 (· + 60) exTree = some q ∧ (ProgramSem sem exBody inputs traces [(10, out)] → ScopeSem sem q 0 I [out]) := by
  obtain ⟨-, -, q, I, h1, -, -, h2⟩ := C73_lowered sem 9 (· + 60) exInput 50 exBody exBody_distinct exTree exBody_lowered inputs traces
  exact ⟨q, I, h1, fun h => ((h2 _).1 h).2⟩

end DD
