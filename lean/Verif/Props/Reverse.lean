import Verif.Proofs.ReverseSpec
import Verif.Proofs.ReverseFuel
import Verif.Proofs.ScalarOrder
import Verif.Props.ScopeIr

/-!
# C74: explanations collect, for each collection, what all its uses ask of it
-/

namespace DD

open Ir Ir.Ex

variable {N : Type*} (env : RevEnv N)

/-- **C74** (references). In a program whose references are in order, following a reference through imports and exports ends, at the one collection it names. -/
theorem C74_resolves (root : XScope N) (hw : ScopeWF root) (hc : ScopeClosed root) :
    ∃ n, ∀ fuel, n ≤ fuel → ∀ (path : List Nat) (s : XScope N), scopeAt root path = some s → ∀ r ∈ refsOf s, ∃ t, resolveRef root fuel path r = some t ∧ ∀ t', Names root path r t' ↔ t' = t := by
  refine ⟨scopeSize root + 1, fun fuel hf path s hs r hr => ?_⟩
  obtain ⟨t, ht⟩ := resolve_total hw hc (n := fuel) (by omega) hs hr
  exact ⟨t, ht, fun t' => ⟨fun h => (h.det (resolveRef_names ht)), fun h => h ▸ resolveRef_names ht⟩⟩

/-- **C74** (operators). What is demanded of an operator is the set of all that is asked of it: by the query, by the variables bound to it and by all operators that read it, each traced by its rule from what is demanded of that operator. Of an operator of which
nothing is asked, nothing is demanded. -/
theorem C74_operators (hw : ScopeWF env.root) (hc : ScopeClosed env.root) (query : RowColl) (st : RevState) (h : env.reverse query = some st) (path : List Nat) (s : XScope N) (i : Nat) (node : XNode N)
    (hs : scopeAt env.root path = some s) (hi : s.items[i]? = some (.op node)) :
    ∃ asked : List RowColl, (∀ c, c ∈ asked ↔ AskedOf env query st.demand (.site ⟨path, .op i⟩) c) ∧
      ((asked = [] ∧ st.demand ⟨path, .op i⟩ = none) ∨
        asked ≠ [] ∧ ∃ shape dep, env.shapes ⟨path, .op i⟩ = some shape ∧ distinctFull env.norm asked.flatten shape.1 (shape.2 + path.length + 1) = some dep ∧ st.demand ⟨path, .op i⟩ = some dep) := by
  obtain ⟨L, h1, -, -, h2⟩ := reverse_spec hw hc h
  obtain ⟨h3, h4⟩ := h2 (.op path i node) (mem_steps.2 ⟨path, s, hs, .inr (.inl ⟨i, node, hi, rfl⟩)⟩)
  refine ⟨_, fun c => mem_ofList.trans (h1 _ c), ?_⟩
  by_cases he : ofList L (.site ⟨path, .op i⟩) = []
  · exact .inl ⟨he, h3 he⟩
  · exact .inr ⟨he, h4 he⟩

/-- **C74** (variables). What is demanded of a variable in the next round is the set of all that is asked of it; it stays as it is if nothing is asked. -/
theorem C74_variables (hw : ScopeWF env.root) (hc : ScopeClosed env.root) (query : RowColl) (st : RevState) (h : env.reverse query = some st) (path : List Nat) (s : XScope N) (v : Nat)
    (hs : scopeAt env.root path = some s) (hv : v < s.vars.length) :
    ∃ asked : List RowColl, (∀ c, c ∈ asked ↔ AskedOf env query st.demand (.site ⟨path, .var v⟩) c) ∧
      ((asked = [] ∧ st.binds ⟨path, .var v⟩ = some (env.vars ⟨path, .var v⟩)) ∨
        asked ≠ [] ∧ ∃ shape dep, env.shapes ⟨path, .var v⟩ = some shape ∧ distinctFull env.norm asked.flatten shape.1 (shape.2 + path.length + 1) = some dep ∧ st.binds ⟨path, .var v⟩ = some dep) := by
  obtain ⟨L, h1, -, -, h2⟩ := reverse_spec hw hc h
  obtain ⟨h3, h4⟩ := h2 (.close path v) (mem_steps.2 ⟨path, s, hs, .inr (.inr ⟨v, hv, rfl⟩)⟩)
  refine ⟨_, fun c => mem_ofList.trans (h1 _ c), ?_⟩
  by_cases he : ofList L (.site ⟨path, .var v⟩) = []
  · exact .inl ⟨he, h3 he⟩
  · exact .inr ⟨he, h4 he⟩

/-- **C74** (sources). The demand set of a source in the next round has what it had, and all that is asked of the source and is in it. -/
theorem C74_sources (hw : ScopeWF env.root) (hc : ScopeClosed env.root) (query : RowColl) (sources dsets next : List RowColl) (st : RevState) (h : env.round query sources dsets = some (st, next)) (k : Nat)
    (source dset : RowColl) (hk : sources[k]? = some source) (hd : dsets[k]? = some dset) :
    ∃ (asked : List RowColl) (shape : Nat × Nat) (out : RowColl), (∀ c, c ∈ asked ↔ AskedOf env query st.demand (.source k) c) ∧ env.sourceShapes[k]? = some shape ∧ next[k]? = some out ∧
      ((asked = [] ∧ distinctFull env.norm dset shape.1 shape.2 = some out) ∨
        ∃ semi, sourceLookup env.norm asked.flatten source shape.1 shape.2 = some semi ∧ distinctFull env.norm (dset ++ semi) shape.1 shape.2 = some out) := by
  obtain ⟨st', hr, h⟩ := Option.bind_eq_some_iff.1 h
  obtain ⟨next', hm, h⟩ := Option.map_eq_some_iff.1 h
  cases h
  obtain ⟨L, h1, h2, -, -⟩ := reverse_spec hw hc hr
  have hz : (sources.zip dsets).zipIdx[k]? = some ((source, dset), k) := by
    rw [List.getElem?_zipIdx, List.getElem?_zip_eq_some (z := (source, dset)) |>.2 ⟨hk, hd⟩]
    simp
  obtain ⟨out, ho, hn⟩ := forall₂_get (mapM_some_iff.1 hm).flip k _ hz
  simp only [RevEnv.nextSet] at hn
  obtain ⟨shape, hsh, hn⟩ := Option.bind_eq_some_iff.1 hn
  obtain ⟨comb, hcomb, hn⟩ := Option.bind_eq_some_iff.1 hn
  refine ⟨ofList L (.source k), shape, out, fun c => mem_ofList.trans (h1 _ c), hsh, ho, ?_⟩
  rw [← h2 k]
  change (if (ofList st.contribs (.source k)).isEmpty then _ else (sourceLookup env.norm (ofList st.contribs (.source k)).flatten source shape.1 shape.2).map _) = _ at hcomb
  by_cases he : ofList st.contribs (.source k) = []
  · rw [if_pos (List.isEmpty_iff.2 he)] at hcomb
    cases hcomb
    exact .inl ⟨he, hn⟩
  · rw [if_neg (fun e => he (List.isEmpty_iff.1 e))] at hcomb
    obtain ⟨semi, h5, rfl⟩ := Option.map_eq_some_iff.1 hcomb
    exact .inr ⟨semi, h5, hn⟩

/-- **C74** (nothing else). Nothing is asked of an address that is not an operator or variable of the program. -/
theorem C74_sites (hw : ScopeWF env.root) (hc : ScopeClosed env.root) (query : RowColl) (st : RevState) (h : env.reverse query = some st) (path : List Nat) (site : Site) (c : RowColl)
    (ha : AskedOf env query st.demand (.site ⟨path, site⟩) c) :
    ∃ s, scopeAt env.root path = some s ∧ ((∃ i node, site = .op i ∧ s.items[i]? = some (.op node)) ∨ ∃ v < s.vars.length, site = .var v) := by
  obtain ⟨L, h1, -, h2, -⟩ := reverse_spec hw hc h
  by_contra hcon
  refine (h2 ⟨path, site⟩ fun x hx e => hcon ?_).2.2 c ((h1 _ c).2 ha)
  obtain ⟨p, s, hs, hx⟩ := mem_steps.1 hx
  rcases hx with ⟨b, hb, rfl⟩ | ⟨i, node, hi, rfl⟩ | ⟨v, hv, rfl⟩
  · cases e
  · cases e; exact ⟨s, hs, .inl ⟨i, node, rfl, hi⟩⟩
  · cases e; exact ⟨s, hs, .inr ⟨v, hv, rfl⟩⟩

/-- **C74** (rows). If all that is asked of an operator has the shape of its rows, what is demanded of it are the rows that are asked for, each once. -/
theorem C74_rows (hw : ScopeWF env.root) (hc : ScopeClosed env.root) (query : RowColl) (st : RevState) (h : env.reverse query = some st) (path : List Nat) (s : XScope N) (i : Nat) (node : XNode N)
    (hs : scopeAt env.root path = some s) (hi : s.items[i]? = some (.op node)) (k v : Nat) (hsh : env.shapes ⟨path, .op i⟩ = some (k, v))
    (hr : ∀ c, AskedOf env query st.demand (.site ⟨path, .op i⟩) c → ∀ r ∈ c, ∃ d : Demand, d.Shaped k v path.length ∧ r = d.row) :
    ((st.demand ⟨path, .op i⟩).getD []).Nodup ∧ ∀ r, r ∈ (st.demand ⟨path, .op i⟩).getD [] ↔ ∃ c, AskedOf env query st.demand (.site ⟨path, .op i⟩) c ∧ r ∈ c := by
  obtain ⟨asked, h1, h2⟩ := C74_operators env hw hc query st h path s i node hs hi
  rcases h2 with ⟨rfl, h2⟩ | ⟨-, shape, dep, h3, h4, h5⟩
  · rw [h2]
    refine ⟨List.nodup_nil, fun r => ⟨fun h => (by cases h), fun ⟨c, hc, _⟩ => ?_⟩⟩
    cases (h1 c).2 hc
  · obtain rfl := Option.some.inj (hsh.symm.trans h3)
    obtain ⟨out, h6, h7, h8⟩ := distinctFull_spec (norm := env.norm) (c := asked.flatten) (k := k) (v := v + path.length + 1) fun r hr' => by
      obtain ⟨c, hc, hrc⟩ := List.mem_flatten.1 hr'
      obtain ⟨d, ⟨e1, e2, e3⟩, rfl⟩ := hr c ((h1 c).1 hc) r hrc
      exact ⟨_, _, rfl, e1, by simp [e2, e3, Nat.add_assoc]⟩
    rw [h5]
    obtain rfl := Option.some.inj (h6.symm.trans h4)
    refine ⟨h7, fun r => (h8 r).trans ?_⟩
    simp only [List.mem_flatten, h1]

/-! ### The hypotheses are met -/

namespace Ir.Ex

/-- An integer. -/
def rvInt (i : Int) : Value := .int i

/-- Equality of values, in the examples. -/
local instance : DecidableEq Value := fun a b => decidable_of_iff _ (Value.cmp_eq a b)

/-- A loop that adds its variable to what enters, as a set. -/
def rvChild : XScope String := ⟨"loop", [⟨"x", .parent (.imp 0)⟩], ["v"], [.op (.concat [.imp 0, .var 0]), .op (.reduce (.loc 0) .distinct)], [⟨0, .loc 1⟩], [⟨"y", .loc 1⟩]⟩

/-- A program with the loop; it also reads the source after the loop. -/
def rvRoot : XScope String := ⟨"root", [⟨"in", .input 0⟩], [], [.sub rvChild, .op (.concat [.childExport 0 0, .imp 0])], [], [⟨"out", .loc 1⟩]⟩

theorem rvRoot_wf : ScopeWF rvRoot := by
  refine ⟨refsOk_of_check rfl, ⟨refsOk_of_check rfl, ?_⟩, trivial, trivial⟩
  simp only [ItemsWF, ItemWF, and_self]

theorem rvRoot_closed : ScopeClosed rvRoot := by
  refine ⟨?_, fun b hb => (by cases hb), ⟨?_, ?_, ?_, trivial, trivial, trivial⟩, trivial, trivial⟩
  · intro r hr
    rcases (by simpa [refsOf, rvRoot, Item.refs, Node.refs, rvChild, Source.refs] using hr : r = .imp 0 ∨ r = .childExport 0 0 ∨ r = .imp 0 ∨ r = .loc 1) with rfl | rfl | rfl | rfl
    · exact Nat.zero_lt_one
    · intro c hc; cases hc; exact Nat.zero_lt_one
    · exact Nat.zero_lt_one
    · trivial
  · intro i hi
    cases List.mem_singleton.1 hi
    exact ⟨_, rfl⟩
  · intro r hr
    rcases (by simpa [refsOf, Item.refs, Node.refs] using hr : r = .imp 0 ∨ r = .var 0 ∨ r = .loc 0 ∨ r = .loc 1) with rfl | rfl | rfl | rfl
    · exact Nat.zero_lt_one
    · exact Nat.zero_lt_one
    all_goals trivial
  · intro b hb
    cases List.mem_singleton.1 hb
    exact Nat.zero_lt_one

/-- The source has one record; it is in the loop in iterations 0 and 1, and in the variable in iteration 1. -/
def rvEnv : RevEnv String where
  norm := some
  root := rvRoot
  fuel := 9
  shapes _ := some (1, 0)
  sourceShapes := [(1, 0)]
  pair
    | .source _ => [Record.row ⟨[rvInt 5], [], []⟩]
    | .site ⟨[], _⟩ => [Record.row ⟨[rvInt 5], [], []⟩]
    | .site ⟨[_], .var _⟩ => [Record.row ⟨[rvInt 5], [], [rvInt 1]⟩]
    | .site ⟨[_], .op _⟩ => [Record.row ⟨[rvInt 5], [], [rvInt 0]⟩, Record.row ⟨[rvInt 5], [], [rvInt 1]⟩]
    | .site _ => []
  vars _ := [Demand.row ⟨⟨[rvInt 5], [], [rvInt 1]⟩, rvInt 7⟩]

/-- The query is for the record. -/
def rvQuery : RowColl := [Demand.row ⟨⟨[rvInt 5], [], []⟩, rvInt 7⟩]

/-- A round: the record is demanded of the operators of the loop in both iterations, of the variable in iteration 1, and of the source. -/
example : (rvEnv.round rvQuery [[Record.row ⟨[rvInt 5], [], []⟩]] [[]]).map (fun x => ([x.1.demand ⟨[], .op 1⟩, x.1.demand ⟨[0], .op 1⟩, x.1.demand ⟨[0], .op 0⟩, x.1.binds ⟨[0], .var 0⟩], x.2)) =
    some ([some [Demand.row ⟨⟨[rvInt 5], [], []⟩, rvInt 7⟩], some [Demand.row ⟨⟨[rvInt 5], [], [rvInt 0]⟩, rvInt 7⟩, Demand.row ⟨⟨[rvInt 5], [], [rvInt 1]⟩, rvInt 7⟩],
      some [Demand.row ⟨⟨[rvInt 5], [], [rvInt 0]⟩, rvInt 7⟩, Demand.row ⟨⟨[rvInt 5], [], [rvInt 1]⟩, rvInt 7⟩], some [Demand.row ⟨⟨[rvInt 5], [], [rvInt 1]⟩, rvInt 7⟩]], [[(.tuple [rvInt 5], .tuple [])]]) := by decide +kernel

end Ir.Ex

/-- The hypotheses of C74 are met. -/
example : ScopeWF rvEnv.root ∧ ScopeClosed rvEnv.root ∧ ∃ st, rvEnv.reverse rvQuery = some st := ⟨rvRoot_wf, rvRoot_closed, Option.isSome_iff_exists.1 (by decide +kernel)⟩

/-- The import of the loop names the source, and the export of the loop an operator in it. -/
example : Names rvRoot [0] (.imp 0) (.source 0) ∧ Names rvRoot [] (.childExport 0 0) (.site ⟨[0], .op 1⟩) :=
  ⟨.imp [] 0 0 _ _ _ _ rfl rfl (.source 0), .childExport [] 0 0 _ _ _ _ rfl rfl (.loc _ _)⟩

end DD
