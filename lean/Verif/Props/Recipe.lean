import Verif.Proofs.Recipe
import Verif.Props.Server

/-! # C77: names and rows of the generated sources of the server -/

namespace DD
open Srv

/-- A random graph is named by its parameters in any order, with any blanks around keys and numbers. Of several settings of a parameter the last counts; the arity is 2 and the seed 0 if they are not set; without nodes or edges it is no recipe. -/
theorem C77_random_names (ss : List Setting) (h : ∀ s ∈ ss, s.value < 2 ^ 64) (hne : ss ≠ []) :
    Recipe.parse ("random:".toList ++ spellAll ss) = (valueOf .nodes ss).bind fun n => (valueOf .edges ss).map fun e => .random n e ((valueOf .arity ss).getD 2) ((valueOf .seed ss).getD 0) :=
  parse_random ss h hne

/-- The numbers up to some are named with any blanks around it. -/
theorem C77_iota_names (a b n : Nat) (h : n < 2 ^ 64) : Recipe.parse ("iota:".toList ++ (blank a ++ showNat n ++ blank b)) = some (.iota n) := parse_iota a b n h

/-- The canonical name of a recipe is a name of it. -/
theorem C77_canonical (r : Recipe) (h : r.Fits) : Recipe.parse r.canonical = some r := parse_canonical r h

/-- Two names are made the same name exactly if they name the same recipe. -/
theorem C77_same (a b : List Char) (r r' : Recipe) (ha : Recipe.parse a = some r) (hb : Recipe.parse b = some r') : sources.canon a = sources.canon b ↔ r = r' := by
  have h1 : sources.canon a = r.canonical := by
    unfold World.canon
    rw [show sources.parse a = some r from ha]
    rfl
  have h2 : sources.canon b = r'.canonical := by
    unfold World.canon
    rw [show sources.parse b = some r' from hb]
    rfl
  rw [h1, h2]
  constructor
  · intro h
    have := parse_canonical r (parse_fits ha)
    rw [h, parse_canonical r' (parse_fits hb)] at this
    exact (Option.some.inj this).symm
  · rintro rfl
    rfl

/-- A name that was made canonical is so. -/
theorem C77_idempotent (name : List Char) : sources.canon (sources.canon name) = sources.canon name := by
  cases h : Recipe.parse name with
  | none =>
    have : sources.canon name = name := by
      unfold World.canon
      rw [show sources.parse name = none from h]
    rw [this, this]
  | some r =>
    have h1 : sources.canon name = r.canonical := by
      unfold World.canon
      rw [show sources.parse name = some r from h]
      rfl
    rw [h1]
    unfold World.canon
    rw [show sources.parse r.canonical = some r from parse_canonical r (parse_fits h)]
    rfl

/-- The rows of a random graph: as many as edges, each with as many fields as the arity, each field a node. -/
theorem C77_random_rows_partial (nodes edges arity seed : Nat) (h0 : 0 < nodes) (h : nodes ≤ 2 ^ 63) :
    ∃ rows, (Recipe.random nodes edges arity seed).rows = some rows ∧ rows.length = edges ∧ ∀ row ∈ rows, ∃ fields : List Int, row = (.tuple (fields.map Ir.Value.int), .tuple []) ∧ fields.length = arity ∧ ∀ x ∈ fields, 0 ≤ x ∧ x < nodes := by
  obtain ⟨rows, hr⟩ : ∃ rows, (Recipe.random nodes edges arity seed).rows = some rows := by
    apply mapM_isSome
    intro e _
    obtain ⟨fields, hf, -⟩ := genRow_ok (UInt64.ofNat seed) (UInt64.ofNat e) nodes arity h0 h
    exact ⟨_, hf⟩
  refine ⟨rows, hr, ?_, ?_⟩
  · exact (mapM_some hr).1.trans List.length_range
  · intro row hm
    obtain ⟨e, -, he⟩ := mapM_all hr row hm
    obtain ⟨fields, hf, h1, h2⟩ := genRow_ok (UInt64.ofNat seed) (UInt64.ofNat e) nodes arity h0 h
    have he : genRow (UInt64.ofNat seed) (UInt64.ofNat e) (UInt64.ofNat nodes) arity = some row := he
    rw [hf] at he
    exact ⟨fields, (Option.some.inj he).symm, h1, h2⟩

/-- The rows of the numbers up to some: each number once, in order. -/
theorem C77_iota_rows (n : Nat) (h : n ≤ 2 ^ 63) : (Recipe.iota n).rows = some ((List.range n).map fun e => (.tuple [.int e], .tuple [])) := by
  have : ∀ l : List Nat, (∀ e ∈ l, e < 2 ^ 63) → l.mapM (Recipe.iota n).row = some (l.map fun e => (.tuple [.int e], .tuple [])) := by
    intro l
    induction l with
    | nil => exact fun _ => rfl
    | cons e l ih =>
      intro hl
      have he : (UInt64.ofNat e).toNat = e := by
        rw [UInt64.toNat_ofNat']
        exact Nat.mod_eq_of_lt (by have := hl e List.mem_cons_self; omega)
      rw [List.mapM_cons, ih fun e' h' => hl e' (List.mem_cons_of_mem _ h')]
      have hrow : (Recipe.iota n).row e = some (.tuple [.int e], .tuple []) := by
        show some (Ir.Value.tuple [Ir.Value.int (asI64 (UInt64.ofNat e))], Ir.Value.tuple []) = _
        rw [asI64_small _ (by rw [he]; exact hl e List.mem_cons_self), he]
      rw [hrow]
      rfl
  exact this _ fun e he => by
    have := List.mem_range.1 he
    simp only [Recipe.len] at this
    omega

/-- A random graph with no nodes but edges is a recipe, and to generate it panics. -/
theorem C77_no_nodes_defect : Recipe.parse "random:nodes=0,edges=1".toList = some (.random 0 1 2 0) ∧ (Recipe.random 0 1 2 0).rows = none := by
  constructor
  · decide +kernel
  · rfl

/-- A random graph with more nodes than an `i64` can count has rows with negative fields. -/
theorem C77_many_nodes_defect : ∃ x : Int, genField 0 0 18446744073709551615 1 = some (.int x) ∧ x < 0 := by
  refine ⟨asI64 (Ir.hashU64 (0 * 31 + 0 * 0x9e3779b97f4a7c15 + UInt64.ofNat 1) % 18446744073709551615), ?_, ?_⟩
  · unfold genField
    simp only
    rw [if_neg (by decide)]
  · decide +kernel

/-! ## Cases -/

example : Recipe.parse "random: edges = 12,nodes=8,seed=7".toList = some (.random 8 12 2 7) := by decide +kernel

example : sources.canon "random: edges = 12,nodes=8".toList = "random:nodes=8,edges=12,arity=2,seed=0".toList := by decide +kernel

example : spellAll [{ field := .edges, value := 12, blanks := (1, 1, 1, 0) }, { field := .nodes, value := 8 }] = " edges = 12,nodes=8".toList := by decide +kernel

example : (Recipe.random 8 12 2 0).Fits := ⟨by decide, by decide, by decide, by decide⟩

/-- The names of the server are such that the clock is no recipe (`C76_clock_partial`). -/
example : sources.canon sources.clock = sources.clock := by decide +kernel

example : Recipe.parse "iota:18446744073709551616".toList = none := by decide +kernel

end DD
