import Verif.Proofs.ScalarReduce

/-!
# C70: scalar terms of `interactive` have the values their definition says

`rows` are the rows an operator evaluates a term on, `bs` the values bound by enclosing `case`s and `fold`s, innermost first. `denote` is what a term means, with no stack, and `Less` the order of values. `none` is a panic.
-/

namespace DD
open Ir
variable {norm : Overflow}

/-- Evaluation gives a value when the term has one, and that value; it panics when it has none. -/
theorem C70_eval (rows : List Value) (t : Term) (h : Scoped rows.length t 0) : (eval norm t rows).map Prod.fst = denote norm rows t [] := by
  have := eval_denote (norm := norm) (rows := rows) t [] h
  rw [List.reverse_nil, List.append_nil] at this
  rw [this, Option.map_map]
  exact congrFun Option.map_id _

/-- What is pushed is popped: whatever the term, and even if it reads what it should not, the environment on return is what it was. -/
theorem C70_restores (t : Term) (env env' : List Value) (v : Value) (h : eval norm t env = some (v, env')) : env' = env := eval_env t env v env' h

/-- So the key and the value of a projection, evaluated one after the other on the same environment, are evaluated on the rows. -/
theorem C70_projection (key val : Term) (rows : List Value) (k : Value) (env : List Value) (h : eval norm key rows = some (k, env)) : eval norm val env = eval norm val rows := by
  rw [C70_restores key rows env k h]

/-- A term that uses `b` binders has the same value however many other binders there are around it. -/
theorem C70_depth (rows bs extra : List Value) (t : Term) (h : Scoped rows.length t bs.length) :
    (eval norm t (rows ++ extra.reverse ++ bs.reverse)).map Prod.fst = (eval norm t (rows ++ bs.reverse)).map Prod.fst := by
  have h1 := eval_denote (norm := norm) t bs h
  have h2 := eval_denote (norm := norm) t (bs ++ extra) (scoped_mono t _ _ _ (by simp) h)
  rw [List.reverse_append, ← List.append_assoc] at h2
  rw [h1, h2, denote_deep t bs extra _ h, Option.map_map, Option.map_map]
  rfl

/-- The comparison of values is a strict total order. -/
theorem C70_order (a b c : Value) : ((a.cmp b = .lt ↔ a.Less b) ∧ (a.cmp b = .eq ↔ a = b) ∧ (a.cmp b = .gt ↔ b.Less a)) ∧ ¬ a.Less a ∧ (a.Less b → b.Less c → a.Less c) ∧ (a.Less b ∨ a = b ∨ b.Less a) :=
  ⟨⟨Value.cmp_lt a b, Value.cmp_eq a b, Value.cmp_gt⟩, Value.less_irrefl a, Value.less_trans a b c, Value.less_trichotomy a b⟩

/-- A hash with a positive bound is below it, and any hash fits in a non-negative `i64`. -/
theorem C70_hash (rows : List Value) (args : List Term) (v : Value) (env : List Value) (h : eval norm (.hash args) rows = some (v, env)) :
    ∃ bound n : Int, v = .int n ∧ (args.head?.bind fun a => (eval norm a rows).map Prod.fst) = some (.int bound) ∧ 0 ≤ n ∧ n < 2 ^ 63 ∧ (0 < bound → n < bound) := by
  cases args with
  | nil => simp only [eval] at h; cases h
  | cons a as =>
    simp only [eval] at h
    obtain ⟨⟨x, e⟩, h1, h2⟩ := Option.bind_eq_some_iff.1 h
    obtain ⟨bound, h3, h4⟩ := Option.bind_eq_some_iff.1 h2
    obtain ⟨⟨acc, e'⟩, -, h5⟩ := Option.map_eq_some_iff.1 h4
    have hx : x = .int bound := by cases x <;> simp_all [Value.asInt]
    refine ⟨bound, hashDraw bound acc, (Prod.mk.inj h5).1.symm, by simp [h1, hx], ?_⟩
    have hs : ((acc >>> 1).toNat : Int) < 2 ^ 63 := by
      have h2 : (acc >>> 1).toNat = acc.toNat / 2 := by
        rw [UInt64.toNat_shiftRight]
        simp [Nat.shiftRight_eq_div_pow]
      have h3 := acc.toNat_lt
      rw [h2]
      omega
    unfold hashDraw
    simp only
    by_cases hb : bound > 0
    · rw [if_pos hb]
      have h6 := Int.emod_nonneg ((acc >>> 1).toNat : Int) (b := bound) (by omega)
      have h7 := Int.emod_lt_of_pos ((acc >>> 1).toNat : Int) hb
      have h8 : ((acc >>> 1).toNat : Int) % bound ≤ (acc >>> 1).toNat := by
        by_cases hl : ((acc >>> 1).toNat : Int) < bound
        · rw [Int.emod_eq_of_lt (by omega) hl]
        · omega
      exact ⟨h6, by omega, fun _ => h7⟩
    · rw [if_neg hb]
      exact ⟨by omega, hs, fun h => absurd h hb⟩

/-- `min` gives the least of the values it is handed. -/
theorem C70_min (vals : List (Value × Int)) (h : vals ≠ []) : ∃ m ∈ vals.map Prod.fst, reducer .min vals = [(m, 1)] ∧ ∀ v ∈ vals.map Prod.fst, m = v ∨ m.Less v := by
  cases vals with
  | nil => exact absurd rfl h
  | cons p vals =>
    obtain ⟨h1, h2⟩ := least_fold (vals.map Prod.fst) p.1
    exact ⟨_, h1, rfl, h2⟩

open Classical in
/-- `collect` gives a sorted list of the values, each as often as its count says. -/
theorem C70_collect (vals : List (Value × Int)) (h : vals.Pairwise fun p q => p.1.Less q.1) :
    ∃ xs, reducer .collect vals = [(.list xs, 1)] ∧ xs.Pairwise (fun a b => a = b ∨ a.Less b) ∧ ∀ v, xs.count v = ((vals.filter fun p => p.1 = v).map fun p => p.2.toNat).sum :=
  ⟨_, rfl, collect_sorted vals h, collect_count vals⟩

/-- `count` gives the number of elements `collect` gives, if no count is negative, and nothing if that is zero. -/
theorem C70_count (vals : List (Value × Int)) (h : ∀ p ∈ vals, 0 ≤ p.2) (xs : List Value) (hx : reducer .collect vals = [(.list xs, 1)]) :
    reducer .count vals = if xs = [] then [] else [(.tuple [.int xs.length], 1)] := by
  have h1 : vals.flatMap (fun p => List.replicate p.2.toNat p.1) = xs := by simpa [reducer] using hx
  have h2 := collect_length vals h
  rw [h1] at h2
  unfold reducer
  simp only
  rw [← h2]
  by_cases h3 : xs = []
  · simp [h3]
  · have : 0 < xs.length := List.length_pos_iff.2 h3
    simp [h3, this]

/-- A list that is flattened and collected again is the list of its elements with their positions, in their order. -/
theorem C70_nest (xs : List Value) : (enumerate xs).Pairwise Value.Less ∧ reducer .collect ((enumerate xs).map fun v => (v, 1)) = [(.list (enumerate xs), 1)] :=
  ⟨enumerate_sorted xs, by simp [reducer, List.flatMap_map]⟩

/-! ### Instances -/

/-- The sum of the squares of a list, plus the key's field: a fold inside which `^0` is the element and `^1` the sum. -/
def scalarSum : Term := .fold (.proj (.var 1) 0) (.proj (.var 0) 0) (.binary .add (.bound 1) (.binary .mul (.bound 0) (.bound 0)))

example : eval checked scalarSum [.tuple [.int 5], .tuple [.list [.int 1, .int 2, .int 3]]] = some (.int 19, [.tuple [.int 5], .tuple [.list [.int 1, .int 2, .int 3]]]) := by
  simp [scalarSum, eval, evalRef, Value.fields, foldLoop, evalBinary, Value.asInt, checked]

example : Scoped 2 scalarSum 0 := by simp [scalarSum, Scoped]

/-- A `case` inside an arm, which reads both payloads. -/
def scalarCase : Term := .case (.var 0) [.case (.var 1) [.tuple [.bound 0, .bound 1]] (some (.bound 0))] none

example : eval checked scalarCase [.variant 0 (.int 7), .variant 0 (.int 9)] = some (.tuple [.int 9, .int 7], [.variant 0 (.int 7), .variant 0 (.int 9)]) := by
  simp [scalarCase, eval, evalArms, buildSeq]

example : eval checked scalarCase [.variant 0 (.int 7), .variant 3 (.int 9)] = some (.int 7, [.variant 0 (.int 7), .variant 3 (.int 9)]) := by
  simp [scalarCase, eval, evalArms, evalDefault]

example : Scoped 2 scalarCase 0 := by simp [scalarCase, Scoped, AllScoped, OptionScoped]

/-- A term of two rows that reads a third is given the innermost binder: the hypothesis of `C70_eval` is needed. -/
example : eval checked (.case (.var 0) [.var 2] none) [.variant 0 (.int 7), .int 1] = some (.int 7, [.variant 0 (.int 7), .int 1]) := by
  simp [eval, evalArms]

/-- With and without overflow checks. -/
example : eval checked (.binary .add (.int (2 ^ 63 - 1)) (.int 1)) [] = none ∧ eval wrapping (.binary .add (.int (2 ^ 63 - 1)) (.int 1)) [] = some (.int (-2 ^ 63), []) := by
  constructor
  · simp [eval, evalBinary, Value.asInt, checked]
  · simp [eval, evalBinary, Value.asInt, wrapping, Int.bmod]

example : reducer .min [(.int 3, 1), (.tuple [], 2), (.int 2, 1)] = [(.int 2, 1)] := by simp [reducer, Value.least, Value.cmp, compare, compareOfLessAndEq]

example : reducer .collect [(.int 2, 2), (.int 3, -1), (.tuple [], 1)] = [(.list [.int 2, .int 2, .tuple []], 1)] := by simp [reducer, List.replicate]

example : reducer .count [(.int 2, 2), (.tuple [], 1)] = [(.tuple [.int 3], 1)] := by simp [reducer]

/-- `distinct` gives a unit for any key it is called on, also one whose counts are negative. -/
example : reducer .distinct [(.int 2, -1)] = [(.tuple [], 1)] := rfl

end DD
