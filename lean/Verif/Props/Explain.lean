import Verif.Proofs.ExplainMore

/-!
# C72: explanations demand the records that can have produced what is asked for
-/

namespace DD

open Ir Ir.Ex

/-! ### Helpers for examples -/

/-- An integer. -/
private def n (i : Int) : Value := .int i

/-- Arithmetic that does not overflow in the examples. -/
private def exact : Overflow := some

private theorem outerLe_of {a b : List Value} (h : ∀ i < a.length, i < b.length → ∃ x y : Int, a.reverse[i]? = some (.int x) ∧ b.reverse[i]? = some (.int y) ∧ x ≤ y) : OuterLe a b := by
  intro i x y hx hy
  have hi : i < a.length := by
    have := (List.getElem?_eq_some_iff.1 hx).1
    simpa using this
  have hj : i < b.length := by
    have := (List.getElem?_eq_some_iff.1 hy).1
    simpa using this
  obtain ⟨p, q, h1, h2, h3⟩ := h i hi hj
  rw [h1] at hx
  rw [h2] at hy
  cases hx
  cases hy
  rcases Int.lt_or_eq_of_le h3 with h | h
  · exact .inl (.int h)
  · exact .inr (by rw [h])

/-- **C72** (concatenation, and leaving or entering a scope). A demand is traced to the records equal to it, in iterations that are no later; `m` and `l` are the depths of the record's and of the demand's scopes. -/
theorem C72_concat (norm : Overflow) (deps : List Demand) (recs : List Record) (k v m l : Nat) (hd : ∀ d ∈ deps, d.Shaped k v l) (hr : ∀ r ∈ recs, r.Shaped k v m) :
    shapePreservingLookup norm (deps.map Demand.row) ⟨recs.map Record.row, (k, v), m⟩ l = some ((traced deps recs fun r d => r.key = d.key ∧ r.val = d.val).map Demand.row) :=
  shapePreserving_traced hd hr

/-- **C72** (reduction). A demand is traced to all records with its key in iterations that are no later; for the least value, to those with the value. -/
theorem C72_reduce (norm : Overflow) (deps : List Demand) (recs : List Record) (k v kOut w m l : Nat) (reducerMin : Bool) (hd : ∀ d ∈ deps, d.Shaped kOut w l) (hr : ∀ r ∈ recs, r.Shaped k v m) :
    keyedLookup norm (deps.map Demand.row) ⟨recs.map Record.row, (k, v), m⟩ (kOut, w) l reducerMin =
      some ((traced deps recs fun r d => r.key = d.key ∧ (reducerMin = true → v = w → r.val = d.val)).map Demand.row) :=
  keyed_traced (fun d h => (hd d h).2) hr

/-- **C72** (projection). A demand is traced to the records whose projected key is its key, in iterations that are no later: among them are all that are projected to the demanded record. -/
theorem C72_project (norm : Overflow) (deps : List Demand) (recs : List Record) (k v kOut w m l : Nat) (proj : Projection) (hp : Plain [k, v] proj.key) (hd : ∀ d ∈ deps, d.Shaped kOut w l)
    (hr : ∀ r ∈ recs, r.Shaped k v m) (hs : ∀ r ∈ recs, (denote norm [.tuple r.key, .tuple r.val] proj.key []).isSome) :
    lossyLookup norm (deps.map Demand.row) ⟨recs.map Record.row, (k, v), m⟩ (kOut, w) l proj =
      some ((traced deps recs fun r d => denote norm [.tuple r.key, .tuple r.val] proj.key [] = some (.tuple d.key)).map Demand.row) :=
  lossy_traced hp (fun d h => (hd d h).2) hr hs

/-- **C72** (join). A demand is traced to the pairs of records that are joined to it, both in iterations that are no later. -/
theorem C72_join (norm : Overflow) (deps : List Demand) (lefts rights : List Record) (k v w kOut o m l e : Nat) (proj : Projection) (hpk : Plain [k, v, w] proj.key) (hpv : Plain [k, v, w] proj.val)
    (hd : ∀ d ∈ deps, d.Shaped kOut o e) (hl : ∀ r ∈ lefts, r.Shaped k v m) (hr : ∀ r ∈ rights, r.Shaped k w l)
    (hs : ∀ a ∈ lefts, ∀ b ∈ rights, a.key = b.key → (denote norm [.tuple a.key, .tuple a.val, .tuple b.val] proj.key []).isSome ∧
      ∃ vs, denote norm [.tuple a.key, .tuple a.val, .tuple b.val] proj.val [] = some (.tuple vs) ∧ vs.length = o) :
    joinLookup norm (deps.map Demand.row) ⟨lefts.map Record.row, (k, v), m⟩ ⟨rights.map Record.row, (k, w), l⟩ (kOut, o) e proj =
      some (((tracedJoin deps lefts rights fun a b d => denote norm [.tuple a.key, .tuple a.val, .tuple b.val] proj.key [] = some (.tuple d.key) ∧
          denote norm [.tuple a.key, .tuple a.val, .tuple b.val] proj.val [] = some (.tuple d.val)).map fun x => x.1.row),
        ((tracedJoin deps lefts rights fun a b d => denote norm [.tuple a.key, .tuple a.val, .tuple b.val] proj.key [] = some (.tuple d.key) ∧
          denote norm [.tuple a.key, .tuple a.val, .tuple b.val] proj.val [] = some (.tuple d.val)).map fun x => x.2.row)) :=
  join_traced hpk hpv (fun d h => (hd d h).2) hl (fun r h => (hr r h).2) (fun a ha b hb hab => (hs a ha b hb hab).1) (fun a ha b hb hab => (hs a ha b hb hab).2)

/-- **C72** (variable). A demand of a variable is for the record it was bound to one iteration before; there is none in iteration 0. -/
theorem C72_variable (norm : Overflow) (deps : List Demand) (k v l : Nat) (hn : ∀ i : Int, 0 ≤ i → i < 2 ^ 63 → norm i = some i) (hd : ∀ d ∈ deps, d.Shaped k v l)
    (hc : ∀ d ∈ deps, ∃ (i : Int) (outer : List Value), d.chain = .int i :: outer ∧ i < 2 ^ 63) :
    bindLookup norm (deps.map Demand.row) k v l = some ((deps.filterMap Demand.before).map Demand.row) :=
  bind_before hn hd hc

/-- **C72** (filter). The demands for records that pass are passed on. -/
theorem C72_filter (norm : Overflow) (deps : List Demand) (k v l : Nat) (cond : Term) (hp : Columns [k, v] cond 0) (hd : ∀ d ∈ deps, d.Shaped k v l)
    (hs : ∀ d ∈ deps, (denote norm [.tuple d.key, .tuple d.val] cond []).isSome) :
    filterLookup norm (deps.map Demand.row) cond = some ((deps.filter fun d => ((denote norm [.tuple d.key, .tuple d.val] cond []).map Value.truthy).getD false).map Demand.row) :=
  filter_demands hp hd hs

/-- **C72** (flatmap, partial: for list terms that read only columns of the value, and an input in the same scope). A demand for position `i` and element `e` is traced to the records whose list has `e` at `i`, in the demand's iterations. -/
theorem C72_flatmap_partial (norm : Overflow) (deps : List Demand) (recs : List Record) (k v kOut l : Nat) (list : Term) (hp : Columns [0, v] list 0) (hd : ∀ d ∈ deps, d.Shaped kOut 2 l)
    (hr : ∀ r ∈ recs, r.Shaped k v l) (hl : ∀ r ∈ recs, ∃ xs, denote norm [.tuple r.key, .tuple r.val] list [] = some (.list xs)) :
    ∃ out : List Demand, flatMapLookup norm (deps.map Demand.row) ⟨recs.map Record.row, (k, v), l⟩ (kOut, 2) l list = some (out.map Demand.row) ∧
      ∀ x, x ∈ out ↔ ∃ d ∈ deps, ∃ r ∈ recs, (∃ (xs : List Value) (i : Nat) (e : Value), denote norm [.tuple r.key, .tuple r.val] list [] = some (.list xs) ∧ xs[i]? = some e ∧ d.val = [.int i, e]) ∧
        r.key = d.key ∧ OuterLe r.chain d.chain ∧ x = ⟨⟨r.key, r.val, d.chain⟩, d.q⟩ :=
  flatMap_demands hp (fun d h => (hd d h).2) hr hl

/-- **C72** (set). The demands that are passed on are those that arrived, each once. -/
theorem C72_distinct (norm : Overflow) (c : RowColl) (k v : Nat) (hc : ∀ r ∈ c, ∃ ks vs, r = (.tuple ks, .tuple vs) ∧ ks.length = k ∧ vs.length = v) :
    ∃ out, distinctFull norm c k v = some out ∧ out.Nodup ∧ ∀ x, x ∈ out ↔ x ∈ c :=
  distinctFull_spec hc

/-- **C72** (source). The records demanded of a source are the demanded ones, without iterations and queries, whose key is in the source. -/
theorem C72_source (norm : Overflow) (deps : List Demand) (src : List Record) (k v l : Nat) (hd : ∀ d ∈ deps, d.Shaped k v l) :
    ∃ out, sourceLookup norm (deps.map Demand.row) (src.map Record.row) k v = some out ∧ ∀ x, x ∈ out ↔ ∃ d ∈ deps, x = (.tuple d.key, .tuple d.val) ∧ ∃ r ∈ src, r.key = d.key :=
  source_spec hd

/-! ### Where the code does not have the property -/

/-- A list term that reads the key loses the demand: `$0` is not the key when the list is evaluated. -/
theorem C72_flatmap_key_defect : ∃ (list : Term) (r : Record) (d : Demand), Scoped 2 list 0 ∧ denote exact [.tuple r.key, .tuple r.val] list [] = some (.list [n 5]) ∧ r.key = d.key ∧ d.val = [n 0, n 5] ∧
    r.chain = d.chain ∧ flatMapLookup exact [d.row] ⟨[r.row], (1, 0), 0⟩ (1, 2) 0 list = some [] := by
  refine ⟨.list [.proj (.var 0) 0], ⟨[n 5], [], []⟩, ⟨⟨[n 5], [n 0, n 5], []⟩, n 7⟩, by simp [Scoped, AllScoped], rfl, rfl, rfl, rfl, by rfl⟩

/-- If the input of a flatmap is in an outer scope, its explanation panics. -/
theorem C72_flatmap_scope_defect : ∃ (list : Term) (r : Record) (d : Demand), Columns [1, 1] list 0 ∧ denote exact [.tuple r.key, .tuple r.val] list [] = some (.list [n 5]) ∧ r.key = d.key ∧ d.val = [n 0, n 5] ∧
    r.Shaped 1 1 0 ∧ d.Shaped 1 2 1 ∧ flatMapLookup exact [d.row] ⟨[r.row], (1, 1), 0⟩ (1, 2) 1 list = none := by
  refine ⟨.list [.proj (.var 1) 0], ⟨[n 3], [n 5], []⟩, ⟨⟨[n 3], [n 0, n 5], [n 0]⟩, n 7⟩, by simp [Columns, AllColumns], rfl, rfl, rfl, ⟨rfl, rfl, rfl⟩, ⟨rfl, rfl, rfl⟩, by rfl⟩

/-- A projection to a field that reads a whole row, in a loop, loses the demand: the row has the iteration too. -/
theorem C72_whole_row_defect : ∃ (proj : Projection) (r : Record) (d : Demand), (∃ fields, proj.key = .tuple fields) ∧ Scoped 2 proj.key 0 ∧ r.Shaped 1 1 1 ∧ d.Shaped 1 0 1 ∧
    denote exact [.tuple r.key, .tuple r.val] proj.key [] = some (.tuple d.key) ∧ denote exact [.tuple r.key, .tuple r.val] proj.val [] = some (.tuple d.val) ∧ r.chain = d.chain ∧
    lossyLookup exact [d.row] ⟨[r.row], (1, 1), 1⟩ (1, 0) 1 proj = some [] := by
  refine ⟨⟨.tuple [.unary .len (.var 1)], .tuple []⟩, ⟨[n 3], [n 5], [n 0]⟩, ⟨⟨[n 1], [], [n 0]⟩, n 7⟩, ⟨_, rfl⟩, by simp [Scoped, AllScoped], ⟨rfl, rfl, rfl⟩, ⟨rfl, rfl, rfl⟩, ?_, rfl, rfl, by rfl⟩
  simp [denote, denoteFields, unaryMeans, n]

/-! ### The hypotheses are met -/

/-- A demand in iteration 2 of an inner loop, in iteration 1 of an outer one; records of the outer scope in iterations 0 and 3: the first is demanded. -/
example : (∀ d ∈ [(⟨⟨[n 1], [n 2], [n 2, n 1]⟩, n 7⟩ : Demand)], d.Shaped 1 1 2) ∧ (∀ r ∈ [(⟨[n 1], [n 2], [n 0]⟩ : Record), ⟨[n 1], [n 2], [n 3]⟩], r.Shaped 1 1 1) ∧
    (⟨⟨[n 1], [n 2], [n 0]⟩, n 7⟩ : Demand) ∈ traced [⟨⟨[n 1], [n 2], [n 2, n 1]⟩, n 7⟩] [⟨[n 1], [n 2], [n 0]⟩, ⟨[n 1], [n 2], [n 3]⟩] (fun r d => r.key = d.key ∧ r.val = d.val) ∧
    (⟨⟨[n 1], [n 2], [n 3]⟩, n 7⟩ : Demand) ∉ traced [⟨⟨[n 1], [n 2], [n 2, n 1]⟩, n 7⟩] [⟨[n 1], [n 2], [n 0]⟩, ⟨[n 1], [n 2], [n 3]⟩] (fun r d => r.key = d.key ∧ r.val = d.val) := by
  refine ⟨by simp [Record.Shaped], by simp [Record.Shaped], ?_, ?_⟩
  · refine List.mem_map.2 ⟨(⟨⟨[n 1], [n 2], [n 2, n 1]⟩, n 7⟩, ⟨[n 1], [n 2], [n 0]⟩), List.mem_filter.2 ⟨by simp, ?_⟩, rfl⟩
    simp only [decide_eq_true_eq]
    refine ⟨by simp, outerLe_of fun i hi _ => ?_⟩
    have : i = 0 := by simpa using hi
    subst this
    exact ⟨0, 1, rfl, rfl, by decide⟩
  · intro h
    obtain ⟨x, hx, he⟩ := List.mem_map.1 h
    obtain ⟨hm, hx⟩ := List.mem_filter.1 hx
    simp only [decide_eq_true_eq] at hx
    have ho := hx.2
    simp only [Demand.mk.injEq] at he
    obtain ⟨hd, _⟩ := List.mem_product.1 hm
    have hd : x.1 = ⟨⟨[n 1], [n 2], [n 2, n 1]⟩, n 7⟩ := by simpa using hd
    rw [he.1, hd] at ho
    rcases ho 0 (n 3) (n 1) rfl rfl with h | h
    · cases h with
      | int h => exact absurd h (by decide)
    · simp [n] at h

/-- A projection that swaps a row's fields, `key($1 ; $0)`, and one that computes, `key($0[0] + $1[0] ; )`. -/
example : Plain [1, 1] (.tuple [.spread (.var 1)]) ∧ Plain [1, 1] (.tuple [.binary .add (.proj (.var 0) 0) (.proj (.var 1) 0)]) ∧
    denote exact [.tuple [n 1], .tuple [n 2]] (.tuple [.binary .add (.proj (.var 0) 0) (.proj (.var 1) 0)]) [] = some (.tuple [n 3]) := by
  refine ⟨⟨_, rfl, ?_⟩, ⟨_, rfl, ?_⟩, ?_⟩
  · intro x hx
    exact .inl ⟨1, by decide, by simpa using hx⟩
  · intro x hx
    have : x = .binary .add (.proj (.var 0) 0) (.proj (.var 1) 0) := by simpa using hx
    subst this
    exact .inr (by simp [Columns])
  · simp [denote, denoteFields, binaryMeans, exact, n, Value.fields]

/-- A join to `($1 ; $0, $2)` of records in a loop, whose demand is traced to both. -/
example : (joinLookup exact [Demand.row ⟨⟨[n 2], [n 1, n 3], [n 4]⟩, n 7⟩] ⟨[Record.row ⟨[n 1], [n 2], [n 3]⟩, Record.row ⟨[n 1], [n 2], [n 5]⟩], (1, 1), 1⟩ ⟨[Record.row ⟨[n 1], [n 3], []⟩], (1, 1), 0⟩ (1, 2) 1
    ⟨.tuple [.spread (.var 1)], .tuple [.spread (.var 0), .spread (.var 2)]⟩) = some ([Demand.row ⟨⟨[n 1], [n 2], [n 3]⟩, n 7⟩], [Demand.row ⟨⟨[n 1], [n 3], []⟩, n 7⟩]) := by rfl

/-- Both kinds of arithmetic meet the hypothesis on variables. -/
example : (∀ i : Int, 0 ≤ i → i < 2 ^ 63 → checked i = some i) ∧ (∀ i : Int, 0 ≤ i → i < 2 ^ 63 → wrapping i = some i) := by
  refine ⟨fun i h h' => ?_, fun i h h' => ?_⟩
  · simp only [checked]
    rw [if_pos ⟨by omega, h'⟩]
  · simp only [wrapping, Option.some.injEq]
    rw [Int.bmod_eq_of_le] <;> omega

/-- Demands of a variable in iterations 2 and 0. -/
example : [(⟨⟨[n 1], [n 2], [n 2, n 4]⟩, n 7⟩ : Demand), ⟨⟨[n 1], [n 2], [n 0, n 4]⟩, n 7⟩].filterMap Demand.before = [⟨⟨[n 1], [n 2], [n 1, n 4]⟩, n 7⟩] := by simp [Demand.before, n]

/-- A flatmap of the list that is a field of the value. -/
example : Columns [0, 1] (.proj (.var 1) 0) 0 ∧ denote exact [.tuple [n 1], .tuple [.list [n 5, n 6]]] (.proj (.var 1) 0) [] = some (.list [n 5, n 6]) := by simp [Columns, denote, Value.fields]

/-- A filter `$0[0] < $1[0]`. -/
example : Columns [1, 1] (.binary .lt (.proj (.var 0) 0) (.proj (.var 1) 0)) 0 := by simp [Columns]

/-- A set of demands with a repeated one. -/
example : distinctFull exact [Demand.row ⟨⟨[n 1], [n 2], [n 3]⟩, n 7⟩, Demand.row ⟨⟨[n 1], [n 2], [n 3]⟩, n 7⟩] 1 3 = some [Demand.row ⟨⟨[n 1], [n 2], [n 3]⟩, n 7⟩] := by rfl

end DD
