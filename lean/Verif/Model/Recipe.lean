import Verif.Model.Scalar
import Verif.Model.Server

/-!
# Model of the generated sources of `interactive`: `Recipe` (`interactive/src/server.rs`), `gen_row_seeded` (`interactive/src/lib.rs`)

Strings are lists of characters; `none` as a recipe is `None`, and `none` as a row is a panic. `usize` is `u64`. White space is that of Lean's `Char.isWhitespace`, not all of Unicode's.
-/

namespace DD.Srv

/-- `Recipe` (server.rs:75-83). -/
inductive Recipe where
  | random (nodes edges arity seed : Nat)
  | iota (n : Nat)
deriving DecidableEq

/-- `str::split` at a character. -/
def splitChar (c : Char) : List Char → List (List Char)
  | [] => [[]]
  | x :: s => if x = c then [] :: splitChar c s else match splitChar c s with
    | [] => [[x]]
    | p :: ps => (x :: p) :: ps

/-- `str::split_once`. -/
def splitOnce (c : Char) : List Char → Option (List Char × List Char)
  | [] => none
  | x :: s => if x = c then some ([], s) else (splitOnce c s).map fun p => (x :: p.1, p.2)

/-- `str::trim`. -/
def trim (s : List Char) : List Char := ((s.dropWhile Char.isWhitespace).reverse.dropWhile Char.isWhitespace).reverse

/-- A digit of `u64::from_str`, with the checks for overflow. -/
def digitStep (acc : Nat) (c : Char) : Option Nat := if c.isDigit then if acc * 10 + (c.toNat - 48) < 2 ^ 64 then some (acc * 10 + (c.toNat - 48)) else none else none

/-- A plus sign is allowed before digits. -/
def dropPlus : List Char → List Char
  | '+' :: c :: s => c :: s
  | s => s

/-- `u64::from_str`. -/
def parseU64 (s : List Char) : Option Nat := if dropPlus s = [] then none else (dropPlus s).foldlM digitStep 0

/-- The parameters of a random graph, as they are parsed (server.rs:90). -/
structure Params where
  nodes : Option Nat := none
  edges : Option Nat := none
  arity : Nat := 2
  seed : Nat := 0

/-- One parameter (server.rs:91-99). -/
def paramStep (p : Params) (kv : List Char) : Option Params :=
  (splitOnce '=' kv).bind fun x =>
    let k := trim x.1
    if k = "nodes".toList then (parseU64 (trim x.2)).map fun n => { p with nodes := some n }
    else if k = "edges".toList then (parseU64 (trim x.2)).map fun n => { p with edges := some n }
    else if k = "arity".toList then (parseU64 (trim x.2)).map fun n => { p with arity := n }
    else if k = "seed".toList then (parseU64 (trim x.2)).map fun n => { p with seed := n }
    else none

/-- `str::strip_prefix`. -/
def stripPrefix : List Char → List Char → Option (List Char)
  | [], s => some s
  | c :: p, d :: s => if c = d then stripPrefix p s else none
  | _ :: _, [] => none

/-- `Recipe::parse` (server.rs:88-107). -/
def Recipe.parse (name : List Char) : Option Recipe :=
  match stripPrefix "random:".toList name with
  | some params => ((splitChar ',' params).foldlM paramStep {}).bind fun p => p.nodes.bind fun nodes => p.edges.map fun edges => .random nodes edges p.arity p.seed
  | none => match stripPrefix "iota:".toList name with
    | some n => (parseU64 (trim n)).map .iota
    | none => none

/-- `Display` of a number: the last digits last. The first number bounds the digits. -/
def showAux : Nat → Nat → List Char
  | 0, n => [Char.ofNat (48 + n % 10)]
  | b + 1, n => if n < 10 then [Char.ofNat (48 + n)] else showAux b (n / 10) ++ [Char.ofNat (48 + n % 10)]

/-- `Display` of a number. -/
def showNat (n : Nat) : List Char := showAux n n

/-- `Recipe::canonical` (server.rs:111-117). -/
def Recipe.canonical : Recipe → List Char
  | .random nodes edges arity seed => "random:nodes=".toList ++ showNat nodes ++ ",edges=".toList ++ showNat edges ++ ",arity=".toList ++ showNat arity ++ ",seed=".toList ++ showNat seed
  | .iota n => "iota:".toList ++ showNat n

/-- `as i64`. -/
def asI64 (n : UInt64) : Int := if n.toNat < 2 ^ 63 then n.toNat else n.toNat - 2 ^ 64

/-- A field of a row (lib.rs:74-77); the remainder by zero panics. -/
def genField (seed e nodes : UInt64) (col : Nat) : Option Ir.Value :=
  let base := e * 31 + seed * 0x9e3779b97f4a7c15
  if nodes = 0 then none else some (.int (asI64 (Ir.hashU64 (base + UInt64.ofNat col) % nodes)))

/-- `gen_row_seeded` (lib.rs:72-80). -/
def genRow (seed e nodes : UInt64) (arity : Nat) : Option (Ir.Value × Ir.Value) := ((List.range arity).mapM (genField seed e nodes)).map fun fields => (.tuple fields, .tuple [])

/-- `Recipe::row` (server.rs:125-130). -/
def Recipe.row : Recipe → Nat → Option (Ir.Value × Ir.Value)
  | .random nodes _ arity seed, e => genRow (UInt64.ofNat seed) (UInt64.ofNat e) (UInt64.ofNat nodes) arity
  | .iota _, e => some (.tuple [.int (asI64 (UInt64.ofNat e))], .tuple [])

/-- `Recipe::rows_len` (server.rs:120-122). -/
def Recipe.len : Recipe → Nat
  | .random _ edges _ _ => edges
  | .iota n => n

/-- The rows of a source, of all workers (server.rs:350-354). -/
def Recipe.rows (r : Recipe) : Option (List (Ir.Value × Ir.Value)) := (List.range r.len).mapM r.row

/-- The sources of the server: names are strings, and the rows are there if they do not panic. -/
def sources : World (List Char) Recipe (Ir.Value × Ir.Value) where
  parse := Recipe.parse
  canonical := Recipe.canonical
  rows := fun r => r.rows.getD []
  clock := "clock".toList
  clockRow := fun t => (.tuple [.int t], .tuple [])

end DD.Srv
