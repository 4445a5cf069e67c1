import Verif.Spec.ColCollection

/-!
# Specification of spilling chunks to storage

What is asked of the encoding of a column and of the storage, and the programs that use chunks. A program sees a chunk only through the operations below.
-/

namespace DD

/-- An encoding of values as bytes, with the size it announces (`Stash::write_bytes`, `length_in_bytes` and `try_from_bytes`, of the crate `columnar`). -/
structure ByteCodec (A : Type) where
  write : A → List UInt8
  size : A → Nat
  read : List UInt8 → Option A

/-- What is written is read back, and its size is the one announced. -/
structure ByteCodec.Lawful {A : Type} (c : ByteCodec A) : Prop where
  size : ∀ a, c.size a = (c.write a).length
  read : ∀ a, c.read (c.write a) = some a

/-- Storage, with states `S` and handles `H` (`BytesStore` and `BytesSource`, columnar/trace/spill.rs:34-43). -/
structure ByteStore (S H : Type) where
  store : S → List UInt8 → S × H
  load : S → H → Option (List UInt8)

/-- Storage returns what it was given, also after it is given more. -/
structure ByteStore.Faithful {S H : Type} (st : ByteStore S H) : Prop where
  load_store : ∀ s b, st.load (st.store s b).1 (st.store s b).2 = some b
  load_later : ∀ s h b b', st.load s h = some b → st.load (st.store s b').1 h = some b

/-- A program that uses columnar chunks, held in numbered deques; it ends with an answer of type `B`. The program may depend on anything it is told. -/
inductive Client (K V T R B : Type) : Type
  /-- Ends. -/
  | done (answer : B)
  /-- Makes a chunk from a trie, at the back of a deque. -/
  | make (t : ColTrie K V T R) (deque : Nat) (next : Client K V T R B)
  /-- Asks for the number of chunks in a deque. -/
  | size (deque : Nat) (next : Nat → Client K V T R B)
  /-- Moves the first chunk of a deque to the back of another. -/
  | move (src dst : Nat) (next : Client K V T R B)
  /-- Appends a clone of a chunk to a deque. -/
  | clone (deque i dst : Nat) (next : Client K V T R B)
  /-- Asks for the length of a chunk. -/
  | len (deque i : Nat) (next : Nat → Client K V T R B)
  /-- Asks for the bounds of a chunk. -/
  | bounds (deque i : Nat) (next : (K × V × T) × (K × V × T) → Client K V T R B)
  /-- Reads a chunk: all that a cursor shows is a function of the trie. -/
  | read (deque i : Nat) (next : ColTrie K V T R → Client K V T R B)
  /-- Changes a chunk in place. -/
  | edit (deque i : Nat) (f : ColTrie K V T R → ColTrie K V T R) (next : Client K V T R B)
  | merge (in1 in2 out : Nat) (next : Client K V T R B)
  | extract (input keep ship : Nat) (frontier residual : List T) (next : List T → Client K V T R B)
  | advance (input out : Nat) (frontier : List T) (done : Bool) (next : Client K V T R B)
  | settle (input out : Nat) (done : Bool) (next : Client K V T R B)
  /-- Installs a spiller, with a budget of records. -/
  | install (budget : Nat) (next : Client K V T R B)
  /-- Removes the spiller. -/
  | uninstall (next : Client K V T R B)

/-- Chunks of a type `C` whose operations run in the monad `m`. -/
structure ChunkImpl (m : Type → Type) (C K V T R : Type) where
  make : ColTrie K V T R → C
  len : C → Nat
  bounds : C → m ((K × V × T) × (K × V × T))
  read : C → m (ColTrie K V T R)
  edit : C → (ColTrie K V T R → ColTrie K V T R) → m C
  merge : List C → List C → List C → m (List C × List C × List C)
  extract : List C → List T → List T → List C → List C → m (List C × List T × List C × List C)
  advance : List C → List T → Bool → List C → m (List C × List C)
  settle : List C → Bool → List C → m (List C × List C)
  install : Nat → m Unit
  uninstall : m Unit

/-- What the program does with chunks of the type `C`. Deques are taken out when an operation is applied to them. -/
def Client.run {m : Type → Type} [Monad m] [MonadLiftT Option m] {C K V T R B : Type} (impl : ChunkImpl m C K V T R) : Client K V T R B → (Nat → List C) → m B
  | done answer, _ => pure answer
  | make t d next, ds => next.run impl (Function.update ds d (ds d ++ [impl.make t]))
  | size d next, ds => (next (ds d).length).run impl ds
  | move src dst next, ds =>
    match ds src with
    | [] => next.run impl ds
    | c :: cs => let ds := Function.update ds src cs; next.run impl (Function.update ds dst (ds dst ++ [c]))
  | clone d i dst next, ds => do
    let c ← (liftM (ds d)[i]? : m C)
    next.run impl (Function.update ds dst (ds dst ++ [c]))
  | len d i next, ds => do
    let c ← (liftM (ds d)[i]? : m C)
    (next (impl.len c)).run impl ds
  | bounds d i next, ds => do
    let c ← (liftM (ds d)[i]? : m C)
    let b ← impl.bounds c
    (next b).run impl ds
  | read d i next, ds => do
    let c ← (liftM (ds d)[i]? : m C)
    let t ← impl.read c
    (next t).run impl ds
  | edit d i f next, ds => do
    let c ← (liftM (ds d)[i]? : m C)
    let c' ← impl.edit c f
    next.run impl (Function.update ds d ((ds d).set i c'))
  | merge in1 in2 out next, ds => do
    let r ← impl.merge (ds in1) (ds in2) (ds out)
    next.run impl (Function.update (Function.update (Function.update ds in1 r.1) in2 r.2.1) out r.2.2)
  | extract input keep ship frontier residual next, ds => do
    let r ← impl.extract (ds input) frontier residual (ds keep) (ds ship)
    (next r.2.1).run impl (Function.update (Function.update (Function.update ds input r.1) keep r.2.2.1) ship r.2.2.2)
  | advance input out frontier fin next, ds => do
    let r ← impl.advance (ds input) frontier fin (ds out)
    next.run impl (Function.update (Function.update ds input r.1) out r.2)
  | settle input out fin next, ds => do
    let r ← impl.settle (ds input) fin (ds out)
    next.run impl (Function.update (Function.update ds input r.1) out r.2)
  | install budget next, ds => do
    impl.install budget
    next.run impl ds
  | uninstall next, ds => do
    impl.uninstall
    next.run impl ds

end DD
