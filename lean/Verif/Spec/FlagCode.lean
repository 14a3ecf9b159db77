/-!
# Specification: instructions that set and test the flags

A block is a list of nodes in SSA form.  A node may produce flags, may test the flags of one other node
(the producer, in the block or before it), may read memory and may store.  What a node computes from
its register operands does not depend on where it stands; only memory does.

The machine has a single flags register: a node that tests flags sees those of the last node that wrote
any.
-/
namespace Verif.Spec.FlagCode

structure Node (C : Type) where
  id : Nat
  /-- the nodes whose results it uses, memory included, flags not -/
  uses : List Nat
  /-- the node whose flags it tests -/
  flag : Option Nat
  /-- how it tests them -/
  cond : C
  /-- it writes the flags register -/
  modifies : Bool
  /-- a `Keep`, which is no instruction -/
  keep : Bool
  /-- its flags depend on memory -/
  reads : Bool
  stores : Bool
  /-- it has to stand at the start of its block -/
  first : Bool
  deriving DecidableEq, Repr

/-- What the nodes do: flags from memory, memory from memory, the test of flags. -/
structure Sem (V M C : Type) where
  flags : Nat → M → V
  store : Nat → M → M
  test : C → V → Bool

/-- Something happens that is not the computation of flags: node, outcome of its test, memory it sees.
-/
structure Event (M : Type) where
  id : Nat
  outcome : Option Bool
  mem : M
  deriving DecidableEq, Repr

variable {V M C : Type}

def Sem.after (sem : Sem V M C) (x : Node C) (m : M) : M := if x.stores then sem.store x.id m else m

/-- The memory after a list of nodes. -/
def Sem.memAfter (sem : Sem V M C) (m : M) (l : List (Node C)) : M := l.foldl (fun m x => sem.after x m) m

/-- `val` gives the flags of every node of the block at its place. -/
def Values (sem : Sem V M C) (val : Nat → V) (m0 : M) (l : List (Node C)) : Prop :=
  ∀ l1 x l2, l = l1 ++ x :: l2 → x.modifies = true → val x.id = sem.flags x.id (sem.memAfter m0 l1)

/-- What should happen: every test sees the flags of its producer. -/
def wanted (sem : Sem V M C) (val : Nat → V) (prod : Nat → Bool) : M → List (Node C) → List (Event M)
  | _, [] => []
  | m, x :: xs =>
    (if prod x.id then [] else [⟨x.id, x.flag.map fun f => sem.test x.cond (val f), m⟩])
      ++ wanted sem val prod (sem.after x m) xs

/-- Code: a node, with its memory operand loaded before (`turned`) or not; or the load of the memory
operand of a node. -/
inductive Item (C : Type) where
  | run (n : Node C) (turned : Bool)
  | load (id : Nat)
  deriving DecidableEq, Repr

structure Machine (V M : Type) where
  flags : V
  mem : M
  /-- the memory that was seen by the load for a node -/
  loaded : Nat → M

def exec (sem : Sem V M C) (s : Machine V M) : Item C → Machine V M
  | .load i => { s with loaded := fun j => if j = i then s.mem else s.loaded j }
  | .run x turned =>
    { s with
      flags := if x.modifies then sem.flags x.id (if turned then s.loaded x.id else s.mem) else s.flags
      mem := sem.after x s.mem }

/-- What happens on the machine. -/
def trace (sem : Sem V M C) (prod : Nat → Bool) : Machine V M → List (Item C) → List (Event M)
  | _, [] => []
  | s, .load i :: l => trace sem prod (exec sem s (.load i)) l
  | s, .run x t :: l =>
    (if prod x.id then [] else [⟨x.id, x.flag.map fun _ => sem.test x.cond s.flags, s.mem⟩])
      ++ trace sem prod (exec sem s (.run x t)) l

/-- What a block looks like.  `prod` are the nodes whose flags may be tested. -/
structure Block (sem : Sem V M C) (prod : Nat → Bool) (l : List (Node C)) : Prop where
  nodup : (l.map (·.id)).Nodup
  /-- producers write the flags, and neither store nor test flags nor stand at the start -/
  prodOk : ∀ x ∈ l, prod x.id = true →
    x.modifies = true ∧ x.stores = false ∧ x.flag = none ∧ x.first = false
  keepOk : ∀ x ∈ l, x.keep = true → x.modifies = false ∧ x.flag = none
  flagOk : ∀ x ∈ l, ∀ G, x.flag = some G → prod G = true ∧ x.first = false
  /-- no node tests the flags of a later one -/
  order : l.Pairwise fun x y => x.flag ≠ some y.id
  /-- a store after a producer that reads memory depends on it -/
  memOrder : l.Pairwise fun x y => prod x.id = true → x.reads = true → y.stores = true → x.id ∈ y.uses
  /-- only nodes that read memory depend on it -/
  const : ∀ x ∈ l, x.reads = false → ∀ m m', sem.flags x.id m = sem.flags x.id m'

/-- The producer of another block, as it can be computed again in this one. -/
structure Producer (sem : Sem V M C) (F : Nat) (x : Node C) : Prop where
  id : x.id = F
  modifies : x.modifies = true
  stores : x.stores = false
  flag : x.flag = none
  const : x.reads = false → ∀ m m', sem.flags F m = sem.flags F m'

/-- Every operand from the block has been computed before it is used; `uses` are the operands of the node
a memory operand belongs to. -/
def Computed (block : List Nat) (uses : Nat → List Nat) : List Nat → List (Item C) → Prop
  | _, [] => True
  | av, .load i :: l => (∀ u ∈ uses i, u ∈ block → u ∈ av) ∧ Computed block uses av l
  | av, .run x _ :: l => (∀ u ∈ x.uses, u ∈ block → u ∈ av) ∧ Computed block uses (x.id :: av) l

end Verif.Spec.FlagCode
