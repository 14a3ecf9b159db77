/-!
# Specification: what a program in SSA form computes

The front end defines nodes, assigns nodes to variables and reads variables; each block has the list of these events, in the order of execution.  A
read yields a node.  A run goes from block to block; it gives values to nodes (a Phi takes the value of the operand that belongs to the edge) and
values to variables.  The construction is right if a node that was read has the value of its variable.
-/
namespace Verif.Spec.Ssa

inductive Event
  | define (node : Nat)
  | set (var node : Nat)
  | get (var node : Nat)
  deriving DecidableEq

/-- a finished program: the blocks of the control flow predecessors (absent: no control flow), the events of blocks, the block and the operands of a
Phi, the variable of a node that stands for its initial value, and the node that replaces another one -/
structure Code where
  start : Nat
  preds : Nat → List (Option Nat)
  events : Nat → List Event
  phi : Nat → Option (Nat × List Nat)
  initial : Nat → Option Nat
  final : Nat → Nat

/-- where a run is: `pos` events of the block are done; the values of nodes and variables; the nodes that were defined or read by the events -/
structure Conf (α : Type) where
  block : Nat
  pos : Nat
  env : Nat → Option α
  vars : Nat → Option α
  seen : Nat → Prop

def upd {β : Type} (f : Nat → β) (x : Nat) (y : β) : Nat → β := fun z => if z = x then y else f z

/-- the values of nodes after the edge number `i` to block `b` -/
def Code.enter {α : Type} (G : Code) (b i : Nat) (env : Nat → Option α) : Nat → Option α := fun x =>
  match G.phi x with
  | some (b', args) => if b' = b then (args[i]?).bind env else env x
  | none => env x

/-- the runs; a node that is defined may have any value -/
inductive Run {α : Type} (G : Code) (init : Nat → α) : Conf α → Prop
  | start : Run G init ⟨G.start, 0, fun x => (G.initial x).map init, fun v => some (init v), fun _ => False⟩
  | define {c n} (a : α) : Run G init c → (G.events c.block)[c.pos]? = some (.define n) →
      Run G init ⟨c.block, c.pos + 1, upd c.env n (some a), c.vars, fun x => c.seen x ∨ x = n⟩
  | set {c v n} : Run G init c → (G.events c.block)[c.pos]? = some (.set v n) →
      Run G init ⟨c.block, c.pos + 1, c.env, upd c.vars v (c.env (G.final n)), c.seen⟩
  | get {c v r} : Run G init c → (G.events c.block)[c.pos]? = some (.get v r) →
      Run G init ⟨c.block, c.pos + 1, c.env, c.vars, fun x => c.seen x ∨ x = r⟩
  | edge {c b i} : Run G init c → c.pos = (G.events c.block).length → (G.preds b)[i]? = some (some c.block) →
      Run G init ⟨b, 0, G.enter b i c.env, c.vars, c.seen⟩

/-- the front end only assigns nodes that it defined or read before, on every way to the assignment -/
def Strict {α : Type} (G : Code) (init : Nat → α) : Prop :=
  ∀ c, Run G init c → ∀ v n, (G.events c.block)[c.pos]? = some (.set v n) → c.seen n

/-- all reads yield the value of the variable -/
def Right {α : Type} (G : Code) (init : Nat → α) : Prop :=
  ∀ c, Run G init c → ∀ v r, (G.events c.block)[c.pos]? = some (.get v r) → c.env (G.final r) = c.vars v ∧ (c.vars v).isSome

end Verif.Spec.Ssa
