/-!
# Specification: what the nodes of a graph compute, before and after a step of the control flow

Values are given for two moments, `false` (before entering a block) and `true` (after it): a Phi takes the value its operand had before, the others compute
at each moment.
-/
namespace Verif.Spec.ModeB

/-- operations; `other`: not boolean; `one`, `zero`: integer constants; `condSet`: the Phi that is 1 or 0 behind a branch on its operand -/
inductive Op
  | other | cmp | const (b : Bool) | and | or | eor | not | mux | phi (arity : Nat) | one | zero | condSet
  deriving DecidableEq, Repr

structure Node where
  op : Op
  ins : List Nat
  blk : Nat
  deriving DecidableEq, Repr

/-- how a block is entered: as block `b` of the graph before, or from the block `b` only -/
inductive Entry
  | orig (b : Nat)
  | below (b : Nat)
  deriving DecidableEq, Repr

/-- the equation of a boolean node `v`; `e`: the way taken into a block -/
def BoolEq (e : Nat → Nat) (V : Bool → Nat → Bool) (nd : Node) (v : Nat) : Prop :=
  match nd.op, nd.ins with
  | .const b, _ => ∀ p, V p v = b
  | .and, [a, b] => ∀ p, V p v = (V p a && V p b)
  | .or, [a, b] => ∀ p, V p v = (V p a || V p b)
  | .eor, [a, b] => ∀ p, V p v = (V p a ^^ V p b)
  | .not, [a] => ∀ p, V p v = !V p a
  | .mux, [c, t, f] => ∀ p, V p v = if V p c then V p t else V p f
  | .phi _, ins => ∀ x, ins[e nd.blk]? = some x → V true v = V false x
  | _, _ => True

/-- the equation of an integer node `r`; `e`: the way taken into the block whose predecessors the block of the node has now -/
def IntEq {w : Nat} (e : Nat → Nat) (preds : Nat → Entry) (V : Bool → Nat → Bool) (W : Bool → Nat → BitVec w) (nd : Node) (r : Nat) : Prop :=
  match nd.op, nd.ins with
  | .one, [] => ∀ p, W p r = 1
  | .zero, [] => ∀ p, W p r = 0
  | .and, [a, b] => ∀ p, W p r = W p a &&& W p b
  | .or, [a, b] => ∀ p, W p r = W p a ||| W p b
  | .eor, [a, b] => ∀ p, W p r = W p a ^^^ W p b
  | .condSet, [c] => ∀ p, W p r = if V p c then 1 else 0
  | .phi _, ins => ∀ b0 x, preds nd.blk = .orig b0 → ins[e b0]? = some x → W true r = W false x
  | _, _ => False

/-- the integer 1 or 0 for a boolean -/
def Rep {w : Nat} (V : Bool → Nat → Bool) (W : Bool → Nat → BitVec w) (n r : Nat) : Prop := ∀ p, W p r = if V p n then 1 else 0

/-- a Phi has all its operands -/
def Complete (nd : Node) : Prop := ∀ k, nd.op = .phi k → nd.ins.length = k

end Verif.Spec.ModeB
