/-!
# Specification: trees of bit operations

One bit of a tree of And, Or, Eor and Not.  Nodes with one user are inside the tree, others are atoms with a number.  Every node has a block; the blocks
that matter for a tree dominate one another, so they are numbered by depth.
-/
namespace Verif.Spec.BitTree

inductive Kind
  | and | or | eor
  deriving DecidableEq, Repr

def Kind.eval : Kind → Bool → Bool → Bool
  | .and => (· && ·)
  | .or => (· || ·)
  | .eor => xor

inductive Tree
  | atom (id : Nat)
  | bin (k : Kind) (blk : Nat) (l r : Tree)
  | not (blk : Nat) (x : Tree)
  deriving DecidableEq, Repr

/-- the value for values of the atoms -/
def Tree.eval (ρ : Nat → Bool) : Tree → Bool
  | .atom i => ρ i
  | .bin k _ l r => k.eval (l.eval ρ) (r.eval ρ)
  | .not _ x => !x.eval ρ

/-- the block of the root -/
def Tree.blk (β : Nat → Nat) : Tree → Nat
  | .atom i => β i
  | .bin _ b _ _ => b
  | .not b _ => b

/-- operands are computed before they are used: their blocks dominate -/
def Tree.Placed (β : Nat → Nat) : Tree → Prop
  | .atom _ => True
  | .bin _ b l r => l.blk β ≤ b ∧ r.blk β ≤ b ∧ l.Placed β ∧ r.Placed β
  | .not b x => x.blk β ≤ b ∧ x.Placed β

/-- the atom occurs -/
def Tree.has (i : Nat) : Tree → Bool
  | .atom j => i == j
  | .bin _ _ l r => l.has i || r.has i
  | .not _ x => x.has i

end Verif.Spec.BitTree
