/-!
# Specification: dependencies inside a block
-/
namespace Verif.Spec.Heights

/-- nodes with operands, users, their block and whether they are Phis or blocks; `n` bounds the length of chains -/
structure Graph where
  ins : Nat → List Nat
  users : Nat → List Nat
  block : Nat → Nat
  phi : Nat → Bool
  isBlock : Nat → Bool
  n : Nat

/-- `d` uses `x` and is no Phi, both are in one block -/
def Graph.Use (g : Graph) (x d : Nat) : Prop := d ∈ g.users x ∧ g.isBlock d = false ∧ g.phi d = false ∧ g.block d = g.block x

/-- there is a chain of `k` users in the block -/
inductive Graph.Chain (g : Graph) : Nat → Nat → Prop
  | nil (x : Nat) : Chain g x 0
  | cons {x d k : Nat} : g.Use x d → Chain g d k → Chain g x (k + 1)

/-- the longest chain has length `k` -/
def Graph.Height (g : Graph) (x k : Nat) : Prop := g.Chain x k ∧ ∀ j, g.Chain x j → j ≤ k

/-- `m` is an operand of an operand ... of `n`, and all nodes before `m` are in its block and no Phis -/
inductive Graph.Reach (g : Graph) (m : Nat) : Nat → Prop
  | refl : Reach g m m
  | step {x o : Nat} : g.block x = g.block m → g.phi x = false → o ∈ g.ins x → Reach g m o → Reach g m x

/-- Users belong to operands, blocks are not inside of blocks (their number is a different one), and there are no cycles in a block without Phi. -/
structure Graph.Ok (g : Graph) : Prop where
  edge : ∀ x d, d ∈ g.users x ↔ x ∈ g.ins d
  blocks : ∀ x y, g.isBlock x = true → g.isBlock y = false → g.block x ≠ g.block y
  acyclic : ∃ rank : Nat → Nat, (∀ x, rank x < g.n) ∧ ∀ x d, g.Use x d → rank d < rank x

end Verif.Spec.Heights
