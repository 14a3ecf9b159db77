import Mathlib.Data.ENat.Basic
/-!
# Partitioned boolean quadratic problems

A problem has nodes with a finite number of alternatives each, a cost for each alternative, and pairs of nodes with a cost for each pair
of alternatives.  Costs are natural numbers or infinity.  A solution selects an alternative for every node; its cost is the sum of all
node and edge costs.
-/
namespace Verif.Spec.Pbqp

/-- a problem: the nodes, the number of alternatives of a node, its costs, and the edge costs with the two nodes they connect -/
structure Problem where
  nodes : List Nat
  alternatives : Nat → Nat
  nodeCost : Nat → Nat → ℕ∞
  edges : List (Nat × Nat × (Nat → Nat → ℕ∞))

/-- a selection picks an existing alternative of every node -/
def Problem.Selection (p : Problem) (σ : Nat → Nat) : Prop := ∀ v ∈ p.nodes, σ v < p.alternatives v

/-- the total cost of a selection -/
def Problem.total (p : Problem) (σ : Nat → Nat) : ℕ∞ :=
  (p.nodes.map fun v => p.nodeCost v (σ v)).sum + (p.edges.map fun e => e.2.2 (σ e.1) (σ e.2.1)).sum

/-- a selection no other selection undercuts -/
def Problem.Optimal (p : Problem) (σ : Nat → Nat) : Prop :=
  p.Selection σ ∧ ∀ τ, p.Selection τ → p.total σ ≤ p.total τ

end Verif.Spec.Pbqp
