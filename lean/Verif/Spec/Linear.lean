import Mathlib.Algebra.BigOperators.Group.Finset.Basic
import Mathlib.Algebra.Field.Rat
/-!
# Specification: systems of linear equations
-/
namespace Verif.Spec.Linear

/-- `z` solves all `n` equations -/
def Solves (n : Nat) (A : Nat → Nat → Rat) (v z : Nat → Rat) : Prop := ∀ r, r < n → ∑ j ∈ Finset.range n, A r j * z j = v r

end Verif.Spec.Linear
