import Mathlib.Algebra.BigOperators.Group.Finset.Basic
/-!
# Specification: the assignment problem
-/
namespace Verif.Spec.Assign

/-- every row has a column, and no two rows the same -/
def IsPerfect (n : Nat) (f : Nat → Nat) : Prop := (∀ r, r < n → f r < n) ∧ ∀ r s, r < n → s < n → f r = f s → r = s

/-- what an assignment costs -/
def total (n : Nat) (cost : Nat → Nat → Int) (f : Nat → Nat) : Int := ∑ r ∈ Finset.range n, cost r (f r)

/-- none is cheaper -/
def IsMinimal (n : Nat) (cost : Nat → Nat → Int) (f : Nat → Nat) : Prop := IsPerfect n f ∧ ∀ g, IsPerfect n g → total n cost f ≤ total n cost g

/-- none has a greater utility -/
def IsMaximal (n : Nat) (util : Nat → Nat → Int) (f : Nat → Nat) : Prop := IsPerfect n f ∧ ∀ g, IsPerfect n g → total n util g ≤ total n util f

/-- a change of the problem: an edge from a row to a column with its cost, or its removal -/
inductive Change where
  | add (l r : Nat) (c : Int)
  | remove (l r : Nat)

/-- the entry of the matrix after the changes, the last one first -/
def entry : List Change → Nat → Nat → Int
  | [], _, _ => 0
  | .add l r c :: h, i, j => if i = l ∧ j = r then c else entry h i j
  | .remove l r :: h, i, j => if i = l ∧ j = r then 0 else entry h i j

/-- the last change of an edge of this row was not a removal -/
def rowIn : List Change → Nat → Prop
  | [], _ => False
  | .add l _ _ :: h, i => i = l ∨ rowIn h i
  | .remove l _ :: h, i => i ≠ l ∧ rowIn h i

/-- the last change of an edge of this column was not a removal -/
def colIn : List Change → Nat → Prop
  | [], _ => False
  | .add _ r _ :: h, j => j = r ∨ colIn h j
  | .remove _ r :: h, j => j ≠ r ∧ colIn h j

end Verif.Spec.Assign
