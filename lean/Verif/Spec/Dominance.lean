/-!
# Specification: paths and dominance in directed graphs

Nothing here refers to the model.
-/
namespace Verif.Spec

/-- `l` is a path from `u` to `v`: the list of the vertices on it -/
inductive Path (E : Nat → Nat → Prop) : Nat → List Nat → Nat → Prop
  | nil (v : Nat) : Path E v [v] v
  | cons {u v w : Nat} {l : List Nat} : E u v → Path E v l w → Path E u (u :: l) w

/-- there is a path from `u` to `v` -/
def Reachable (E : Nat → Nat → Prop) (u v : Nat) : Prop := ∃ l, Path E u l v

/-- every path from the root `r` to `b` contains `a` -/
def Dominates (E : Nat → Nat → Prop) (r a b : Nat) : Prop := ∀ l, Path E r l b → a ∈ l

/-- `d` is the immediate dominator of `b`: a dominator other than `b` itself that all the others dominate -/
def IsIdom (E : Nat → Nat → Prop) (r d b : Nat) : Prop :=
  d ≠ b ∧ Dominates E r d b ∧ ∀ a, a ≠ b → Dominates E r a b → Dominates E r a d

/-- `y` is in the dominance frontier of `x`: `x` dominates a predecessor of `y` but not `y`, or it is `y` -/
def InFrontier (E E' : Nat → Nat → Prop) (r x y : Nat) : Prop :=
  ∃ p, Reachable E r p ∧ E' p y ∧ Dominates E r x p ∧ ¬ (Dominates E r x y ∧ x ≠ y)

end Verif.Spec
