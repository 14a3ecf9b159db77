import Verif.Model.Relation
/-!
# C19: the relation algebra

Specification: a relation holds between `a` and `b` when the outcome of the
comparison of `a` with `b` is one of the outcomes it contains.  `Outcome` is
the four-valued comparison of an arbitrary (possibly partially ordered) type.
-/
namespace Verif.Props
open Verif.Model

/-- The four possible outcomes of a comparison. -/
inductive Outcome
  | eq | lt | gt | un
  deriving DecidableEq

/-- the outcome seen from the other operand -/
def Outcome.swap : Outcome → Outcome
  | .eq => .eq | .lt => .gt | .gt => .lt | .un => .un

/-- the outcomes a relation contains: its name read off, bit by bit
(firm_types.h:162-169: equal 1, less 2, greater 4, unordered 8) -/
def Holds (r : Rel) : Outcome → Bool
  | .eq => r.getLsbD 0 | .lt => r.getLsbD 1 | .gt => r.getLsbD 2 | .un => r.getLsbD 3

/-- comparison on an arbitrary type given two relations -/
structure Cmp (α : Type) where
  cmp : α → α → Outcome
  swap : ∀ a b, cmp b a = (cmp a b).swap

/-- C19: `get_negated_relation` is the complement. -/
theorem negated_spec {α : Type} (C : Cmp α) (r : Rel) (a b : α) :
    Holds r.negated (C.cmp a b) = !Holds r (C.cmp a b) := by
  have h : ∀ (r : Rel) (o : Fin 4), Holds r.negated ([Outcome.eq, .lt, .gt, .un][o]) = !Holds r ([Outcome.eq, .lt, .gt, .un][o]) := by decide
  cases hc : C.cmp a b
  · exact h r 0
  · exact h r 1
  · exact h r 2
  · exact h r 3

/-- C19: `get_inversed_relation` is the converse. -/
theorem inversed_spec {α : Type} (C : Cmp α) (r : Rel) (a b : α) :
    Holds r.inversed (C.cmp a b) = Holds r (C.cmp b a) := by
  have h : ∀ (r : Rel) (o : Fin 4), Holds r.inversed ([Outcome.eq, .lt, .gt, .un][o]) = Holds r ([Outcome.eq, .lt, .gt, .un][o]).swap := by decide
  rw [C.swap a b]
  cases hc : C.cmp a b
  · exact h r 0
  · exact h r 1
  · exact h r 2
  · exact h r 3

/-- the two operations are involutions and commute -/
theorem negated_negated (r : Rel) : r.negated.negated = r := by revert r; decide
theorem inversed_inversed (r : Rel) : r.inversed.inversed = r := by revert r; decide
theorem negated_inversed (r : Rel) : r.negated.inversed = r.inversed.negated := by revert r; decide

/-- the named relations mean what their names say (on integers) -/
def intCmp : Cmp Int where
  cmp a b := if a = b then .eq else if a < b then .lt else .gt
  swap a b := by
    by_cases h : a = b
    · simp [h, Outcome.swap]
    · have h' : b ≠ a := fun e => h e.symm
      by_cases h1 : a < b
      · have : ¬ b < a := by omega
        simp [h, h', h1, this, Outcome.swap]
      · have : b < a := by omega
        simp [h, h', h1, this, Outcome.swap]

theorem names_spec (a b : Int) :
    (Holds Rel.lessEqual (intCmp.cmp a b) = decide (a ≤ b)) ∧ (Holds Rel.less (intCmp.cmp a b) = decide (a < b)) ∧
    (Holds Rel.greaterEqual (intCmp.cmp a b) = decide (a ≥ b)) ∧ (Holds Rel.greater (intCmp.cmp a b) = decide (a > b)) ∧
    (Holds Rel.equal (intCmp.cmp a b) = decide (a = b)) ∧ (Holds Rel.lessGreater (intCmp.cmp a b) = decide (a ≠ b)) ∧
    Holds Rel.true (intCmp.cmp a b) = true ∧ Holds Rel.false (intCmp.cmp a b) = false := by
  simp only [intCmp]
  by_cases h : a = b
  · subst h
    simp [Holds, Rel.lessEqual, Rel.less, Rel.greater, Rel.greaterEqual, Rel.equal, Rel.lessGreater, Rel.true, Rel.false]
  · by_cases h1 : a < b
    · have h2 : ¬ b < a := by omega
      have h3 : ¬ b ≤ a := by omega
      have h4 : a ≤ b := by omega
      simp [h, h1, h2, h3, h4, Holds, Rel.lessEqual, Rel.less, Rel.greater, Rel.greaterEqual, Rel.equal, Rel.lessGreater, Rel.true, Rel.false]
    · have h2 : b < a := by omega
      have h3 : b ≤ a := by omega
      have h4 : ¬ a ≤ b := by omega
      simp [h, h1, h2, h3, h4, Holds, Rel.lessEqual, Rel.less, Rel.greater, Rel.greaterEqual, Rel.equal, Rel.lessGreater, Rel.true, Rel.false]

/-- non-vacuity: 3 < 5, so not (3 ≥ 5), and 5 > 3 -/
example : Holds Rel.less (intCmp.cmp 3 5) = true ∧ Holds Rel.less.negated (intCmp.cmp 3 5) = false ∧
    Holds Rel.less.inversed (intCmp.cmp 5 3) = true := by decide

end Verif.Props
