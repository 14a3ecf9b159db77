import Lean.Meta.Tactic.Simp.RegisterCommand
/-!
# A simp set for the views of `Verif.Model.IrOptBase`
-/
/-- characterisations of the `is_X` views and of the Option combinators used by the rules -/
register_simp_attr irview
/-- unfolds the Option combinators of a rule that returned a node -/
register_simp_attr irrule
