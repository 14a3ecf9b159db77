import Verif.Spec.Dominance
/-!
# Specification: liveness of a value

The value is defined in block `d` and the blocks `U` use it. A Phi uses a value at the end of the block the control flow comes from. Nothing here refers
to the model.
-/
namespace Verif.Spec

/-- the value is live at the begin of `b`: it is possible to get from there to a use without the definition -/
def LiveIn (E : Nat → Nat → Prop) (d : Nat) (U : Nat → Prop) (b : Nat) : Prop := ∃ l u, Path E b l u ∧ U u ∧ d ∉ l

/-- the value is live at the begin of a block that follows -/
def LiveOut (E : Nat → Nat → Prop) (d : Nat) (U : Nat → Prop) (b : Nat) : Prop := ∃ c, E b c ∧ LiveIn E d U c

/-- the value is live at the end of `b`, before the Phis `P` of the blocks that follow -/
def LiveEnd (E : Nat → Nat → Prop) (d : Nat) (U P : Nat → Prop) (b : Nat) : Prop := P b ∨ LiveOut E d U b

end Verif.Spec
