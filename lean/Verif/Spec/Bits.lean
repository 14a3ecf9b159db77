/-!
# Specification: bits of an integer

The infinite two's complement expansion of an integer, and reduction of an
integer into the range of a fixed-width type.  Independent of the model.
-/
namespace Verif.Spec

/-- Bit `i` of the infinite two's complement expansion of `x`
(`/` is floor division here because the divisor is positive). -/
def ibit (x : Int) (i : Nat) : Bool := (x / 2 ^ i) % 2 == 1

/-- The range of a `bits`-bit integer type. -/
def InRange (signed : Bool) (bits : Nat) (x : Int) : Prop :=
  if signed then -2 ^ (bits - 1) ≤ x ∧ x < 2 ^ (bits - 1) else 0 ≤ x ∧ x < 2 ^ bits

instance (s : Bool) (b : Nat) (x : Int) : Decidable (InRange s b x) := by
  unfold InRange; infer_instance

/-- The unique integer congruent to `x` modulo `2^bits` in the range of the
type (see `wrap_inRange`, `wrap_congr`, `wrap_unique`). -/
def wrap (signed : Bool) (bits : Nat) (x : Int) : Int :=
  if signed then x.bmod (2 ^ bits) else x % 2 ^ bits

end Verif.Spec
