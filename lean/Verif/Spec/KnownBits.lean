import Verif.Spec.IR
/-!
# Specification: what a known-bits state says about a value
-/
namespace Verif.Spec

/-- the bit pattern of a value of a mode, as a bit vector -/
def IMode.bv (m : IMode) (x : Int) : BitVec m.bits := BitVec.ofInt m.bits x

/-- `z` are the bits that may be one, `o` the bits that must be one: every one-bit of `v` is in `z`, and
every bit in `o` is a one-bit of `v` -/
def Describes {w : Nat} (z o v : BitVec w) : Prop :=
  ∀ i < w, (v.getLsbD i = true → z.getLsbD i = true) ∧ (o.getLsbD i = true → v.getLsbD i = true)

end Verif.Spec
