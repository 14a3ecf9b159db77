/-!
# Specification: copying bytes, rounding up
-/
namespace Verif.Spec.BlockCopy

/-- memory: a byte at every address -/
abbrev Mem := Nat → BitVec 8

/-- the memory after copying `size` bytes as they were before -/
def copied (src dst size : Nat) (m : Mem) : Mem := fun a => if dst ≤ a ∧ a < dst + size then m (src + (a - dst)) else m a

/-- `r` is the smallest multiple of `al` that is not below `n` -/
def RoundsUp (al n r : Nat) : Prop := al ∣ r ∧ n ≤ r ∧ ∀ r', al ∣ r' → n ≤ r' → r ≤ r'

end Verif.Spec.BlockCopy
