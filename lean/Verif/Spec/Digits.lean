/-!
# Specification: positional notation

Characters are ASCII codes.
-/
namespace Verif.Spec

/-- ASCII codes of `0`..`9`, `a`..`f` -/
def lowerDigits : List Nat := "0123456789abcdef".toList.map Char.toNat
/-- ASCII codes of `0`..`9`, `A`..`F` -/
def upperDigits : List Nat := "0123456789ABCDEF".toList.map Char.toNat

/-- `c` is the digit `d` in the given base (either letter case) -/
def IsDigit (base c d : Nat) : Prop := d < base ∧ (lowerDigits[d]? = some c ∨ upperDigits[d]? = some c)

/-- value of a digit string, most significant digit first, continuing from `a` -/
def posValueFrom (base : Nat) : Nat → List Nat → Nat
  | a, [] => a
  | a, d :: ds => posValueFrom base (a * base + d) ds

/-- positional value of a digit string, most significant digit first -/
def posValue (base : Nat) (ds : List Nat) : Nat := posValueFrom base 0 ds

/-- the characters `cs` spell the digits `ds` -/
inductive Spells (base : Nat) : List Nat → List Nat → Prop
  | nil : Spells base [] []
  | cons {c d cs ds} : IsDigit base c d → Spells base cs ds → Spells base (c :: cs) (d :: ds)

end Verif.Spec
