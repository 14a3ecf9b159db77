/-!
# Model of the size of LEB128 numbers (`ir/be/bedwarf.c`)
-/
namespace Verif.Model.Leb128

/-- `get_uleb128_size`, ir/be/bedwarf.c:136-144 -/
def ulebSize (value : Nat) : Nat :=
  if _h : value / 128 = 0 then 1 else 1 + ulebSize (value / 128)
  termination_by value
  decreasing_by omega

/-- `get_sleb128_size`, ir/be/bedwarf.c:152-160; `value >>= 7` is an arithmetic shift -/
def slebSize (value : Int) : Nat :=
  if _h : value / 128 = 0 ∨ value / 128 = -1 then 1 else 1 + slebSize (value / 128)
  termination_by value.natAbs
  decreasing_by omega

end Verif.Model.Leb128
