import Verif.Model.StrCalc
/-!
# Model of `ir_mode` (`ir/ir/irmode.c`, `ir/ir/irmode_t.h`)

Modes are interned objects compared by pointer; the model compares them
structurally, the field `name` standing for the identity.  The cached
tarvals (`min`, `max`, `null`, `one`, `all_one`) are in `Model/TarVal.lean`.
-/
namespace Verif.Model

/-- `ir_mode_sort`, include/libfirm/irmode.h:67-97 (bits `irmsh_is_data`,
`irmsh_is_num` are not needed). -/
inductive MSort
  | auxiliary | data | internalBoolean | reference | intNumber | floatNumber
  deriving DecidableEq, Repr

/-- `struct ir_mode`, irmode_t.h:72-97: the fields used here. -/
structure Mode where
  /-- stands for the identity of the mode object -/
  name : Nat
  sort : MSort
  /-- `size` in bits -/
  bits : Nat
  signed : Bool
  /-- `modulo_shift` -/
  modulo : Nat
  deriving DecidableEq, Repr

/-- `get_mode_arithmetic(mode) == irma_twos_complement`: set for integer and
reference modes only, irmode.c:148-149, 159-160 (others get `irma_ieee754`,
`irma_x86_extended_float`, `irma_none`: 196, 208, 214, 436). -/
def Mode.twos (m : Mode) : Bool := m.sort == .intNumber || m.sort == .reference

/-- `get_mode_size_bytes_`, irmode_t.h:112-117; `(unsigned)-1` when the size is
not a multiple of 8. -/
def Mode.sizeBytes (m : Mode) : Nat := if m.bits % 8 ≠ 0 then 2 ^ 32 - 1 else m.bits / 8

/-- `smaller_mode`, irmode.c:329-383, for an integer first mode
(float modes: 366-369 are not modelled). -/
def smallerMode (sm lm : Mode) : Bool :=
  if sm = lm then true
  else match sm.sort, lm.sort with
    | .intNumber, .intNumber =>
        if sm.signed then
          if !lm.signed then false else decide (sm.bits ≤ lm.bits)
        else if lm.signed then decide (sm.bits < lm.bits)
        else decide (sm.bits ≤ lm.bits)
    | _, _ => false

/-- `values_in_mode`, irmode.c:385-417, on two's complement modes. -/
def valuesInMode (sm lm : Mode) : Bool :=
  if sm = lm then true
  else if sm.twos && lm.twos then decide (sm.bits ≤ lm.bits) else false

/-- `is_reinterpret_cast`, irmode.c:531-543. -/
def isReinterpretCast (src dst : Mode) : Bool :=
  if src = dst then true
  else if src.bits ≠ dst.bits then false
  else if src.twos ≠ dst.twos then false
  else src.twos

/-- the predefined integer modes, irmode.c:451-458. -/
def modeBs : Mode := ⟨1, .intNumber, 8, true, 32⟩
/-- irmode.c:452 -/
def modeBu : Mode := ⟨2, .intNumber, 8, false, 32⟩
/-- irmode.c:453 -/
def modeHs : Mode := ⟨3, .intNumber, 16, true, 32⟩
/-- irmode.c:454 -/
def modeHu : Mode := ⟨4, .intNumber, 16, false, 32⟩
/-- irmode.c:455 -/
def modeIs : Mode := ⟨5, .intNumber, 32, true, 32⟩
/-- irmode.c:456 -/
def modeIu : Mode := ⟨6, .intNumber, 32, false, 32⟩
/-- irmode.c:457 -/
def modeLs : Mode := ⟨7, .intNumber, 64, true, 64⟩
/-- irmode.c:458 -/
def modeLu : Mode := ⟨8, .intNumber, 64, false, 64⟩
/-- `mode_b`, irmode.c:445-446 -/
def modeB : Mode := ⟨9, .internalBoolean, 1, false, 0⟩
/-- `mode_BAD`, irmode.c:444 -/
def modeBAD : Mode := ⟨10, .auxiliary, 0, false, 0⟩
/-- `mode_ANY`, irmode.c:443 -/
def modeANY : Mode := ⟨11, .auxiliary, 0, false, 0⟩

end Verif.Model
