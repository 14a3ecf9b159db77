import Verif.Spec.Bits
/-!
# Specification: the meaning of integer operations of the intermediate language

The value of an integer node of a mode with `bits` bits is an integer in the
range of the mode.  The operations are given by textbook definitions and do not
refer to the model.  (That the target value functions of `ir/tv/tv.c` agree with
them is C01–C05, C07.)
-/
namespace Verif.Spec

/-- an integer mode: signedness, number of bits, and modulo-shift (shift counts are
taken modulo this number; 0: no reduction) -/
structure IMode where
  signed : Bool
  bits : Nat
  modulo : Nat
  deriving DecidableEq

/-- reduction into the range of the mode -/
def IMode.wrap (m : IMode) (x : Int) : Int := Spec.wrap m.signed m.bits x

/-- `x` is a value of the mode -/
def IMode.In (m : IMode) (x : Int) : Prop := InRange m.signed m.bits x

/-- effective shift count -/
def IMode.amt (m : IMode) (s : Nat) : Nat := if m.modulo = 0 then s else s % m.modulo

def irAdd (m : IMode) (x y : Int) : Int := m.wrap (x + y)
def irSub (m : IMode) (x y : Int) : Int := m.wrap (x - y)
def irMul (m : IMode) (x y : Int) : Int := m.wrap (x * y)
def irNeg (m : IMode) (x : Int) : Int := m.wrap (-x)
/-- upper half of the double-width product -/
def irMulh (m : IMode) (x y : Int) : Int := m.wrap (x * y / 2 ^ m.bits)
def irShl (m : IMode) (x : Int) (s : Nat) : Int := m.wrap (x * 2 ^ m.amt s)
/-- logical shift: zeros are shifted in -/
def irShr (m : IMode) (x : Int) (s : Nat) : Int := m.wrap (x % 2 ^ m.bits / 2 ^ m.amt s)
/-- arithmetic shift: the top bit is shifted in -/
def irShrs (m : IMode) (x : Int) (s : Nat) : Int := m.wrap (Spec.wrap true m.bits x / 2 ^ m.amt s)
/-- truncated division -/
def irDiv (m : IMode) (x y : Int) : Int := m.wrap (x.tdiv y)
def irMod (m : IMode) (x y : Int) : Int := m.wrap (x.tmod y)
/-- the bit pattern of a value -/
def IMode.pattern (m : IMode) (x : Int) : Nat := (x % 2 ^ m.bits).toNat
/-- bitwise operations on the bit patterns -/
def irAnd (m : IMode) (x y : Int) : Int := m.wrap ((m.pattern x &&& m.pattern y : Nat) : Int)
def irOr (m : IMode) (x y : Int) : Int := m.wrap ((m.pattern x ||| m.pattern y : Nat) : Int)
def irEor (m : IMode) (x y : Int) : Int := m.wrap ((m.pattern x ^^^ m.pattern y : Nat) : Int)
def irNot (m : IMode) (x : Int) : Int := m.wrap (-x - 1)

end Verif.Spec
