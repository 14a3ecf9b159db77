import Verif.Spec.X86Exec
import Verif.Props.Relation
/-!
# Specification: the flags after arithmetic instructions

The flags that instructions leave, on operands of any width, written from the instruction reference,
and the outcomes of comparisons of numbers.
-/
namespace Verif.Spec.X86
open Verif.Props (Outcome Holds)

/-- The parity flag: the number of ones in the lowest eight bits is even. -/
def evenLow {w : Nat} (r : BitVec w) : Bool :=
  ((List.range 8).countP fun i => r.getLsbD i) % 2 == 0

/-- `sub` and `cmp`: carry if the unsigned difference is below zero, overflow if the signed difference
is not that of the operands. -/
def subFlags {w : Nat} (a b : BitVec w) : EFlags where
  cf := decide (a.toNat < b.toNat)
  pf := evenLow (a - b)
  zf := decide (a - b = 0)
  sf := (a - b).msb
  of := decide ((a - b).toInt ≠ a.toInt - b.toInt)

/-- The result of `adc`. -/
def adcValue {w : Nat} (a b : BitVec w) (c : Bool) : BitVec w := a + b + BitVec.ofNat w c.toNat

/-- `add` (without a carry in) and `adc`. -/
def adcFlags {w : Nat} (a b : BitVec w) (c : Bool) : EFlags where
  cf := decide (2 ^ w ≤ a.toNat + b.toNat + c.toNat)
  pf := evenLow (adcValue a b c)
  zf := decide (adcValue a b c = 0)
  sf := (adcValue a b c).msb
  of := decide ((adcValue a b c).toInt ≠ a.toInt + b.toInt + c.toNat)

/-- The result of `sbb`. -/
def sbbValue {w : Nat} (a b : BitVec w) (c : Bool) : BitVec w := a - b - BitVec.ofNat w c.toNat

/-- `sbb`. -/
def sbbFlags {w : Nat} (a b : BitVec w) (c : Bool) : EFlags where
  cf := decide (a.toNat < b.toNat + c.toNat)
  pf := evenLow (sbbValue a b c)
  zf := decide (sbbValue a b c = 0)
  sf := (sbbValue a b c).msb
  of := decide ((sbbValue a b c).toInt ≠ a.toInt - b.toInt - c.toNat)

/-- `and`, `or`, `xor`, `test`: no carry and no overflow. -/
def logicFlags {w : Nat} (r : BitVec w) : EFlags where
  cf := false
  pf := evenLow r
  zf := decide (r = 0)
  sf := r.msb
  of := false

/-- `ucomis`, `fucomi` and `sahf` after `fucom`: the flags show the outcome of the comparison. -/
def ucomiFlags : Outcome → EFlags
  | .un => ⟨true, true, true, false, false⟩
  | .gt => ⟨false, false, false, false, false⟩
  | .lt => ⟨true, false, false, false, false⟩
  | .eq => ⟨false, false, true, false, false⟩

/-- The comparison of two patterns as numbers with or without a sign. -/
def outcome {w : Nat} (signed : Bool) (a b : BitVec w) : Outcome :=
  let x : Int := if signed then a.toInt else a.toNat
  let y : Int := if signed then b.toInt else b.toNat
  if x = y then .eq else if x < y then .lt else .gt

end Verif.Spec.X86
