import Verif.Spec.X86Flags
/-!
# Specification: some instructions of the processor

Instructions on the registers and the carry flag, written from the instruction reference: double
shifts, writes to parts of a register, and the short sequences built from moves, negations and
subtractions with borrow.
-/
namespace Verif.Spec.X86Small

/-- `shld`: the upper register shifted to the left, filled from the lower one.  The processor takes
the count modulo 32, and does nothing for 0. -/
def shld (hi lo : BitVec 32) (c : Nat) : BitVec 32 :=
  if c % 32 = 0 then hi else (hi <<< (c % 32)) ||| (lo >>> (32 - c % 32))

/-- `shrd`: the lower register shifted to the right, filled from the upper one. -/
def shrd (lo hi : BitVec 32) (c : Nat) : BitVec 32 :=
  if c % 32 = 0 then lo else (lo >>> (c % 32)) ||| (hi <<< (32 - c % 32))

/-- A write to the low `n` bits of a register leaves the others. -/
def writeLow {n : Nat} (r : BitVec 32) (v : BitVec n) : BitVec 32 :=
  (r &&& ~~~ BitVec.ofNat 32 (2 ^ n - 1)) ||| v.setWidth 32

/-- A write to the second byte, `ah` and its like. -/
def writeHigh (r : BitVec 32) (v : BitVec 8) : BitVec 32 :=
  (r &&& ~~~ (0xFF00 : BitVec 32)) ||| (v.setWidth 32 <<< 8)

/-- The second byte. -/
def high (r : BitVec 32) : BitVec 8 := (r >>> 8).setWidth 8

/-- The registers and the carry flag. -/
structure State where
  reg : Nat → BitVec 32
  cf : Bool

def State.set (s : State) (r : Nat) (v : BitVec 32) : State :=
  { s with reg := fun q => if q = r then v else s.reg q }

/-- Instructions; the destination comes last, as in the assembler text. -/
inductive Instr where
  | mov (src dst : Nat)
  | xchg (a b : Nat)
  | neg (r : Nat)
  | zero (r : Nat)
  | sbb (src dst : Nat)
  | sbb0 (r : Nat)
  | add (src dst : Nat)
  | addImm (v : BitVec 32) (dst : Nat)
  | inc (r : Nat)
  | dec (r : Nat)
  | shl (k : Nat) (r : Nat)
  /-- base, index, scale, displacement -/
  | lea (b i : Option Nat) (s : Nat) (d : BitVec 32) (dst : Nat)

/-- The effect of an instruction.  Of the flags only the carry is followed; `add`, `shl` and their
like leave it unspecified, written here as `false`. -/
def step (s : State) : Instr → State
  | .mov a b => s.set b (s.reg a)
  | .xchg a b => (s.set b (s.reg a)).set a (s.reg b)
  | .neg r => { s.set r (-(s.reg r)) with cf := decide (s.reg r ≠ 0) }
  | .zero r => { s.set r 0 with cf := false }
  | .sbb a b => { s.set b (Spec.X86.sbbValue (s.reg b) (s.reg a) s.cf) with
      cf := (Spec.X86.sbbFlags (s.reg b) (s.reg a) s.cf).cf }
  | .sbb0 r => { s.set r (Spec.X86.sbbValue (s.reg r) 0 s.cf) with
      cf := (Spec.X86.sbbFlags (s.reg r) 0 s.cf).cf }
  | .add a b => { s.set b (s.reg b + s.reg a) with cf := false }
  | .addImm v b => { s.set b (s.reg b + v) with cf := false }
  | .inc r => s.set r (s.reg r + 1)
  | .dec r => s.set r (s.reg r - 1)
  | .shl k r => { s.set r (s.reg r <<< (k % 32)) with cf := false }
  | .lea b i sc d dst =>
    s.set dst ((b.elim 0 s.reg) + (i.elim 0 fun r => s.reg r <<< sc) + d)

def run (s : State) (l : List Instr) : State := l.foldl step s

end Verif.Spec.X86Small
