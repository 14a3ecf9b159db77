import Verif.Spec.X86
/-!
# Specification: the execution of 32 bit x86 machine code

What the instructions do that occur in the sequences of several instructions: jumps on conditions,
`setcc`, operations on registers, string moves.  Written from the instruction reference.
-/
namespace Verif.Spec.X86

/-- The flags: carry, parity, zero, sign, overflow. -/
structure EFlags where
  cf : Bool
  pf : Bool
  zf : Bool
  sf : Bool
  of : Bool
  deriving DecidableEq, Repr

/-- The sixteen conditions of the manual. -/
def ccHolds (cc : BitVec 4) (f : EFlags) : Bool :=
  (match cc.toNat / 2 with
   | 0 => f.of
   | 1 => f.cf
   | 2 => f.zf
   | 3 => f.cf || f.zf
   | 4 => f.sf
   | 5 => f.pf
   | 6 => f.sf != f.of
   | _ => f.zf || (f.sf != f.of)) != cc.getLsbD 0

/-- A condition code of the compiler on flags: a negated code with the parity cases holds also for
unordered operands, the other ones with parity cases do not (ir/be/ia32/x86_node.h:22-47). -/
def ccMeans (cc : BitVec 8) (f : EFlags) : Bool :=
  if cc &&& 0x20 = 0 then ccHolds (cc.setWidth 4) f
  else if cc.getLsbD 0 then f.pf || ccHolds (cc.setWidth 4) f
  else !f.pf && ccHolds (cc.setWidth 4) f

/-- What is behind the given number of bytes. -/
def dropBytes : List Item → Nat → Option (List Item)
  | l, 0 => some l
  | [], _ + 1 => none
  | x :: l, n + 1 => if x.len ≤ n + 1 then dropBytes l (n + 1 - x.len) else none

/-- Where a jump leads to: to a fragment if the displacement, which counts from the end of the
instruction, stands in its last four bytes and is the distance from there less four. -/
def jumpFrag : Value → Option Nat
  | .frag _ n off => if off = -4 then some n else none
  | _ => none

/-- The execution of a stretch of code that consists of jumps: the fragment control goes to, `some
none` if control falls out of the end of the stretch.  The first number bounds the steps. -/
def jumpRun (f : EFlags) : Nat → List Item → Option (Option Nat)
  | _, [] => some none
  | 0, _ :: _ => none
  | k + 1, x :: l =>
      match decode (x :: l) with
      | some (.jcc cc (.num d), rest) =>
          if ccHolds cc f then (dropBytes rest d.toNat).bind (jumpRun f k) else jumpRun f k rest
      | some (.jcc cc v, rest) => if ccHolds cc f then (jumpFrag v).map some else jumpRun f k rest
      | some (.jmp v, _) => (jumpFrag v).map some
      | _ => none

/-- The number of bytes that a sequence of string moves copies; `none` if there is another
instruction. -/
def movedBytes : List Insn → Option Nat
  | [] => some 0
  | .movs .b :: l => (movedBytes l).map (· + 1)
  | .movs .w :: l => (movedBytes l).map (· + 2)
  | .movs .d :: l => (movedBytes l).map (· + 4)
  | _ :: _ => none

/-- The byte registers of eax to ebx, the low and the high ones. -/
structure Bytes4 where
  low : BitVec 2 → BitVec 8
  high : BitVec 2 → BitVec 8

def Bytes4.get (s : Bytes4) : Opd → Option (BitVec 8)
  | .reg (.low r) => some (s.low r)
  | .reg (.high r) => some (s.high r)
  | _ => none

def Bytes4.set (s : Bytes4) (o : Opd) (v : BitVec 8) : Option Bytes4 :=
  match o with
  | .reg (.low r) => some { s with low := fun x => if x = r then v else s.low x }
  | .reg (.high r) => some { s with high := fun x => if x = r then v else s.high x }
  | _ => none

/-- The execution of `setcc`, `orb` and `andb` (the flags do not matter to what follows here: the
sequences read them before they change them). -/
def runSet (f : EFlags) (s : Bytes4) : List Insn → Option Bytes4
  | [] => some s
  | .setcc cc x :: l => do
      let s ← s.set x (if ccHolds cc f then 1 else 0)
      runSet f s l
  | .alu .or .b x y :: l => do
      let a ← s.get x
      let b ← s.get y
      let s ← s.set x (a ||| b)
      match l with | [] => some s | _ => none
  | .alu .and .b x y :: l => do
      let a ← s.get x
      let b ← s.get y
      let s ← s.set x (a &&& b)
      match l with | [] => some s | _ => none
  | _ :: _ => none

/-- Registers and carry flag. -/
structure IntState where
  reg : BitVec 3 → BitVec 32
  cf : Bool

def IntState.put (s : IntState) (r : BitVec 3) (v : BitVec 32) : IntState :=
  { s with reg := fun x => if x = r then v else s.reg x }

/-- The value of an operand of 32 bits. -/
def IntState.val (s : IntState) : Opd → Option (BitVec 32)
  | .reg (.r32 r) => some (s.reg r)
  | .imm (.num v) => some v
  | _ => none

/-- The instructions of 32 bits on registers that the negation uses, by the manual. -/
def runInt (s : IntState) : List Insn → Option IntState
  | [] => some s
  | .mov .d (.reg (.r32 d)) x :: l => do
      let v ← s.val x
      runInt (s.put d v) l
  | .xchg .d (.reg (.r32 a)) (.reg (.r32 b)) :: l =>
      runInt ((s.put a (s.reg b)).put b (s.reg a)) l
  | .un .neg .d (.reg (.r32 d)) :: l =>
      runInt { s.put d (- s.reg d) with cf := s.reg d != 0 } l
  | .alu .xor .d (.reg (.r32 d)) x :: l => do
      let v ← s.val x
      runInt { s.put d (s.reg d ^^^ v) with cf := false } l
  | .alu .sbb .d (.reg (.r32 d)) x :: l => do
      let v ← s.val x
      let c : Nat := if s.cf then 1 else 0
      runInt { s.put d (s.reg d - v - BitVec.ofNat 32 c) with
        cf := decide ((s.reg d).toNat < v.toNat + c) } l
  | _ :: _ => none

/-- An instruction without effect. -/
def isNop : Insn → Bool
  | .simple .nop => true
  | .nopRm .. => true
  | _ => false

end Verif.Spec.X86
