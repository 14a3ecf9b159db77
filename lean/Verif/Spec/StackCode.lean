/-!
# Specification: instructions on the stack

A machine with registers of 32 bits, a stack pointer and a memory of bytes, and the instructions that
matter here: moves of the stack pointer, stores, loads, pushes, pops and copies.  Addresses are
integers and do not wrap.
-/
namespace Verif.Spec.StackCode

structure State where
  reg : Nat → BitVec 32
  sp : Int
  mem : Int → BitVec 8

/-- What is stored or pushed; a constant counts as a register that holds it. -/
inductive Val where
  | reg (r : Nat)
  | sp
  deriving DecidableEq, Repr

/-- Where an address starts. -/
inductive Base where
  | sp
  | reg (r : Nat)
  deriving DecidableEq, Repr

/-- An address: base, index register, offset. -/
structure Addr where
  base : Base
  index : Option Nat
  offset : Int
  deriving DecidableEq, Repr

inductive Instr where
  /-- the stack grows by `n` bytes -/
  | incSP (n : Int)
  /-- the lowest `size` bytes of a value -/
  | store (a : Addr) (size : Nat) (v : Val)
  | push (v : Val)
  | load (d : Nat) (a : Addr)
  | pop (d : Nat)
  | copy (d s : Nat)
  /-- an instruction that does nothing to these registers and memory, such as a copy of a floating
  point register -/
  | idle
  deriving DecidableEq, Repr

def State.val (s : State) : Val → BitVec 32
  | .reg r => s.reg r
  | .sp => BitVec.ofInt 32 s.sp

def State.addr (s : State) (a : Addr) : Int :=
  (match a.base with | .sp => s.sp | .reg r => ((s.reg r).toNat : Int))
    + (match a.index with | some r => ((s.reg r).toNat : Int) | none => 0) + a.offset

/-- byte `k` of a value -/
def byteOf (v : BitVec 32) (k : Nat) : BitVec 8 := (v >>> (8 * k)).setWidth 8

/-- little endian -/
def write (m : Int → BitVec 8) (a : Int) (size : Nat) (v : BitVec 32) : Int → BitVec 8 := fun b =>
  if a ≤ b ∧ b < a + size then byteOf v (b - a).toNat else m b

def read (m : Int → BitVec 8) (a : Int) : BitVec 32 := m (a + 3) ++ m (a + 2) ++ m (a + 1) ++ m a

def setReg (s : State) (d : Nat) (v : BitVec 32) : State :=
  { s with reg := fun r => if r = d then v else s.reg r }

/-- `push` of the stack pointer pushes its value before. -/
def exec (s : State) : Instr → State
  | .incSP n => { s with sp := s.sp - n }
  | .store a size v => { s with mem := write s.mem (s.addr a) size (s.val v) }
  | .push v => { s with sp := s.sp - 4, mem := write s.mem (s.sp - 4) 4 (s.val v) }
  | .load d a => setReg s d (read s.mem (s.addr a))
  | .pop d => { setReg s d (read s.mem s.sp) with sp := s.sp + 4 }
  | .copy d r => setReg s d (s.reg r)
  | .idle => s

def run (s : State) (l : List Instr) : State := l.foldl exec s

/-- An instruction is a store and writes to the address. -/
def Writes (s : State) (x : Instr) (a : Int) : Prop :=
  ∃ ad size v, x = .store ad size v ∧ s.addr ad ≤ a ∧ a < s.addr ad + size

/-- An instruction does not depend on the stack pointer. -/
def SpFree : Instr → Bool
  | .incSP _ => false
  | .store a _ v => a.base != .sp && v != .sp
  | .push _ => false
  | .load _ a => a.base != .sp
  | .pop _ => false
  | .copy _ _ => true
  | .idle => true

end Verif.Spec.StackCode
