/-!
# Specification: what instructions with immediate operands compute

Integer instructions of four 32 bit instruction sets, as far as they are used to build constants
and addresses.  An expression stands for a sequence of instructions, one for every inner node.
`eval` is the value in the result register, `ok` says that every immediate fits into the field
of its instruction.  The definitions follow the manuals of the instruction sets and do not
refer to the model.
-/
namespace Verif.Spec.Machine

abbrev Word := BitVec 32

/-! ## RISC-V -/

inductive Rv where
  /-- the register that is always zero -/
  | zero
  /-- a register of the environment -/
  | reg (r : Nat)
  /-- `lui`: the immediate fills the upper twenty bits -/
  | lui (imm : Int)
  /-- `addi`: the immediate has twelve bits and is sign extended -/
  | addi (e : Rv) (imm : Int)
  | add (a b : Rv)
  /-- `sltiu`: unsigned comparison with the sign extended immediate -/
  | sltiu (e : Rv) (imm : Int)
  | slli (e : Rv) (imm : Int)
  | srli (e : Rv) (imm : Int)
  | srai (e : Rv) (imm : Int)
  deriving DecidableEq

def Rv.eval (env : Nat → Word) : Rv → Word
  | .zero => 0#32
  | .reg r => env r
  | .lui i => BitVec.ofInt 32 (i * 4096)
  | .addi e i => e.eval env + BitVec.ofInt 32 i
  | .add a b => a.eval env + b.eval env
  | .sltiu e i => if (e.eval env).toNat < (BitVec.ofInt 32 i).toNat then 1#32 else 0#32
  | .slli e i => e.eval env <<< i.toNat
  | .srli e i => e.eval env >>> i.toNat
  | .srai e i => (e.eval env).sshiftRight i.toNat

def Rv.ok : Rv → Prop
  | .zero | .reg _ => True
  | .lui i => 0 ≤ i ∧ i < 2 ^ 20
  | .addi e i | .sltiu e i => e.ok ∧ -2048 ≤ i ∧ i < 2048
  | .add a b => a.ok ∧ b.ok
  | .slli e i | .srli e i | .srai e i => e.ok ∧ 0 ≤ i ∧ i < 32

/-- the number of instructions -/
def Rv.size : Rv → Nat
  | .zero | .reg _ => 0
  | .lui _ => 1
  | .addi e _ | .sltiu e _ | .slli e _ | .srli e _ | .srai e _ => e.size + 1
  | .add a b => a.size + b.size + 1

/-! ## MIPS -/

inductive Mips where
  | zero
  | reg (r : Nat)
  /-- `lui`: the immediate fills the upper half -/
  | lui (imm : Int)
  /-- `addiu`: sixteen bits, sign extended -/
  | addiu (e : Mips) (imm : Int)
  /-- `andi`, `ori`, `xori`: sixteen bits, zero extended -/
  | andi (e : Mips) (imm : Int)
  | ori (e : Mips) (imm : Int)
  | xori (e : Mips) (imm : Int)
  | addu (a b : Mips)
  | sltiu (e : Mips) (imm : Int)
  deriving DecidableEq

def Mips.eval (env : Nat → Word) : Mips → Word
  | .zero => 0#32
  | .reg r => env r
  | .lui i => BitVec.ofInt 32 (i * 65536)
  | .addiu e i => e.eval env + BitVec.ofInt 32 i
  | .andi e i => e.eval env &&& BitVec.ofInt 32 i
  | .ori e i => e.eval env ||| BitVec.ofInt 32 i
  | .xori e i => e.eval env ^^^ BitVec.ofInt 32 i
  | .addu a b => a.eval env + b.eval env
  | .sltiu e i => if (e.eval env).toNat < (BitVec.ofInt 32 i).toNat then 1#32 else 0#32

def Mips.ok : Mips → Prop
  | .zero | .reg _ => True
  | .lui i => 0 ≤ i ∧ i < 65536
  | .addiu e i | .sltiu e i => e.ok ∧ -32768 ≤ i ∧ i < 32768
  | .andi e i | .ori e i | .xori e i => e.ok ∧ 0 ≤ i ∧ i < 65536
  | .addu a b => a.ok ∧ b.ok

def Mips.size : Mips → Nat
  | .zero | .reg _ => 0
  | .lui _ => 1
  | .addiu e _ | .andi e _ | .ori e _ | .xori e _ | .sltiu e _ => e.size + 1
  | .addu a b => a.size + b.size + 1

/-! ## SPARC -/

inductive Sparc where
  | g0
  | reg (r : Nat)
  /-- `sethi %hi(v)`: the upper twenty two bits of `v`, the other bits are zero -/
  | sethi (v : Word)
  /-- operations with an immediate of thirteen bits, sign extended -/
  | orImm (e : Sparc) (imm : Int)
  | addImm (e : Sparc) (imm : Int)
  | subImm (e : Sparc) (imm : Int)
  | addReg (a b : Sparc)
  | subReg (a b : Sparc)
  /-- `andn`, `orn`, `xnor`: the second operand is complemented -/
  | andnReg (a b : Sparc)
  | ornReg (a b : Sparc)
  | xnorReg (a b : Sparc)
  deriving DecidableEq

def Sparc.eval (env : Nat → Word) : Sparc → Word
  | .g0 => 0#32
  | .reg r => env r
  | .sethi v => BitVec.ofNat 32 (v.toNat / 1024 * 1024)
  | .orImm e i => e.eval env ||| BitVec.ofInt 32 i
  | .addImm e i => e.eval env + BitVec.ofInt 32 i
  | .subImm e i => e.eval env - BitVec.ofInt 32 i
  | .addReg a b => a.eval env + b.eval env
  | .subReg a b => a.eval env - b.eval env
  | .andnReg a b => a.eval env &&& ~~~ b.eval env
  | .ornReg a b => a.eval env ||| ~~~ b.eval env
  | .xnorReg a b => ~~~ (a.eval env ^^^ b.eval env)

def Sparc.ok : Sparc → Prop
  | .g0 | .reg _ | .sethi _ => True
  | .orImm e i | .addImm e i | .subImm e i => e.ok ∧ -4096 ≤ i ∧ i ≤ 4095
  | .addReg a b | .subReg a b | .andnReg a b | .ornReg a b | .xnorReg a b => a.ok ∧ b.ok

/-! ## ARM -/

/-- the value of a shifter operand: eight bits, rotated right -/
def armImm (b r : Nat) : Word := (BitVec.ofNat 32 b).rotateRight r

/-- the field of an instruction: eight bits and an even rotation -/
def ArmField (b r : Nat) : Prop := b < 256 ∧ r < 32 ∧ r % 2 = 0

/-- the values an instruction can take as immediate operand -/
def ArmEncodable (v : Word) : Prop := ∃ b r, ArmField b r ∧ armImm b r = v

inductive Arm where
  | reg (r : Nat)
  | mov (b r : Nat)
  | mvn (b r : Nat)
  | orr (e : Arm) (b r : Nat)
  | bic (e : Arm) (b r : Nat)
  | add (e : Arm) (b r : Nat)
  | sub (e : Arm) (b r : Nat)
  | and (e : Arm) (b r : Nat)
  /-- a register, shifted by an immediate -/
  | lsl (e : Arm) (n : Nat)
  | lsr (e : Arm) (n : Nat)
  | asr (e : Arm) (n : Nat)
  deriving DecidableEq

def Arm.eval (env : Nat → Word) : Arm → Word
  | .reg r => env r
  | .mov b r => armImm b r
  | .mvn b r => ~~~ armImm b r
  | .orr e b r => e.eval env ||| armImm b r
  | .bic e b r => e.eval env &&& ~~~ armImm b r
  | .add e b r => e.eval env + armImm b r
  | .sub e b r => e.eval env - armImm b r
  | .and e b r => e.eval env &&& armImm b r
  | .lsl e n => e.eval env <<< n
  | .lsr e n => e.eval env >>> n
  | .asr e n => (e.eval env).sshiftRight n

def Arm.ok : Arm → Prop
  | .reg _ => True
  | .mov b r | .mvn b r => ArmField b r
  | .orr e b r | .bic e b r | .add e b r | .sub e b r | .and e b r => e.ok ∧ ArmField b r
  | .lsl e n => e.ok ∧ n < 32
  | .lsr e n | .asr e n => e.ok ∧ 1 ≤ n ∧ n ≤ 32

def Arm.size : Arm → Nat
  | .reg _ => 0
  | .mov _ _ | .mvn _ _ => 1
  | .orr e _ _ | .bic e _ _ | .add e _ _ | .sub e _ _ | .and e _ _ => e.size + 1
  | .lsl e _ | .lsr e _ | .asr e _ => e.size + 1

/-! ## condition codes -/

structure Flags where
  n : Bool
  z : Bool
  c : Bool
  v : Bool
  deriving DecidableEq, Repr

/-- flags of an addition -/
def addFlags (x y : Word) : Flags where
  n := (x + y).msb
  z := (x + y) == 0#32
  c := decide (2 ^ 32 ≤ x.toNat + y.toNat)
  v := decide (x.toInt + y.toInt ≠ (x + y).toInt)

/-- flags of a subtraction on ARM: the carry is set if there is no borrow -/
def subFlags (x y : Word) : Flags where
  n := (x - y).msb
  z := (x - y) == 0#32
  c := decide (y.toNat ≤ x.toNat)
  v := decide (x.toInt - y.toInt ≠ (x - y).toInt)

end Verif.Spec.Machine
