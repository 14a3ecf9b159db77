/-!
# Specification: the meaning of 32 bit x86 machine code

A decoder for the part of the IA-32 instruction set that a compiler for integer code and for the
x87 unit uses, written from the opcode maps, the tables of the ModR/M and SIB bytes and the
instruction reference of the architecture manual (32 bit mode, default operand and address size
32).  It does not refer to the encoder that is modelled.

A stretch of code is a list of items: bytes, and places of four bytes that a linker fills in.
-/
namespace Verif.Spec.X86

abbrev Byte := BitVec 8

/-- One item of a stretch of code. -/
inductive Item where
  | byte (b : Byte)
  /-- four bytes: the address of the symbol plus the offset, in the manner of the kind -/
  | reloc (kind sym : Nat) (off : BitVec 32)
  /-- four bytes: the distance from here to the fragment plus the offset -/
  | frag (kind num : Nat) (off : BitVec 32)
  deriving DecidableEq, Repr

/-- The number of bytes of an item. -/
def Item.len : Item → Nat
  | .byte _ => 1
  | .reloc .. => 4
  | .frag .. => 4

/-- A value of a displacement or of an immediate operand. -/
inductive Value where
  | num (v : BitVec 32)
  | sym (kind sym : Nat) (off : BitVec 32)
  | frag (kind num : Nat) (off : BitVec 32)
  deriving DecidableEq, Repr

/-- Operand sizes: byte, word, doubleword. -/
inductive Size where
  | b | w | d
  deriving DecidableEq, Repr

/-- The names of the general registers.  The numbers are 0 to 7 for eax, ecx, edx, ebx, esp, ebp,
esi, edi and 0 to 3 for the low and the high byte of eax, ecx, edx, ebx. -/
inductive Reg where
  | r32 (n : BitVec 3)
  | r16 (n : BitVec 3)
  | low (n : BitVec 2)
  | high (n : BitVec 2)
  deriving DecidableEq, Repr

/-- A memory operand: `disp(base, index, 1 << scale)`, perhaps with the segment gs. -/
structure Mem where
  gs : Bool
  base : Option (BitVec 3)
  index : Option (BitVec 3 × BitVec 2)
  disp : Value
  deriving DecidableEq, Repr

inductive Opd where
  | reg (r : Reg)
  | mem (m : Mem)
  | imm (v : Value)
  deriving DecidableEq, Repr

inductive Alu where
  | add | or | adc | sbb | and | sub | xor | cmp
  deriving DecidableEq, Repr

inductive Shift where
  | rol | ror | rcl | rcr | shl | shr | sar
  deriving DecidableEq, Repr

inductive Un where
  | not | neg | mul | imul | div | idiv | inc | dec
  deriving DecidableEq, Repr

/-- The count of a shift. -/
inductive Count where
  | imm (n : Byte)
  | cl
  deriving DecidableEq, Repr

inductive Simple where
  | cmc | stc | cdq | cwde | sahf | leave | int3 | nop
  deriving DecidableEq, Repr

/-- Arithmetic of the x87 unit: the operands are in the order of the subtraction. -/
inductive FArith where
  | add | mul | com | comp | sub | subr | div | divr
  deriving DecidableEq, Repr

/-- Loads and stores of the x87 unit; the number is the size of the memory operand in bits. -/
inductive FMem where
  | fld (bits : Nat) | fst (bits : Nat) | fstp (bits : Nat)
  | fild (bits : Nat) | fist (bits : Nat) | fistp (bits : Nat) | fisttp (bits : Nat)
  | fldcw | fnstcw
  | arith (op : FArith) (bits : Nat)
  deriving DecidableEq, Repr

/-- Operations of the x87 unit with a register of the stack. -/
inductive FReg where
  /-- `dst` is the top of the stack (`false`) or the register (`true`); the operation is
  `top op reg`, for the reversed operations `reg op top`; then perhaps a pop -/
  | arith (op : FArith) (toReg pop : Bool)
  | fld | fxch | fstp | ffreep | fucom | fucomp | fucomi | fucomip
  deriving DecidableEq, Repr

inductive FSimple where
  | fabs | fchs | ftst | fld1 | fldz | fucompp | fnstswAx
  deriving DecidableEq, Repr

/-- Instructions. -/
inductive Insn where
  | alu (op : Alu) (s : Size) (dst src : Opd)
  | test (s : Size) (a b : Opd)
  | mov (s : Size) (dst src : Opd)
  | xchg (s : Size) (a b : Opd)
  | lea (dst : Reg) (m : Mem)
  | un (op : Un) (s : Size) (x : Opd)
  | imul2 (s : Size) (dst : Reg) (src : Opd)
  | imul3 (s : Size) (dst : Reg) (src : Opd) (v : Value)
  | shift (op : Shift) (s : Size) (x : Opd) (n : Count)
  /-- `shld` and `shrd` -/
  | shiftd (left : Bool) (s : Size) (x : Opd) (fill : Reg) (n : Count)
  /-- `movzx` and `movsx` from size `s` -/
  | movx (signed : Bool) (s : Size) (dst : Reg) (src : Opd)
  | setcc (cc : BitVec 4) (x : Opd)
  | cmov (cc : BitVec 4) (s : Size) (dst : Reg) (src : Opd)
  /-- the target is relative to the end of the instruction -/
  | jcc (cc : BitVec 4) (target : Value)
  | jmp (target : Value)
  | call (target : Value)
  | jmpInd (x : Opd)
  | callInd (x : Opd)
  | bt (s : Size) (x : Opd) (y : Opd)
  | bsf (s : Size) (dst : Reg) (src : Opd)
  | bsr (s : Size) (dst : Reg) (src : Opd)
  | popcnt (s : Size) (dst : Reg) (src : Opd)
  | bswap (r : Reg)
  | push (s : Size) (x : Opd)
  | pop (s : Size) (x : Opd)
  | ret
  | retPop (n : BitVec 16)
  | movs (s : Size)
  | simple (x : Simple)
  /-- the long form of the instruction without effect -/
  | nopRm (s : Size) (x : Opd)
  | fmem (op : FMem) (m : Mem)
  | freg (op : FReg) (r : BitVec 3)
  | fsimple (op : FSimple)
  deriving DecidableEq, Repr

/-- The name of a register in an operand of a size, perhaps of its high byte; there are byte
registers for eax, ecx, edx and ebx only. -/
def named (s : Size) (high : Bool) (r : BitVec 3) : Option Reg :=
  match s with
  | .d => some (.r32 r)
  | .w => some (.r16 r)
  | .b =>
      if r.toNat < 4 then some (if high then .high (r.setWidth 2) else .low (r.setWidth 2))
      else none

/-! ## Fields -/

def take8 : List Item → Option (Byte × List Item)
  | .byte a :: r => some (a, r)
  | _ => none

def take16 : List Item → Option (BitVec 16 × List Item)
  | .byte a :: .byte b :: r => some (b ++ a, r)
  | _ => none

def take32 : List Item → Option (Value × List Item)
  | .byte a :: .byte b :: .byte c :: .byte d :: r => some (.num (d ++ c ++ b ++ a), r)
  | .reloc k s o :: r => some (.sym k s o, r)
  | .frag k n o :: r => some (.frag k n o, r)
  | _ => none

/-- An immediate operand of the size, filled up with zeros. -/
def takeImm (s : Size) (l : List Item) : Option (Value × List Item) :=
  match s with
  | .b => do let (v, r) ← take8 l; some (.num (v.setWidth 32), r)
  | .w => do let (v, r) ← take16 l; some (.num (v.setWidth 32), r)
  | .d => take32 l

/-- The low bits of a number that an operation of the size looks at. -/
def low (s : Size) (v : BitVec 32) : BitVec 32 :=
  match s with
  | .b => (v.setWidth 8).setWidth 32
  | .w => (v.setWidth 16).setWidth 32
  | .d => v

/-- An immediate operand of one byte, sign extended to the size. -/
def takeImm8s (s : Size) (l : List Item) : Option (Value × List Item) := do
  let (v, r) ← take8 l
  some (.num (low s (v.signExtend 32)), r)

/-- The register with a number in an instruction with operands of a size. -/
def regOf (s : Size) (n : BitVec 3) : Reg :=
  match s with
  | .d => .r32 n
  | .w => .r16 n
  | .b => if n.getLsbD 2 then .high (n.setWidth 2) else .low (n.setWidth 2)

/-- The ModR/M operand before the size is known. -/
inductive Rm where
  | reg (n : BitVec 3)
  | mem (m : Mem)
  deriving DecidableEq, Repr

def Rm.opd (s : Size) : Rm → Opd
  | .reg n => .reg (regOf s n)
  | .mem m => .mem m

/-- The fields `mod`, `reg`, `rm` of a ModR/M byte, and `scale`, `index`, `base` of a SIB byte. -/
def fields (b : Byte) : BitVec 2 × BitVec 3 × BitVec 3 :=
  (b.extractLsb' 6 2, b.extractLsb' 3 3, b.extractLsb' 0 3)

/-- The displacement that the mod field announces. -/
def takeDisp (mod : BitVec 2) (l : List Item) : Option (Value × List Item) :=
  if mod = 0 then some (.num 0, l)
  else if mod = 1 then do
    let (v, r) ← take8 l
    some (.num (v.signExtend 32), r)
  else take32 l

/-- The reg field and the operand of a ModR/M byte with what belongs to it.  Number 4 in the rm
field announces a SIB byte, number 5 with mod 0 is a displacement without base; in the SIB byte
index 4 stands for none and base 5 with mod 0 for a displacement without base. -/
def modrm (gs : Bool) (l : List Item) : Option (BitVec 3 × Rm × List Item) := do
  let (b, l) ← take8 l
  let (mod, reg, rm) := fields b
  if mod = 3 then some (reg, .reg rm, l)
  else if rm = 4 then do
    let (s, l) ← take8 l
    let (scale, index, base) := fields s
    let idx := if index = 4 then none else some (index, scale)
    if mod = 0 ∧ base = 5 then do
      let (d, l) ← take32 l
      some (reg, .mem ⟨gs, none, idx, d⟩, l)
    else do
      let (d, l) ← takeDisp mod l
      some (reg, .mem ⟨gs, some base, idx, d⟩, l)
  else if mod = 0 ∧ rm = 5 then do
    let (d, l) ← take32 l
    some (reg, .mem ⟨gs, none, none, d⟩, l)
  else do
    let (d, l) ← takeDisp mod l
    some (reg, .mem ⟨gs, some rm, none, d⟩, l)

/-! ## Opcode maps -/

def aluOf (n : BitVec 3) : Alu :=
  if n = 0 then .add else if n = 1 then .or else if n = 2 then .adc else if n = 3 then .sbb
  else if n = 4 then .and else if n = 5 then .sub else if n = 6 then .xor else .cmp

/-- The shift group; number 6 is not documented. -/
def shiftOf (n : BitVec 3) : Option Shift :=
  if n = 0 then some .rol else if n = 1 then some .ror else if n = 2 then some .rcl
  else if n = 3 then some .rcr else if n = 4 then some .shl else if n = 5 then some .shr
  else if n = 7 then some .sar else none

def fArithOf (n : BitVec 3) : FArith :=
  if n = 0 then .add else if n = 1 then .mul else if n = 2 then .com else if n = 3 then .comp
  else if n = 4 then .sub else if n = 5 then .subr else if n = 6 then .div else .divr

/-- What follows an opcode of one byte. -/
inductive Form where
  | aluMR (op : BitVec 3) (wide : Bool)
  | aluRM (op : BitVec 3) (wide : Bool)
  | aluAI (op : BitVec 3) (wide : Bool)
  | escape
  | inc | dec | push | pop | movRI | xchgA
  | pushI | pushI8 | imulI | imulI8
  | jccShort
  | grp1 (wide : Bool) | grp1s
  | testMR (wide : Bool) | xchgMR (wide : Bool)
  | movMR (wide : Bool) | movRM (wide : Bool)
  | lea | popM
  | simple (x : Simple)
  | movAO | movOA (wide : Bool)
  | movs (wide : Bool)
  | testAI (wide : Bool)
  | shiftI (wide : Bool) | shift1 (wide : Bool) | shiftC (wide : Bool)
  | retN | ret
  | movMI (wide : Bool)
  | x87 (n : BitVec 3)
  | call | jmp
  | grp3 (wide : Bool) | grp4 | grp5
  deriving DecidableEq, Repr

/-- The map of the opcodes of one byte. -/
def form (b : Byte) : Option Form :=
  let n := b.toNat
  let op : BitVec 3 := b.extractLsb' 3 3
  let wide := b.getLsbD 0
  if n < 0x40 then
    if n = 0x0F then some .escape
    else match n % 8 with
      | 0 | 1 => some (.aluMR op wide)
      | 2 | 3 => some (.aluRM op wide)
      | 4 | 5 => some (.aluAI op wide)
      | _ => none
  else if n < 0x48 then some .inc
  else if n < 0x50 then some .dec
  else if n < 0x58 then some .push
  else if n < 0x60 then some .pop
  else if n = 0x68 then some .pushI
  else if n = 0x69 then some .imulI
  else if n = 0x6A then some .pushI8
  else if n = 0x6B then some .imulI8
  else if 0x70 ≤ n ∧ n < 0x80 then some .jccShort
  else if n = 0x80 ∨ n = 0x81 then some (.grp1 wide)
  else if n = 0x83 then some .grp1s
  else if n = 0x84 ∨ n = 0x85 then some (.testMR wide)
  else if n = 0x86 ∨ n = 0x87 then some (.xchgMR wide)
  else if n = 0x88 ∨ n = 0x89 then some (.movMR wide)
  else if n = 0x8A ∨ n = 0x8B then some (.movRM wide)
  else if n = 0x8D then some .lea
  else if n = 0x8F then some .popM
  else if n = 0x90 then some (.simple .nop)
  else if 0x91 ≤ n ∧ n < 0x98 then some .xchgA
  else if n = 0x98 then some (.simple .cwde)
  else if n = 0x99 then some (.simple .cdq)
  else if n = 0x9E then some (.simple .sahf)
  else if n = 0xA1 then some .movAO
  else if n = 0xA2 ∨ n = 0xA3 then some (.movOA wide)
  else if n = 0xA4 ∨ n = 0xA5 then some (.movs wide)
  else if n = 0xA8 ∨ n = 0xA9 then some (.testAI wide)
  else if 0xB8 ≤ n ∧ n < 0xC0 then some .movRI
  else if n = 0xC0 ∨ n = 0xC1 then some (.shiftI wide)
  else if n = 0xC2 then some .retN
  else if n = 0xC3 then some .ret
  else if n = 0xC6 ∨ n = 0xC7 then some (.movMI wide)
  else if n = 0xC9 then some (.simple .leave)
  else if n = 0xCC then some (.simple .int3)
  else if n = 0xD0 ∨ n = 0xD1 then some (.shift1 wide)
  else if n = 0xD2 ∨ n = 0xD3 then some (.shiftC wide)
  else if 0xD8 ≤ n ∧ n < 0xE0 then some (.x87 (b.extractLsb' 0 3))
  else if n = 0xE8 then some .call
  else if n = 0xE9 then some .jmp
  else if n = 0xF5 then some (.simple .cmc)
  else if n = 0xF6 ∨ n = 0xF7 then some (.grp3 wide)
  else if n = 0xF9 then some (.simple .stc)
  else if n = 0xFE then some .grp4
  else if n = 0xFF then some .grp5
  else none

/-- What follows an opcode behind the escape byte `0F`. -/
inductive Form2 where
  | nop | cmov | jcc | setcc | btMR | grp8
  | shiftdI (left : Bool) | shiftdC (left : Bool)
  | imul | popcnt | bsf | bsr
  | movx (signed : Bool) (wide : Bool)
  | bswap
  deriving DecidableEq, Repr

def form2 (b : Byte) : Option Form2 :=
  let n := b.toNat
  if n = 0x1F then some .nop
  else if 0x40 ≤ n ∧ n < 0x50 then some .cmov
  else if 0x80 ≤ n ∧ n < 0x90 then some .jcc
  else if 0x90 ≤ n ∧ n < 0xA0 then some .setcc
  else if n = 0xA3 then some .btMR
  else if n = 0xA4 then some (.shiftdI true)
  else if n = 0xA5 then some (.shiftdC true)
  else if n = 0xAC then some (.shiftdI false)
  else if n = 0xAD then some (.shiftdC false)
  else if n = 0xAF then some .imul
  else if n = 0xB6 ∨ n = 0xB7 then some (.movx false (b.getLsbD 0))
  else if n = 0xB8 then some .popcnt
  else if n = 0xBA then some .grp8
  else if n = 0xBC then some .bsf
  else if n = 0xBD then some .bsr
  else if n = 0xBE ∨ n = 0xBF then some (.movx true (b.getLsbD 0))
  else if 0xC8 ≤ n ∧ n < 0xD0 then some .bswap
  else none

/-! ## The decoder -/

/-- Prefixes: operand size, segment gs, repeat. -/
structure Prefix where
  p66 : Bool := false
  gs : Bool := false
  rep : Bool := false
  deriving DecidableEq, Repr

def Prefix.size (p : Prefix) (wide : Bool) : Size :=
  if wide then (if p.p66 then .w else .d) else .b

/-- The x87 instructions with an operand in memory: escape number and reg field. -/
def fmemOf (e reg : BitVec 3) : Option FMem :=
  if e = 0 then some (.arith (fArithOf reg) 32)
  else if e = 4 then some (.arith (fArithOf reg) 64)
  else if e = 1 then
    if reg = 0 then some (.fld 32) else if reg = 2 then some (.fst 32)
    else if reg = 3 then some (.fstp 32) else if reg = 5 then some .fldcw
    else if reg = 7 then some .fnstcw else none
  else if e = 5 then
    if reg = 0 then some (.fld 64) else if reg = 1 then some (.fisttp 64)
    else if reg = 2 then some (.fst 64) else if reg = 3 then some (.fstp 64) else none
  else if e = 3 then
    if reg = 0 then some (.fild 32) else if reg = 1 then some (.fisttp 32)
    else if reg = 2 then some (.fist 32) else if reg = 3 then some (.fistp 32)
    else if reg = 5 then some (.fld 80) else if reg = 7 then some (.fstp 80) else none
  else if e = 7 then
    if reg = 0 then some (.fild 16) else if reg = 1 then some (.fisttp 16)
    else if reg = 2 then some (.fist 16) else if reg = 3 then some (.fistp 16)
    else if reg = 5 then some (.fild 64) else if reg = 7 then some (.fistp 64) else none
  else none

/-- The x87 instructions without memory: escape number, reg and rm field.  With the destination in
a register of the stack the manual swaps the names of `sub` and `subr` and of `div` and `divr`:
number 4 is `fsubr st(i), st(0)`, which computes `st(0) - st(i)`.  The operations here are named
by what they compute, `sub` being `top - reg`. -/
def fregOf (e reg rm : BitVec 3) : Option Insn :=
  if e = 0 then some (.freg (.arith (fArithOf reg) false false) rm)
  else if e = 4 then some (.freg (.arith (fArithOf reg) true false) rm)
  else if e = 6 then
    if reg = 2 ∨ reg = 3 then none else some (.freg (.arith (fArithOf reg) true true) rm)
  else if e = 1 then
    if reg = 0 then some (.freg .fld rm)
    else if reg = 1 then some (.freg .fxch rm)
    else if reg = 4 then
      if rm = 0 then some (.fsimple .fchs) else if rm = 1 then some (.fsimple .fabs)
      else if rm = 4 then some (.fsimple .ftst) else none
    else if reg = 5 then
      if rm = 0 then some (.fsimple .fld1) else if rm = 6 then some (.fsimple .fldz) else none
    else none
  else if e = 2 then
    if reg = 5 ∧ rm = 1 then some (.fsimple .fucompp) else none
  else if e = 3 then
    if reg = 5 then some (.freg .fucomi rm) else none
  else if e = 5 then
    if reg = 3 then some (.freg .fstp rm)
    else if reg = 4 then some (.freg .fucom rm)
    else if reg = 5 then some (.freg .fucomp rm) else none
  else
    if reg = 0 then some (.freg .ffreep rm)
    else if reg = 4 ∧ rm = 0 then some (.fsimple .fnstswAx)
    else if reg = 5 then some (.freg .fucomip rm) else none

def body2 (p : Prefix) (b : Byte) (l : List Item) : Option (Insn × List Item) := do
  let s := p.size true
  let cc : BitVec 4 := b.extractLsb' 0 4
  match ← form2 b with
  | .nop => do let (_, x, l) ← modrm p.gs l; some (.nopRm s (x.opd s), l)
  | .cmov => do let (r, x, l) ← modrm p.gs l; some (.cmov cc s (regOf s r) (x.opd s), l)
  | .jcc => do let (t, l) ← take32 l; some (.jcc cc t, l)
  | .setcc => do let (_, x, l) ← modrm p.gs l; some (.setcc cc (x.opd .b), l)
  | .btMR => do let (r, x, l) ← modrm p.gs l; some (.bt s (x.opd s) (.reg (regOf s r)), l)
  | .grp8 => do
      let (r, x, l) ← modrm p.gs l
      let (v, l) ← take8 l
      if r = 4 then some (.bt s (x.opd s) (.imm (.num (v.setWidth 32))), l) else none
  | .shiftdI left => do
      let (r, x, l) ← modrm p.gs l
      let (v, l) ← take8 l
      some (.shiftd left s (x.opd s) (regOf s r) (.imm v), l)
  | .shiftdC left => do
      let (r, x, l) ← modrm p.gs l
      some (.shiftd left s (x.opd s) (regOf s r) .cl, l)
  | .imul => do let (r, x, l) ← modrm p.gs l; some (.imul2 s (regOf s r) (x.opd s), l)
  | .popcnt => do
      let (r, x, l) ← modrm p.gs l
      if p.rep then some (.popcnt s (regOf s r) (x.opd s), l) else none
  | .bsf => do let (r, x, l) ← modrm p.gs l; some (.bsf s (regOf s r) (x.opd s), l)
  | .bsr => do let (r, x, l) ← modrm p.gs l; some (.bsr s (regOf s r) (x.opd s), l)
  | .movx signed wide => do
      let (r, x, l) ← modrm p.gs l
      let src : Size := if wide then .w else .b
      some (.movx signed src (regOf s r) (x.opd src), l)
  | .bswap => some (.bswap (regOf s (b.extractLsb' 0 3)), l)

def body (p : Prefix) (b : Byte) (l : List Item) : Option (Insn × List Item) := do
  let r3 : BitVec 3 := b.extractLsb' 0 3
  let acc (s : Size) : Opd := .reg (regOf s 0)
  match ← form b with
  | .escape => do let (c, l) ← take8 l; body2 p c l
  | .aluMR op wide => do
      let s := p.size wide
      let (r, x, l) ← modrm p.gs l
      some (.alu (aluOf op) s (x.opd s) (.reg (regOf s r)), l)
  | .aluRM op wide => do
      let s := p.size wide
      let (r, x, l) ← modrm p.gs l
      some (.alu (aluOf op) s (.reg (regOf s r)) (x.opd s), l)
  | .aluAI op wide => do
      let s := p.size wide
      let (v, l) ← takeImm s l
      some (.alu (aluOf op) s (acc s) (.imm v), l)
  | .inc => some (.un .inc (p.size true) (.reg (regOf (p.size true) r3)), l)
  | .dec => some (.un .dec (p.size true) (.reg (regOf (p.size true) r3)), l)
  | .push => some (.push (p.size true) (.reg (regOf (p.size true) r3)), l)
  | .pop => some (.pop (p.size true) (.reg (regOf (p.size true) r3)), l)
  | .movRI => do
      let (v, l) ← takeImm (p.size true) l
      some (.mov (p.size true) (.reg (regOf (p.size true) r3)) (.imm v), l)
  | .xchgA => some (.xchg (p.size true) (acc (p.size true)) (.reg (regOf (p.size true) r3)), l)
  | .pushI => do let (v, l) ← takeImm (p.size true) l; some (.push (p.size true) (.imm v), l)
  | .pushI8 => do let (v, l) ← takeImm8s (p.size true) l; some (.push (p.size true) (.imm v), l)
  | .imulI => do
      let s := p.size true
      let (r, x, l) ← modrm p.gs l
      let (v, l) ← takeImm s l
      some (.imul3 s (regOf s r) (x.opd s) v, l)
  | .imulI8 => do
      let s := p.size true
      let (r, x, l) ← modrm p.gs l
      let (v, l) ← takeImm8s s l
      some (.imul3 s (regOf s r) (x.opd s) v, l)
  | .jccShort => do
      let (v, l) ← take8 l
      some (.jcc (b.extractLsb' 0 4) (.num (v.signExtend 32)), l)
  | .grp1 wide => do
      let s := p.size wide
      let (r, x, l) ← modrm p.gs l
      let (v, l) ← takeImm s l
      some (.alu (aluOf r) s (x.opd s) (.imm v), l)
  | .grp1s => do
      let s := p.size true
      let (r, x, l) ← modrm p.gs l
      let (v, l) ← takeImm8s s l
      some (.alu (aluOf r) s (x.opd s) (.imm v), l)
  | .testMR wide => do
      let s := p.size wide
      let (r, x, l) ← modrm p.gs l
      some (.test s (x.opd s) (.reg (regOf s r)), l)
  | .xchgMR wide => do
      let s := p.size wide
      let (r, x, l) ← modrm p.gs l
      some (.xchg s (x.opd s) (.reg (regOf s r)), l)
  | .movMR wide => do
      let s := p.size wide
      let (r, x, l) ← modrm p.gs l
      some (.mov s (x.opd s) (.reg (regOf s r)), l)
  | .movRM wide => do
      let s := p.size wide
      let (r, x, l) ← modrm p.gs l
      some (.mov s (.reg (regOf s r)) (x.opd s), l)
  | .lea => do
      let (r, x, l) ← modrm p.gs l
      match x with
      | .mem m => some (.lea (regOf (p.size true) r) m, l)
      | .reg _ => none
  | .popM => do
      let (r, x, l) ← modrm p.gs l
      if r = 0 then some (.pop (p.size true) (x.opd (p.size true)), l) else none
  | .simple x => if p.p66 ∧ x ≠ .nop then none else some (.simple x, l)
  | .movAO => do
      let (d, l) ← take32 l
      some (.mov (p.size true) (acc (p.size true)) (.mem ⟨p.gs, none, none, d⟩), l)
  | .movOA wide => do
      let (d, l) ← take32 l
      some (.mov (p.size wide) (.mem ⟨p.gs, none, none, d⟩) (acc (p.size wide)), l)
  | .movs wide => some (.movs (p.size wide), l)
  | .testAI wide => do
      let s := p.size wide
      let (v, l) ← takeImm s l
      some (.test s (acc s) (.imm v), l)
  | .shiftI wide => do
      let s := p.size wide
      let (r, x, l) ← modrm p.gs l
      let (v, l) ← take8 l
      let op ← shiftOf r
      some (.shift op s (x.opd s) (.imm v), l)
  | .shift1 wide => do
      let s := p.size wide
      let (r, x, l) ← modrm p.gs l
      let op ← shiftOf r
      some (.shift op s (x.opd s) (.imm 1), l)
  | .shiftC wide => do
      let s := p.size wide
      let (r, x, l) ← modrm p.gs l
      let op ← shiftOf r
      some (.shift op s (x.opd s) .cl, l)
  | .retN => do let (v, l) ← take16 l; some (.retPop v, l)
  | .ret => some (.ret, l)
  | .movMI wide => do
      let s := p.size wide
      let (r, x, l) ← modrm p.gs l
      let (v, l) ← takeImm s l
      if r = 0 then some (.mov s (x.opd s) (.imm v), l) else none
  | .x87 e => do
      let (r, x, l) ← modrm p.gs l
      match x with
      | .mem m => do let op ← fmemOf e r; some (.fmem op m, l)
      | .reg n => do let i ← fregOf e r n; some (i, l)
  | .call => do let (t, l) ← take32 l; some (.call t, l)
  | .jmp => do let (t, l) ← take32 l; some (.jmp t, l)
  | .grp3 wide => do
      let s := p.size wide
      let (r, x, l) ← modrm p.gs l
      if r = 0 then do
        let (v, l) ← takeImm s l
        some (.test s (x.opd s) (.imm v), l)
      else if r = 2 then some (.un .not s (x.opd s), l)
      else if r = 3 then some (.un .neg s (x.opd s), l)
      else if r = 4 then some (.un .mul s (x.opd s), l)
      else if r = 5 then some (.un .imul s (x.opd s), l)
      else if r = 6 then some (.un .div s (x.opd s), l)
      else if r = 7 then some (.un .idiv s (x.opd s), l)
      else none
  | .grp4 => do
      let (r, x, l) ← modrm p.gs l
      if r = 0 then some (.un .inc .b (x.opd .b), l)
      else if r = 1 then some (.un .dec .b (x.opd .b), l) else none
  | .grp5 => do
      let s := p.size true
      let (r, x, l) ← modrm p.gs l
      if r = 0 then some (.un .inc s (x.opd s), l)
      else if r = 1 then some (.un .dec s (x.opd s), l)
      else if r = 2 then some (.callInd (x.opd s), l)
      else if r = 4 then some (.jmpInd (x.opd s), l)
      else if r = 6 then some (.push s (x.opd s), l)
      else none

/-- The first instruction of a stretch of code and what is behind it. -/
def decodeP (p : Prefix) : List Item → Option (Insn × List Item)
  | .byte b :: l =>
      if b = 0x66 then decodeP { p with p66 := true } l
      else if b = 0x65 then decodeP { p with gs := true } l
      else if b = 0xF3 then decodeP { p with rep := true } l
      else body p b l
  | _ => none

def decode (l : List Item) : Option (Insn × List Item) := decodeP {} l

/-- A stretch of code is this sequence of instructions. -/
inductive Code : List Item → List Insn → Prop where
  | nil : Code [] []
  | cons {l rest i is} : decode l = some (i, rest) → Code rest is → Code l (i :: is)

end Verif.Spec.X86
