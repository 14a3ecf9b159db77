import Verif.Spec.X86
/-!
# Model of the binary encoder for IA-32 (ir/be/ia32/ia32_encode.c)

Every emitter is a function from the attributes and registers of a node to the items it appends to
the code, `none` standing for `panic`.  A register is represented by its encoding
(ir/be/ia32/ia32_spec.pl:22-36), eax being 0; an input without register (`NoReg_GP`) is `none`.
-/
namespace Verif.Model.Ia32

open Spec.X86 (Item)

/-- Bytes and relocations, the output of the emitters (ir/be/bejit.h:47-68). -/
abbrev Out := List Item

/-- `x86_imm32_t` (ir/be/ia32/x86_node.h:101-105). -/
structure Imm where
  entity : Option Nat
  offset : BitVec 32
  kind : Nat
  deriving DecidableEq, Repr

/-- `x86_addr_t` with the registers of the inputs (ir/be/ia32/x86_address_mode.h:79-87); the
segment is either the default or gs. -/
structure Addr where
  base : Option (BitVec 3)
  index : Option (BitVec 3)
  logScale : BitVec 2
  imm : Imm
  gs : Bool
  deriving DecidableEq, Repr

/-- An input that is a register or an immediate. -/
inductive Arg where
  | reg (r : BitVec 3)
  | imm (i : Imm)
  deriving DecidableEq, Repr

/-- `X86_SIZE_8` etc. (ir/be/ia32/x86_node.h:73-80) -/
abbrev SIZE_8 : Nat := 0
abbrev SIZE_16 : Nat := 1
abbrev SIZE_32 : Nat := 2
abbrev SIZE_64 : Nat := 3
abbrev SIZE_80 : Nat := 4
abbrev SIZE_128 : Nat := 5

/-- The attributes and registers of a node that the emitters look at
(ir/be/ia32/ia32_nodes_attr.h:86-112): `normal` is `get_ia32_op_type(node) == ia32_Normal`, `left`
the register of input 3, `right` the argument at input 4, `val` the argument at input 3 of an
operation on memory, `out` the register of the result. -/
structure Node where
  normal : Bool
  size : Nat
  high : Bool
  left : BitVec 3
  right : Arg
  out : BitVec 3
  addr : Addr
  deriving DecidableEq, Repr

/-! ## Bytes -/

def byte (b : BitVec 8) : Item := .byte b

/-- `be_emit16` on a little endian host (ir/be/bejit.h:53-56). -/
def emit16 (v : BitVec 16) : Out := [byte (v.setWidth 8), byte ((v >>> 8).setWidth 8)]

/-- `be_emit32` on a little endian host (ir/be/bejit.h:59-62). -/
def emit32 (v : BitVec 32) : Out :=
  [byte (v.setWidth 8), byte ((v >>> 8).setWidth 8), byte ((v >>> 16).setWidth 8),
   byte ((v >>> 24).setWidth 8)]

/-- `ENC_RM` (ir/be/ia32/ia32_encode.c:61-64); `high` is `REG_HIGH`. -/
def encRm (reg : BitVec 3) (high : Bool) : BitVec 8 :=
  reg.setWidth 8 ||| (if high then 4 else 0)

/-- `ENC_REG` (ir/be/ia32/ia32_encode.c:67-70). -/
def encReg (reg : BitVec 3) (high : Bool) : BitVec 8 :=
  (reg.setWidth 8 ||| (if high then 4 else 0)) <<< 3

/-- `ENC_SIB` (ir/be/ia32/ia32_encode.c:73-76). -/
def encSib (scale : BitVec 2) (index base : BitVec 3) : BitVec 8 :=
  scale.setWidth 8 <<< 6 ||| index.setWidth 8 <<< 3 ||| base.setWidth 8

/-- `enum Mod` (ir/be/ia32/ia32_encode.c:48-53) -/
def MOD_IND : BitVec 8 := 0x00
def MOD_IND_BYTE_OFS : BitVec 8 := 0x40
def MOD_IND_WORD_OFS : BitVec 8 := 0x80
def MOD_REG : BitVec 8 := 0xC0

/-- `enum OpSize` (ir/be/ia32/ia32_encode.c:38-45) -/
def OP_8 : BitVec 8 := 0
def OP_16_32 : BitVec 8 := 1
def OP_MEM_SRC : BitVec 8 := 2
def OP_IMM8 : BitVec 8 := 2
def OP_16_32_IMM8 : BitVec 8 := 3
def OP_EAX : BitVec 8 := 4

/-- `enc_relocation` (ir/be/ia32/ia32_encode.c:82-92). -/
def encRelocation (i : Imm) : Out :=
  match i.entity with
  | none => emit32 i.offset
  | some e => [.reloc i.kind e i.offset]

/-- `IA32_RELOCATION_RELJUMP` (ir/be/ia32/ia32_encode.h:19) -/
def RELJUMP : Nat := 128

/-- `enc_jmp_destination` (ir/be/ia32/ia32_encode.c:94-101); `frag` is the number of the fragment
of the destination block. -/
def encJmpDestination (frag : Nat) : Out := [.frag RELJUMP frag (-4)]

/-- `enc_modrr` (ir/be/ia32/ia32_encode.c:107-114) -/
def encModrr (src1 src2 : BitVec 3) : Out := [byte (MOD_REG ||| encRm src1 false ||| encReg src2 false)]

/-- `enc_modrr8` (ir/be/ia32/ia32_encode.c:117-124) -/
def encModrr8 (h1 : Bool) (src1 : BitVec 3) (h2 : Bool) (src2 : BitVec 3) : Out :=
  [byte (MOD_REG ||| encRm src1 h1 ||| encReg src2 h2)]

/-- `enc_modru` (ir/be/ia32/ia32_encode.c:127-134) -/
def encModru (reg ext : BitVec 3) : Out := [byte (MOD_REG ||| encRm reg false ||| encReg ext false)]

/-- `enc_modrm8` (ir/be/ia32/ia32_encode.c:137-144) -/
def encModrm8 (high : Bool) (reg : BitVec 3) : Out := [byte (MOD_REG ||| encRm reg high ||| MOD_REG)]

/-- `ia32_is_8bit_val` (ir/be/ia32/ia32_bearch_t.h:89-92) -/
def is8bitVal (v : BitVec 32) : Bool := -128 ≤ v.toInt && v.toInt < 128

/-- `ia32_is_8bit_imm` (ir/be/ia32/ia32_encode.c:146-149) -/
def is8bitImm (i : Imm) : Bool := i.entity.isNone && is8bitVal i.offset

/-- `enc_mod_am` (ir/be/ia32/ia32_encode.c:163-240).  The segment is not looked at. -/
def encModAm (reg : BitVec 3) (a : Addr) : Out :=
  -- the mod part depending on the displacement
  let p : BitVec 8 × Nat :=
    if a.imm.entity.isSome then (MOD_IND_WORD_OFS, 32)
    else if a.imm.offset = 0 then (MOD_IND, 0)
    else if is8bitVal a.imm.offset then (MOD_IND_BYTE_OFS, 8)
    else (MOD_IND_WORD_OFS, 32)
  -- the base
  let q : BitVec 8 × Nat × BitVec 3 :=
    match a.base with
    | some b => (p.1, p.2, b)
    | none => (MOD_IND, 32, 5)
  -- the SIB byte
  let r : BitVec 8 × Option (BitVec 8) :=
    match a.index with
    | some i => (q.1 ||| encRm 4 false, some (encSib a.logScale i q.2.2))
    | none =>
        if q.2.2 = 4 then (q.1 ||| encRm 4 false, some (encSib 0 4 4))
        else (q.1 ||| encRm q.2.2 false, none)
  -- base EBP without displacement is a special case
  let t : BitVec 8 × Nat :=
    if q.2.2 = 5 ∧ q.2.1 = 0 then (r.1 ||| MOD_IND_BYTE_OFS, 8) else (r.1, q.2.1)
  byte (t.1 ||| encReg reg false) ::
    ((match r.2 with | some s => [byte s] | none => []) ++
      (if t.2 = 8 then [byte (a.imm.offset.setWidth 8)]
       else if t.2 = 32 then encRelocation a.imm else []))

/-- `enc_imm` (ir/be/ia32/ia32_encode.c:248-261). -/
def encImm (i : Imm) (size : Nat) : Option Out :=
  if size = SIZE_8 then some [byte (i.offset.setWidth 8)]
  else if size = SIZE_16 then some (emit16 (i.offset.setWidth 16))
  else if size = SIZE_32 then some (encRelocation i)
  else none

/-! ## Moves and exchanges -/

/-- `enc_mov` (ir/be/ia32/ia32_encode.c:263-267) -/
def encMov (src dst : BitVec 3) : Out := byte (0x88 ||| OP_MEM_SRC ||| OP_16_32) :: encModrr src dst

/-- `enc_xchg` (ir/be/ia32/ia32_encode.c:269-279) -/
def encXchg (src dst : BitVec 3) : Out :=
  if src = 0 then [byte (0x90 + dst.setWidth 8)]
  else if dst = 0 then [byte (0x90 + src.setWidth 8)]
  else byte (0x86 ||| OP_16_32) :: encModrr src dst

/-- `enc_copy` for general purpose registers (ir/be/ia32/ia32_encode.c:281-294) -/
def encCopy (src dst : BitVec 3) : Out := if src = dst then [] else encMov src dst

/-- `enc_xor0` (ir/be/ia32/ia32_encode.c:318-323) -/
def encXor0 (out : BitVec 3) : Out := byte 0x31 :: encModrr out out

/-- `enc_mov_const` (ir/be/ia32/ia32_encode.c:325-330) -/
def encMovConst (out : BitVec 3) (i : Imm) : Out := byte (0xB8 + out.setWidth 8) :: encRelocation i

/-- `ia32_enc_simple` (ir/be/ia32/ia32_encode.c:332-335) -/
def encSimple (opcode : BitVec 8) : Out := [byte opcode]

/-! ## Unary and binary operations -/

/-- `ia32_enc_unop` (ir/be/ia32/ia32_encode.c:337-347); `inp` is the register of the input. -/
def encUnop (n : Node) (code : BitVec 8) (ext : BitVec 3) (inp : BitVec 3) : Out :=
  byte code :: (if n.normal then encModru inp ext else encModAm ext n.addr)

/-- `if (size == X86_SIZE_16) be_emit8(0x66);` -/
def prefix16 (size : Nat) : Out := if size = SIZE_16 then [byte 0x66] else []

/-- `ia32_enc_unop_mem` (ir/be/ia32/ia32_encode.c:349-357) -/
def encUnopMem (n : Node) (code : BitVec 8) (ext : BitVec 3) : Out :=
  prefix16 n.size ++
    byte (if n.size = SIZE_8 then code else code ||| OP_16_32) :: encModAm ext n.addr

/-- `use_eax_short_form` (ir/be/ia32/ia32_encode.c:359-364) -/
def useEaxShortForm (n : Node) : Bool := n.normal && n.left == 0

/-- `enc_binop_reg` (ir/be/ia32/ia32_encode.c:366-376); `src` is the register of the right
operand. -/
def encBinopReg (n : Node) (code : BitVec 8) (src : BitVec 3) : Out :=
  byte code :: (if n.normal then encModrr src n.left else encModAm n.left n.addr)

/-- `ia32_enc_binop` (ir/be/ia32/ia32_encode.c:378-405). -/
def encBinop (n : Node) (code : BitVec 3) : Option Out :=
  let op := if n.size = SIZE_8 then OP_8 else OP_16_32
  match n.right with
  | .imm i =>
      let short := op != OP_8 && is8bitImm i
      let op := if short then OP_16_32_IMM8 else op
      let size := if short then SIZE_8 else n.size
      let main :=
        if op ≠ OP_16_32_IMM8 ∧ useEaxShortForm n then
          [byte (code.setWidth 8 <<< 3 ||| OP_EAX ||| op)]
        else encUnop n (0x80 ||| op) code n.left
      (encImm i size).map fun v => prefix16 n.size ++ main ++ v
  | .reg src =>
      some (prefix16 n.size ++
        encBinopReg n (code.setWidth 8 <<< 3 ||| OP_MEM_SRC ||| op) src)

/-- `ia32_enc_binop_mem` (ir/be/ia32/ia32_encode.c:407-432); `right` is the argument at input 3. -/
def encBinopMem (n : Node) (code : BitVec 3) : Option Out :=
  let op := if n.size = SIZE_8 then OP_8 else OP_16_32
  match n.right with
  | .imm i =>
      let short := op != OP_8 && is8bitImm i
      let op := if short then OP_16_32_IMM8 else op
      let size := if short then SIZE_8 else n.size
      (encImm i size).map fun v =>
        prefix16 n.size ++ byte (0x80 ||| op) :: encModAm code n.addr ++ v
  | .reg src =>
      some (prefix16 n.size ++ byte (code.setWidth 8 <<< 3 ||| op) :: encModAm src n.addr)

/-- `ia32_enc_shiftop` (ir/be/ia32/ia32_encode.c:434-453); `right` is the count.  The size is not
looked at. -/
def encShiftop (n : Node) (ext : BitVec 3) : Out :=
  match n.right with
  | .imm i =>
      if i.offset = 1 then byte 0xD1 :: encModru n.out ext
      else byte 0xC1 :: encModru n.out ext ++ [byte (i.offset.setWidth 8)]
  | .reg _ => byte 0xD3 :: encModru n.out ext

/-- `ia32_enc_shiftop_mem` (ir/be/ia32/ia32_encode.c:455-475).  The code takes input 1 for the
count, which is the index of the address (ir/be/ia32/ia32_spec.pl:195-204): `in1` is that input,
and the count of the node, input 3, is not looked at. -/
def encShiftopMemAt (n : Node) (in1 : Arg) (ext : BitVec 3) : Out :=
  prefix16 n.size ++
  match in1 with
  | .imm i =>
      if i.offset = 1 then byte (if n.size = SIZE_8 then 0xD0 else 0xD1) :: encModAm ext n.addr
      else byte (if n.size = SIZE_8 then 0xC0 else 0xC1) :: encModAm ext n.addr ++
        [byte (i.offset.setWidth 8)]
  | .reg _ => byte (if n.size = SIZE_8 then 0xD2 else 0xD3) :: encModAm ext n.addr

/-- `ia32_enc_shiftop_mem` with the index of the address in place of input 1; an index that is
absent is the node `NoReg_GP`, which is not an immediate. -/
def encShiftopMem (n : Node) (ext : BitVec 3) : Out :=
  encShiftopMemAt n (.reg (n.addr.index.getD 0)) ext

/-- `enc_shld`, `enc_shrd` (ir/be/ia32/ia32_encode.c:477-507); `right` is the count, `left` the
register that fills up. -/
def encShd (isLeft : Bool) (n : Node) : Out :=
  byte 0x0F ::
  match n.right with
  | .imm i =>
      byte (if isLeft then 0xA4 else 0xAC) :: encModrr n.out n.left ++ [byte (i.offset.setWidth 8)]
  | .reg _ => byte (if isLeft then 0xA5 else 0xAD) :: encModrr n.out n.left

/-- `enc_sbb0` (ir/be/ia32/ia32_encode.c:509-514) -/
def encSbb0 (out : BitVec 3) : Out := byte 0x1B :: encModrr out out

/-- `enc_unop_reg` and `ia32_enc_0f_unop_reg` (ir/be/ia32/ia32_encode.c:563-576); `left` is the
register of the input. -/
def encUnopReg (n : Node) (code : BitVec 8) : Out := encUnop n code n.out n.left

def enc0fUnopReg (n : Node) (code : BitVec 8) : Out := byte 0x0F :: encUnopReg n code

/-- `enc_bswap` (ir/be/ia32/ia32_encode.c:578-582) -/
def encBswap (out : BitVec 3) : Out := byte 0x0F :: encModru out 1

/-- `enc_bt` (ir/be/ia32/ia32_encode.c:584-599) -/
def encBt (n : Node) : Out :=
  byte 0x0F ::
  match n.right with
  | .imm i => byte 0xBA :: encModru n.left 4 ++ [byte (i.offset.setWidth 8)]
  | .reg r => byte 0xA3 :: encModrr n.left r

/-- `enc_test` (ir/be/ia32/ia32_encode.c:612-632) -/
def encTest (n : Node) : Option Out :=
  let op := if n.size = SIZE_8 then OP_8 else OP_16_32
  match n.right with
  | .imm i =>
      let main :=
        if useEaxShortForm n then [byte (0xA8 ||| op)] else encUnop n 0xF6 0 n.left
      (encImm i n.size).map fun v => prefix16 n.size ++ main ++ v
  | .reg r => some (prefix16 n.size ++ encBinopReg n (0x84 ||| op) r)

/-- `enc_imulimm` (ir/be/ia32/ia32_encode.c:634-641): the size handed to `enc_imm` is 8 or 32. -/
def encImulimm (n : Node) (i : Imm) : Option Out :=
  let imm8 := is8bitImm i
  (encImm i (if imm8 then 8 else 32)).map fun v =>
    encUnopReg n (0x69 ||| (if imm8 then OP_IMM8 else 0)) ++ v

/-- `enc_dec`, `enc_inc` (ir/be/ia32/ia32_encode.c:643-653) -/
def encDec (out : BitVec 3) : Out := [byte (0x48 + out.setWidth 8)]
def encInc (out : BitVec 3) : Out := [byte (0x40 + out.setWidth 8)]

/-- `enc_ldtls` (ir/be/ia32/ia32_encode.c:655-666) -/
def encLdtls (out : BitVec 3) : Out :=
  byte 0x65 ::
  (if out = 0 then [byte 0xA1]
   else [byte (0x88 ||| OP_MEM_SRC ||| OP_16_32), byte (MOD_IND ||| encReg out false ||| encRm 5 false)])
  ++ emit32 0

/-- `enc_lea` (ir/be/ia32/ia32_encode.c:671-676) -/
def encLea (n : Node) : Out := byte 0x8D :: encModAm n.out n.addr

/-- `enc_load` (ir/be/ia32/ia32_encode.c:764-782) -/
def encLoad (n : Node) : Out :=
  if n.out = 0 ∧ n.addr.base = none ∧ n.addr.index = none then
    byte 0xA1 :: encRelocation n.addr.imm
  else byte (0x88 ||| OP_MEM_SRC ||| OP_16_32) :: encModAm n.out n.addr

/-- `enc_store` (ir/be/ia32/ia32_encode.c:787-825); `right` is the value. -/
def encStore (n : Node) : Option Out :=
  match n.right with
  | .imm i =>
      (encImm i n.size).map fun v =>
        prefix16 n.size ++
          byte (0xC6 ||| (if n.size ≠ SIZE_8 then OP_16_32 else 0)) :: encModAm 0 n.addr ++ v
  | .reg r =>
      if r = 0 ∧ n.addr.base = none ∧ n.addr.index = none then
        some (if n.size = SIZE_8 then byte 0xA2 :: encRelocation n.addr.imm
          else prefix16 n.size ++ byte 0xA3 :: encRelocation n.addr.imm)
      else
        some (prefix16 n.size ++
          byte (0x88 ||| (if n.size ≠ SIZE_8 then OP_16_32 else 0)) :: encModAm r n.addr)

/-- `enc_conv_i2i` (ir/be/ia32/ia32_encode.c:827-837) -/
def encConvI2I (n : Node) (signExtend : Bool) : Out :=
  enc0fUnopReg n (0xB6 ||| (if signExtend then 0x08 else 0) |||
    (if n.size = SIZE_16 then 0x01 else 0))

/-- `enc_popcnt` (ir/be/ia32/ia32_encode.c:839-843) -/
def encPopcnt (n : Node) : Out := byte 0xF3 :: enc0fUnopReg n 0xB8

/-- `enc_push` (ir/be/ia32/ia32_encode.c:848-863); the value is `none` if the input is `NoReg_GP`. -/
def encPush (n : Node) (value : Option Arg) : Option Out :=
  match value with
  | none => some (byte 0xFF :: encModAm 6 n.addr)
  | some (.imm i) =>
      let imm8 := is8bitImm i
      (encImm i (if imm8 then 8 else 32)).map fun v =>
        byte (0x68 ||| (if imm8 then OP_IMM8 else 0)) :: v
  | some (.reg r) => some [byte (0x50 + r.setWidth 8)]

/-- `enc_pop`, `enc_popmem` (ir/be/ia32/ia32_encode.c:875-885) -/
def encPop (out : BitVec 3) : Out := [byte (0x58 + out.setWidth 8)]
def encPopmem (n : Node) : Out := byte 0x8F :: encModAm 0 n.addr

/-- `enc_call` without `emit_machcode` (ir/be/ia32/ia32_encode.c:887-912) -/
def encCall (n : Node) : Out :=
  match n.right with
  | .imm i => byte 0xE8 :: encRelocation { i with offset := i.offset - 4 }
  | .reg r => encUnop n 0xFF 2 r

/-- `enc_return` (ir/be/ia32/ia32_encode.c:1007-1017) -/
def encReturn (emitPop : Bool) (pop : BitVec 32) : Out :=
  if emitPop || 0 < pop.toNat then byte 0xC2 :: emit16 (pop.setWidth 16) else [byte 0xC3]

/-- `enc_incsp` (ir/be/ia32/ia32_encode.c:1028-1053); the negation of the least number is undefined
in C and gives `none`. -/
def encIncsp (reg : BitVec 3) (offs : BitVec 32) : Option Out :=
  if offs = 0 then some []
  else if offs = BitVec.intMin 32 then none
  else
    let sub := 0 < offs.toInt
    let ext : BitVec 3 := if sub then 5 else 0
    let v := if sub then offs else -offs
    let imm8 := is8bitVal v
    some (byte (0x80 ||| OP_16_32 ||| (if imm8 then OP_IMM8 else 0)) :: encModru reg ext ++
      (if imm8 then [byte (v.setWidth 8)] else emit32 v))

/-- `enc_copybi` (ir/be/ia32/ia32_encode.c:1055-1068) -/
def encCopybi (size : Nat) : Out :=
  (if size % 2 = 1 then [byte 0xA4] else []) ++
  (if size / 2 % 2 = 1 then [byte 0x66, byte 0xA5] else []) ++
  List.replicate (size / 4) (byte 0xA5)

/-! ## Negation of two registers -/

/-- `enc_helper_neg`, `enc_helper_sbb0`, `enc_helper_sbb`, `enc_helper_zero`
(ir/be/ia32/ia32_encode.c:679-705) -/
def encHelperNeg (r : BitVec 3) : Out := byte 0xF7 :: encModru r 3
def encHelperSbb0 (r : BitVec 3) : Out := byte (0x80 ||| OP_16_32_IMM8) :: encModru r 3 ++ [byte 0]
def encHelperSbb (src dst : BitVec 3) : Out := byte 0x1B :: encModrr src dst
def encHelperZero (r : BitVec 3) : Out := byte 0x33 :: encModrr r r

/-- the labels `normal_neg` and `zero_neg` (ir/be/ia32/ia32_encode.c:748-758) -/
def normalNeg (outLo outHi : BitVec 3) : Out :=
  encHelperNeg outHi ++ (encHelperNeg outLo ++ encHelperSbb0 outHi)
def zeroNeg (inHi outLo outHi : BitVec 3) : Out :=
  encHelperZero outHi ++ (encHelperNeg outLo ++ encHelperSbb inHi outHi)

/-- `enc_minus64` (ir/be/ia32/ia32_encode.c:707-759) -/
def encMinus64 (inLo inHi outLo outHi : BitVec 3) : Out :=
  if outLo = inLo then
    if outHi ≠ inHi then zeroNeg inHi outLo outHi else normalNeg outLo outHi
  else if outLo = inHi then
    if outHi = inLo then encXchg inLo inHi ++ normalNeg outLo outHi
    else encMov inHi outHi ++ (encMov inLo outLo ++ normalNeg outLo outHi)
  else if outHi = inLo then encMov inLo outLo ++ zeroNeg inHi outLo outHi
  else if outHi = inHi then encMov inLo outLo ++ normalNeg outLo outHi
  else encMov inLo outLo ++ zeroNeg inHi outLo outHi

/-! ## Condition codes -/

/-- `pnc2cc` (ir/be/ia32/ia32_encode.c:33-36) on a condition code of eight bits -/
def pnc2cc (cc : BitVec 8) : BitVec 8 := cc &&& 0xF

/-- `x86_cc_negated`, `x86_cc_float_parity_cases` (ir/be/ia32/x86_node.h:22-47) -/
def ccNegated : BitVec 8 := 1
def ccParity : BitVec 8 := 0x20

/-- `enc_setcc` (ir/be/ia32/ia32_encode.c:519-561) -/
def encSetcc (cc : BitVec 8) (dreg : BitVec 3) : Out :=
  if cc &&& ccParity ≠ 0 then
    if cc &&& ccNegated ≠ 0 then
      (byte 0x0F :: byte (0x90 ||| pnc2cc cc) :: encModrm8 false dreg) ++
      ((byte 0x0F :: byte 0x9A :: encModrm8 true dreg) ++
       (byte 0x08 :: encModrr8 false dreg true dreg))
    else
      (byte 0x0F :: byte (0x90 ||| pnc2cc cc) :: encModrm8 false dreg) ++
      ((byte 0x0F :: byte 0x9B :: encModrm8 true dreg) ++
       (byte 0x20 :: encModrr8 false dreg true dreg))
  else byte 0x0F :: byte (0x90 ||| pnc2cc cc) :: encModrm8 false dreg

/-- `enc_cmovcc` (ir/be/ia32/ia32_encode.c:601-610) -/
def encCmovcc (n : Node) (cc : BitVec 8) (valTrue : BitVec 3) : Option Out :=
  if cc &&& ccParity ≠ 0 then none
  else some (byte 0x0F :: encBinopReg n (0x40 ||| pnc2cc cc) valTrue)

/-- `enc_jmp`, `enc_jcc`, `enc_jp` (ir/be/ia32/ia32_encode.c:914-918, 926-939) -/
def encJmp (frag : Nat) : Out := byte 0xE9 :: encJmpDestination frag
def encJcc (cc : BitVec 8) (frag : Nat) : Out :=
  byte 0x0F :: byte (0x80 + pnc2cc cc) :: encJmpDestination frag
def encJp (odd : Bool) (frag : Nat) : Out :=
  byte 0x0F :: byte (0x8A + (if odd then 1 else 0)) :: encJmpDestination frag

/-- `x86_negate_condition_code` (ir/be/ia32/x86_node.h:109-113) -/
def negateCc (cc : BitVec 8) : BitVec 8 := cc ^^^ ccNegated

/-- `enc_ia32_jcc` (ir/be/ia32/ia32_encode.c:941-996).  `t` and `f` are the fragments of the
blocks for true and false, `ft` and `ff` say whether they follow immediately, and `swap` is the
outcome of the comparison of the frequencies. -/
def encIa32Jcc (cc : BitVec 8) (t f : Nat) (ft ff swap : Bool) : Out :=
  let (t, f, ff, cc) := if ft then (f, t, ft, negateCc cc) else (t, f, ff, cc)
  let (t, f, cc) := if !ff && swap then (f, t, negateCc cc) else (t, f, cc)
  (if cc &&& ccParity ≠ 0 then
    if cc &&& ccNegated ≠ 0 then encJp false t
    else if ff then [byte 0x7A, byte 0x06] else encJp false f
   else []) ++
  (encJcc cc t ++ (if ff then [] else encJmp f))

/-! ## The x87 unit -/

/-- `ia32_enc_fsimple` (ir/be/ia32/ia32_encode.c:1070-1074) -/
def encFsimple (opcode : BitVec 8) : Out := [byte 0xD9, byte opcode]

/-- The flag `x87.reverse` that the simulator of the stack leaves behind
(ir/be/ia32/x86_x87.c:790-807): `sim` is the order it decided on, `permuted` is `ins_permuted`. -/
def x87Reverse (sim permuted : Bool) : Bool := sim ^^ permuted

/-- `ia32_enc_fbinop` (ir/be/ia32/ia32_encode.c:1076-1098); `permuted` is `ins_permuted`.  The flag
`x87.reverse` is not looked at. -/
def encFbinop (n : Node) (permuted resInReg pop : Bool) (reg : BitVec 3)
    (opFwd opRev : BitVec 3) : Out :=
  let op := if permuted then opRev else opFwd
  if n.normal then
    byte (0xD8 ||| (if resInReg then 0x04 else 0) ||| (if pop then 0x02 else 0)) :: encModru reg op
  else byte (if n.size = SIZE_32 then 0xD8 else 0xDC) :: encModAm op n.addr

/-- `ia32_enc_fop_reg` (ir/be/ia32/ia32_encode.c:1100-1105) -/
def encFopReg (op0 op1 : BitVec 8) (reg : BitVec 3) : Out := [byte op0, byte (op1 + reg.setWidth 8)]

/-- `enc_fild` (ir/be/ia32/ia32_encode.c:1107-1132) -/
def encFild (n : Node) : Option Out :=
  if n.size = SIZE_16 then some (byte 0xDF :: encModAm 0 n.addr)
  else if n.size = SIZE_32 then some (byte 0xDB :: encModAm 0 n.addr)
  else if n.size = SIZE_64 then some (byte 0xDF :: encModAm 5 n.addr)
  else none

/-- `enc_fist` (ir/be/ia32/ia32_encode.c:1134-1155).  The call of `enc_mod_am` is followed by the
labels of the remaining cases, `break`, and the `panic` behind the switch. -/
def encFist (_n : Node) (_pop : Bool) : Option Out := none

/-- `enc_fisttp` (ir/be/ia32/ia32_encode.c:1157-1170) -/
def encFisttp (n : Node) : Option Out :=
  if n.size = SIZE_16 then some (byte 0xDF :: encModAm 1 n.addr)
  else if n.size = SIZE_32 then some (byte 0xDB :: encModAm 1 n.addr)
  else if n.size = SIZE_64 then some (byte 0xDD :: encModAm 1 n.addr)
  else none

/-- `enc_fld` (ir/be/ia32/ia32_encode.c:1172-1197) -/
def encFld (n : Node) : Option Out :=
  if n.size = SIZE_32 then some (byte 0xD9 :: encModAm 0 n.addr)
  else if n.size = SIZE_64 then some (byte 0xDD :: encModAm 0 n.addr)
  else if n.size = SIZE_80 then some (byte 0xDB :: encModAm 5 n.addr)
  else none

/-- `enc_fst` (ir/be/ia32/ia32_encode.c:1205-1226), which ends like `enc_fist`. -/
def encFst (_n : Node) (_pop : Bool) : Option Out := none

/-- `enc_fldcw`, `enc_fnstcw` (ir/be/ia32/ia32_encode.c:1199-1203, 1228-1232) -/
def encFldcw (n : Node) : Out := byte 0xD9 :: encModAm 5 n.addr
def encFnstcw (n : Node) : Out := byte 0xD9 :: encModAm 7 n.addr

/-- `enc_fnstsw`, `enc_ftstfnstsw`, `enc_fucomi`, `enc_fucomfnstsw`, `enc_fucomppfnstsw`
(ir/be/ia32/ia32_encode.c:1234-1269) -/
def encFnstsw : Out := [byte 0xDF, byte 0xE0]
def encFtstfnstsw : Out := [byte 0xD9, byte 0xE4] ++ encFnstsw
def encFucomi (pop : Bool) (reg : BitVec 3) : Out :=
  [byte (if pop then 0xDF else 0xDB), byte (0xE8 + reg.setWidth 8)]
def encFucomfnstsw (pop : Bool) (reg : BitVec 3) : Out :=
  [byte 0xDD, byte ((if pop then 0xE8 else 0xE0) + reg.setWidth 8)] ++ encFnstsw
def encFucomppfnstsw : Out := [byte 0xDA, byte 0xE9] ++ encFnstsw

/-! ## Padding -/

/-- `enc_nop_callback` (ir/be/ia32/ia32_encode.c:1387-1422): the bytes written to a buffer of the
size. -/
def nops (size : Nat) : List (BitVec 8) :=
  match size with
  | 0 => []
  | 1 => [0x90]
  | 2 => [0x66, 0x90]
  | 3 => [0x0F, 0x1F, 0]
  | 4 => [0x0F, 0x1F, 0x40, 0]
  | 5 => [0x0F, 0x1F, 0x44, 0, 0]
  | 6 => [0x66, 0x0F, 0x1F, 0x44, 0, 0]
  | 7 => [0x0F, 0x1F, 0x80, 0, 0, 0, 0]
  | 8 => [0x0F, 0x1F, 0x84, 0, 0, 0, 0, 0]
  | n + 9 => [0x66, 0x0F, 0x1F, 0x84, 0, 0, 0, 0, 0] ++ nops n

/-! ## The table of the nodes (ir/be/ia32/ia32_spec.pl) -/

/-- Nodes with two operands and their numbers (ir/be/ia32/ia32_spec.pl:489-511, 574-603, 624-664,
876-880; the operations on memory lines 495-499, 580-597, 617-651). -/
inductive BinNode where
  | Add | Adc | And | Or | Xor | Sub | Sbb | Cmp
  deriving DecidableEq, Repr

def BinNode.code : BinNode → BitVec 3
  | .Add => 0 | .Adc => 2 | .And => 4 | .Or => 1 | .Xor => 6 | .Sub => 5 | .Sbb => 3 | .Cmp => 7

/-- Shifts (ir/be/ia32/ia32_spec.pl:705-777). -/
inductive ShiftNode where
  | Shl | Shr | Sar | Ror | Rol
  deriving DecidableEq, Repr

def ShiftNode.ext : ShiftNode → BitVec 3
  | .Shl => 4 | .Shr => 5 | .Sar => 7 | .Ror => 1 | .Rol => 0

/-- Nodes that use `ia32_enc_unop` with opcode `F7` (ir/be/ia32/ia32_spec.pl:529-532, 560-564,
693-702, 780-783, 834-841). -/
inductive UnNode where
  | Mul | IMul1OP | IDiv | Div | Neg | Not
  deriving DecidableEq, Repr

def UnNode.ext : UnNode → BitVec 3
  | .Mul => 4 | .IMul1OP => 5 | .IDiv => 7 | .Div => 6 | .Neg => 3 | .Not => 2

/-- Nodes that use `ia32_enc_unop_mem` (ir/be/ia32/ia32_spec.pl:786-790, 815-831, 844-851). -/
inductive UnMemNode where
  | NegMem | IncMem | DecMem | NotMem
  deriving DecidableEq, Repr

def UnMemNode.code : UnMemNode → BitVec 8 × BitVec 3
  | .NegMem => (0xF6, 3) | .IncMem => (0xFE, 0) | .DecMem => (0xFE, 1) | .NotMem => (0xF6, 2)

/-- Nodes that use `ia32_enc_0f_unop_reg` (ir/be/ia32/ia32_spec.pl:542-545, 1237-1246). -/
inductive ExtNode where
  | IMul | Bsf | Bsr
  deriving DecidableEq, Repr

def ExtNode.code : ExtNode → BitVec 8
  | .IMul => 0xAF | .Bsf => 0xBC | .Bsr => 0xBD

/-- Nodes that use `ia32_enc_simple` (ir/be/ia32/ia32_spec.pl:855-873, 1065-1072, 1182-1188,
1311-1316, 1557-1565, 1812-1821). -/
inductive SimpleNode where
  | Cmc | Stc | Cltd | Leave | Breakpoint | Cwtl | Sahf
  deriving DecidableEq, Repr

def SimpleNode.opcode : SimpleNode → BitVec 8
  | .Cmc => 0xF5 | .Stc => 0xF9 | .Cltd => 0x99 | .Leave => 0xC9 | .Breakpoint => 0xCC
  | .Cwtl => 0x98 | .Sahf => 0x9E

/-- Arithmetic of the x87 unit: the numbers for the two orders of the operands
(ir/be/ia32/ia32_spec.pl:1622-1648). -/
inductive FNode where
  | fadd | fmul | fsub | fdiv
  deriving DecidableEq, Repr

def FNode.codes : FNode → BitVec 3 × BitVec 3
  | .fadd => (0, 0) | .fmul => (1, 1) | .fsub => (4, 5) | .fdiv => (6, 7)

/-- Nodes that use `ia32_enc_fsimple` (ir/be/ia32/ia32_spec.pl:1651-1660, 1732-1741). -/
inductive FSimpleNode where
  | fabs | fchs | fldz | fld1
  deriving DecidableEq, Repr

def FSimpleNode.opcode : FSimpleNode → BitVec 8
  | .fabs => 0xE1 | .fchs => 0xE0 | .fldz => 0xEE | .fld1 => 0xE8

/-- Nodes that use `ia32_enc_fop_reg` (ir/be/ia32/ia32_spec.pl:1827-1865). -/
inductive FRegNode where
  | fxch | fdup | fpop | ffreep
  deriving DecidableEq, Repr

def FRegNode.opcode : FRegNode → BitVec 8 × BitVec 8
  | .fxch => (0xD9, 0xC8) | .fdup => (0xD9, 0xC0) | .fpop => (0xDD, 0xD8) | .ffreep => (0xDF, 0xC0)

end Verif.Model.Ia32
