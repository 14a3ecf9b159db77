import Verif.Model.BitFiddle
import Verif.Spec.MachineImm
/-!
# Model: constants and offsets in the RISC-V, MIPS, SPARC and ARM backends

The functions of the backends that choose instructions for a constant, an address with a constant
offset, a change of the stack pointer, and that check whether a value fits into an instruction.
They return the instructions as expressions of `Spec.Machine`.  `none` is undefined behaviour in C
or a write past the end of an array.  Simplified: nodes carry no blocks, no debug information and no
registers; the place in the schedule is the place in the expression.
-/
namespace Verif.Model.BackendImm
open Verif.Spec.Machine

/-! ## RISC-V -/

/-- `is_simm12` (ir/be/riscv/riscv_bearch_t.h:35-38), the argument was converted to `int32_t` -/
def isSimm12 (v : Word) : Bool := decide (-2048 ≤ v.toInt) && decide (v.toInt < 2048)

/-- `is_uimm5` (ir/be/riscv/riscv_bearch_t.h:30-33) -/
def isUimm5 (v : Int) : Bool := decide (0 ≤ v) && decide (v < 32)

/-- `calc_hi_lo` (ir/be/riscv/riscv_bearch.c:95-107) -/
def calcHiLo (val : Word) : Int × Int :=
  let hi : Word := (val >>> 12) + ((val >>> 11) &&& 1#32)
  let hi : Word := if hi.toInt ≥ 1048576 then 0#32 else hi
  let lo : Word := val - (hi <<< 12)
  (hi.toInt, lo.toInt)

/-- `create_constant_from_immediate` (ir/be/riscv/riscv_finish.c:27-48) and the second half of `gen_Const` -/
def rvConstFromImm (val : Word) : Rv :=
  let imm := calcHiLo val
  let res := if imm.1 ≠ 0 then Rv.lui imm.1 else Rv.zero
  if imm.2 ≠ 0 then Rv.addi res imm.2 else res

/-- `gen_Const` (ir/be/riscv/riscv_transform.c:627-652) -/
def rvConst (val : Word) : Rv := if val = 0#32 then Rv.zero else rvConstFromImm val

/-- `finish_riscv_FrameAddr` (ir/be/riscv/riscv_finish.c:55-71): the address `base + offset` -/
def rvFrameAddr (base : Rv) (offset : Word) : Rv :=
  if !isSimm12 offset then Rv.add base (rvConstFromImm offset) else Rv.addi base offset.toInt

/-- `finish_riscv_load_store_offsets` (ir/be/riscv/riscv_finish.c:77-99): the new base and the new
immediate; `none` if the node would become its own base -/
def rvLoadStore (base : Rv) (offset : Word) : Option (Rv × Int) :=
  if !isSimm12 offset then
    let imm := calcHiLo offset
    if imm.1 ≠ 0 then some (Rv.add base (Rv.lui imm.1), imm.2) else none
  else some (base, offset.toInt)

/-- `finish_be_IncSP` (ir/be/riscv/riscv_finish.c:104-119) and `emit_be_IncSP`
(ir/be/riscv/riscv_emitter.c:188-196); `none` is overflow of the negation or the assertion of the emitter -/
def rvIncSP (sp : Rv) (offset : Int) : Option Rv :=
  if offset = -(2 ^ 31) then none
  else
    let offs := BitVec.ofInt 32 (-offset)
    if !isSimm12 offs then some (Rv.add sp (rvConstFromImm offs))
    else if offs = 0#32 then some sp
    else if isSimm12 offs then some (Rv.addi sp offs.toInt) else none

/-- `round_up2(size, 1u << RISCV_PO2_STACK_ALIGNMENT)` (ir/adt/util.h, ir/be/riscv/riscv_bearch_t.h:10) -/
def rvAligned (size : Word) : Word := (size + 15#32) &&& ~~~ 15#32

/-- where the frame pointer is saved, relative to the stack pointer of the caller
(ir/be/riscv/riscv_bearch.c:253 and 316) -/
def rvFpSave (variadic : Bool) : Int := if variadic then -36 else -4

/-- `riscv_introduce_prologue` (ir/be/riscv/riscv_bearch.c:236-296) with a frame pointer: the address the frame
pointer is stored to as base and immediate, and the new frame pointer.  `sp` is the register after the
`IncSP`. -/
def rvPrologue (sp : Rv) (size : Word) (variadic : Bool) : (Rv × Int) × Rv :=
  let aligned := rvAligned size
  if !isSimm12 aligned then
    let add := Rv.add sp (rvConstFromImm aligned)
    ((add, rvFpSave variadic), add)
  else ((sp, aligned.toInt + rvFpSave variadic), Rv.addi sp aligned.toInt)

/-- `peephole_riscv_shift` (ir/be/riscv/riscv_finish.c:129-166) -/
def rvShift : Rv → Rv
  | .srli (.srli e p) n => if isUimm5 (n + p) then .srli e (n + p) else .srli (.srli e p) n
  | .srai (.srai e p) n => if isUimm5 (n + p) then .srai e (n + p) else .srai (.srai e p) n
  | .slli (.slli e p) n => if isUimm5 (n + p) then .slli e (n + p) else .slli (.slli e p) n
  | e => e

/-- `gen_saturating_increment` (ir/be/riscv/riscv_transform.c:381-391) -/
def rvSatInc (e : Rv) : Rv := Rv.add e (Rv.sltiu e (-1))

/-! ## MIPS -/

/-- `is_simm16` (ir/be/mips/mips_transform.c:71-74) -/
def isSimm16 (v : Int) : Bool := decide (-32768 ≤ v) && decide (v < 32768)

/-- `is_uimm16` (ir/be/mips/mips_transform.c:76-79) -/
def isUimm16 (v : Int) : Bool := decide (0 ≤ v) && decide (v < 65536)

/-- `gen_Const` (ir/be/mips/mips_transform.c:612-641); `val` is a `long` of 64 bits -/
def mipsConst (val : Int) : Mips :=
  if val = 0 then Mips.zero
  else if isSimm16 val then Mips.addiu Mips.zero val
  else
    let hi := (BitVec.ofInt 32 val >>> 16).toInt
    let res := if hi ≠ 0 then Mips.lui hi else Mips.zero
    let lo := (BitVec.ofInt 64 val &&& 0xFFFF#64).toInt
    if lo ≠ 0 then Mips.ori res lo else res

/-- `gen_Add` with a constant right operand (ir/be/mips/mips_transform.c:308-321) -/
def mipsAdd (e : Mips) (val : Int) : Mips :=
  if isSimm16 val then Mips.addiu e val else Mips.addu e (mipsConst val)

/-- `gen_logic_op` with a constant right operand (ir/be/mips/mips_transform.c:334-348), case of an immediate -/
def mipsLogicImm (cons : Mips → Int → Mips) (e : Mips) (val : Int) : Option Mips :=
  if isUimm16 val then some (cons e val) else none

/-- `gen_saturating_increment` (ir/be/mips/mips_transform.c:355-365) -/
def mipsSatInc (e : Mips) : Mips := Mips.addu e (Mips.sltiu e (-1))

/-! ## SPARC -/

/-- `sparc_is_value_imm_encodeable` (ir/be/sparc/sparc_bearch_t.h:51-65) -/
def sparcImm (v : Int) : Bool := decide (-4096 ≤ v) && decide (v ≤ 4095)

/-- `create_constant_from_immediate` (ir/be/sparc/sparc_finish.c:133-151) -/
def sparcConstFromImm (v : Word) : Sparc :=
  let hi := Sparc.sethi v
  if v &&& 0x3ff#32 ≠ 0#32 then Sparc.orImm hi (v &&& 0x3ff#32).toInt else hi

/-- `create_int_const` (ir/be/sparc/sparc_transform.c:1116-1132) -/
def sparcConst (v : Word) : Sparc :=
  if v = 0#32 then Sparc.g0
  else if sparcImm v.toInt then Sparc.orImm Sparc.g0 v.toInt
  else sparcConstFromImm v

/-- `finish_sparc_FrameAddr`, `finish_sparc_Save` and the address of `finish_sparc_Ld`, `_Ldf`, `_St`, `_Stf`
(ir/be/sparc/sparc_finish.c:153-172, 203-219, 233-347): `base + offset` -/
def sparcBaseOffset (base : Sparc) (offset : Word) : Sparc :=
  if !sparcImm offset.toInt then Sparc.addReg base (sparcConstFromImm offset)
  else Sparc.addImm base offset.toInt

/-- `finish_be_IncSP` (ir/be/sparc/sparc_finish.c:179-195) and `emit_be_IncSP`
(ir/be/sparc/sparc_emitter.c) -/
def sparcIncSP (sp : Sparc) (offset : Int) : Option Sparc :=
  if offset = -(2 ^ 31) then none
  else if !sparcImm offset && !sparcImm (-offset) then
    some (Sparc.subReg sp (sparcConstFromImm (BitVec.ofInt 32 offset)))
  else if offset = 0 then some sp
  else if offset > 0 then some (Sparc.addImm sp (-offset))
  else some (Sparc.subImm sp offset)

/-- `gen_Add` with a constant (ir/be/sparc/sparc_transform.c:600-612 and `gen_helper_binop_args` 357-392) -/
def sparcAdd (e : Sparc) (v : Word) : Sparc :=
  if v = 0x1000#32 then Sparc.subImm e (-0x1000)
  else if sparcImm v.toInt then Sparc.addImm e v.toInt
  else Sparc.addReg e (sparcConst v)

/-- the operations of `gen_helper_bitop` -/
inductive BitOp | and | or | xor
  deriving DecidableEq

/-- `gen_And`, `gen_Or`, `gen_Eor` (ir/be/sparc/sparc_transform.c:985-1013): the constructor with complemented
second operand -/
def BitOp.notReg : BitOp → Sparc → Sparc → Sparc
  | .and => Sparc.andnReg
  | .or => Sparc.ornReg
  | .xor => Sparc.xnorReg

/-- `gen_helper_bitop` (ir/be/sparc/sparc_transform.c:964-979): a constant that is not encodable, but whose
complement needs no lower bits -/
def sparcBitopConst (op : BitOp) (e : Sparc) (v : Word) : Option Sparc :=
  if !sparcImm v.toInt && decide (~~~ v &&& 0x3ff#32 = 0#32) then some (op.notReg e (Sparc.sethi (~~~ v))) else none

/-! ## ARM -/

/-- the inner loop of `arm_gen_vals_from_word` (ir/be/arm/arm_transform.c:93-96); `none`: does not end -/
def stripZeros : Nat → Word → Nat → Option (Word × Nat)
  | 0, _, _ => none
  | f + 1, v, i => if v &&& 3#32 = 0#32 then stripZeros f (v >>> 2) (i + 2) else some (v, i)

/-- the outer loop of `arm_gen_vals_from_word` (ir/be/arm/arm_transform.c:92-104); the arrays of `arm_vals`
(ir/be/arm/arm_optimize.h:25-29) have four elements, a fifth write is `none` -/
def wordLoop : Nat → Word → Nat → List (Nat × Nat) → Option (List (Nat × Nat))
  | 0, _, _, _ => none
  | f + 1, v, i, acc =>
    match stripZeros 17 v i with
    | none => none
    | some (v, i) =>
      if acc.length ≥ 4 then none
      else
        let acc := acc ++ [((v &&& 0xFF#32).toNat, (((32 - (i : Int)).tmod 32) % 256).toNat)]
        if v >>> 8 = 0#32 then some acc else wordLoop f (v >>> 8) (i + 8) acc

/-- `arm_gen_vals_from_word` (ir/be/arm/arm_transform.c:76-104) -/
def armVals (value : Word) : Option (List (Nat × Nat)) :=
  if value.toNat ≤ 0xFF then some [(value.toNat, 0)] else wordLoop 33 value 0 []

/-- `create_const_graph_value` (ir/be/arm/arm_transform.c:109-141) -/
def armConst (value : Word) : Option Arm := do
  let v ← armVals value
  let vn ← armVals (~~~ value)
  if vn.length < v.length then
    match vn with
    | [] => none
    | (b, r) :: rest => some (rest.foldl (fun e p => Arm.bic e p.1 p.2) (Arm.mvn b r))
  else
    match v with
    | [] => none
    | (b, r) :: rest => some (rest.foldl (fun e p => Arm.orr e p.1 p.2) (Arm.mov b r))

/-- the number printed by `arm_emit_shifter_operand` (ir/be/arm/arm_emitter.c:177-184) -/
def armEmitImm (b r : Nat) : Word := (BitVec.ofNat 32 b >>> r) ||| (BitVec.ofNat 32 b <<< ((32 - r) &&& 31))

/-- `arm_ror` (ir/be/arm/arm_optimize.c:25-28); shifting by 32 is undefined -/
def armRor (v : Nat) (ror : Nat) : Option Word :=
  if 32 - ror ≥ 32 ∨ ror ≥ 32 then none else some ((BitVec.ofNat 32 v <<< (32 - ror)) ||| (BitVec.ofNat 32 v >>> ror))

/-- `peephole_be_IncSP` (ir/be/arm/arm_optimize.c:43-75): the offsets of the resulting `IncSP` nodes -/
def armIncSP (offset : Int) : Option (List Int) :=
  if offset = -(2 ^ 31) then none
  else do
    let sign : Int := if offset < 0 then -1 else 1
    let mag : Int := if offset < 0 then -offset else offset
    let v ← armVals (BitVec.ofInt 32 mag)
    if v.length ≤ 1 then some [offset]
    else v.mapM fun p => (armRor p.1 p.2).map fun x => (BitVec.ofInt 32 sign * x).toInt

/-- `gen_ptr` with `Add` (ir/be/arm/arm_optimize.c:79-98) -/
def genPtrAdd (base : Arm) (v : List (Nat × Nat)) : Arm := v.foldl (fun e p => Arm.add e p.1 p.2) base

/-- `gen_ptr` with `Sub` (ir/be/arm/arm_optimize.c:79-90 and 100-105) -/
def genPtrSub (base : Arm) (v : List (Nat × Nat)) : Arm := v.foldl (fun e p => Arm.sub e p.1 p.2) base

/-- `peephole_arm_FrameAddr` (ir/be/arm/arm_optimize.c:107-124): the base and the offset the emitter adds
(ir/be/arm/arm_emitter.c:330-334) -/
def armFrameAddr (base : Arm) (offset : Word) : Option (Arm × Word) := do
  let v ← armVals offset
  if v.length ≤ 1 then some (base, offset) else some (genPtrAdd base v, 0#32)

/-- `arm_is_offset8`, `arm_is_offset12`, `arm_is_valid_offset` (ir/be/arm/arm_optimize.c:181-208) -/
def armValidOffset (bits : Nat) (signed isStore : Bool) (v : Int) : Bool :=
  let offset12 := decide (-4095 ≤ v) && decide (v ≤ 4095)
  let offset8 := decide (-255 ≤ v) && decide (v ≤ 255)
  if bits = 8 then (if isStore || !signed then offset12 else offset8)
  else if bits = 32 then offset12
  else offset8

/-- `peephole_arm_Str_Ldr` (ir/be/arm/arm_optimize.c:129-164): the base and the offset that is left -/
def armLoadStore (bits : Nat) (signed isStore : Bool) (base : Arm) (offset : Word) : Option (Arm × Int) :=
  if armValidOffset bits signed isStore offset.toInt then some (base, offset.toInt)
  else do
    let useAdd := decide (0 ≤ offset.toInt)
    let v ← armVals offset
    some (if useAdd then genPtrAdd base v else genPtrSub base v, 0)

/-- `try_encode_val_as_immediate` (ir/be/arm/arm_transform.c:281-313); the fields are `uint8_t` -/
def tryEncodeVal (val : Word) : Option (Nat × Nat) :=
  if val.toNat ≤ 0xff then some (val.toNat, 0)
  else
    let low := ntzP val.toNat / 2 * 2
    let high := (32 - nlzP val.toNat + 1) / 2 * 2
    if high - low ≤ 8 then some ((val >>> low).toNat % 256, 32 - low)
    else if high > 24 then
      let rot := 34 - high
      let val := (val >>> (32 - rot)) ||| (val <<< rot)
      if val.toNat ≤ 0xff then some (val.toNat, rot) else none
    else none

/-- `imm_match_t` (ir/be/arm/arm_transform.c:316-321) -/
inductive ImmMatch | pos | not | neg
  deriving DecidableEq

/-- `try_encode_as_immediate` (ir/be/arm/arm_transform.c:323-333) for a constant -/
def tryEncode (val : Word) (pos not neg : Bool) : Option (ImmMatch × Nat × Nat) :=
  match (if pos then tryEncodeVal val else none) with
  | some p => some (.pos, p)
  | none =>
    match (if not then tryEncodeVal (~~~ val) else none) with
    | some p => some (.not, p)
    | none =>
      match (if neg then tryEncodeVal (-val) else none) with
      | some p => some (.neg, p)
      | none => none

/-- `gen_Add` with a constant (ir/be/arm/arm_transform.c:604-612 and `gen_int_binop_ops` 373-377), as long as an
immediate is used -/
def armAdd (e : Arm) (val : Word) : Option Arm :=
  match tryEncode val false false true with
  | some (_, b, r) => some (Arm.sub e b r)
  | none =>
    match tryEncode val true false false with
    | some (_, b, r) => some (Arm.add e b r)
    | none => none

/-- `gen_And` with a constant (ir/be/arm/arm_transform.c:774-782 and `gen_int_binop_ops` 373-377) -/
def armAnd (e : Arm) (val : Word) : Option Arm :=
  match tryEncode val false true false with
  | some (_, b, r) => some (Arm.bic e b r)
  | none =>
    match tryEncode val true false false with
    | some (_, b, r) => some (Arm.and e b r)
    | none => none

/-- `gen_Cmp` with a constant (ir/be/arm/arm_transform.c:1231-1243): the flags of `cmp` or `cmn` -/
def armCmp (x val : Word) : Option Flags :=
  match tryEncode val true false true with
  | some (.pos, b, r) => some (subFlags x (armImm b r))
  | some (.neg, b, r) => some (addFlags x (armImm b r))
  | _ => none

/-- `gen_zero_extension` (ir/be/arm/arm_transform.c:169-181); `none` is the panic -/
def armZeroExt (e : Arm) (bits : Nat) : Option Arm :=
  if bits = 8 then some (Arm.and e 0xFF 0)
  else if bits = 16 then some (Arm.lsr (Arm.lsl e 16) 16)
  else none

/-- `gen_sign_extension` (ir/be/arm/arm_transform.c:186-193) -/
def armSignExt (e : Arm) (bits : Nat) : Arm := Arm.asr (Arm.lsl e (32 - bits)) (32 - bits)

/-! ## 64 bit operations with carry -/

/-- `lower64_add` (ir/be/arm/arm_lower64.c:22-40): `AddS`, `AdC`.  A pair is the low and the high word. -/
def armAdd64 (l r : Word × Word) : Word × Word :=
  (l.1 + r.1, l.2 + r.2 + (if (addFlags l.1 r.1).c then 1#32 else 0#32))

/-- `lower64_sub` (ir/be/arm/arm_lower64.c:42-60): `SubS`, `SbC` -/
def armSub64 (l r : Word × Word) : Word × Word :=
  (l.1 - r.1, l.2 - r.2 - (if (subFlags l.1 r.1).c then 0#32 else 1#32))

/-- `lower64_minus` (ir/be/arm/arm_lower64.c:62-81) -/
def armMinus64 (r : Word × Word) : Word × Word := armSub64 (0#32, 0#32) r

/-- `lower64_mul` (ir/be/arm/arm_lower64.c:83-106): `UMulL` gives the low and high word of the product -/
def armMul64 (l r : Word × Word) : Word × Word :=
  let p := l.1.toNat * r.1.toNat
  (BitVec.ofNat 32 (p % 2 ^ 32), r.1 * l.2 + l.1 * r.2 + BitVec.ofNat 32 (p / 2 ^ 32))

/-- `lower64_add` (ir/be/sparc/sparc_lower64.c:20-38): `AddCC`, `AddX` -/
def sparcAdd64 (l r : Word × Word) : Word × Word :=
  (l.1 + r.1, l.2 + r.2 + (if (addFlags l.1 r.1).c then 1#32 else 0#32))

/-- `lower64_sub` (ir/be/sparc/sparc_lower64.c:40-58): `SubCC`, `SubX`; on SPARC the carry after a subtraction is
the borrow -/
def sparcSub64 (l r : Word × Word) : Word × Word :=
  let borrow := !(subFlags l.1 r.1).c
  (l.1 - r.1, l.2 - r.2 - (if borrow then 1#32 else 0#32))

/-- `lower64_minus` (ir/be/sparc/sparc_lower64.c:60-79) -/
def sparcMinus64 (r : Word × Word) : Word × Word := sparcSub64 (0#32, 0#32) r

end Verif.Model.BackendImm
