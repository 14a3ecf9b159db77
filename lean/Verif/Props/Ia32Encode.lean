import Verif.Lemmas.Ia32Encode
import Verif.Spec.X86Exec
/-!
# Properties of the binary encoder for IA-32 (ir/be/ia32/ia32_encode.c)

The bytes an emitter appends are decoded by the specification `Spec.X86.decode` as exactly the
instruction that the description of the node in ir/be/ia32/ia32_spec.pl prints as text, whatever
follows behind them.
-/
namespace Verif.Props

open Spec.X86 Model.Ia32

/-- The bytes are one instruction, whatever follows. -/
def EncodesTo (out : Out) (i : Insn) : Prop := ∀ rest, decode (out ++ rest) = some (i, rest)

/-- What the emitter appends is one instruction. -/
def Encodes (out : Option Out) (i : Insn) : Prop := ∃ o, out = some o ∧ EncodesTo o i

/-- The memory operand that is printed for an address
(`x86_emit_addr`, ir/be/ia32/x86_address_mode.c:492-546). -/
def textMem (a : Addr) : Mem :=
  ⟨a.gs, a.base, a.index.map fun i => (i, a.logScale),
   match a.imm.entity with
   | none => .num a.imm.offset
   | some e => .sym a.imm.kind e a.imm.offset⟩

/-- The immediate operand of an operation of a size (`emit_ia32_immediate_attr`); only the low bits
of a number matter. -/
def textImm (i : Imm) (s : Size) : Opd :=
  .imm (match i.entity with
    | none => .num (low s i.offset)
    | some e => .sym i.kind e i.offset)

/-- An address that the instruction set has: no index esp; and no segment prefix. -/
def AddrOk (a : Addr) : Prop := a.index ≠ some 4 ∧ a.gs = false

/-- `%AS`: a register or the address (ir/be/ia32/ia32_emitter.c:333-340). -/
def textRm (n : Node) (r : Reg) : Opd := if n.normal then .reg r else .mem (textMem n.addr)

theorem rm_opd {n : Node} {s : Size} {r : BitVec 3} {x : Reg} (ha : AddrOk n.addr)
    (hr : n.normal = true → named s false r = some x) : (n.rm r).opd s = textRm n x := by
  unfold Node.rm textRm
  cases h : n.normal with
  | true => simp only [if_true, Rm.opd, named_regOf (hr h)]
  | false =>
    simp only [Bool.false_eq_true, if_false, Rm.opd, Addr.mem, textMem, ha.2]
    rfl

/-! ## Addresses -/

/-- **C108 (addresses).**  The ModR/M byte, the SIB byte and the displacement stand for the address
of the node, for every base, index, scale and displacement; the only index that is excluded is
esp, which the instruction set does not have. -/
theorem enc_mod_am_roundtrip (reg : BitVec 3) (a : Addr) (h : AddrOk a) (rest : List Item) :
    modrm false (encModAm reg a ++ rest) = some (reg, .mem (textMem a), rest) := by
  rw [modrm_am false reg a h.1]
  simp only [Addr.mem, textMem, h.2]
  rfl

/-- esp as base, ebp as base without displacement, an index without base -/
example :
    encModAm 1 ⟨some 4, none, 0, ⟨none, 0, 0⟩, false⟩ = [.byte 0x0C, .byte 0x24] ∧
    encModAm 1 ⟨some 5, none, 0, ⟨none, 0, 0⟩, false⟩ = [.byte 0x4D, .byte 0] ∧
    encModAm 1 ⟨none, some 3, 2, ⟨some 7, 8, 1⟩, false⟩ = [.byte 0x0C, .byte 0x9D, .reloc 1 7 8] := by
  decide

/-! ## Binary operations -/

def BinNode.alu : BinNode → Alu
  | .Add => .add | .Adc => .adc | .And => .and | .Or => .or | .Xor => .xor | .Sub => .sub
  | .Sbb => .sbb | .Cmp => .cmp

theorem aluOf_code (o : BinNode) : aluOf o.code = BinNode.alu o := by cases o <;> rfl

/-- **C108 (binary operations).**  `Add`, `Adc`, `And`, `Or`, `Xor`, `Sub`, `Sbb`, `Cmp`: the first
operand of the instruction is the left register, or the address if the right one is an
immediate; the short forms for small immediates and for eax mean the same.  The node must not ask
for the high byte of its registers: see `enc_high_byte_wrong`. -/
theorem enc_binop_partial (n : Node) (o : BinNode) (s : Size) (l : Reg)
    (hs : n.size = sizeNum s) (ha : AddrOk n.addr) (hl : named s false n.left = some l) :
    (∀ i, n.right = .imm i → (s = .d ∨ i.entity = none) →
      Encodes (encBinop n o.code) (.alu (BinNode.alu o) s (textRm n l) (textImm i s))) ∧
    (∀ r x, n.right = .reg r → (n.normal = true → named s false r = some x) →
      Encodes (encBinop n o.code) (.alu (BinNode.alu o) s (.reg l) (textRm n x))) := by
  constructor
  · intro i hi hent
    obtain ⟨im, him, htake⟩ := takeImm_encImm i s hent
    have hv : textImm i s = .imm (i.valS s) := rfl
    rw [hv]
    unfold encBinop
    rw [hi, hs]
    simp only []
    by_cases hshort : s ≠ .b ∧ is8bitImm i = true
    · -- the form with an immediate of one byte
      obtain ⟨hsb, h8⟩ := hshort
      have hop : (if sizeNum s = SIZE_8 then OP_8 else OP_16_32) = OP_16_32 := by
        cases s with
        | b => exact absurd rfl hsb
        | w => rfl
        | d => rfl
      have hne : (OP_16_32 != OP_8) = true := by decide
      simp only [hop, hne, h8, Bool.and_self, if_true, ne_eq, not_true_eq_false, false_and,
        if_false, encImm, Option.map_some]
      refine ⟨_, rfl, fun rest => ?_⟩
      have e : prefix16 (sizeNum s) ++ encUnop n (0x80 ||| OP_16_32_IMM8) o.code n.left ++
          [byte (i.offset.setWidth 8)] ++ rest =
          prefix16 (sizeNum s) ++ byte (0x80 ||| OP_16_32_IMM8) ::
            ((if n.normal then encModru n.left o.code else encModAm o.code n.addr) ++
              (byte (i.offset.setWidth 8) :: rest)) := by
        simp [encUnop, List.append_assoc]
      rw [e, decode_pre (by decide) s]
      have hf : form (0x80 ||| OP_16_32_IMM8) = some .grp1s := by decide
      have hsz : (pre s).size true = s := by
        cases s with
        | b => exact absurd rfl hsb
        | w => rfl
        | d => rfl
      simp only [body, hf, hsz, Option.bind_eq_bind, Option.bind_some, pre_gs,
        modrm_unop n o.code n.left ha.1, takeImm8s_byte h8, aluOf_code,
        rm_opd ha (fun _ => hl)]
    · have hop : ((if sizeNum s = SIZE_8 then OP_8 else OP_16_32) != OP_8 && is8bitImm i) = false := by
        cases s with
        | b => rfl
        | w =>
          cases h8 : is8bitImm i with
          | false => rfl
          | true => exact absurd ⟨by decide, h8⟩ hshort
        | d =>
          cases h8 : is8bitImm i with
          | false => rfl
          | true => exact absurd ⟨by decide, h8⟩ hshort
      have hne : (if sizeNum s = SIZE_8 then OP_8 else OP_16_32) ≠ OP_16_32_IMM8 := by
        cases s <;> decide
      simp only [hop, Bool.false_eq_true, if_false, hne, ne_eq, not_false_eq_true, true_and, him,
        Option.map_some]
      refine ⟨_, rfl, fun rest => ?_⟩
      by_cases hacc : useEaxShortForm n = true
      · -- the short form for eax
        rw [if_pos hacc]
        simp only [useEaxShortForm, Bool.and_eq_true, beq_iff_eq] at hacc
        have hrm : textRm n l = .reg (regOf s 0) := by
          rw [textRm, if_pos hacc.1, ← named_regOf hl, hacc.2]
        rw [hrm]
        simp only [List.append_assoc, List.cons_append, List.nil_append]
        have hfa := form_ai o.code
        cases s with
        | b =>
          rw [show (if sizeNum Size.b = SIZE_8 then OP_8 else OP_16_32) = OP_8 from rfl,
            decode_pre hfa.1.2 Size.b]
          simp only [body, hfa.1.1, Option.bind_eq_bind, Option.bind_some]
          rw [show (pre Size.b).size false = .b from rfl, htake, aluOf_code]
          rfl
        | w =>
          rw [show (if sizeNum Size.w = SIZE_8 then OP_8 else OP_16_32) = OP_16_32 from rfl,
            decode_pre hfa.2.2 Size.w]
          simp only [body, hfa.2.1, Option.bind_eq_bind, Option.bind_some]
          rw [show (pre Size.w).size true = .w from rfl, htake, aluOf_code]
          rfl
        | d =>
          rw [show (if sizeNum Size.d = SIZE_8 then OP_8 else OP_16_32) = OP_16_32 from rfl,
            decode_pre hfa.2.2 Size.d]
          simp only [body, hfa.2.1, Option.bind_eq_bind, Option.bind_some]
          rw [show (pre Size.d).size true = .d from rfl, htake, aluOf_code]
          rfl
      · rw [if_neg hacc]
        have e : ∀ op, prefix16 (sizeNum s) ++ encUnop n op o.code n.left ++ im ++ rest =
            prefix16 (sizeNum s) ++ byte op ::
              ((if n.normal then encModru n.left o.code else encModAm o.code n.addr) ++
                (im ++ rest)) := by
          intro op
          simp [encUnop, List.append_assoc]
        rw [e]
        have hpl : plain (0x80 ||| (if sizeNum s = SIZE_8 then OP_8 else OP_16_32)) = true := by
          cases s <;> decide
        have hf : form (0x80 ||| (if sizeNum s = SIZE_8 then OP_8 else OP_16_32)) =
            some (.grp1 (s != .b)) := by
          cases s <;> decide
        rw [decode_pre hpl s]
        simp only [body, hf, size_pre, Option.bind_eq_bind, Option.bind_some, pre_gs,
          modrm_unop n o.code n.left ha.1, htake, aluOf_code, rm_opd ha (fun _ => hl)]
  · intro r x hr hx
    unfold encBinop
    rw [hr, hs]
    refine ⟨_, rfl, fun rest => ?_⟩
    have e : ∀ op, prefix16 (sizeNum s) ++ encBinopReg n op r ++ rest =
        prefix16 (sizeNum s) ++ byte op ::
          ((if n.normal then encModrr r n.left else encModAm n.left n.addr) ++ rest) := by
      intro op
      simp [encBinopReg, List.append_assoc]
    rw [e]
    have hfr := form_rm o.code
    have hf : form (o.code.setWidth 8 <<< 3 ||| OP_MEM_SRC |||
        (if sizeNum s = SIZE_8 then OP_8 else OP_16_32)) = some (.aluRM o.code (s != .b)) := by
      cases s with
      | b => exact hfr.1.1
      | w => exact hfr.2.1
      | d => exact hfr.2.1
    have hpl : plain (o.code.setWidth 8 <<< 3 ||| OP_MEM_SRC |||
        (if sizeNum s = SIZE_8 then OP_8 else OP_16_32)) = true := by
      cases s with
      | b => exact hfr.1.2
      | w => exact hfr.2.2
      | d => exact hfr.2.2
    rw [decode_pre hpl s]
    simp only [body, hf, size_pre, Option.bind_eq_bind, Option.bind_some, pre_gs,
      modrm_binop n r ha.1, aluOf_code, rm_opd ha hx, named_regOf hl]

/-- `addw $-5, %cx` uses the short form, `xorl $1000, %eax` the form for eax -/
example :
    encBinop ⟨true, SIZE_16, false, 1, .imm ⟨none, -5, 0⟩, 1, ⟨none, none, 0, ⟨none, 0, 0⟩, false⟩⟩
      (BinNode.code .Add) = some [.byte 0x66, .byte 0x83, .byte 0xC1, .byte 0xFB] ∧
    encBinop ⟨true, SIZE_32, false, 0, .imm ⟨none, 1000, 0⟩, 0, ⟨none, none, 0, ⟨none, 0, 0⟩, false⟩⟩
      (BinNode.code .Xor) =
        some [.byte 0x35, .byte 0xE8, .byte 0x03, .byte 0, .byte 0] := by
  decide

/-- **C108 (operations on memory).**  `AddMem` etc.: the address is the first operand. -/
theorem enc_binop_mem_partial (n : Node) (o : BinNode) (s : Size)
    (hs : n.size = sizeNum s) (ha : AddrOk n.addr) :
    (∀ i, n.right = .imm i → (s = .d ∨ i.entity = none) →
      Encodes (encBinopMem n o.code)
        (.alu (BinNode.alu o) s (.mem (textMem n.addr)) (textImm i s))) ∧
    (∀ r x, n.right = .reg r → named s false r = some x →
      Encodes (encBinopMem n o.code)
        (.alu (BinNode.alu o) s (.mem (textMem n.addr)) (.reg x))) := by
  have hmem : ∀ reg l, modrm false (encModAm reg n.addr ++ l) =
      some (reg, .mem (textMem n.addr), l) := fun reg l => enc_mod_am_roundtrip reg n.addr ha l
  constructor
  · intro i hi hent
    obtain ⟨im, him, htake⟩ := takeImm_encImm i s hent
    have hv : textImm i s = .imm (i.valS s) := rfl
    rw [hv]
    unfold encBinopMem
    rw [hi, hs]
    simp only []
    by_cases hshort : s ≠ .b ∧ is8bitImm i = true
    · obtain ⟨hsb, h8⟩ := hshort
      have hop : (if sizeNum s = SIZE_8 then OP_8 else OP_16_32) = OP_16_32 := by
        cases s with
        | b => exact absurd rfl hsb
        | w => rfl
        | d => rfl
      have hne : (OP_16_32 != OP_8) = true := by decide
      simp only [hop, hne, h8, Bool.and_self, if_true, encImm, Option.map_some]
      refine ⟨_, rfl, fun rest => ?_⟩
      simp only [List.append_assoc, List.cons_append, List.nil_append]
      rw [decode_pre (by decide) s]
      have hf : form (0x80 ||| OP_16_32_IMM8) = some .grp1s := by decide
      have hsz : (pre s).size true = s := by
        cases s with
        | b => exact absurd rfl hsb
        | w => rfl
        | d => rfl
      simp only [body, hf, hsz, Option.bind_eq_bind, Option.bind_some, pre_gs, hmem,
        takeImm8s_byte h8, aluOf_code, Rm.opd]
    · have hop : ((if sizeNum s = SIZE_8 then OP_8 else OP_16_32) != OP_8 && is8bitImm i) = false := by
        cases s with
        | b => rfl
        | w =>
          cases h8 : is8bitImm i with
          | false => rfl
          | true => exact absurd ⟨by decide, h8⟩ hshort
        | d =>
          cases h8 : is8bitImm i with
          | false => rfl
          | true => exact absurd ⟨by decide, h8⟩ hshort
      simp only [hop, Bool.false_eq_true, if_false, him, Option.map_some]
      refine ⟨_, rfl, fun rest => ?_⟩
      simp only [List.append_assoc, List.cons_append]
      have hpl : plain (0x80 ||| (if sizeNum s = SIZE_8 then OP_8 else OP_16_32)) = true := by
        cases s <;> decide
      have hf : form (0x80 ||| (if sizeNum s = SIZE_8 then OP_8 else OP_16_32)) =
          some (.grp1 (s != .b)) := by
        cases s <;> decide
      rw [decode_pre hpl s]
      simp only [body, hf, size_pre, Option.bind_eq_bind, Option.bind_some, pre_gs, hmem, htake,
        aluOf_code, Rm.opd]
  · intro r x hr hx
    unfold encBinopMem
    rw [hr, hs]
    refine ⟨_, rfl, fun rest => ?_⟩
    simp only [List.append_assoc, List.cons_append]
    have hfr := form_mr o.code
    have hf : form (o.code.setWidth 8 <<< 3 |||
        (if sizeNum s = SIZE_8 then OP_8 else OP_16_32)) = some (.aluMR o.code (s != .b)) := by
      cases s with
      | b => exact hfr.1.1
      | w => exact hfr.2.1
      | d => exact hfr.2.1
    have hpl : plain (o.code.setWidth 8 <<< 3 |||
        (if sizeNum s = SIZE_8 then OP_8 else OP_16_32)) = true := by
      cases s with
      | b => exact hfr.1.2
      | w => exact hfr.2.2
      | d => exact hfr.2.2
    rw [decode_pre hpl s]
    simp only [body, hf, size_pre, Option.bind_eq_bind, Option.bind_some, pre_gs, hmem,
      aluOf_code, Rm.opd, named_regOf hx]

/-- `subl %ebx, -300(%esp)` -/
example :
    encBinopMem ⟨false, SIZE_32, false, 0, .reg 3, 0, ⟨some 4, none, 0, ⟨none, -300, 0⟩, false⟩⟩
      (BinNode.code .Sub) =
        some [.byte 0x29, .byte 0x9C, .byte 0x24, .byte 0xD4, .byte 0xFE, .byte 0xFF, .byte 0xFF] := by
  decide

/-! ## Shifts -/

def ShiftNode.op : ShiftNode → Shift
  | .Shl => .shl | .Shr => .shr | .Sar => .sar | .Ror => .ror | .Rol => .rol

theorem shiftOf_ext (o : ShiftNode) : shiftOf o.ext = some (ShiftNode.op o) := by cases o <;> rfl

/-- `%S1` of a shift: the low byte of the immediate, or cl. -/
def textCount : Arg → Count
  | .imm i => .imm (i.offset.setWidth 8)
  | .reg _ => .cl

/-- **C108 (shifts).**  The operand size is 32 whatever the node says: see `enc_size_ignored`. -/
theorem enc_shiftop_partial (n : Node) (o : ShiftNode) :
    EncodesTo (encShiftop n o.ext)
      (.shift (ShiftNode.op o) .d (.reg (.r32 n.out)) (textCount n.right)) := by
  intro rest
  unfold encShiftop
  cases hr : n.right with
  | reg r =>
    simp only [List.cons_append]
    rw [decode_plain (by decide)]
    simp only [body, show form 0xD3 = some (.shiftC true) from by decide, Option.bind_eq_bind,
      Option.bind_some, modrm_ru, shiftOf_ext]
    rfl
  | imm i =>
    simp only []
    by_cases h1 : i.offset = 1
    · rw [if_pos h1]
      simp only [List.cons_append]
      rw [decode_plain (by decide)]
      simp only [body, show form 0xD1 = some (.shift1 true) from by decide, Option.bind_eq_bind,
        Option.bind_some, modrm_ru, shiftOf_ext, textCount, h1]
      rfl
    · rw [if_neg h1]
      simp only [List.cons_append, List.append_assoc, List.nil_append]
      rw [decode_plain (by decide)]
      simp only [body, show form 0xC1 = some (.shiftI true) from by decide, Option.bind_eq_bind,
        Option.bind_some, modrm_ru, shiftOf_ext, textCount, byte, take8]
      rfl

/-- **C108 (shifts of memory).**  Correct for a count in cl only: see `enc_shiftop_mem_wrong`. -/
theorem enc_shiftop_mem_partial (n : Node) (o : ShiftNode) (s : Size) (hs : n.size = sizeNum s)
    (ha : AddrOk n.addr) (r : BitVec 3) (hr : n.right = .reg r) :
    EncodesTo (encShiftopMem n o.ext)
      (.shift (ShiftNode.op o) s (.mem (textMem n.addr)) (textCount n.right)) := by
  intro rest
  have hmem := fun reg l => enc_mod_am_roundtrip reg n.addr ha l
  unfold encShiftopMem encShiftopMemAt
  rw [hs, hr]
  simp only [List.append_assoc, List.cons_append]
  have hpl : plain (if sizeNum s = SIZE_8 then 0xD2 else 0xD3) = true := by cases s <;> decide
  have hf : form (if sizeNum s = SIZE_8 then 0xD2 else 0xD3) = some (.shiftC (s != .b)) := by
    cases s <;> decide
  rw [decode_pre hpl s]
  simp only [body, hf, size_pre, Option.bind_eq_bind, Option.bind_some, pre_gs, hmem,
    shiftOf_ext, Rm.opd, textCount]

/-- **C108 (shifts of two registers).** -/
theorem enc_shd_correct (left : Bool) (n : Node) :
    EncodesTo (encShd left n)
      (.shiftd left .d (.reg (.r32 n.out)) (.r32 n.left) (textCount n.right)) := by
  intro rest
  unfold encShd
  cases hr : n.right with
  | reg r =>
    simp only [List.cons_append]
    rw [decode_plain (by decide)]
    simp only [body, show form 0x0F = some .escape from by decide, Option.bind_eq_bind,
      Option.bind_some, take8, byte, body2]
    have hf : form2 (if left = true then 0xA5 else 0xAD) = some (.shiftdC left) := by
      cases left <;> decide
    simp only [hf, Option.bind_some, modrm_rr]
    rfl
  | imm i =>
    simp only [List.cons_append, List.append_assoc, List.nil_append]
    rw [decode_plain (by decide)]
    simp only [body, show form 0x0F = some .escape from by decide, Option.bind_eq_bind,
      Option.bind_some, take8, byte, body2]
    have hf : form2 (if left = true then 0xA4 else 0xAC) = some (.shiftdI left) := by
      cases left <;> decide
    simp only [hf, Option.bind_some, modrm_rr, take8]
    rfl

/-! ## Unary operations -/

def UnNode.op : UnNode → Un
  | .Mul => .mul | .IMul1OP => .imul | .IDiv => .idiv | .Div => .div | .Neg => .neg | .Not => .not

/-- **C108 (unary operations).**  The operand size is 32 whatever the node says: see
`enc_size_ignored`. -/
theorem enc_unop_partial (n : Node) (o : UnNode) (inp : BitVec 3) (ha : AddrOk n.addr) :
    EncodesTo (encUnop n 0xF7 o.ext inp) (.un (UnNode.op o) .d (textRm n (.r32 inp))) := by
  intro rest
  unfold encUnop
  simp only [List.cons_append]
  rw [decode_plain (by decide)]
  simp only [body, show form 0xF7 = some (.grp3 true) from by decide, Option.bind_eq_bind,
    Option.bind_some, modrm_unop n o.ext inp ha.1]
  have hrm : (n.rm inp).opd .d = textRm n (.r32 inp) := rm_opd ha fun _ => rfl
  have hsz : Prefix.size {} true = .d := rfl
  rw [hsz, hrm]
  cases o <;> rfl

def UnMemNode.op : UnMemNode → Un
  | .NegMem => .neg | .IncMem => .inc | .DecMem => .dec | .NotMem => .not

/-- **C108 (unary operations on memory).** -/
theorem enc_unop_mem_correct (n : Node) (o : UnMemNode) (s : Size) (hs : n.size = sizeNum s)
    (ha : AddrOk n.addr) :
    EncodesTo (encUnopMem n o.code.1 o.code.2)
      (.un (UnMemNode.op o) s (.mem (textMem n.addr))) := by
  intro rest
  have hmem := fun reg l => enc_mod_am_roundtrip reg n.addr ha l
  unfold encUnopMem
  rw [hs]
  simp only [List.append_assoc, List.cons_append]
  have hpl : plain (if sizeNum s = SIZE_8 then o.code.1 else o.code.1 ||| OP_16_32) = true := by
    cases s <;> cases o <;> decide
  rw [decode_pre hpl s]
  cases o <;> cases s <;>
    simp only [UnMemNode.code, sizeNum, body, Option.bind_eq_bind, Option.bind_some, pre_gs, hmem,
      Rm.opd, if_true, Nat.reduceEqDiff, if_false,
      show form 0xF6 = some (.grp3 false) from by decide,
      show form (0xF6 ||| OP_16_32) = some (.grp3 true) from by decide,
      show form 0xFE = some .grp4 from by decide,
      show form (0xFE ||| OP_16_32) = some .grp5 from by decide] <;> rfl

/-- `notw 8(%eax,%ebx,4)` -/
example :
    encUnopMem ⟨false, SIZE_16, false, 0, .reg 0, 0, ⟨some 0, some 3, 2, ⟨none, 8, 0⟩, false⟩⟩
      (UnMemNode.code .NotMem).1 (UnMemNode.code .NotMem).2 =
        [.byte 0x66, .byte 0xF7, .byte 0x54, .byte 0x98, .byte 0x08] := by
  decide

def ExtNode.insn (o : ExtNode) (dst : Reg) (src : Opd) : Insn :=
  match o with
  | .IMul => .imul2 .d dst src
  | .Bsf => .bsf .d dst src
  | .Bsr => .bsr .d dst src

/-- **C108 (opcodes with escape).**  `imul`, `bsf`, `bsr` of 32 bits. -/
theorem enc_0f_unop_reg_correct (n : Node) (o : ExtNode) (ha : AddrOk n.addr) :
    EncodesTo (enc0fUnopReg n o.code)
      (ExtNode.insn o (.r32 n.out) (textRm n (.r32 n.left))) := by
  intro rest
  unfold enc0fUnopReg encUnopReg encUnop
  simp only [List.cons_append]
  rw [decode_plain (by decide)]
  simp only [body, show form 0x0F = some .escape from by decide, Option.bind_eq_bind,
    Option.bind_some, take8, byte, body2]
  have hrm : (n.rm n.left).opd .d = textRm n (.r32 n.left) := rm_opd ha fun _ => rfl
  have hsz : Prefix.size {} true = .d := rfl
  cases o <;>
  simp only [ExtNode.code, show form2 0xAF = some .imul from by decide,
    show form2 0xBC = some .bsf from by decide, show form2 0xBD = some .bsr from by decide,
    Option.bind_some, modrm_unop n n.out n.left ha.1, hsz, hrm] <;> rfl

/-- **C108 (extension).**  `Conv_I2I` from 8 or 16 bits. -/
theorem enc_conv_i2i_correct (n : Node) (sign : Bool) (s : Size) (x : Reg) (hd : s ≠ .d)
    (hs : n.size = sizeNum s) (ha : AddrOk n.addr)
    (hx : n.normal = true → named s false n.left = some x) :
    EncodesTo (encConvI2I n sign) (.movx sign s (.r32 n.out) (textRm n x)) := by
  intro rest
  unfold encConvI2I enc0fUnopReg encUnopReg encUnop
  simp only [List.cons_append]
  rw [decode_plain (by decide)]
  simp only [body, show form 0x0F = some .escape from by decide, Option.bind_eq_bind,
    Option.bind_some, take8, byte, body2]
  have hrm : (n.rm n.left).opd s = textRm n x := rm_opd ha hx
  have hf : form2 (0xB6 ||| (if sign = true then 0x08 else 0) |||
      (if n.size = SIZE_16 then 0x01 else 0)) = some (.movx sign (s == .w)) := by
    rw [hs]
    cases s with
    | b => cases sign <;> decide
    | w => cases sign <;> decide
    | d => exact absurd rfl hd
  simp only [hf, Option.bind_some, modrm_unop n n.out n.left ha.1]
  have hsz : (if (s == .w) = true then Size.w else Size.b) = s := by
    cases s with
    | b => rfl
    | w => rfl
    | d => exact absurd rfl hd
  rw [hsz, hrm]
  rfl

/-- `movsbl %cl, %esi` -/
example :
    encConvI2I ⟨true, SIZE_8, false, 1, .reg 0, 6, ⟨none, none, 0, ⟨none, 0, 0⟩, false⟩⟩ true =
      [.byte 0x0F, .byte 0xBE, .byte 0xF1] ∧ named .b false 1 = some (.low 1) := by
  decide

/-- **C108 (population count).** -/
theorem enc_popcnt_correct (n : Node) (ha : AddrOk n.addr) :
    EncodesTo (encPopcnt n) (.popcnt .d (.r32 n.out) (textRm n (.r32 n.left))) := by
  intro rest
  unfold encPopcnt enc0fUnopReg encUnopReg encUnop
  simp only [List.cons_append, decode, byte]
  rw [decodeP, if_neg (by decide), if_neg (by decide), if_pos rfl, decodeP, if_neg (by decide),
    if_neg (by decide), if_neg (by decide)]
  simp only [body, show form 0x0F = some .escape from by decide, Option.bind_eq_bind,
    Option.bind_some, take8, byte, body2, show form2 0xB8 = some .popcnt from by decide,
    modrm_unop n n.out n.left ha.1]
  have hrm : (n.rm n.left).opd .d = textRm n (.r32 n.left) := rm_opd ha fun _ => rfl
  have hsz : Prefix.size { rep := true } true = .d := rfl
  rw [hsz, hrm]
  rfl

/-! ## Moves -/

/-- **C108 (copies, exchanges, constants).**  A copy of a register to itself needs no code. -/
theorem enc_moves_correct (src dst : BitVec 3) (i : Imm) :
    EncodesTo (encMov src dst) (.mov .d (.reg (.r32 dst)) (.reg (.r32 src))) ∧
    (src = dst ∧ encCopy src dst = [] ∨
      EncodesTo (encCopy src dst) (.mov .d (.reg (.r32 dst)) (.reg (.r32 src)))) ∧
    (src ≠ dst →
      EncodesTo (encXchg src dst) (.xchg .d (.reg (.r32 src)) (.reg (.r32 dst))) ∨
      EncodesTo (encXchg src dst) (.xchg .d (.reg (.r32 dst)) (.reg (.r32 src)))) ∧
    EncodesTo (encXor0 dst) (.alu .xor .d (.reg (.r32 dst)) (.reg (.r32 dst))) ∧
    EncodesTo (encSbb0 dst) (.alu .sbb .d (.reg (.r32 dst)) (.reg (.r32 dst))) ∧
    EncodesTo (encMovConst dst i) (.mov .d (.reg (.r32 dst)) (textImm i .d)) := by
  have hmov : EncodesTo (encMov src dst) (.mov .d (.reg (.r32 dst)) (.reg (.r32 src))) := by
    intro rest
    simp only [encMov, List.cons_append]
    rw [decode_plain (by decide)]
    simp only [body, show form (0x88 ||| OP_MEM_SRC ||| OP_16_32) = some (.movRM true) from by decide,
      Option.bind_eq_bind, Option.bind_some, modrm_rr]
    rfl
  refine ⟨hmov, ?_, fun hne => ?_, ?_, ?_, ?_⟩
  · unfold encCopy
    by_cases h : src = dst
    · exact .inl ⟨h, if_pos h⟩
    · rw [if_neg h]
      exact .inr hmov
  · unfold encXchg
    by_cases h0 : src = 0
    · rw [if_pos h0]
      left
      subst h0
      intro rest
      obtain ⟨hf, hp, he⟩ := (form_low dst).2.2.2.2.2 fun h => hne h.symm
      simp only [List.cons_append, List.nil_append]
      rw [decode_plain hp]
      simp only [body, hf, Option.bind_eq_bind, Option.bind_some, he]
      rfl
    · rw [if_neg h0]
      by_cases h1 : dst = 0
      · rw [if_pos h1]
        right
        subst h1
        intro rest
        obtain ⟨hf, hp, he⟩ := (form_low src).2.2.2.2.2 h0
        simp only [List.cons_append, List.nil_append]
        rw [decode_plain hp]
        simp only [body, hf, Option.bind_eq_bind, Option.bind_some, he]
        rfl
      · rw [if_neg h1]
        left
        intro rest
        simp only [List.cons_append]
        rw [decode_plain (by decide)]
        simp only [body, show form (0x86 ||| OP_16_32) = some (.xchgMR true) from by decide,
          Option.bind_eq_bind, Option.bind_some, modrm_rr]
        rfl
  · intro rest
    simp only [encXor0, List.cons_append]
    rw [decode_plain (by decide)]
    simp only [body, show form 0x31 = some (.aluMR 6 true) from by decide,
      Option.bind_eq_bind, Option.bind_some, modrm_rr]
    rfl
  · intro rest
    simp only [encSbb0, List.cons_append]
    rw [decode_plain (by decide)]
    simp only [body, show form 0x1B = some (.aluRM 3 true) from by decide,
      Option.bind_eq_bind, Option.bind_some, modrm_rr]
    rfl
  · intro rest
    obtain ⟨hf, hp, he⟩ := (form_low dst).2.2.2.2.1
    simp only [encMovConst, List.cons_append]
    rw [decode_plain hp]
    have hsz : Prefix.size {} true = .d := rfl
    simp only [body, hf, Option.bind_eq_bind, Option.bind_some, he, hsz, takeImm, take32_reloc]
    rfl

def SimpleNode.op : SimpleNode → Simple
  | .Cmc => .cmc | .Stc => .stc | .Cltd => .cdq | .Leave => .leave | .Breakpoint => .int3
  | .Cwtl => .cwde | .Sahf => .sahf

/-- **C108 (instructions of one byte, registers in the opcode).** -/
theorem enc_short_correct (r : BitVec 3) (o : SimpleNode) :
    EncodesTo (encSimple o.opcode) (.simple (SimpleNode.op o)) ∧
    EncodesTo (encInc r) (.un .inc .d (.reg (.r32 r))) ∧
    EncodesTo (encDec r) (.un .dec .d (.reg (.r32 r))) ∧
    EncodesTo (encPop r) (.pop .d (.reg (.r32 r))) ∧
    EncodesTo (encBswap r) (.bswap (.r32 r)) ∧
    EncodesTo (encLdtls r) (.mov .d (.reg (.r32 r)) (.mem ⟨true, none, none, .num 0⟩)) := by
  refine ⟨fun rest => ?_, fun rest => ?_, fun rest => ?_, fun rest => ?_, fun rest => ?_,
    fun rest => ?_⟩
  · cases o <;> rfl
  · obtain ⟨hf, hp, he⟩ := (form_low r).1
    simp only [encInc, List.cons_append, List.nil_append]
    rw [decode_plain hp]
    simp only [body, hf, Option.bind_eq_bind, Option.bind_some, he]
    rfl
  · obtain ⟨hf, hp, he⟩ := (form_low r).2.1
    simp only [encDec, List.cons_append, List.nil_append]
    rw [decode_plain hp]
    simp only [body, hf, Option.bind_eq_bind, Option.bind_some, he]
    rfl
  · obtain ⟨hf, hp, he⟩ := (form_low r).2.2.2.1
    simp only [encPop, List.cons_append, List.nil_append]
    rw [decode_plain hp]
    simp only [body, hf, Option.bind_eq_bind, Option.bind_some, he]
    rfl
  · have h : ∀ r : BitVec 3, form2 (MOD_REG ||| encRm r false ||| encReg 1 false) = some .bswap ∧
        (MOD_REG ||| encRm r false ||| encReg 1 false).extractLsb' 0 3 = r := by decide +kernel
    obtain ⟨hf, he⟩ := h r
    simp only [encBswap, encModru, List.cons_append, List.nil_append]
    rw [decode_plain (by decide)]
    simp only [body, show form 0x0F = some .escape from by decide, Option.bind_eq_bind,
      Option.bind_some, take8, byte, body2, hf, he]
    rfl
  · have hd : ∀ l, decode (.byte 0x65 :: l) = decodeP { gs := true } l := by
      intro l
      rw [decode, decodeP, if_neg (by decide), if_pos rfl]
    unfold encLdtls
    simp only [byte, List.cons_append]
    rw [hd]
    by_cases h0 : r = 0
    · subst h0
      rfl
    · rw [if_neg h0]
      simp only [List.cons_append, List.nil_append]
      rw [decodeP, if_neg (by decide), if_neg (by decide), if_neg (by decide)]
      have hfl : ∀ r : BitVec 3, fields (MOD_IND ||| encReg r false ||| encRm 5 false) = (0, r, 5) := by
        decide +kernel
      simp only [body, show form (0x88 ||| OP_MEM_SRC ||| OP_16_32) = some (.movRM true) from by decide,
        Option.bind_eq_bind, Option.bind_some, modrm, take8, hfl]
      rw [if_neg (by decide), if_neg (by decide), if_pos (by simp), take32_emit32]
      rfl

/-- **C108 (loads, stores, addresses).** -/
theorem enc_load_store_partial (n : Node) (s : Size) (hs : n.size = sizeNum s)
    (ha : AddrOk n.addr) :
    EncodesTo (encLoad n) (.mov .d (.reg (.r32 n.out)) (.mem (textMem n.addr))) ∧
    EncodesTo (encLea n) (.lea (.r32 n.out) (textMem n.addr)) ∧
    EncodesTo (encPopmem n) (.pop .d (.mem (textMem n.addr))) ∧
    (∀ i, n.right = .imm i → (s = .d ∨ i.entity = none) →
      Encodes (encStore n) (.mov s (.mem (textMem n.addr)) (textImm i s))) ∧
    (∀ r x, n.right = .reg r → named s false r = some x →
      Encodes (encStore n) (.mov s (.mem (textMem n.addr)) (.reg x))) := by
  have hmem := fun reg l => enc_mod_am_roundtrip reg n.addr ha l
  have hsz : Prefix.size {} true = .d := rfl
  have habs : n.addr.base = none → n.addr.index = none →
      textMem n.addr = ⟨false, none, none, n.addr.imm.val⟩ := by
    intro h1 h2
    simp only [textMem, h1, h2, ha.2]
    rfl
  refine ⟨fun rest => ?_, fun rest => ?_, fun rest => ?_, ?_, ?_⟩
  · unfold encLoad
    by_cases h : n.out = 0 ∧ n.addr.base = none ∧ n.addr.index = none
    · rw [if_pos h]
      simp only [List.cons_append]
      rw [decode_plain (by decide)]
      simp only [body, show form 0xA1 = some .movAO from by decide, Option.bind_eq_bind,
        Option.bind_some, take32_reloc, hsz, habs h.2.1 h.2.2, h.1]
      rfl
    · rw [if_neg h]
      simp only [List.cons_append]
      rw [decode_plain (by decide)]
      simp only [body, show form (0x88 ||| OP_MEM_SRC ||| OP_16_32) = some (.movRM true) from by decide,
        Option.bind_eq_bind, Option.bind_some, hmem, Rm.opd]
      rfl
  · simp only [encLea, List.cons_append]
    rw [decode_plain (by decide)]
    simp only [body, show form 0x8D = some .lea from by decide, Option.bind_eq_bind,
      Option.bind_some, hmem]
    rfl
  · simp only [encPopmem, List.cons_append]
    rw [decode_plain (by decide)]
    simp only [body, show form 0x8F = some .popM from by decide, Option.bind_eq_bind,
      Option.bind_some, hmem, if_true]
    rfl
  · intro i hi hent
    obtain ⟨im, him, htake⟩ := takeImm_encImm i s hent
    have hv : textImm i s = .imm (i.valS s) := rfl
    rw [hv]
    unfold encStore
    rw [hi, hs]
    simp only [him, Option.map_some]
    refine ⟨_, rfl, fun rest => ?_⟩
    simp only [List.append_assoc, List.cons_append]
    have hpl : plain (0xC6 ||| (if sizeNum s ≠ SIZE_8 then OP_16_32 else 0)) = true := by
      cases s <;> decide
    have hf : form (0xC6 ||| (if sizeNum s ≠ SIZE_8 then OP_16_32 else 0)) =
        some (.movMI (s != .b)) := by cases s <;> decide
    rw [decode_pre hpl s]
    simp only [body, hf, size_pre, Option.bind_eq_bind, Option.bind_some, pre_gs, hmem, htake,
      Rm.opd, if_true]
  · intro r x hr hx
    unfold encStore
    rw [hr, hs]
    simp only []
    by_cases h : r = 0 ∧ n.addr.base = none ∧ n.addr.index = none
    · rw [if_pos h]
      refine ⟨_, rfl, fun rest => ?_⟩
      have hx' := named_regOf hx
      rw [h.1] at hx'
      rw [habs h.2.1 h.2.2, ← hx']
      cases s with
      | b =>
        simp only [sizeNum, if_true, List.cons_append]
        rw [decode_plain (by decide)]
        simp only [body, show form 0xA2 = some (.movOA false) from by decide,
          Option.bind_eq_bind, Option.bind_some, take32_reloc]
        rfl
      | w =>
        rw [if_neg (by decide)]
        simp only [List.append_assoc, List.cons_append]
        rw [decode_pre (by decide) .w]
        simp only [body, show form 0xA3 = some (.movOA true) from by decide,
          Option.bind_eq_bind, Option.bind_some, take32_reloc]
        rfl
      | d =>
        rw [if_neg (by decide)]
        simp only [List.append_assoc, List.cons_append]
        rw [decode_pre (by decide) .d]
        simp only [body, show form 0xA3 = some (.movOA true) from by decide,
          Option.bind_eq_bind, Option.bind_some, take32_reloc]
        rfl
    · rw [if_neg h]
      refine ⟨_, rfl, fun rest => ?_⟩
      simp only [List.append_assoc, List.cons_append]
      have hpl : plain (0x88 ||| (if sizeNum s ≠ SIZE_8 then OP_16_32 else 0)) = true := by
        cases s <;> decide
      have hf : form (0x88 ||| (if sizeNum s ≠ SIZE_8 then OP_16_32 else 0)) =
          some (.movMR (s != .b)) := by cases s <;> decide
      rw [decode_pre hpl s]
      simp only [body, hf, size_pre, Option.bind_eq_bind, Option.bind_some, pre_gs, hmem, Rm.opd,
        named_regOf hx]

/-- `movb %al, sym+4`, `movw $258, (%ebp)` -/
example :
    encStore ⟨false, SIZE_8, false, 0, .reg 0, 0, ⟨none, none, 0, ⟨some 9, 4, 0⟩, false⟩⟩ =
      some [.byte 0xA2, .reloc 0 9 4] ∧
    encStore ⟨false, SIZE_16, false, 0, .imm ⟨none, 258, 0⟩, 0,
        ⟨some 5, none, 0, ⟨none, 0, 0⟩, false⟩⟩ =
      some [.byte 0x66, .byte 0xC7, .byte 0x45, .byte 0, .byte 2, .byte 1] := by
  decide

/-! ## Tests, pushes, calls, the stack pointer -/

/-- **C108 (test of a bit).**  The number of the bit is the immediate or the register. -/
theorem enc_bt_correct (n : Node) :
    EncodesTo (encBt n) (.bt .d (.reg (.r32 n.left))
      (match n.right with
       | .imm i => .imm (.num ((i.offset.setWidth 8).setWidth 32))
       | .reg r => .reg (.r32 r))) := by
  intro rest
  unfold encBt
  cases hr : n.right with
  | reg r =>
    simp only [List.cons_append]
    rw [decode_plain (by decide)]
    simp only [body, show form 0x0F = some .escape from by decide, Option.bind_eq_bind,
      Option.bind_some, take8, byte, body2, show form2 0xA3 = some .btMR from by decide, modrm_rr]
    rfl
  | imm i =>
    simp only [List.cons_append, List.append_assoc, List.nil_append]
    rw [decode_plain (by decide)]
    simp only [body, show form 0x0F = some .escape from by decide, Option.bind_eq_bind,
      Option.bind_some, take8, byte, body2, show form2 0xBA = some .grp8 from by decide, modrm_ru,
      if_true]
    rfl

/-- **C108 (test).**  Correct for two registers, and for an immediate with a byte or with eax; see
`enc_test_wrong`. -/
theorem enc_test_partial (n : Node) (s : Size) (l : Reg)
    (hs : n.size = sizeNum s) (ha : AddrOk n.addr) (hl : named s false n.left = some l) :
    (∀ i, n.right = .imm i → (s = .d ∨ i.entity = none) →
      (s = .b ∨ (n.normal = true ∧ n.left = 0)) →
      Encodes (encTest n) (.test s (textRm n l) (textImm i s))) ∧
    (∀ r x, n.right = .reg r → (n.normal = true → named s false r = some x) →
      Encodes (encTest n) (.test s (textRm n x) (.reg l))) := by
  constructor
  · intro i hi hent hok
    obtain ⟨im, him, htake⟩ := takeImm_encImm i s hent
    have hv : textImm i s = .imm (i.valS s) := rfl
    rw [hv]
    unfold encTest
    rw [hi, hs]
    simp only [him, Option.map_some]
    refine ⟨_, rfl, fun rest => ?_⟩
    by_cases hacc : useEaxShortForm n = true
    · rw [if_pos hacc]
      simp only [useEaxShortForm, Bool.and_eq_true, beq_iff_eq] at hacc
      have hrm : textRm n l = .reg (regOf s 0) := by
        rw [textRm, if_pos hacc.1, ← named_regOf hl, hacc.2]
      rw [hrm]
      simp only [List.append_assoc, List.cons_append, List.nil_append]
      have hpl : plain (0xA8 ||| (if sizeNum s = SIZE_8 then OP_8 else OP_16_32)) = true := by
        cases s <;> decide
      have hf : form (0xA8 ||| (if sizeNum s = SIZE_8 then OP_8 else OP_16_32)) =
          some (.testAI (s != .b)) := by cases s <;> decide
      rw [decode_pre hpl s]
      simp only [body, hf, size_pre, Option.bind_eq_bind, Option.bind_some, htake]
    · rw [if_neg hacc]
      have hsb : s = .b := by
        rcases hok with h | h
        · exact h
        · exact absurd (by simp [useEaxShortForm, h.1, h.2]) hacc
      subst hsb
      simp only [encUnop, List.append_assoc, List.cons_append]
      rw [decode_pre (by decide) .b]
      simp only [body, show form 0xF6 = some (.grp3 false) from by decide, Option.bind_eq_bind,
        Option.bind_some, pre_gs, modrm_unop n 0 n.left ha.1, if_true]
      rw [show (pre Size.b).size false = .b from rfl, htake, rm_opd ha fun _ => hl]
      rfl
  · intro r x hr hx
    unfold encTest
    rw [hr, hs]
    refine ⟨_, rfl, fun rest => ?_⟩
    simp only [encBinopReg, List.append_assoc, List.cons_append]
    have hpl : plain (0x84 ||| (if sizeNum s = SIZE_8 then OP_8 else OP_16_32)) = true := by
      cases s <;> decide
    have hf : form (0x84 ||| (if sizeNum s = SIZE_8 then OP_8 else OP_16_32)) =
        some (.testMR (s != .b)) := by cases s <;> decide
    rw [decode_pre hpl s]
    simp only [body, hf, size_pre, Option.bind_eq_bind, Option.bind_some, pre_gs,
      modrm_binop n r ha.1, rm_opd ha hx, named_regOf hl]

/-- **C108 (push).**  A register or memory; an immediate panics: see `enc_imm_panics`. -/
theorem enc_push_partial (n : Node) (ha : AddrOk n.addr) (r : BitVec 3) :
    Encodes (encPush n none) (.push .d (.mem (textMem n.addr))) ∧
    Encodes (encPush n (some (.reg r))) (.push .d (.reg (.r32 r))) := by
  constructor
  · refine ⟨_, rfl, fun rest => ?_⟩
    simp only [List.cons_append]
    rw [decode_plain (by decide)]
    simp only [body, show form 0xFF = some .grp5 from by decide, Option.bind_eq_bind,
      Option.bind_some, enc_mod_am_roundtrip 6 n.addr ha]
    rfl
  · refine ⟨_, rfl, fun rest => ?_⟩
    obtain ⟨hf, hp, he⟩ := (form_low r).2.2.1
    simp only [List.cons_append, List.nil_append]
    rw [decode_plain hp]
    simp only [body, hf, Option.bind_eq_bind, Option.bind_some, he]
    rfl

/-- **C108 (calls).**  The target of a call is relative to the end of the instruction, the
relocation relative to its own place: four bytes less. -/
theorem enc_call_correct (n : Node) (ha : AddrOk n.addr) :
    (∀ r, n.right = .reg r → EncodesTo (encCall n) (.callInd (textRm n (.r32 r)))) ∧
    (∀ e off kind, n.right = .imm ⟨some e, off, kind⟩ →
      EncodesTo (encCall n) (.call (.sym kind e (off - 4)))) := by
  constructor
  · intro r hr rest
    simp only [encCall, hr, encUnop, List.cons_append]
    rw [decode_plain (by decide)]
    have hsz : Prefix.size {} true = .d := rfl
    have hrm : (n.rm r).opd .d = textRm n (.r32 r) := rm_opd ha fun _ => rfl
    simp only [body, show form 0xFF = some .grp5 from by decide, Option.bind_eq_bind,
      Option.bind_some, modrm_unop n 2 r ha.1, hsz, hrm]
    rfl
  · intro e off kind hr rest
    simp only [encCall, hr, List.cons_append]
    rw [decode_plain (by decide)]
    simp only [body, show form 0xE8 = some .call from by decide, Option.bind_eq_bind,
      Option.bind_some, take32_reloc]
    rfl

/-- **C108 (return).**  The number of bytes to pop must fit sixteen bits. -/
theorem enc_return_correct (emitPop : Bool) (pop : BitVec 32) (h : pop.toNat < 2 ^ 16) :
    (emitPop = false ∧ pop = 0 → EncodesTo (encReturn emitPop pop) .ret) ∧
    (emitPop = true ∨ pop ≠ 0 → ∃ v : BitVec 16, v.toNat = pop.toNat ∧
      EncodesTo (encReturn emitPop pop) (.retPop v)) := by
  constructor
  · rintro ⟨rfl, rfl⟩ rest
    rfl
  · intro hp
    refine ⟨pop.setWidth 16, by rw [BitVec.toNat_setWidth, Nat.mod_eq_of_lt h], fun rest => ?_⟩
    have hc : (emitPop || decide (0 < pop.toNat)) = true := by
      rcases hp with rfl | hp
      · rfl
      · have : pop.toNat ≠ 0 := fun h0 => hp (BitVec.eq_of_toNat_eq h0)
        simp only [Bool.or_eq_true, decide_eq_true_eq]
        omega
    simp only [encReturn, hc, if_true, List.cons_append]
    rw [decode_plain (by decide)]
    simp only [body, show form 0xC2 = some .retN from by decide, Option.bind_eq_bind,
      Option.bind_some, take16_emit16]

/-- **C108 (stack pointer).**  The register is lessened by the offset: subtraction of the offset, or
addition of its negative; nothing is emitted for zero. -/
theorem enc_incsp_correct (reg : BitVec 3) (offs : BitVec 32) (hm : offs ≠ BitVec.intMin 32) :
    (offs = 0 ∧ encIncsp reg offs = some []) ∨
    Encodes (encIncsp reg offs) (.alu .sub .d (.reg (.r32 reg)) (.imm (.num offs))) ∨
    Encodes (encIncsp reg offs) (.alu .add .d (.reg (.r32 reg)) (.imm (.num (-offs)))) := by
  unfold encIncsp
  by_cases h0 : offs = 0
  · exact .inl ⟨h0, if_pos h0⟩
  · right
    rw [if_neg h0, if_neg hm]
    have key : ∀ (ext : BitVec 3) (v : BitVec 32) (rest : List Item),
        decode ((byte (0x80 ||| OP_16_32 ||| (if is8bitVal v = true then OP_IMM8 else 0)) ::
          encModru reg ext ++ (if is8bitVal v = true then [byte (v.setWidth 8)] else emit32 v)) ++
          rest) = some (.alu (aluOf ext) .d (.reg (.r32 reg)) (.imm (.num v)), rest) := by
      intro ext v rest
      cases h8 : is8bitVal v with
      | true =>
        simp only [if_true, List.cons_append, List.append_assoc, List.nil_append]
        rw [decode_plain (by decide)]
        simp only [body, show form (0x80 ||| OP_16_32 ||| OP_IMM8) = some .grp1s from by decide,
          Option.bind_eq_bind, Option.bind_some, modrm_ru, takeImm8s, take8, byte, sext8 h8]
        rfl
      | false =>
        simp only [Bool.false_eq_true, if_false, List.cons_append, List.append_assoc]
        rw [decode_plain (by decide)]
        have hsz : Prefix.size {} true = .d := rfl
        simp only [body, show form (0x80 ||| OP_16_32 ||| 0) = some (.grp1 true) from by decide,
          Option.bind_eq_bind, Option.bind_some, modrm_ru, hsz, takeImm, take32_emit32]
        rfl
    by_cases hp : 0 < offs.toInt
    · left
      simp only [hp, if_true]
      exact ⟨_, rfl, key 5 offs⟩
    · right
      simp only [hp, if_false]
      exact ⟨_, rfl, key 0 (-offs)⟩

/-- offset -8 is an addition of 8, offset 128 does not fit a byte -/
example :
    encIncsp 4 (-8) = some [.byte 0x83, .byte 0xC4, .byte 8] ∧
    encIncsp 4 128 = some [.byte 0x81, .byte 0xEC, .byte 0x80, .byte 0, .byte 0, .byte 0] := by
  decide

/-! ## Copies of memory -/

theorem code_replicate_movs (k : Nat) :
    Code (List.replicate k (byte 0xA5)) (List.replicate k (.movs .d)) := by
  induction k with
  | zero => exact .nil
  | succ k ih => exact .cons (rest := List.replicate k (byte 0xA5)) rfl ih

theorem movedBytes_replicate (k : Nat) :
    movedBytes (List.replicate k (.movs .d)) = some (4 * k) := by
  induction k with
  | zero => rfl
  | succ k ih =>
    rw [List.replicate_succ, movedBytes, ih]
    simp only [Option.map_some, Option.some.injEq]
    omega

/-- **C108 (`CopyB_i`).**  The code consists of string moves that together copy exactly the number
of bytes of the node. -/
theorem enc_copybi_correct (size : Nat) :
    ∃ is, Code (encCopybi size) is ∧ movedBytes is = some size := by
  have h4 := code_replicate_movs (size / 4)
  have m4 := movedBytes_replicate (size / 4)
  unfold encCopybi
  rw [List.append_assoc]
  have h2 : ∃ is, Code ((if size / 2 % 2 = 1 then [byte 0x66, byte 0xA5] else []) ++
      List.replicate (size / 4) (byte 0xA5)) is ∧
      movedBytes is = some (size / 2 % 2 * 2 + 4 * (size / 4)) := by
    by_cases h : size / 2 % 2 = 1
    · rw [if_pos h]
      refine ⟨.movs .w :: List.replicate (size / 4) (.movs .d),
        .cons (rest := List.replicate (size / 4) (byte 0xA5)) rfl h4, ?_⟩
      rw [movedBytes, m4]
      simp only [Option.map_some, Option.some.injEq]
      omega
    · rw [if_neg h]
      refine ⟨_, h4, ?_⟩
      rw [m4]
      congr 1
      omega
  obtain ⟨is2, c2, m2⟩ := h2
  by_cases h : size % 2 = 1
  · rw [if_pos h]
    refine ⟨.movs .b :: is2, .cons (rest := _) rfl c2, ?_⟩
    rw [movedBytes, m2]
    simp only [Option.map_some, Option.some.injEq]
    omega
  · rw [if_neg h]
    refine ⟨_, c2, ?_⟩
    rw [m2]
    congr 1
    omega

example : encCopybi 11 = [.byte 0xA4, .byte 0x66, .byte 0xA5, .byte 0xA5, .byte 0xA5] := by
  decide

/-! ## Jumps and conditions -/

/-- **C108 (jumps).**  The displacement of a jump is relative to the end of the instruction, the
relocation to its own place. -/
theorem enc_jumps_correct (cc : BitVec 8) (frag : Nat) (odd : Bool) :
    EncodesTo (encJmp frag) (.jmp (.frag RELJUMP frag (-4))) ∧
    EncodesTo (encJcc cc frag) (.jcc (cc.setWidth 4) (.frag RELJUMP frag (-4))) ∧
    EncodesTo (encJp odd frag) (.jcc (if odd then 11 else 10) (.frag RELJUMP frag (-4))) := by
  refine ⟨fun rest => rfl, fun rest => ?_, fun rest => by cases odd <;> rfl⟩
  obtain ⟨hf, he⟩ := (form2_low cc).2.2
  simp only [encJcc, List.cons_append]
  rw [decode_plain (by decide)]
  simp only [body, show form 0x0F = some .escape from by decide, Option.bind_eq_bind,
    Option.bind_some, take8, byte, body2, hf, he]
  rfl

/-- **C108 (conditional moves).** -/
theorem enc_cmovcc_correct (n : Node) (cc : BitVec 8) (r : BitVec 3) (ha : AddrOk n.addr)
    (hp : cc &&& ccParity = 0) :
    Encodes (encCmovcc n cc r)
      (.cmov (cc.setWidth 4) .d (.r32 n.left) (textRm n (.r32 r))) := by
  unfold encCmovcc
  rw [if_neg (fun h => h hp)]
  refine ⟨_, rfl, fun rest => ?_⟩
  obtain ⟨hf, he⟩ := (form2_low cc).2.1
  have hrm : (n.rm r).opd .d = textRm n (.r32 r) := rm_opd ha fun _ => rfl
  have hsz : Prefix.size {} true = .d := rfl
  simp only [encBinopReg, List.cons_append]
  rw [decode_plain (by decide)]
  simp only [body, show form 0x0F = some .escape from by decide, Option.bind_eq_bind,
    Option.bind_some, take8, byte, body2, hf, he, modrm_binop n r ha.1, hsz, hrm]
  rfl

theorem code_append {l rest : List Item} {i : Insn} {is : List Insn} (h : EncodesTo l i)
    (hc : Code rest is) : Code (l ++ rest) (i :: is) := .cons (h rest) hc

theorem cc_negate : ∀ (cc : BitVec 8),
    (negateCc cc &&& 0x20 = cc &&& 0x20) ∧ ((negateCc cc).getLsbD 0 = !cc.getLsbD 0) := by
  decide +kernel

theorem ccHolds_negate : ∀ (cc : BitVec 8) (a b c d e : Bool),
    ccHolds ((negateCc cc).setWidth 4) ⟨a, b, c, d, e⟩ = !ccHolds (cc.setWidth 4) ⟨a, b, c, d, e⟩ := by
  have h : ∀ (cc : BitVec 4) (a b c d e : Bool),
      ccHolds (cc ^^^ 1) ⟨a, b, c, d, e⟩ = !ccHolds cc ⟨a, b, c, d, e⟩ := by decide +kernel
  have hw : ∀ cc : BitVec 8, (negateCc cc).setWidth 4 = cc.setWidth 4 ^^^ (1 : BitVec 4) := by
    decide +kernel
  intro cc a b c d e
  rw [hw, h]

theorem ccMeans_negate (cc : BitVec 8) (f : EFlags) : ccMeans (negateCc cc) f = !ccMeans cc f := by
  obtain ⟨h1, h2⟩ := cc_negate cc
  have h3 : ccHolds ((negateCc cc).setWidth 4) f = !ccHolds (cc.setWidth 4) f :=
    ccHolds_negate cc f.cf f.pf f.zf f.sf f.of
  unfold ccMeans
  rw [h1, h2, h3]
  by_cases h : cc &&& 0x20 = 0
  · rw [if_pos h, if_pos h]
  · rw [if_neg h, if_neg h]
    cases cc.getLsbD 0 <;> cases f.pf <;> cases ccHolds (cc.setWidth 4) f <;> rfl

theorem ccNegated_bit : ∀ cc : BitVec 8, (cc &&& ccNegated ≠ 0) ↔ cc.getLsbD 0 = true := by
  decide +kernel

theorem jumpRun_jcc {f : EFlags} {k n : Nat} {cc : BitVec 4} {l rest : List Item}
    (h : EncodesTo l (.jcc cc (.frag RELJUMP n (-4)))) :
    jumpRun f (k + 1) (l ++ rest) = if ccHolds cc f then some (some n) else jumpRun f k rest := by
  have h := h rest
  cases hl : l ++ rest with
  | nil => rw [hl] at h; cases h
  | cons x l' =>
    rw [hl] at h
    rw [jumpRun, h]
    rfl

theorem jumpRun_jmp {f : EFlags} {k n : Nat} {l rest : List Item}
    (h : EncodesTo l (.jmp (.frag RELJUMP n (-4)))) :
    jumpRun f (k + 1) (l ++ rest) = some (some n) := by
  have h := h rest
  cases hl : l ++ rest with
  | nil => rw [hl] at h; cases h
  | cons x l' =>
    rw [hl] at h
    rw [jumpRun, h]
    rfl

/-- The part of `enc_ia32_jcc` behind the exchanges. -/
theorem jcc_main (cc : BitVec 8) (t f : Nat) (ff : Bool) (fl : EFlags) :
    jumpRun fl 3 ((if cc &&& ccParity ≠ 0 then
        if cc &&& ccNegated ≠ 0 then encJp false t
        else if ff then [byte 0x7A, byte 0x06] else encJp false f
       else []) ++ (encJcc cc t ++ (if ff then [] else encJmp f))) =
      some (if ccMeans cc fl then some t else if ff then none else some f) := by
  obtain ⟨-, hj, -⟩ := enc_jumps_correct cc t false
  obtain ⟨hm, -, -⟩ := enc_jumps_correct cc f false
  obtain ⟨-, -, hpt⟩ := enc_jumps_correct cc t false
  obtain ⟨-, -, hpf⟩ := enc_jumps_correct cc f false
  have hp10 : ∀ fl : EFlags, ccHolds 10 fl = fl.pf := by
    intro ⟨a, b, c, d, e⟩
    revert a b c d e
    decide
  have htail : ∀ k, jumpRun fl (k + 2) (encJcc cc t ++ (if ff = true then [] else encJmp f)) =
      some (if ccHolds (cc.setWidth 4) fl then some t else if ff then none else some f) := by
    intro k
    rw [jumpRun_jcc hj]
    by_cases h : ccHolds (cc.setWidth 4) fl = true
    · rw [if_pos h, if_pos h]
    · rw [if_neg h, if_neg h]
      cases ff with
      | true => rfl
      | false =>
        have := jumpRun_jmp (f := fl) (k := k) (rest := []) hm
        rw [List.append_nil] at this
        exact this
  by_cases hpar : cc &&& ccParity ≠ 0
  · rw [if_pos hpar]
    have hpar' : ¬ (cc &&& 0x20 = 0) := hpar
    by_cases hneg : cc &&& ccNegated ≠ 0
    · rw [if_pos hneg, jumpRun_jcc hpt, htail 0]
      have hn := (ccNegated_bit cc).1 hneg
      simp only [Bool.false_eq_true, if_false, hp10, ccMeans, hpar', hn, if_true]
      cases fl.pf <;> cases ccHolds (cc.setWidth 4) fl <;> rfl
    · rw [if_neg hneg]
      have hn : cc.getLsbD 0 = false := by
        cases h : cc.getLsbD 0 with
        | false => rfl
        | true => exact absurd ((ccNegated_bit cc).2 h) hneg
      cases ff with
      | true =>
        have hstep : ∀ l, jumpRun fl 3 (byte 0x7A :: byte 0x06 :: l) =
            if ccHolds 10 fl then (dropBytes l 6).bind (jumpRun fl 2) else jumpRun fl 2 l := by
          intro l
          have h : decode (byte 0x7A :: byte 0x06 :: l) = some (.jcc 10 (.num 6), l) := rfl
          rw [jumpRun, h]
          rfl
        have hdrop : dropBytes (encJcc cc t) 6 = some [] := rfl
        have ht := htail 0
        simp only [if_true, List.append_nil, List.cons_append, List.nil_append, Nat.zero_add]
          at ht ⊢
        rw [hstep, ht, hdrop]
        simp only [hp10, ccMeans, hpar', hn, if_false, Bool.false_eq_true]
        cases fl.pf <;> cases ccHolds (cc.setWidth 4) fl <;> rfl
      | false =>
        rw [if_neg (by decide), jumpRun_jcc hpf, htail 0]
        simp only [hp10, ccMeans, hpar', hn, if_false, Bool.false_eq_true]
        cases fl.pf <;> cases ccHolds (cc.setWidth 4) fl <;> rfl
  · rw [if_neg hpar]
    have hpar' : cc &&& 0x20 = 0 := Classical.not_not.1 hpar
    rw [List.nil_append, htail 1]
    simp only [ccMeans, hpar', if_true]

/-- **C108 (conditional jumps).**  Whichever of the two blocks follows, and whichever is exchanged
with the other for its frequency, control gets to the block for true if the condition holds and
to the block for false if not: by a jump, or by falling through to the block that follows.  The
short jump over the next instruction has the right length. -/
theorem enc_ia32_jcc_correct (cc : BitVec 8) (t f : Nat) (ft ff swap : Bool)
    (hx : ¬ (ft = true ∧ ff = true)) (fl : EFlags) :
    jumpRun fl 3 (encIa32Jcc cc t f ft ff swap) =
      some (if ccMeans cc fl then (if ft then none else some t)
        else (if ff then none else some f)) := by
  unfold encIa32Jcc
  cases ft with
  | true =>
    have hff : ff = false := by
      cases ff with
      | false => rfl
      | true => exact absurd ⟨rfl, rfl⟩ hx
    subst hff
    have hj := jcc_main (negateCc cc) f t true fl
    rw [ccMeans_negate] at hj
    refine Eq.trans hj ?_
    cases ccMeans cc fl <;> rfl
  | false =>
    cases ff with
    | true => exact jcc_main cc t f true fl
    | false =>
      cases swap with
      | true =>
        have hj := jcc_main (negateCc cc) f t false fl
        rw [ccMeans_negate] at hj
        refine Eq.trans hj ?_
        cases ccMeans cc fl <;> rfl
      | false => exact jcc_main cc t f false fl

/-- a jump for `x == y` of floating point numbers (code 4 with parity) whose false block follows:
`jp` over the next instruction, then `je`; both cases occur -/
example :
    encIa32Jcc 0x24 1 2 false true false =
      [.byte 0x7A, .byte 6, .byte 0x0F, .byte 0x84, .frag 128 1 (-4)] ∧
    ccMeans 0x24 ⟨true, true, true, false, false⟩ = false ∧
    ccMeans 0x24 ⟨false, false, true, false, false⟩ = true := by
  decide

theorem regOf_b8 : ∀ (h : Bool) (r : BitVec 3), r < 4 →
    regOf .b (r ||| (if h then 4 else 0)) =
      (if h then .high (r.setWidth 2) else .low (r.setWidth 2)) := by
  decide +kernel

theorem enc_set_byte (cc : BitVec 8) (h : Bool) (r : BitVec 3) (hr : r < 4)
    (hf : form2 cc = some .setcc) :
    EncodesTo (byte 0x0F :: byte cc :: encModrm8 h r)
      (.setcc (cc.extractLsb' 0 4) (.reg (if h then .high (r.setWidth 2) else .low (r.setWidth 2)))) := by
  intro rest
  simp only [List.cons_append]
  rw [decode_plain (by decide)]
  simp only [body, show form 0x0F = some .escape from by decide, Option.bind_eq_bind,
    Option.bind_some, take8, byte, body2, hf, modrm_m8 _ h r hr, Rm.opd, regOf_b8 h r hr]

/-- **C108 (`Setcc`).**  The low byte of the register gets 1 if the condition holds and 0 if not, the
parity cases included; the other low bytes keep their values, and so do all high bytes unless
there are parity cases, which use the high byte of the same register. -/
theorem enc_setcc_correct (cc : BitVec 8) (r : BitVec 3) (hr : r < 4) (f : EFlags) (s : Bytes4) :
    ∃ is s', Code (encSetcc cc r) is ∧ runSet f s is = some s' ∧
      s'.low (r.setWidth 2) = (if ccMeans cc f then 1 else 0) ∧
      (∀ q, q ≠ r.setWidth 2 → s'.low q = s.low q ∧ s'.high q = s.high q) ∧
      (cc &&& 0x20 = 0 → s'.high = s.high) := by
  obtain ⟨hf, he⟩ := (form2_low cc).1
  have h1 := enc_set_byte (0x90 ||| pnc2cc cc) false r hr hf
  rw [he] at h1
  have hor : EncodesTo (byte 0x08 :: encModrr8 false r true r)
      (.alu .or .b (.reg (.low (r.setWidth 2))) (.reg (.high (r.setWidth 2)))) := by
    intro rest
    simp only [List.cons_append]
    rw [decode_plain (by decide)]
    have hsz : Prefix.size {} false = .b := rfl
    have ht := regOf_b8 true r hr
    have hl := regOf_b8 false r hr
    simp only [if_true, Bool.false_eq_true, if_false] at ht hl
    simp only [body, show form 0x08 = some (.aluMR 1 false) from by decide, Option.bind_eq_bind,
      Option.bind_some, modrm_rr8 _ _ _ r r hr hr, hsz, Rm.opd, if_true, Bool.false_eq_true,
      if_false, ht, hl]
    rfl
  have hand : EncodesTo (byte 0x20 :: encModrr8 false r true r)
      (.alu .and .b (.reg (.low (r.setWidth 2))) (.reg (.high (r.setWidth 2)))) := by
    intro rest
    simp only [List.cons_append]
    rw [decode_plain (by decide)]
    have hsz : Prefix.size {} false = .b := rfl
    have ht := regOf_b8 true r hr
    have hl := regOf_b8 false r hr
    simp only [if_true, Bool.false_eq_true, if_false] at ht hl
    simp only [body, show form 0x20 = some (.aluMR 4 false) from by decide, Option.bind_eq_bind,
      Option.bind_some, modrm_rr8 _ _ _ r r hr hr, hsz, Rm.opd, if_true, Bool.false_eq_true,
      if_false, ht, hl]
    rfl
  have hp10 : ∀ fl : EFlags, ccHolds 10 fl = fl.pf := by
    intro ⟨a, b, c, d, e⟩
    revert a b c d e
    decide
  have hp11 : ∀ fl : EFlags, ccHolds 11 fl = !fl.pf := by
    intro ⟨a, b, c, d, e⟩
    revert a b c d e
    decide
  unfold encSetcc
  by_cases hpar : cc &&& ccParity ≠ 0
  · rw [if_pos hpar]
    have hpar' : ¬ (cc &&& 0x20 = 0) := hpar
    by_cases hneg : cc &&& ccNegated ≠ 0
    · rw [if_pos hneg]
      have hn := (ccNegated_bit cc).1 hneg
      have h2 := enc_set_byte 0x9A true r hr (by decide)
      refine ⟨_, _, code_append h1 (code_append h2 (by simpa using code_append hor .nil)), rfl,
        ?_, ?_, fun h => absurd h hpar'⟩
      · have : (0x9A : BitVec 8).extractLsb' 0 4 = 10 := by decide
        simp only [if_true, this, hp10, ccMeans, hpar', hn, if_false]
        cases f.pf <;> cases ccHolds (cc.setWidth 4) f <;> rfl
      · intro q hq
        simp only [if_neg hq, and_self]
    · rw [if_neg hneg]
      have hn : cc.getLsbD 0 = false := by
        cases h : cc.getLsbD 0 with
        | false => rfl
        | true => exact absurd ((ccNegated_bit cc).2 h) hneg
      have h2 := enc_set_byte 0x9B true r hr (by decide)
      refine ⟨_, _, code_append h1 (code_append h2 (by simpa using code_append hand .nil)), rfl,
        ?_, ?_, fun h => absurd h hpar'⟩
      · have : (0x9B : BitVec 8).extractLsb' 0 4 = 11 := by decide
        simp only [if_true, this, hp11, ccMeans, hpar', hn, if_false, Bool.false_eq_true]
        cases f.pf <;> cases ccHolds (cc.setWidth 4) f <;> rfl
      · intro q hq
        simp only [if_neg hq, and_self]
  · rw [if_neg hpar, ← List.append_nil (byte 0x0F :: byte (0x90 ||| pnc2cc cc) :: encModrm8 false r)]
    have hpar' : cc &&& 0x20 = 0 := Classical.not_not.1 hpar
    refine ⟨_, _, code_append h1 .nil, rfl, ?_, ?_, fun _ => rfl⟩
    · simp only [if_true, ccMeans, hpar']
    · intro q hq
      simp only [if_neg hq, and_self]

/-- `setb %cl` with parity cases: `setb %cl; setp %ch; orb %ch, %cl` -/
example :
    encSetcc 0x23 1 = [.byte 0x0F, .byte 0x93, .byte 0xC1, .byte 0x0F, .byte 0x9A, .byte 0xC5,
      .byte 0x08, .byte 0xE9] ∧ ((1 : BitVec 3) < 4) := by
  decide

/-! ## Negation of 64 bits -/

theorem enc_neg_insn (r : BitVec 3) : EncodesTo (encHelperNeg r) (.un .neg .d (.reg (.r32 r))) := by
  intro rest
  simp only [encHelperNeg, List.cons_append]
  rw [decode_plain (by decide)]
  simp only [body, show form 0xF7 = some (.grp3 true) from by decide, Option.bind_eq_bind,
    Option.bind_some, modrm_ru]
  rfl

theorem enc_sbb0_insn (r : BitVec 3) :
    EncodesTo (encHelperSbb0 r) (.alu .sbb .d (.reg (.r32 r)) (.imm (.num 0))) := by
  intro rest
  simp only [encHelperSbb0, List.cons_append, List.append_assoc, List.nil_append]
  rw [decode_plain (by decide)]
  simp only [body, show form (0x80 ||| OP_16_32_IMM8) = some .grp1s from by decide,
    Option.bind_eq_bind, Option.bind_some, modrm_ru, byte]
  rfl

theorem enc_sbb_insn (s d : BitVec 3) :
    EncodesTo (encHelperSbb s d) (.alu .sbb .d (.reg (.r32 d)) (.reg (.r32 s))) := by
  intro rest
  simp only [encHelperSbb, List.cons_append]
  rw [decode_plain (by decide)]
  simp only [body, show form 0x1B = some (.aluRM 3 true) from by decide, Option.bind_eq_bind,
    Option.bind_some, modrm_rr]
  rfl

theorem enc_zero_insn (r : BitVec 3) :
    EncodesTo (encHelperZero r) (.alu .xor .d (.reg (.r32 r)) (.reg (.r32 r))) := by
  intro rest
  simp only [encHelperZero, List.cons_append]
  rw [decode_plain (by decide)]
  simp only [body, show form 0x33 = some (.aluRM 6 true) from by decide, Option.bind_eq_bind,
    Option.bind_some, modrm_rr]
  rfl

theorem code_neg (lo hi : BitVec 3) :
    Code (normalNeg lo hi) [.un .neg .d (.reg (.r32 hi)), .un .neg .d (.reg (.r32 lo)),
      .alu .sbb .d (.reg (.r32 hi)) (.imm (.num 0))] := by
  unfold normalNeg
  refine code_append (enc_neg_insn hi) (code_append (enc_neg_insn lo) ?_)
  have := code_append (enc_sbb0_insn hi) .nil
  rwa [List.append_nil] at this

theorem code_zero (inHi lo hi : BitVec 3) :
    Code (zeroNeg inHi lo hi) [.alu .xor .d (.reg (.r32 hi)) (.reg (.r32 hi)),
      .un .neg .d (.reg (.r32 lo)), .alu .sbb .d (.reg (.r32 hi)) (.reg (.r32 inHi))] := by
  unfold zeroNeg
  refine code_append (enc_zero_insn hi) (code_append (enc_neg_insn lo) ?_)
  have := code_append (enc_sbb_insn inHi hi) .nil
  rwa [List.append_nil] at this

theorem neg_append (hi lo : BitVec 32) :
    -(hi ++ lo) = (-hi - BitVec.ofNat 32 (if (lo != 0) = true then 1 else 0)) ++ -lo := by
  apply BitVec.eq_of_toNat_eq
  have happ : ∀ a b : BitVec 32, (a ++ b).toNat = a.toNat * 2 ^ 32 + b.toNat := by
    intro a b
    rw [BitVec.toNat_append, ← Nat.shiftLeft_add_eq_or_of_lt b.isLt, Nat.shiftLeft_eq]
  rw [happ, BitVec.toNat_neg, happ, BitVec.toNat_neg, BitVec.toNat_sub, BitVec.toNat_neg,
    BitVec.toNat_ofNat]
  have h1 := hi.isLt
  have h2 := lo.isLt
  by_cases h : lo = 0
  · subst h
    simp
    omega
  · have h0 : lo.toNat ≠ 0 := fun h0 => h (BitVec.eq_of_toNat_eq h0)
    have hb : (lo != 0) = true := by simpa using h
    rw [hb]
    simp only [if_true]
    omega

/-- **C108 (`Minus64`).**  Whatever the registers are, as long as the halves of the operand are in
different registers and so are the halves of the result: the pair of the result holds the negative
of the pair of the operand, and no other register except those of the operand is changed. -/
theorem enc_minus64_correct (inLo inHi outLo outHi : BitVec 3) (hi : inLo ≠ inHi)
    (ho : outLo ≠ outHi) (s : IntState) :
    ∃ is s', Code (encMinus64 inLo inHi outLo outHi) is ∧ runInt s is = some s' ∧
      s'.reg outHi ++ s'.reg outLo = -(s.reg inHi ++ s.reg inLo) ∧
      ∀ r, r ≠ outLo → r ≠ outHi → s'.reg r = s.reg r := by
  have ho' : outHi ≠ outLo := ho.symm
  have hi' : inHi ≠ inLo := hi.symm
  have hmov := fun a b => (enc_moves_correct a b ⟨none, 0, 0⟩).1
  have fin : ∀ (is : List Insn) (s' : IntState),
      Code (encMinus64 inLo inHi outLo outHi) is → runInt s is = some s' →
      s'.reg outHi = -s.reg inHi - BitVec.ofNat 32 (if (s.reg inLo != 0) = true then 1 else 0) →
      s'.reg outLo = -s.reg inLo →
      (∀ r, r ≠ outLo → r ≠ outHi → s'.reg r = s.reg r) →
      ∃ is s', Code (encMinus64 inLo inHi outLo outHi) is ∧ runInt s is = some s' ∧
        s'.reg outHi ++ s'.reg outLo = -(s.reg inHi ++ s.reg inLo) ∧
        ∀ r, r ≠ outLo → r ≠ outHi → s'.reg r = s.reg r := by
    intro is s' h1 h2 h3 h4 h5
    exact ⟨is, s', h1, h2, by rw [h3, h4, neg_append], h5⟩
  unfold encMinus64 at fin ⊢
  by_cases c1 : outLo = inLo
  · rw [if_pos c1] at fin ⊢
    by_cases c2 : outHi = inHi
    · rw [if_neg (fun h => h c2)] at fin ⊢
      refine fin _ _ (code_neg ..) rfl ?_ ?_ ?_
      · simp [IntState.put, IntState.val, ho', ho, c1, c2, hi, hi']
      · simp [IntState.put, IntState.val, ho', ho, c1, c2, hi, hi']
      · intro r h1 h2
        simp [IntState.put, h1, h2]
    · rw [if_pos c2] at fin ⊢
      have c2' : inHi ≠ outHi := fun h => c2 h.symm
      refine fin _ _ (code_zero ..) rfl ?_ ?_ ?_
      · subst c1
        simp [IntState.put, IntState.val, ho', ho, hi', c2']
      · subst c1
        simp [IntState.put, IntState.val, ho]
      · intro r h1 h2
        simp [IntState.put, h1, h2]
  · rw [if_neg c1] at fin ⊢
    by_cases c2 : outLo = inHi
    · rw [if_pos c2] at fin ⊢
      by_cases c3 : outHi = inLo
      · rw [if_pos c3] at fin ⊢
        subst c2 c3
        rcases (enc_moves_correct outHi outLo ⟨none, 0, 0⟩).2.2.1 hi with hx | hx
        · refine fin _ _ (code_append hx (code_neg ..)) rfl ?_ ?_ ?_
          · simp [IntState.put, IntState.val, ho', ho]
          · simp [IntState.put, IntState.val, ho', ho]
          · intro r h1 h2
            simp [IntState.put, h1, h2]
        · refine fin _ _ (code_append hx (code_neg ..)) rfl ?_ ?_ ?_
          · simp [IntState.put, IntState.val, ho', ho]
          · simp [IntState.put, IntState.val, ho', ho]
          · intro r h1 h2
            simp [IntState.put, h1, h2]
      · rw [if_neg c3] at fin ⊢
        have c3' : inLo ≠ outHi := fun h => c3 h.symm
        refine fin _ _ (code_append (hmov _ _) (code_append (hmov _ _) (code_neg ..))) rfl ?_ ?_ ?_
        · subst c2
          simp [IntState.put, IntState.val, ho', ho, c3']
        · subst c2
          simp [IntState.put, IntState.val, ho, c3']
        · intro r h1 h2
          simp [IntState.put, h1, h2]
    · rw [if_neg c2] at fin ⊢
      have c2' : inHi ≠ outLo := fun h => c2 h.symm
      have c1' : inLo ≠ outLo := fun h => c1 h.symm
      by_cases c3 : outHi = inLo
      · rw [if_pos c3] at fin ⊢
        refine fin _ _ (code_append (hmov _ _) (code_zero ..)) rfl ?_ ?_ ?_
        · subst c3
          simp [IntState.put, IntState.val, ho', ho, c2', hi']
        · subst c3
          simp [IntState.put, IntState.val, ho]
        · intro r h1 h2
          simp [IntState.put, h1, h2]
      · rw [if_neg c3] at fin ⊢
        by_cases c4 : outHi = inHi
        · rw [if_pos c4] at fin ⊢
          refine fin _ _ (code_append (hmov _ _) (code_neg ..)) rfl ?_ ?_ ?_
          · subst c4
            simp [IntState.put, IntState.val, ho', ho]
          · subst c4
            simp [IntState.put, IntState.val, ho]
          · intro r h1 h2
            simp [IntState.put, h1, h2]
        · rw [if_neg c4] at fin ⊢
          have c4' : inHi ≠ outHi := fun h => c4 h.symm
          refine fin _ _ (code_append (hmov _ _) (code_zero ..)) rfl ?_ ?_ ?_
          · simp [IntState.put, IntState.val, ho', ho, c2', c4']
          · simp [IntState.put, IntState.val, ho]
          · intro r h1 h2
            simp [IntState.put, h1, h2]

/-- the registers exchanged -/
example :
    encMinus64 0 2 2 0 = [.byte 0x92, .byte 0xF7, .byte 0xD8, .byte 0xF7, .byte 0xDA,
      .byte 0x83, .byte 0xD8, .byte 0] := by
  decide

/-! ## The x87 unit -/

/-- The arithmetic of a node with the operands in the order `top op reg`, or reversed. -/
def FNode.op (o : FNode) (reverse : Bool) : FArith :=
  match o with
  | .fadd => .add
  | .fmul => .mul
  | .fsub => if reverse then .subr else .sub
  | .fdiv => if reverse then .divr else .div

/-- **C108 (x87 arithmetic).**  The right operation for `x87.reverse`, as long as the simulator of
the stack did not reverse the operands itself: see `enc_fbinop_wrong`. -/
theorem enc_fbinop_partial (n : Node) (o : FNode) (sim permuted resInReg pop : Bool)
    (reg : BitVec 3) (hsim : sim = false) (hpop : pop = true → resInReg = true) :
    (n.normal = true →
      EncodesTo (encFbinop n permuted resInReg pop reg o.codes.1 o.codes.2)
        (.freg (.arith (FNode.op o (x87Reverse sim permuted)) resInReg pop) reg)) ∧
    (n.normal = false → AddrOk n.addr → n.size = SIZE_32 ∨ n.size = SIZE_64 →
      EncodesTo (encFbinop n permuted resInReg pop reg o.codes.1 o.codes.2)
        (.fmem (.arith (FNode.op o (x87Reverse sim permuted)) (if n.size = SIZE_32 then 32 else 64))
          (textMem n.addr))) := by
  subst hsim
  constructor
  · intro hn rest
    simp only [encFbinop, hn, if_true, List.cons_append]
    cases resInReg with
    | false =>
      cases pop with
      | true => exact absurd (hpop rfl) (by decide)
      | false =>
        rw [decode_plain (by decide)]
        simp only [Bool.false_eq_true, if_false, body,
          show form (0xD8 ||| 0 ||| 0) = some (.x87 0) from by decide, Option.bind_eq_bind,
          Option.bind_some, modrm_ru]
        cases o <;> cases permuted <;> rfl
    | true =>
      cases pop with
      | true =>
        rw [decode_plain (by decide)]
        simp only [if_true, body,
          show form (0xD8 ||| 0x04 ||| 0x02) = some (.x87 6) from by decide, Option.bind_eq_bind,
          Option.bind_some, modrm_ru]
        cases o <;> cases permuted <;> rfl
      | false =>
        rw [decode_plain (by decide)]
        simp only [if_true, Bool.false_eq_true, if_false, body,
          show form (0xD8 ||| 0x04 ||| 0) = some (.x87 4) from by decide, Option.bind_eq_bind,
          Option.bind_some, modrm_ru]
        cases o <;> cases permuted <;> rfl
  · intro hn ha hsz rest
    have hmem := fun reg l => enc_mod_am_roundtrip reg n.addr ha l
    simp only [encFbinop, hn, Bool.false_eq_true, if_false, List.cons_append]
    rcases hsz with h | h
    · rw [if_pos h, if_pos h, decode_plain (by decide)]
      simp only [body, show form 0xD8 = some (.x87 0) from by decide, Option.bind_eq_bind,
        Option.bind_some, hmem]
      cases o <;> cases permuted <;> rfl
    · have h' : ¬ (n.size = SIZE_32) := by rw [h]; decide
      simp only [h', if_false]
      rw [decode_plain (by decide)]
      simp only [body, show form 0xDC = some (.x87 4) from by decide, Option.bind_eq_bind,
        Option.bind_some, hmem]
      cases o <;> cases permuted <;> rfl

/-- `fsubr %st(2), %st` by permuted inputs -/
example :
    encFbinop ⟨true, SIZE_80, false, 0, .reg 0, 0, ⟨none, none, 0, ⟨none, 0, 0⟩, false⟩⟩
      true false false 2 (FNode.codes .fsub).1 (FNode.codes .fsub).2 = [.byte 0xD8, .byte 0xEA] := by
  decide

def FSimpleNode.op : FSimpleNode → FSimple
  | .fabs => .fabs | .fchs => .fchs | .fldz => .fldz | .fld1 => .fld1

def FRegNode.op : FRegNode → FReg
  | .fxch => .fxch | .fdup => .fld | .fpop => .fstp | .ffreep => .ffreep

/-- The sizes of the nodes in bits. -/
def bitsOf (size : Nat) : Nat :=
  if size = SIZE_16 then 16 else if size = SIZE_32 then 32 else if size = SIZE_64 then 64
  else 80

/-- **C108 (x87 loads, stores and comparisons).**  `fist`, `fistp`, `fst`, `fstp` are missing: they
panic, see `enc_fst_panics`. -/
theorem enc_x87_partial (n : Node) (ha : AddrOk n.addr) (pop : Bool) (r : BitVec 3) :
    (∀ o, EncodesTo (encFsimple (FSimpleNode.opcode o)) (.fsimple (FSimpleNode.op o))) ∧
    (∀ o, EncodesTo (encFopReg (FRegNode.opcode o).1 (FRegNode.opcode o).2 r)
      (.freg (FRegNode.op o) r)) ∧
    (n.size = SIZE_16 ∨ n.size = SIZE_32 ∨ n.size = SIZE_64 →
      Encodes (encFild n) (.fmem (.fild (bitsOf n.size)) (textMem n.addr)) ∧
      Encodes (encFisttp n) (.fmem (.fisttp (bitsOf n.size)) (textMem n.addr))) ∧
    (n.size = SIZE_32 ∨ n.size = SIZE_64 ∨ n.size = SIZE_80 →
      Encodes (encFld n) (.fmem (.fld (bitsOf n.size)) (textMem n.addr))) ∧
    EncodesTo (encFldcw n) (.fmem .fldcw (textMem n.addr)) ∧
    EncodesTo (encFnstcw n) (.fmem .fnstcw (textMem n.addr)) ∧
    EncodesTo (encFucomi pop r) (.freg (if pop then .fucomip else .fucomi) r) ∧
    Code (encFucomfnstsw pop r) [.freg (if pop then .fucomp else .fucom) r, .fsimple .fnstswAx] ∧
    Code encFucomppfnstsw [.fsimple .fucompp, .fsimple .fnstswAx] ∧
    Code encFtstfnstsw [.fsimple .ftst, .fsimple .fnstswAx] := by
  have hmem := fun reg l => enc_mod_am_roundtrip reg n.addr ha l
  have hreg : ∀ (e op : BitVec 8) (k reg : BitVec 3) (i : Insn), form e = some (.x87 k) →
      plain e = true → fields op = (3, reg, r) → fregOf k reg r = some i →
      EncodesTo [byte e, byte op] i := by
    intro e op k reg i hf hp hfl hfr rest
    simp only [List.cons_append, List.nil_append]
    rw [decode_plain hp]
    simp only [body, hf, Option.bind_eq_bind, Option.bind_some, modrm, take8, byte, hfl, if_true,
      hfr]
  have hm : ∀ (e : BitVec 8) (k reg : BitVec 3) (op : FMem), form e = some (.x87 k) →
      plain e = true → fmemOf k reg = some op →
      EncodesTo (byte e :: encModAm reg n.addr) (.fmem op (textMem n.addr)) := by
    intro e k reg op hf hp hfm rest
    simp only [List.cons_append]
    rw [decode_plain hp]
    simp only [body, hf, Option.bind_eq_bind, Option.bind_some, hmem, hfm]
  have fl : ∀ r : BitVec 3, fields (0xC8 + r.setWidth 8) = (3, 1, r) ∧
      fields (0xC0 + r.setWidth 8) = (3, 0, r) ∧ fields (0xD8 + r.setWidth 8) = (3, 3, r) ∧
      fields (0xE8 + r.setWidth 8) = (3, 5, r) ∧ fields (0xE0 + r.setWidth 8) = (3, 4, r) := by
    decide +kernel
  refine ⟨fun o rest => ?_, fun o => ?_, fun hs => ⟨?_, ?_⟩, fun hs => ?_, ?_, ?_, ?_, ?_, ?_, ?_⟩
  · cases o <;> rfl
  · cases o
    · exact hreg _ _ 1 1 _ (by decide) (by decide) (fl r).1 rfl
    · exact hreg _ _ 1 0 _ (by decide) (by decide) (fl r).2.1 rfl
    · exact hreg _ _ 5 3 _ (by decide) (by decide) (fl r).2.2.1 rfl
    · exact hreg _ _ 7 0 _ (by decide) (by decide) (fl r).2.1 rfl
  · unfold encFild
    rcases hs with h | h | h <;> rw [h]
    · exact ⟨_, rfl, hm _ 7 0 _ (by decide) (by decide) rfl⟩
    · exact ⟨_, rfl, hm _ 3 0 _ (by decide) (by decide) rfl⟩
    · exact ⟨_, rfl, hm _ 7 5 _ (by decide) (by decide) rfl⟩
  · unfold encFisttp
    rcases hs with h | h | h <;> rw [h]
    · exact ⟨_, rfl, hm _ 7 1 _ (by decide) (by decide) rfl⟩
    · exact ⟨_, rfl, hm _ 3 1 _ (by decide) (by decide) rfl⟩
    · exact ⟨_, rfl, hm _ 5 1 _ (by decide) (by decide) rfl⟩
  · unfold encFld
    rcases hs with h | h | h <;> rw [h]
    · exact ⟨_, rfl, hm _ 1 0 _ (by decide) (by decide) rfl⟩
    · exact ⟨_, rfl, hm _ 5 0 _ (by decide) (by decide) rfl⟩
    · exact ⟨_, rfl, hm _ 3 5 _ (by decide) (by decide) rfl⟩
  · exact hm _ 1 5 _ (by decide) (by decide) rfl
  · exact hm _ 1 7 _ (by decide) (by decide) rfl
  · cases pop
    · exact hreg _ _ 3 5 _ (by decide) (by decide) (fl r).2.2.2.1 rfl
    · exact hreg _ _ 7 5 _ (by decide) (by decide) (fl r).2.2.2.1 rfl
  · have hsw : Code encFnstsw [.fsimple .fnstswAx] := .cons (rest := []) rfl .nil
    cases pop
    · exact code_append (hreg _ _ 5 4 _ (by decide) (by decide) (fl r).2.2.2.2 rfl) hsw
    · exact code_append (hreg _ _ 5 5 _ (by decide) (by decide) (fl r).2.2.2.1 rfl) hsw
  · exact .cons (rest := encFnstsw) rfl (.cons (rest := []) rfl .nil)
  · exact .cons (rest := encFnstsw) rfl (.cons (rest := []) rfl .nil)

/-! ## Padding -/

/-- **C108 (padding).**  Any number of bytes can be filled, with exactly that many bytes that decode
to instructions without effect. -/
theorem enc_nops_correct (size : Nat) :
    (nops size).length = size ∧
    ∃ is, Code ((nops size).map Item.byte) is ∧ ∀ i ∈ is, isNop i = true := by
  have one : ∀ l : List Item,
      (decode l).elim false (fun p => isNop p.1 && p.2.isEmpty) = true →
      ∃ is, Code l is ∧ ∀ i ∈ is, isNop i = true := by
    intro l h
    cases hd : decode l with
    | none => rw [hd] at h; cases h
    | some p =>
      obtain ⟨i, rest⟩ := p
      rw [hd] at h
      simp only [Option.elim, Bool.and_eq_true, List.isEmpty_iff] at h
      obtain ⟨h1, rfl⟩ := h
      refine ⟨[i], .cons hd .nil, fun j hj => ?_⟩
      rw [List.mem_singleton.1 hj]
      exact h1
  induction size using Nat.strongRecOn with
  | ind size ih =>
    match size, ih with
    | 0, _ => exact ⟨by decide, [], by rw [nops]; exact .nil, by simp⟩
    | 1, _ => exact ⟨by decide, one _ (by decide)⟩
    | 2, _ => exact ⟨by decide, one _ (by decide)⟩
    | 3, _ => exact ⟨by decide, one _ (by decide)⟩
    | 4, _ => exact ⟨by decide, one _ (by decide)⟩
    | 5, _ => exact ⟨by decide, one _ (by decide)⟩
    | 6, _ => exact ⟨by decide, one _ (by decide)⟩
    | 7, _ => exact ⟨by decide, one _ (by decide)⟩
    | 8, _ => exact ⟨by decide, one _ (by decide)⟩
    | n + 9, ih =>
      obtain ⟨hl, is, hc, hn⟩ := ih n (by omega)
      have hd : ∀ l, decode ([.byte 0x66, .byte 0x0F, .byte 0x1F, .byte 0x84, .byte 0, .byte 0,
          .byte 0, .byte 0, .byte 0] ++ l) =
          some (.nopRm .w (.mem ⟨false, some 0, some (0, 0), .num 0⟩), l) := fun _ => rfl
      have he : nops (n + 9) = [0x66, 0x0F, 0x1F, 0x84, 0, 0, 0, 0, 0] ++ nops n := by rw [nops]
      rw [he, List.length_append, List.map_append, hl]
      refine ⟨by simp only [List.length_cons, List.length_nil]; omega, _, .cons (hd _) hc, ?_⟩
      intro i hi
      rcases List.mem_cons.1 hi with rfl | hi
      · rfl
      · exact hn i hi

/-! ## Where the encoder is wrong -/

/-- A node on registers. -/
def onRegs (size : Nat) (high : Bool) (left : BitVec 3) (right : Arg) : Node :=
  ⟨true, size, high, left, right, left, ⟨none, none, 0, ⟨none, 0, 0⟩, false⟩⟩

/-- **C108 (test, refuted).**  `testl $1000, %ecx` becomes a test of a byte, followed by three bytes
of the immediate operand that the processor takes for instructions. -/
theorem enc_test_wrong :
    ∃ n i out, n.normal = true ∧ n.size = SIZE_32 ∧ n.right = .imm i ∧ encTest n = some out ∧
      decode out = some (.test .b (.reg (.low 1)) (.imm (.num 0xE8)), [.byte 3, .byte 0, .byte 0]) :=
  ⟨onRegs SIZE_32 false 1 (.imm ⟨none, 1000, 0⟩), ⟨none, 1000, 0⟩, _, rfl, rfl, rfl, rfl, by decide⟩

/-- **C108 (high bytes, refuted).**  A node that works on the high byte of a register
(`testb $1, %ch`, made of `testl $256, %ecx` by ir/be/ia32/ia32_optimize.c:485-504) is encoded as
one on the low byte. -/
theorem enc_high_byte_wrong :
    ∃ n i, n.size = SIZE_8 ∧ n.high = true ∧ n.right = .imm i ∧
      named .b n.high n.left = some (.high 1) ∧
      (∃ out, encTest n = some out ∧
        decode out = some (.test .b (.reg (.low 1)) (.imm (.num 1)), [])) ∧
      (∃ out, encBinop n (BinNode.code .And) = some out ∧
        decode out = some (.alu .and .b (.reg (.low 1)) (.imm (.num 1)), [])) :=
  ⟨onRegs SIZE_8 true 1 (.imm ⟨none, 1, 0⟩), ⟨none, 1, 0⟩, rfl, rfl, rfl, by decide,
    ⟨_, rfl, by decide⟩, ⟨_, rfl, by decide⟩⟩

/-- **C108 (sizes, refuted).**  `notw %cx`, made of `xorl $0xFFFF, %ecx` by
ir/be/ia32/ia32_optimize.c:308-313, is encoded as `notl %ecx`. -/
theorem enc_size_ignored :
    ∃ n, n.normal = true ∧ n.size = SIZE_16 ∧ n.left = 1 ∧
      decode (encUnop n 0xF7 (UnNode.ext .Not) n.left) =
        some (.un .not .d (.reg (.r32 1)), []) :=
  ⟨onRegs SIZE_16 false 1 (.reg 0), rfl, rfl, rfl, by decide⟩

/-- **C108 (shifts of memory, refuted).**  `shll $3, (%ebx)` is encoded as `shll %cl, (%ebx)`. -/
theorem enc_shiftop_mem_wrong :
    ∃ n i, n.right = .imm i ∧ i.offset = 3 ∧
      decode (encShiftopMem n (ShiftNode.ext .Shl)) =
        some (.shift .shl .d (.mem ⟨false, some 3, none, .num 0⟩) .cl, []) :=
  ⟨⟨false, SIZE_32, false, 0, .imm ⟨none, 3, 0⟩, 0, ⟨some 3, none, 0, ⟨none, 0, 0⟩, false⟩⟩,
    ⟨none, 3, 0⟩, rfl, rfl, by decide⟩

/-- **C108 (segments, refuted).**  A load from `%gs:8` is encoded as one from address 8. -/
theorem enc_segment_ignored :
    ∃ n, n.addr.gs = true ∧
      decode (encLoad n) = some (.mov .d (.reg (.r32 1)) (.mem ⟨false, none, none, .num 8⟩), []) :=
  ⟨⟨false, SIZE_32, false, 0, .reg 0, 1, ⟨none, none, 0, ⟨none, 8, 0⟩, true⟩⟩, rfl, by decide⟩

/-- **C108 (immediate operands, refuted).**  `IMulImm` and `Push` panic for every immediate. -/
theorem enc_imm_panics (n : Node) (i : Imm) :
    encImulimm n i = none ∧ encPush n (some (.imm i)) = none := by
  have h8 : encImm i 8 = none := rfl
  have h32 : encImm i 32 = none := rfl
  unfold encImulimm encPush
  cases h : is8bitImm i <;> simp [h, h8, h32]

/-- **C108 (x87 stores, refuted).**  All stores of the x87 unit panic. -/
theorem enc_fst_panics (n : Node) (pop : Bool) : encFst n pop = none ∧ encFist n pop = none :=
  ⟨rfl, rfl⟩

/-- **C108 (x87 arithmetic, refuted).**  If the simulator of the stack reverses the operands, because
the right one is on top, then `reg - top` is encoded as `top - reg`. -/
theorem enc_fbinop_wrong :
    ∃ n sim permuted, x87Reverse sim permuted = true ∧ FNode.op .fsub true = .subr ∧
      decode (encFbinop n permuted false false 1 (FNode.codes .fsub).1 (FNode.codes .fsub).2) =
        some (.freg (.arith .sub false false) 1, []) :=
  ⟨onRegs SIZE_80 false 0 (.reg 0), true, false, rfl, rfl, by decide⟩

end Verif.Props
