import Verif.Model.Ia32Encode
/-! # Lemmas about the binary encoder for IA-32 -/
namespace Verif.Model.Ia32

open Spec.X86

/-- The value of an immediate. -/
def Imm.val (i : Imm) : Value :=
  match i.entity with
  | none => .num i.offset
  | some e => .sym i.kind e i.offset

theorem take16_emit16 (v : BitVec 16) (l : List Item) : take16 (emit16 v ++ l) = some (v, l) := by
  simp only [emit16, byte, List.cons_append, List.nil_append, take16, Option.some.injEq,
    Prod.mk.injEq, and_true]
  apply BitVec.eq_of_getLsbD_eq
  intro i hi
  rw [BitVec.getLsbD_append]
  by_cases h : i < 8
  · simp [h]
  · simp [h]
    have h1 : i - 8 < 8 := by omega
    have h2 : 8 + (i - 8) = i := by omega
    simp [h1, h2]

theorem take32_emit32 (v : BitVec 32) (l : List Item) :
    take32 (emit32 v ++ l) = some (.num v, l) := by
  simp only [emit32, byte, List.cons_append, List.nil_append, take32, Option.some.injEq,
    Prod.mk.injEq, and_true, Value.num.injEq]
  apply BitVec.eq_of_getLsbD_eq
  intro i hi
  simp only [BitVec.getLsbD_append, BitVec.getLsbD_setWidth, BitVec.getLsbD_ushiftRight]
  by_cases h : i < 8
  · simp [h]
  · by_cases h' : i < 16
    · have e1 : i - 8 < 8 := by omega
      have e2 : 8 + (i - 8) = i := by omega
      simp [h, e1, e2]
    · by_cases h'' : i < 24
      · have e1 : ¬ i - 8 < 8 := by omega
        have e2 : 16 + (i - 8 - 8) = i := by omega
        have e3 : i - 8 - 8 < 8 := by omega
        simp [h, e1, e2, e3]
      · have e1 : ¬ i - 8 < 8 := by omega
        have e2 : 24 + (i - 8 - 8 - 8) = i := by omega
        have e3 : ¬ i - 8 - 8 < 8 := by omega
        have e4 : i - 8 - 8 - 8 < 8 := by omega
        simp [h, e1, e2, e3, e4]

theorem take32_reloc (i : Imm) (l : List Item) :
    take32 (encRelocation i ++ l) = some (i.val, l) := by
  unfold encRelocation Imm.val
  cases h : i.entity with
  | none => exact take32_emit32 _ _
  | some e => rfl

theorem sext8 {v : BitVec 32} (h : is8bitVal v = true) : (v.setWidth 8).signExtend 32 = v := by
  simp only [is8bitVal, Bool.and_eq_true, decide_eq_true_eq] at h
  apply BitVec.eq_of_toInt_eq
  rw [BitVec.toInt_signExtend, BitVec.toInt_eq_toNat_bmod (x := v.setWidth 8),
    BitVec.toNat_setWidth]
  rw [BitVec.toInt_eq_toNat_bmod] at h
  rw [BitVec.toInt_eq_toNat_bmod]
  have hv := v.isLt
  have hm : min 32 8 = 8 := rfl
  rw [hm]
  simp only [Int.bmod_def] at h ⊢
  omega

/-! ## The ModR/M byte -/

theorem fields_rr : ∀ a b : BitVec 3, fields (MOD_REG ||| encRm a false ||| encReg b false) = (3, b, a) := by
  decide +kernel

theorem fields_rr8 : ∀ (h1 h2 : Bool) (a b : BitVec 3), a < 4 → b < 4 →
    fields (MOD_REG ||| encRm a h1 ||| encReg b h2) =
      (3, b ||| (if h2 then 4 else 0), a ||| (if h1 then 4 else 0)) := by
  decide +kernel

theorem fields_m8 : ∀ (h : Bool) (a : BitVec 3), a < 4 →
    fields (MOD_REG ||| encRm a h ||| MOD_REG) = (3, 0, a ||| (if h then 4 else 0)) := by
  decide +kernel

theorem fields_ind : ∀ a r : BitVec 3, fields (MOD_IND ||| encRm a false ||| encReg r false) = (0, r, a) := by
  decide +kernel

theorem fields_byte : ∀ a r : BitVec 3,
    fields (MOD_IND_BYTE_OFS ||| encRm a false ||| encReg r false) = (1, r, a) := by
  decide +kernel

theorem fields_byte' : ∀ a r : BitVec 3,
    fields (MOD_IND ||| encRm a false ||| MOD_IND_BYTE_OFS ||| encReg r false) = (1, r, a) := by
  decide +kernel

theorem fields_word : ∀ a r : BitVec 3,
    fields (MOD_IND_WORD_OFS ||| encRm a false ||| encReg r false) = (2, r, a) := by
  decide +kernel

theorem fields_sib : ∀ (s : BitVec 2) (i b : BitVec 3), fields (encSib s i b) = (s, i, b) := by
  decide +kernel

theorem modrm_rr (gs : Bool) (a b : BitVec 3) (l : List Item) :
    modrm gs (encModrr a b ++ l) = some (b, .reg a, l) := by
  simp only [encModrr, byte, List.cons_append, List.nil_append, modrm, take8, Option.bind_eq_bind,
    Option.bind_some, fields_rr, if_true]

theorem modrm_ru (gs : Bool) (a b : BitVec 3) (l : List Item) :
    modrm gs (encModru a b ++ l) = some (b, .reg a, l) := modrm_rr gs a b l

theorem modrm_rr8 (gs h1 h2 : Bool) (a b : BitVec 3) (ha : a < 4) (hb : b < 4) (l : List Item) :
    modrm gs (encModrr8 h1 a h2 b ++ l) =
      some (b ||| (if h2 then 4 else 0), .reg (a ||| (if h1 then 4 else 0)), l) := by
  simp only [encModrr8, byte, List.cons_append, List.nil_append, modrm, take8,
    Option.bind_eq_bind, Option.bind_some, fields_rr8 h1 h2 a b ha hb, if_true]

theorem modrm_m8 (gs h : Bool) (a : BitVec 3) (ha : a < 4) (l : List Item) :
    modrm gs (encModrm8 h a ++ l) = some (0, .reg (a ||| (if h then 4 else 0)), l) := by
  simp only [encModrm8, byte, List.cons_append, List.nil_append, modrm, take8,
    Option.bind_eq_bind, Option.bind_some, fields_m8 h a ha, if_true]

/-- The memory operand of an address. -/
def Addr.mem (a : Addr) (gs : Bool) : Mem :=
  ⟨gs, a.base, a.index.map fun i => (i, a.logScale), a.imm.val⟩

theorem modrm_am (gs : Bool) (reg : BitVec 3) (a : Addr) (hidx : a.index ≠ some 4) (l : List Item) :
    modrm gs (encModAm reg a ++ l) = some (reg, .mem (a.mem gs), l) := by
  obtain ⟨base, index, scale, ⟨ent, off, kind⟩, seg⟩ := a
  have h03 : (0 : BitVec 2) ≠ 3 := by decide
  have h13 : (1 : BitVec 2) ≠ 3 := by decide
  have h23 : (2 : BitVec 2) ≠ 3 := by decide
  have h10 : (1 : BitVec 2) ≠ 0 := by decide
  have h20 : (2 : BitVec 2) ≠ 0 := by decide
  have h21 : (2 : BitVec 2) ≠ 1 := by decide
  have h54 : (5 : BitVec 3) ≠ 4 := by decide
  have h45 : (4 : BitVec 3) ≠ 5 := by decide
  cases base with
  | none =>
    cases index with
    | none =>
      simp only [encModAm, Addr.mem, Option.map_none, h54, if_false, and_false, true_and,
        List.nil_append, List.cons_append, modrm, take8, byte, Option.bind_eq_bind,
        Option.bind_some, reduceCtorEq, Nat.reduceEqDiff, if_true, and_self, fields_ind,
        take32_reloc, h03]
    | some i =>
      have hi : i ≠ 4 := fun h => hidx (congrArg some h)
      simp only [encModAm, Addr.mem, Option.map_some, if_false, and_false, true_and,
        List.nil_append, List.cons_append, modrm, take8, byte, Option.bind_eq_bind,
        Option.bind_some, reduceCtorEq, Nat.reduceEqDiff, if_true, and_self, fields_ind,
        fields_sib, take32_reloc, h03, hi]
  | some b =>
    have hz : takeDisp 0#2 l = some (.num 0#32, l) := rfl
    have hb8 : ∀ v : BitVec 8, takeDisp 1#2 (.byte v :: l) =
        some (.num (v.signExtend 32), l) := fun _ => rfl
    have hw : ∀ l', takeDisp 2#2 l' = take32 l' := fun _ => rfl
    have hw' : ∀ (e : Option Nat), take32 (encRelocation ⟨e, off, kind⟩ ++ l) =
        some (Imm.val ⟨e, off, kind⟩, l) := fun e => take32_reloc _ _
    have hbb : b = 4#3 ∨ b = 5#3 ∨ (b ≠ 4#3 ∧ b ≠ 5#3) := by
      by_cases h4 : b = 4#3
      · exact .inl h4
      · by_cases h5 : b = 5#3
        · exact .inr (.inl h5)
        · exact .inr (.inr ⟨h4, h5⟩)
    cases ent with
    | some e =>
      cases index with
      | none =>
        rcases hbb with rfl | rfl | ⟨h4, h5⟩ <;>
        simp [encModAm, Addr.mem, modrm, take8, byte, fields_word, fields_sib, hw, hw', *]
      | some i =>
        have hi : i ≠ 4#3 := fun h => hidx (congrArg some h)
        simp [encModAm, Addr.mem, modrm, take8, byte, fields_word, fields_sib, hw, hw', hi]
    | none =>
      by_cases ho : off = 0#32
      · subst ho
        cases index with
        | none =>
          rcases hbb with rfl | rfl | ⟨h4, h5⟩ <;>
          simp [encModAm, Addr.mem, modrm, take8, byte, fields_ind, fields_byte', fields_sib, hz,
            hb8, Imm.val, *]
        | some i =>
          have hi : i ≠ 4#3 := fun h => hidx (congrArg some h)
          rcases hbb with rfl | rfl | ⟨h4, h5⟩ <;>
          simp [encModAm, Addr.mem, modrm, take8, byte, fields_ind, fields_byte', fields_sib, hz,
            hb8, Imm.val, *]
      · by_cases h8 : is8bitVal off = true
        · have hs := sext8 h8
          cases index with
          | none =>
            rcases hbb with rfl | rfl | ⟨h4, h5⟩ <;>
            simp [encModAm, Addr.mem, modrm, take8, byte, fields_byte, fields_sib, hb8, hs,
              Imm.val, *]
          | some i =>
            have hi : i ≠ 4#3 := fun h => hidx (congrArg some h)
            simp [encModAm, Addr.mem, modrm, take8, byte, fields_byte, fields_sib, hb8, hs,
              Imm.val, *]
        · cases index with
          | none =>
            rcases hbb with rfl | rfl | ⟨h4, h5⟩ <;>
            simp [encModAm, Addr.mem, modrm, take8, byte, fields_word, fields_sib, hw, hw', *]
          | some i =>
            have hi : i ≠ 4#3 := fun h => hidx (congrArg some h)
            simp [encModAm, Addr.mem, modrm, take8, byte, fields_word, fields_sib, hw, hw', *]

/-! ## Prefixes, immediate operands -/

/-- The sizes of the specification. -/
def sizeNum : Size → Nat
  | .b => SIZE_8 | .w => SIZE_16 | .d => SIZE_32

def pre (s : Size) : Prefix := { p66 := s == .w }

def plain (b : BitVec 8) : Bool := b != 0x66 && b != 0x65 && b != 0xF3

theorem decode_plain {b : BitVec 8} (h : plain b = true) (l : List Item) :
    decode (byte b :: l) = body {} b l := by
  simp only [plain, Bool.and_eq_true, bne_iff_ne, ne_eq] at h
  obtain ⟨⟨h1, h2⟩, h3⟩ := h
  simp only [decode, decodeP, byte, h1, h2, h3, if_false]

theorem decode_pre {b : BitVec 8} (h : plain b = true) (s : Size) (l : List Item) :
    decode (prefix16 (sizeNum s) ++ byte b :: l) = body (pre s) b l := by
  have h' := h
  simp only [plain, Bool.and_eq_true, bne_iff_ne, ne_eq] at h
  obtain ⟨⟨h1, h2⟩, h3⟩ := h
  cases s with
  | b => exact decode_plain h' l
  | d => exact decode_plain h' l
  | w =>
    simp only [prefix16, sizeNum, if_true, List.cons_append, List.nil_append, decode, byte]
    rw [decodeP, if_pos rfl, decodeP, if_neg h1, if_neg h2, if_neg h3]
    rfl

/-- The value of an immediate in an operation of a size. -/
def Imm.valS (i : Imm) (s : Size) : Value :=
  match i.entity with
  | none => .num (low s i.offset)
  | some e => .sym i.kind e i.offset

theorem takeImm_encImm (i : Imm) (s : Size) (h : s = .d ∨ i.entity = none) :
    ∃ out, encImm i (sizeNum s) = some out ∧
      ∀ l, takeImm s (out ++ l) = some (i.valS s, l) := by
  cases s with
  | b =>
    have h : i.entity = none := by rcases h with h | h; cases h; exact h
    exact ⟨_, rfl, fun l => by
      simp [takeImm, take8, byte, Imm.valS, h, low]⟩
  | w =>
    have h : i.entity = none := by rcases h with h | h; cases h; exact h
    refine ⟨_, rfl, fun l => ?_⟩
    simp [takeImm, take16_emit16, Imm.valS, h, low]
  | d =>
    refine ⟨_, rfl, fun l => ?_⟩
    simp only [takeImm, take32_reloc]
    simp [Imm.valS, Imm.val, low]

theorem takeImm8s_byte {i : Imm} (h : is8bitImm i = true) (s : Size) (l : List Item) :
    takeImm8s s (byte (i.offset.setWidth 8) :: l) = some (i.valS s, l) := by
  simp only [is8bitImm, Bool.and_eq_true, Option.isNone_iff_eq_none] at h
  simp [takeImm8s, take8, byte, Imm.valS, h.1, sext8 h.2]

/-! ## ModR/M operands of a node -/

/-- The operand that is a register or the address of the node. -/
def Node.rm (n : Node) (r : BitVec 3) : Rm := if n.normal then .reg r else .mem (n.addr.mem false)

theorem modrm_unop (n : Node) (ext inp : BitVec 3) (h : n.addr.index ≠ some 4) (l : List Item) :
    modrm false ((if n.normal then encModru inp ext else encModAm ext n.addr) ++ l) =
      some (ext, n.rm inp, l) := by
  unfold Node.rm
  cases n.normal with
  | true => exact modrm_ru ..
  | false => exact modrm_am false ext n.addr h l

theorem modrm_binop (n : Node) (src : BitVec 3) (h : n.addr.index ≠ some 4) (l : List Item) :
    modrm false ((if n.normal then encModrr src n.left else encModAm n.left n.addr) ++ l) =
      some (n.left, n.rm src, l) := by
  unfold Node.rm
  cases n.normal with
  | true => exact modrm_rr ..
  | false => exact modrm_am false n.left n.addr h l

/-! ## Opcodes -/

theorem form_rm : ∀ c : BitVec 3,
    (form (c.setWidth 8 <<< 3 ||| OP_MEM_SRC ||| OP_8) = some (.aluRM c false) ∧
     plain (c.setWidth 8 <<< 3 ||| OP_MEM_SRC ||| OP_8) = true) ∧
    (form (c.setWidth 8 <<< 3 ||| OP_MEM_SRC ||| OP_16_32) = some (.aluRM c true) ∧
     plain (c.setWidth 8 <<< 3 ||| OP_MEM_SRC ||| OP_16_32) = true) := by
  decide +kernel

theorem form_mr : ∀ c : BitVec 3,
    (form (c.setWidth 8 <<< 3 ||| OP_8) = some (.aluMR c false) ∧
     plain (c.setWidth 8 <<< 3 ||| OP_8) = true) ∧
    (form (c.setWidth 8 <<< 3 ||| OP_16_32) = some (.aluMR c true) ∧
     plain (c.setWidth 8 <<< 3 ||| OP_16_32) = true) := by
  decide +kernel

theorem form_ai : ∀ c : BitVec 3,
    (form (c.setWidth 8 <<< 3 ||| OP_EAX ||| OP_8) = some (.aluAI c false) ∧
     plain (c.setWidth 8 <<< 3 ||| OP_EAX ||| OP_8) = true) ∧
    (form (c.setWidth 8 <<< 3 ||| OP_EAX ||| OP_16_32) = some (.aluAI c true) ∧
     plain (c.setWidth 8 <<< 3 ||| OP_EAX ||| OP_16_32) = true) := by
  decide +kernel

/-- Opcodes with a register in the low three bits. -/
theorem form_low : ∀ r : BitVec 3,
    (form (0x40 + r.setWidth 8) = some .inc ∧ plain (0x40 + r.setWidth 8) = true ∧
      (0x40 + r.setWidth 8 : BitVec 8).extractLsb' 0 3 = r) ∧
    (form (0x48 + r.setWidth 8) = some .dec ∧ plain (0x48 + r.setWidth 8) = true ∧
      (0x48 + r.setWidth 8 : BitVec 8).extractLsb' 0 3 = r) ∧
    (form (0x50 + r.setWidth 8) = some .push ∧ plain (0x50 + r.setWidth 8) = true ∧
      (0x50 + r.setWidth 8 : BitVec 8).extractLsb' 0 3 = r) ∧
    (form (0x58 + r.setWidth 8) = some .pop ∧ plain (0x58 + r.setWidth 8) = true ∧
      (0x58 + r.setWidth 8 : BitVec 8).extractLsb' 0 3 = r) ∧
    (form (0xB8 + r.setWidth 8) = some .movRI ∧ plain (0xB8 + r.setWidth 8) = true ∧
      (0xB8 + r.setWidth 8 : BitVec 8).extractLsb' 0 3 = r) ∧
    (r ≠ 0 → form (0x90 + r.setWidth 8) = some .xchgA ∧ plain (0x90 + r.setWidth 8) = true ∧
      (0x90 + r.setWidth 8 : BitVec 8).extractLsb' 0 3 = r) := by
  decide +kernel

theorem form2_low : ∀ cc : BitVec 8,
    (form2 (0x90 ||| pnc2cc cc) = some .setcc ∧
      (0x90 ||| pnc2cc cc : BitVec 8).extractLsb' 0 4 = cc.setWidth 4) ∧
    (form2 (0x40 ||| pnc2cc cc) = some .cmov ∧
      (0x40 ||| pnc2cc cc : BitVec 8).extractLsb' 0 4 = cc.setWidth 4) ∧
    (form2 (0x80 + pnc2cc cc) = some .jcc ∧
      (0x80 + pnc2cc cc : BitVec 8).extractLsb' 0 4 = cc.setWidth 4) := by
  decide +kernel

theorem regOf_b : ∀ r : BitVec 3, r.toNat < 4 → regOf .b r = .low (r.setWidth 2) := by
  decide +kernel

theorem named_regOf {s : Size} {r : BitVec 3} {x : Reg} (h : named s false r = some x) :
    regOf s r = x := by
  cases s with
  | b =>
    simp only [named, Bool.false_eq_true, if_false, Option.ite_none_right_eq_some,
      Option.some.injEq] at h
    rw [regOf_b r h.1, h.2]
  | w => simpa [named, regOf] using h
  | d => simpa [named, regOf] using h

theorem size_pre (s : Size) : (pre s).size (s != .b) = s := by cases s <;> rfl

theorem pre_gs (s : Size) : (pre s).gs = false := rfl

end Verif.Model.Ia32
