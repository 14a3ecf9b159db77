import Verif.Lemmas.BackendImm
import Verif.Spec.DoubleWord
import Mathlib.Tactic.Ring
/-!
# Properties: constants and offsets in the backends (C93 to C97)
-/
namespace Verif.Props.BackendImm
open Verif.Spec Verif.Spec.Machine Verif.Model Verif.Model.BackendImm Verif.Lemmas.BackendImm

/-! ## C93: RISC-V -/

/-- the instructions for a constant compute it, fit into their fields, and there are at most two -/
theorem riscv_const (val : Word) (env : Nat → Word) :
    (rvConst val).eval env = val ∧ (rvConst val).ok ∧ (rvConst val).size ≤ 2 := by
  unfold rvConst
  split
  · rename_i h
    exact ⟨h.symm, trivial, by decide⟩
  · exact ⟨rvConstFromImm_eval val env, rvConstFromImm_ok val, rvConstFromImm_size val⟩

/-- one instruction suffices whenever there is one: values of twelve bits and multiples of 4096 -/
theorem riscv_const_short (val : Word) (h : (-2048 ≤ val.toInt ∧ val.toInt < 2048) ∨ val.toNat % 4096 = 0) :
    (rvConst val).size ≤ 1 := by
  unfold rvConst
  split
  · decide
  · unfold rvConstFromImm
    have hz := calcHiLo_zero val
    rw [isSimm12_iff] at hz
    obtain ⟨hi, lo, e, h1, h2, h3, h4, h5⟩ := calcHiLo_spec val
    rw [e] at hz ⊢
    simp only at hz ⊢
    rcases h with h | h
    · rw [hz.2 h]
      by_cases a : lo = 0 <;> simp [a, Rv.size]
    · have : lo = 0 := by omega
      rw [this]
      by_cases a : hi = 0 <;> simp [a, Rv.size]

example : rvConst 0x12345fff#32 = Rv.addi (Rv.lui 0x12346) (-1) ∧ rvConst 0xfffff800#32 = Rv.addi Rv.zero (-2048) ∧
    rvConst 0x7ffff800#32 = Rv.addi (Rv.lui 0x80000) (-2048) := by decide

/-- address of a frame entity -/
theorem riscv_frame_addr (base : Rv) (offset : Word) (env : Nat → Word) (hb : base.ok) :
    (rvFrameAddr base offset).eval env = base.eval env + offset ∧ (rvFrameAddr base offset).ok := by
  unfold rvFrameAddr
  by_cases h : isSimm12 offset = true
  · simp only [h, Bool.not_true, Bool.false_eq_true, if_false, Rv.eval, Rv.ok, ofInt_toInt]
    exact ⟨trivial, hb, (isSimm12_iff _).1 h⟩
  · simp only [h, Bool.not_false, if_true, Rv.eval, Rv.ok, rvConstFromImm_eval]
    exact ⟨trivial, hb, rvConstFromImm_ok offset⟩

/-- address of a load or store: the node never becomes its own operand, base and immediate give the address -/
theorem riscv_load_store (base : Rv) (offset : Word) (env : Nat → Word) (hb : base.ok) :
    ∃ base' imm, rvLoadStore base offset = some (base', imm) ∧ (Rv.addi base' imm).ok ∧
      (Rv.addi base' imm).eval env = base.eval env + offset := by
  unfold rvLoadStore
  by_cases h : isSimm12 offset = true
  · simp only [h, Bool.not_true, Bool.false_eq_true, if_false]
    refine ⟨_, _, rfl, ⟨hb, (isSimm12_iff _).1 h⟩, ?_⟩
    rw [Rv.eval, ofInt_toInt]
  · have hz := mt (calcHiLo_zero offset).1 h
    obtain ⟨hi, lo, e, h1, h2, h3, h4, h5⟩ := calcHiLo_spec offset
    rw [e] at hz ⊢
    simp only [h, Bool.not_false, if_true]
    rw [if_pos hz]
    refine ⟨_, _, rfl, ⟨⟨hb, h1, h2⟩, h3, h4⟩, ?_⟩
    simp only [Rv.eval]
    rw [BitVec.add_assoc]
    congr 1
    apply BitVec.eq_of_toNat_eq
    have e1 := ofInt_toNat (hi * 4096)
    have e2 := ofInt_toNat lo
    rw [BitVec.toNat_add]
    omega

example : rvLoadStore (Rv.reg 2) 5000#32 = some (Rv.add (Rv.reg 2) (Rv.lui 1), 904) := by decide

/-- change of the stack pointer -/
theorem riscv_incsp (sp : Rv) (offset : Int) (env : Nat → Word) (hs : sp.ok) (h1 : -(2 ^ 31) < offset) (h2 : offset < 2 ^ 31) :
    ∃ e, rvIncSP sp offset = some e ∧ e.ok ∧ e.eval env = sp.eval env - BitVec.ofInt 32 offset := by
  have hneg : BitVec.ofInt 32 (-offset) = -BitVec.ofInt 32 offset := BitVec.ofInt_neg ..
  unfold rvIncSP
  rw [if_neg (by omega)]
  simp only
  by_cases h : isSimm12 (BitVec.ofInt 32 (-offset)) = true
  · simp only [h, Bool.not_true, Bool.false_eq_true, if_false, if_true]
    split
    · rename_i h0
      refine ⟨_, rfl, hs, ?_⟩
      rw [BitVec.sub_eq_add_neg, ← hneg, h0, BitVec.add_zero]
    · refine ⟨_, rfl, ⟨hs, (isSimm12_iff _).1 h⟩, ?_⟩
      rw [Rv.eval, ofInt_toInt, hneg, BitVec.sub_eq_add_neg]
  · simp only [h, Bool.not_false, if_true]
    refine ⟨_, rfl, ⟨hs, rvConstFromImm_ok _⟩, ?_⟩
    rw [Rv.eval, rvConstFromImm_eval, hneg, BitVec.sub_eq_add_neg]

theorem aligned_ge (size : Word) (h : size.toNat ≤ 2 ^ 32 - 16) :
    (rvAligned size).toNat = (size.toNat + 15) / 16 * 16 := by
  unfold rvAligned
  have h1 : (size + 15#32).toNat = size.toNat + 15 := by
    rw [BitVec.toNat_add, Nat.mod_eq_of_lt (by simp; omega)]
    rfl
  apply Nat.eq_of_testBit_eq
  intro i
  have e : ((size + 15#32) &&& ~~~15#32).toNat.testBit i = ((size + 15#32) &&& ~~~15#32).getLsbD i := rfl
  rw [e, BitVec.getLsbD_and]
  have e2 : (size.toNat + 15) / 16 * 16 = 2 ^ 4 * ((size + 15#32).toNat / 2 ^ 4) := by
    rw [h1, Nat.mul_comm]; rfl
  rw [e2, Nat.testBit_two_pow_mul, Nat.testBit_div_two_pow]
  have e3 : (size + 15#32).getLsbD i = (size + 15#32).toNat.testBit i := rfl
  by_cases hi : i < 4
  · have : (~~~15#32).getLsbD i = false := by
      have : ∀ i < 4, (~~~15#32).getLsbD i = false := by decide
      exact this i hi
    rw [this, decide_eq_false (by omega)]
    simp
  · rw [decide_eq_true (by omega), e3, show i - 4 + 4 = i by omega]
    by_cases hi2 : i < 32
    · have : (~~~15#32).getLsbD i = true := by
        have : ∀ i < 32, 4 ≤ i → (~~~15#32).getLsbD i = true := by decide
        exact this i hi2 (by omega)
      rw [this]
      simp
    · have : (size + 15#32).toNat.testBit i = false := by
        apply Nat.testBit_lt_two_pow
        exact Nat.lt_of_lt_of_le (size + 15#32).isLt (Nat.pow_le_pow_right (by decide) (by omega))
      rw [this]
      simp

/-- prologue with a frame pointer: after the stack pointer was lowered by the aligned size, the old frame pointer is
stored at a fixed distance from the old stack pointer, and the new frame pointer is the old stack pointer.  The
epilogue loads it with the same distance from the frame pointer (ir/be/riscv/riscv_bearch.c:312-335). -/
theorem riscv_prologue (sp : Rv) (size : Word) (variadic : Bool) (env : Nat → Word) (old : Word) (hs : sp.ok)
    (hsz : size.toNat ≤ 2 ^ 31) (hsp : sp.eval env = old - rvAligned size) :
    let r := rvPrologue sp size variadic
    r.2.eval env = old ∧ r.2.ok ∧ (Rv.addi r.1.1 r.1.2).ok ∧
      (Rv.addi r.1.1 r.1.2).eval env = old + BitVec.ofInt 32 (rvFpSave variadic) := by
  have hcancel : old - rvAligned size + rvAligned size = old := BitVec.sub_add_cancel ..
  have ha := aligned_ge size (by omega)
  have ht := toInt_cases (rvAligned size)
  unfold rvPrologue
  simp only
  by_cases h : isSimm12 (rvAligned size) = true
  · simp only [h, Bool.not_true, Bool.false_eq_true, if_false, Rv.eval, Rv.ok, ofInt_toInt, hsp]
    rw [isSimm12_iff] at h
    have hf : rvFpSave variadic = -36 ∨ rvFpSave variadic = -4 := by
      cases variadic
      · exact Or.inr rfl
      · exact Or.inl rfl
    refine ⟨hcancel, ⟨hs, h.1, h.2⟩, ⟨hs, by omega, by omega⟩, ?_⟩
    rw [BitVec.ofInt_add, ofInt_toInt, ← BitVec.add_assoc, hcancel]
  · simp only [h, Bool.not_false, if_true, Rv.eval, Rv.ok, rvConstFromImm_eval, hsp]
    refine ⟨hcancel, ⟨hs, rvConstFromImm_ok _⟩, ⟨⟨hs, rvConstFromImm_ok _⟩, ?_⟩, ?_⟩
    · cases variadic <;> decide
    · rw [hcancel]

/-- merged shifts -/
theorem riscv_shift (e : Rv) (env : Nat → Word) (h : e.ok) : (rvShift e).eval env = e.eval env ∧ (rvShift e).ok := by
  unfold rvShift isUimm5
  split
  · split
    · rename_i hc
      simp only [Bool.and_eq_true, decide_eq_true_eq] at hc
      obtain ⟨⟨h1, h2, h3⟩, h4, h5⟩ := h
      refine ⟨?_, h1, hc.1, hc.2⟩
      simp only [Rv.eval]
      rw [← BitVec.shiftRight_add]
      congr 1
      omega
    · exact ⟨rfl, h⟩
  · split
    · rename_i hc
      simp only [Bool.and_eq_true, decide_eq_true_eq] at hc
      obtain ⟨⟨h1, h2, h3⟩, h4, h5⟩ := h
      refine ⟨?_, h1, hc.1, hc.2⟩
      simp only [Rv.eval]
      rw [← BitVec.sshiftRight_add]
      congr 1
      omega
    · exact ⟨rfl, h⟩
  · split
    · rename_i hc
      simp only [Bool.and_eq_true, decide_eq_true_eq] at hc
      obtain ⟨⟨h1, h2, h3⟩, h4, h5⟩ := h
      refine ⟨?_, h1, hc.1, hc.2⟩
      simp only [Rv.eval]
      rw [← BitVec.shiftLeft_add]
      congr 1
      omega
    · exact ⟨rfl, h⟩
  · exact ⟨rfl, h⟩

example : rvShift (Rv.srai (Rv.srai (Rv.reg 5) 20) 11) = Rv.srai (Rv.reg 5) 31 ∧
    rvShift (Rv.srai (Rv.srai (Rv.reg 5) 20) 12) = Rv.srai (Rv.srai (Rv.reg 5) 20) 12 := by decide

/-- one more, unless the value is the largest one -/
def SatInc (x y : Word) : Prop := y.toNat = if x.toNat = 2 ^ 32 - 1 then x.toNat else x.toNat + 1

theorem sat_inc (x : Word) : SatInc x (x + if x.toNat < (BitVec.ofInt 32 (-1)).toNat then 1#32 else 0#32) := by
  have hx := x.isLt
  have : (BitVec.ofInt 32 (-1)).toNat = 2 ^ 32 - 1 := by decide
  unfold SatInc
  rw [this, BitVec.toNat_add]
  by_cases h : x.toNat < 2 ^ 32 - 1
  · rw [if_pos h, if_neg (by omega)]
    have : (1#32).toNat = 1 := rfl
    omega
  · rw [if_neg h, if_pos (by omega)]
    have : (0#32).toNat = 0 := rfl
    omega

theorem riscv_sat_inc (e : Rv) (env : Nat → Word) : SatInc (e.eval env) ((rvSatInc e).eval env) := sat_inc _

/-! ## C94: MIPS and SPARC -/

/-- a constant of a 32 bit mode, given as a `long` -/
theorem mips_const (val : Int) (env : Nat → Word) (h1 : -(2 ^ 31) ≤ val) (h2 : val < 2 ^ 32) :
    (mipsConst val).eval env = BitVec.ofInt 32 val ∧ (mipsConst val).ok ∧ (mipsConst val).size ≤ 2 := by
  unfold mipsConst
  by_cases h0 : val = 0
  · rw [if_pos h0, h0]; exact ⟨rfl, trivial, by decide⟩
  rw [if_neg h0]
  by_cases hs : isSimm16 val = true
  · rw [if_pos hs]
    simp only [isSimm16, Bool.and_eq_true, decide_eq_true_eq] at hs
    refine ⟨?_, ⟨trivial, hs.1, hs.2⟩, Nat.le_succ 1⟩
    simp [Mips.eval]
  rw [if_neg hs]
  have ev := ofInt_toNat val
  have e1 : (BitVec.ofInt 32 val >>> 16).toNat = (BitVec.ofInt 32 val).toNat / 65536 := by
    rw [BitVec.toNat_ushiftRight, Nat.shiftRight_eq_div_pow]
  have e2 : (BitVec.ofInt 64 val &&& 0xFFFF#64).toNat = (BitVec.ofInt 64 val).toNat % 65536 := by
    rw [BitVec.toNat_and]
    have : (0xFFFF#64).toNat = 2 ^ 16 - 1 := rfl
    rw [this, Nat.and_two_pow_sub_one_eq_mod]
  have e3 : ((BitVec.ofInt 64 val).toNat : Int) = val % 2 ^ 64 := by
    rw [BitVec.toNat_ofInt]; omega
  have t1 := toInt_cases (BitVec.ofInt 32 val >>> 16)
  have t2 : (BitVec.ofInt 64 val &&& 0xFFFF#64).toInt = (BitVec.ofInt 64 val &&& 0xFFFF#64).toNat := by
    rw [BitVec.toInt_eq_toNat_cond, if_pos (by omega)]
  simp only
  generalize hH : (BitVec.ofInt 32 val >>> 16).toInt = H at *
  generalize hL : (BitVec.ofInt 64 val &&& 0xFFFF#64).toInt = L at *
  have hv := (BitVec.ofInt 32 val).isLt
  generalize hN : (BitVec.ofInt 32 val).toNat = N at *
  have hHr : 0 ≤ H ∧ H < 65536 ∧ H = (N / 65536 : Nat) := by omega
  have hLr : 0 ≤ L ∧ L < 65536 ∧ L = (N % 65536 : Nat) := by omega
  have e4 := ofInt_toNat (H * 65536)
  have e5 := ofInt_toNat L
  have e6 : (BitVec.ofInt 32 (H * 65536)).toNat = N / 65536 * 2 ^ 16 := by omega
  have e7 : (BitVec.ofInt 32 L).toNat = N % 65536 := by omega
  have hor : N / 65536 * 2 ^ 16 ||| N % 65536 = N / 65536 * 2 ^ 16 + N % 65536 := or_low (by omega)
  refine ⟨?_, ?_, ?_⟩
  · apply BitVec.eq_of_toNat_eq
    rw [hN]
    by_cases a : H = 0 <;> by_cases b : L = 0 <;>
      simp only [a, b, ne_eq, not_true_eq_false, not_false_eq_true, if_true, if_false, Mips.eval, BitVec.toNat_or, e6, e7, hor]
    · simp; omega
    · simp; omega
    · omega
    · omega
  · by_cases a : H = 0 <;> by_cases b : L = 0 <;> simp [a, b, Mips.ok] <;> omega
  · by_cases a : H = 0 <;> by_cases b : L = 0 <;> simp [a, b, Mips.size]

example : mipsConst 0xFFFF8000 = Mips.ori (Mips.lui 0xFFFF) 0x8000 ∧ mipsConst (-32768) = Mips.addiu Mips.zero (-32768) ∧
    mipsConst 32768 = Mips.ori Mips.zero 32768 := by decide

theorem mips_add (e : Mips) (val : Int) (env : Nat → Word) (he : e.ok) (h1 : -(2 ^ 31) ≤ val) (h2 : val < 2 ^ 32) :
    (mipsAdd e val).eval env = e.eval env + BitVec.ofInt 32 val ∧ (mipsAdd e val).ok := by
  unfold mipsAdd
  split
  · rename_i h
    simp only [isSimm16, Bool.and_eq_true, decide_eq_true_eq] at h
    exact ⟨rfl, he, h⟩
  · obtain ⟨a, b, -⟩ := mips_const val env h1 h2
    exact ⟨by rw [Mips.eval, a], he, b⟩

/-- `andi`, `ori` and `xori` are only used with constants that survive the zero extension -/
theorem mips_logic (e : Mips) (val : Int) (env : Nat → Word) (he : e.ok) :
    (∀ r, mipsLogicImm Mips.andi e val = some r → r.ok ∧ r.eval env = e.eval env &&& BitVec.ofInt 32 val) ∧
    (∀ r, mipsLogicImm Mips.ori e val = some r → r.ok ∧ r.eval env = e.eval env ||| BitVec.ofInt 32 val) ∧
    (∀ r, mipsLogicImm Mips.xori e val = some r → r.ok ∧ r.eval env = e.eval env ^^^ BitVec.ofInt 32 val) := by
  unfold mipsLogicImm
  by_cases h : isUimm16 val = true
  · simp only [isUimm16, Bool.and_eq_true, decide_eq_true_eq] at h
    simp only [isUimm16, h.1, h.2, decide_true, Bool.and_self, if_true, Option.some.injEq]
    refine ⟨?_, ?_, ?_⟩ <;> rintro r rfl <;> exact ⟨⟨he, h.1, h.2⟩, rfl⟩
  · simp [h]

theorem mips_sat_inc (e : Mips) (env : Nat → Word) : SatInc (e.eval env) ((mipsSatInc e).eval env) := sat_inc _

theorem sparc_const (v : Word) (env : Nat → Word) : (sparcConst v).eval env = v ∧ (sparcConst v).ok := by
  unfold sparcConst
  by_cases h0 : v = 0#32
  · rw [if_pos h0, h0]; exact ⟨rfl, trivial⟩
  rw [if_neg h0]
  by_cases h : sparcImm v.toInt = true
  · rw [if_pos h]
    refine ⟨?_, trivial, (sparcImm_iff _).1 h⟩
    simp [Sparc.eval]
  · rw [if_neg h]
    exact ⟨sparcConstFromImm_eval v env, sparcConstFromImm_ok v⟩

example : sparcConst 0xfffff000#32 = Sparc.orImm Sparc.g0 (-4096) ∧
    sparcConst 0x12345678#32 = Sparc.orImm (Sparc.sethi 0x12345678#32) 0x278 ∧
    sparcConst 0x1000#32 = Sparc.sethi 0x1000#32 := by decide

theorem sparc_base_offset (base : Sparc) (offset : Word) (env : Nat → Word) (hb : base.ok) :
    (sparcBaseOffset base offset).eval env = base.eval env + offset ∧ (sparcBaseOffset base offset).ok := by
  unfold sparcBaseOffset
  by_cases h : sparcImm offset.toInt = true
  · simp only [h, Bool.not_true, Bool.false_eq_true, if_false, Sparc.eval, Sparc.ok, ofInt_toInt]
    exact ⟨trivial, hb, (sparcImm_iff _).1 h⟩
  · simp only [h, Bool.not_false, if_true, Sparc.eval, Sparc.ok, sparcConstFromImm_eval]
    exact ⟨trivial, hb, sparcConstFromImm_ok _⟩

/-- change of the stack pointer, in particular by 4096, which fits only with the other sign -/
theorem sparc_incsp (sp : Sparc) (offset : Int) (env : Nat → Word) (hs : sp.ok) (h1 : -(2 ^ 31) < offset)
    (h2 : offset < 2 ^ 31) :
    ∃ e, sparcIncSP sp offset = some e ∧ e.ok ∧ e.eval env = sp.eval env - BitVec.ofInt 32 offset := by
  unfold sparcIncSP
  rw [if_neg (by omega)]
  by_cases hc : (!sparcImm offset && !sparcImm (-offset)) = true
  · rw [if_pos hc]
    refine ⟨_, rfl, ⟨hs, sparcConstFromImm_ok _⟩, ?_⟩
    rw [Sparc.eval, sparcConstFromImm_eval]
  · rw [if_neg hc]
    have hr : -4096 ≤ offset ∧ offset ≤ 4096 := by
      have a := sparcImm_iff offset
      have b := sparcImm_iff (-offset)
      cases ha : sparcImm offset <;> cases hb : sparcImm (-offset)
      · simp [ha, hb] at hc
      · have := b.1 hb; omega
      · have := a.1 ha; omega
      · have := a.1 ha; omega
    by_cases h0 : offset = 0
    · rw [if_pos h0, h0]
      exact ⟨_, rfl, hs, by simp⟩
    · rw [if_neg h0]
      by_cases hp : offset > 0
      · rw [if_pos hp]
        refine ⟨_, rfl, ⟨hs, by omega, by omega⟩, ?_⟩
        rw [Sparc.eval, BitVec.ofInt_neg, BitVec.sub_eq_add_neg]
      · rw [if_neg hp]
        exact ⟨_, rfl, ⟨hs, by omega, by omega⟩, rfl⟩

example : sparcIncSP (Sparc.reg 14) 4096 = some (Sparc.addImm (Sparc.reg 14) (-4096)) ∧
    sparcIncSP (Sparc.reg 14) (-4096) = some (Sparc.subImm (Sparc.reg 14) (-4096)) := by decide

theorem sparc_add (e : Sparc) (v : Word) (env : Nat → Word) (he : e.ok) :
    (sparcAdd e v).eval env = e.eval env + v ∧ (sparcAdd e v).ok := by
  unfold sparcAdd
  by_cases h0 : v = 0x1000#32
  · rw [if_pos h0, h0]
    refine ⟨?_, he, by decide, by decide⟩
    rw [Sparc.eval, BitVec.sub_eq_add_neg]
    congr 1
  rw [if_neg h0]
  by_cases h : sparcImm v.toInt = true
  · rw [if_pos h]
    refine ⟨?_, he, (sparcImm_iff _).1 h⟩
    rw [Sparc.eval, ofInt_toInt]
  · rw [if_neg h]
    obtain ⟨a, b⟩ := sparc_const v env
    exact ⟨by rw [Sparc.eval, a], he, b⟩

/-- what the bit operations compute -/
def bitOp : BitOp → Word → Word → Word
  | .and, x, y => x &&& y
  | .or, x, y => x ||| y
  | .xor, x, y => x ^^^ y

theorem sparc_bitop_const (op : BitOp) (e r : Sparc) (v : Word) (env : Nat → Word) (he : e.ok)
    (h : sparcBitopConst op e v = some r) : r.ok ∧ r.eval env = bitOp op (e.eval env) v := by
  unfold sparcBitopConst at h
  split at h
  · rename_i hc
    cases h
    simp only [Bool.and_eq_true, decide_eq_true_eq] at hc
    have hlow : (~~~ v).toNat % 1024 = 0 := by rw [← and_3ff, hc.2]; rfl
    have hse : (Sparc.sethi (~~~ v)).eval env = ~~~ v := by
      apply BitVec.eq_of_toNat_eq
      rw [Sparc.eval, BitVec.toNat_ofNat]
      have := (~~~ v).isLt
      omega
    cases op
    · refine ⟨⟨he, trivial⟩, ?_⟩
      simp only [BitOp.notReg, Sparc.eval, bitOp]
      simp only [Sparc.eval] at hse
      rw [hse, BitVec.not_not]
    · refine ⟨⟨he, trivial⟩, ?_⟩
      simp only [BitOp.notReg, Sparc.eval, bitOp]
      simp only [Sparc.eval] at hse
      rw [hse, BitVec.not_not]
    · refine ⟨⟨he, trivial⟩, ?_⟩
      simp only [BitOp.notReg, Sparc.eval, bitOp]
      simp only [Sparc.eval] at hse
      rw [hse]
      apply BitVec.eq_of_getLsbD_eq
      intro i hi
      simp [hi]
  · exact nomatch h

example : sparcBitopConst .xor (Sparc.reg 8) 0x123457ff#32 = some (Sparc.xnorReg (Sparc.reg 8) (Sparc.sethi (~~~ 0x123457ff#32))) := by
  decide

/-! ## C95: ARM, operands -/

/-- a word is split into at most four operands of eight bits with even rotation, whose sum is the word; nothing
is written past the arrays and the loops end -/
theorem arm_vals (value : Word) :
    ∃ l, armVals value = some l ∧ l ≠ [] ∧ l.length ≤ 4 ∧ (∀ q ∈ l, ArmField q.1 q.2) ∧
      l.foldl (fun s q => s + armImm q.1 q.2) 0#32 = value := by
  by_cases h0 : value.toNat = 0
  · have : value = 0#32 := BitVec.eq_of_toNat_eq h0
    subst this
    refine ⟨_, armVals_zero, by simp, by simp, ?_, by decide⟩
    intro q hq
    rw [List.mem_singleton.1 hq]
    exact ⟨by decide, by decide, by decide⟩
  · obtain ⟨l, h1, h2, h3⟩ := armVals_parts value (by omega)
    refine ⟨l, h1, h3, ?_, h2.field, ?_⟩
    · rcases h2.length with h | h
      · omega
      · exact absurd h h3
    · have key : ∀ (l : List (Nat × Nat)) (e : Arm),
          (l.foldl (fun e p => Arm.add e p.1 p.2) e).eval (fun _ => 0#32) =
            l.foldl (fun s q => s + armImm q.1 q.2) (e.eval fun _ => 0#32) := by
        intro l
        induction l with
        | nil => intro e; rfl
        | cons q l ih => intro e; rw [List.foldl_cons, List.foldl_cons, ih]; rfl
      have := key l (Arm.reg 0)
      rw [h2.add] at this
      simp only [Arm.eval] at this
      rw [← this]
      simp

theorem ok_foldl {f : Arm → Nat × Nat → Arm} (hf : ∀ e p, e.ok → ArmField p.1 p.2 → (f e p).ok) (l : List (Nat × Nat)) :
    ∀ e : Arm, e.ok → (∀ q ∈ l, ArmField q.1 q.2) → (l.foldl f e).ok := by
  induction l with
  | nil => intro e he _; exact he
  | cons q l ih =>
    intro e he hq
    rw [List.foldl_cons]
    exact ih _ (hf _ _ he (hq q (by simp))) fun q' h => hq q' (by simp [h])

/-- constants: the value is right, every operand is encodable, at most four instructions -/
theorem arm_const (value : Word) (env : Nat → Word) :
    ∃ e, armConst value = some e ∧ e.eval env = value ∧ e.ok ∧ e.size ≤ 4 := by
  have hsize : ∀ (f : Arm → Nat × Nat → Arm), (∀ e p, (f e p).size = e.size + 1) →
      ∀ (l : List (Nat × Nat)) (e : Arm), (l.foldl f e).size = e.size + l.length := by
    intro f hf l
    induction l with
    | nil => intro e; rfl
    | cons q l ih => intro e; rw [List.foldl_cons, ih, hf, List.length_cons]; omega
  obtain ⟨v, v1, v2, v3, v4, v5⟩ := arm_vals value
  obtain ⟨vn, n1, n2, n3, n4, n5⟩ := arm_vals (~~~ value)
  unfold armConst
  rw [v1, n1]
  simp only [Option.bind_eq_bind, Option.bind_some]
  by_cases hlt : vn.length < v.length
  · rw [if_pos hlt]
    have hne : 0 < (~~~ value).toNat ∨ (~~~ value) = 0#32 := by
      rcases Nat.eq_zero_or_pos (~~~ value).toNat with h | h
      · exact Or.inr (BitVec.eq_of_toNat_eq h)
      · exact Or.inl h
    cases vn with
    | nil => exact absurd rfl n2
    | cons q rest =>
      refine ⟨_, rfl, ?_, ?_, ?_⟩
      · rcases hne with h | h
        · obtain ⟨l, l1, l2, -⟩ := armVals_parts (~~~ value) h
          rw [n1] at l1
          cases l1
          generalize hS : (~~~ value).toNat = S at l2
          have hSlt : S < 2 ^ 32 := by rw [← hS]; exact (~~~ value).isLt
          cases l2 with
          | @cons _ p b s _ g1 g2 g3 g4 g5 g6 g7 =>
            have := g7.bic (Arm.mvn b ((32 - p) % 32)) env (a := b * 2 ^ p) (by
              rw [Nat.pow_add]
              have : b * 2 ^ p ≤ 255 * 2 ^ p := Nat.mul_le_mul_right _ (by omega)
              have := Nat.two_pow_pos p
              omega) hSlt (by rw [Arm.eval, armImm_shift g2 g6])
            rw [this, ← hS, BitVec.ofNat_toNat, BitVec.setWidth_eq, BitVec.not_not]
        · rw [h, armVals_zero] at n1
          cases n1
          have hv : value = ~~~ 0#32 := by rw [← h, BitVec.not_not]
          rw [hv]
          simp only [List.foldl_nil, Arm.eval]
          decide
      · exact ok_foldl (f := fun e p => Arm.bic e p.1 p.2) (fun e p h1 h2 => ⟨h1, h2⟩) _ _ (n4 q (by simp)) fun q' h => n4 q' (by simp [h])
      · rw [hsize _ (fun _ _ => rfl)]
        simp only [List.length_cons, Arm.size] at n3 ⊢
        omega
  · rw [if_neg hlt]
    cases v with
    | nil => exact absurd rfl v2
    | cons q rest =>
      refine ⟨_, rfl, ?_, ?_, ?_⟩
      · rcases Nat.eq_zero_or_pos value.toNat with h | h
        · have hz : value = 0#32 := BitVec.eq_of_toNat_eq h
          rw [hz, armVals_zero] at v1
          cases v1
          rw [hz]
          simp only [List.foldl_nil, Arm.eval]
          decide
        · obtain ⟨l, l1, l2, -⟩ := armVals_parts value h
          rw [v1] at l1
          cases l1
          generalize hS : value.toNat = S at l2
          have hSlt : S < 2 ^ 32 := by rw [← hS]; exact value.isLt
          cases l2 with
          | @cons _ p b s _ g1 g2 g3 g4 g5 g6 g7 =>
            have := g7.orr (Arm.mov b ((32 - p) % 32)) env (a := b * 2 ^ p) (by
              rw [Nat.pow_add]
              have : b * 2 ^ p ≤ 255 * 2 ^ p := Nat.mul_le_mul_right _ (by omega)
              have := Nat.two_pow_pos p
              omega) hSlt (by rw [Arm.eval, armImm_shift g2 g6])
            rw [this, ← hS, BitVec.ofNat_toNat, BitVec.setWidth_eq]
      · exact ok_foldl (f := fun e p => Arm.orr e p.1 p.2) (fun e p h1 h2 => ⟨h1, h2⟩) _ _ (v4 q (by simp)) fun q' h => v4 q' (by simp [h])
      · rw [hsize _ (fun _ _ => rfl)]
        simp only [List.length_cons, Arm.size] at v3 ⊢
        omega

example : armConst 0xFFFFFF00#32 = some (Arm.mvn 0xFF 0) ∧
    armConst 0x12345678#32 = some (Arm.orr (Arm.orr (Arm.orr (Arm.mov 0x9e 30) 0x15 22) 0x8d 14) 0x1 4) := by decide

/-- the emitter prints the value of the operand -/
theorem arm_emit (b r : Nat) (h : ArmField b r) : armEmitImm b r = armImm b r := armEmitImm_eq b h.2.1

/-- an operand that is chosen for a constant is encodable and stands for it -/
theorem arm_try_encode (val : Word) (b r : Nat) (h : tryEncodeVal val = some (b, r)) : ArmField b r ∧ armImm b r = val :=
  tryEncodeVal_sound h

/-- a constant that is built by a single `mov` is always used as operand directly; so the folding of a `mov` into the
second operand never meets a `mov` without a register (ir/be/arm/arm_transform.c:388-401) -/
theorem arm_single_mov_encoded (val : Word) (q : Nat × Nat) (h : armVals val = some [q]) : (tryEncodeVal val).isSome := by
  rcases Nat.eq_zero_or_pos val.toNat with h0 | h0
  · have : val = 0#32 := BitVec.eq_of_toNat_eq h0
    rw [this]
    decide
  · obtain ⟨l, l1, l2, -⟩ := armVals_parts val h0
    rw [h] at l1
    cases l1
    generalize hS : val.toNat = S at l2
    cases l2 with
    | @cons _ p b s _ g1 g2 g3 g4 g5 g6 g7 =>
      cases g7
      exact tryEncodeVal_complete g4 g3 (by rw [hS]; rfl)

/-- not every value that has an encoding is found: the rotated byte may not cross the word in the middle -/
theorem arm_try_encode_incomplete : ∃ val, ArmEncodable val ∧ tryEncodeVal val = none :=
  ⟨0xF000000F#32, ⟨0xFF, 4, ⟨by decide, by decide, by decide⟩, by decide⟩, by decide⟩

theorem arm_add_imm (e r : Arm) (val : Word) (env : Nat → Word) (he : e.ok) (h : armAdd e val = some r) :
    r.ok ∧ r.eval env = e.eval env + val := by
  unfold armAdd tryEncode at h
  simp only [Bool.false_eq_true, if_false, if_true] at h
  cases h1 : tryEncodeVal (-val) with
  | some p =>
    simp only [h1] at h
    cases h
    obtain ⟨a, b⟩ := tryEncodeVal_sound h1
    refine ⟨⟨he, a⟩, ?_⟩
    rw [Arm.eval, b, BitVec.sub_eq_add_neg, BitVec.neg_neg]
  | none =>
    simp only [h1] at h
    cases h2 : tryEncodeVal val with
    | some p =>
      simp only [h2] at h
      cases h
      obtain ⟨a, b⟩ := tryEncodeVal_sound h2
      exact ⟨⟨he, a⟩, by rw [Arm.eval, b]⟩
    | none => simp only [h2] at h; exact nomatch h

theorem arm_and_imm (e r : Arm) (val : Word) (env : Nat → Word) (he : e.ok) (h : armAnd e val = some r) :
    r.ok ∧ r.eval env = e.eval env &&& val := by
  unfold armAnd tryEncode at h
  simp only [Bool.false_eq_true, if_false, if_true] at h
  cases h1 : tryEncodeVal (~~~ val) with
  | some p =>
    simp only [h1] at h
    cases h
    obtain ⟨a, b⟩ := tryEncodeVal_sound h1
    refine ⟨⟨he, a⟩, ?_⟩
    rw [Arm.eval, b, BitVec.not_not]
  | none =>
    simp only [h1] at h
    cases h2 : tryEncodeVal val with
    | some p =>
      simp only [h2] at h
      cases h
      obtain ⟨a, b⟩ := tryEncodeVal_sound h2
      exact ⟨⟨he, a⟩, by rw [Arm.eval, b]⟩
    | none => simp only [h2] at h; exact nomatch h

/-- `cmp` with a constant and `cmn` with its negation set all flags as the comparison of the values does.  This needs
that `cmp` is tried first: for the constants 0 and `0x80000000` the flags would differ. -/
theorem arm_cmp (x val : Word) (f : Flags) (h : armCmp x val = some f) : f = subFlags x val := by
  unfold armCmp tryEncode at h
  simp only [Bool.false_eq_true, if_false, if_true] at h
  cases h1 : tryEncodeVal val with
  | some p =>
    simp only [h1] at h
    cases h
    rw [(tryEncodeVal_sound h1).2]
  | none =>
    simp only [h1] at h
    cases h2 : tryEncodeVal (-val) with
    | some p =>
      simp only [h2] at h
      cases h
      rw [(tryEncodeVal_sound h2).2]
      apply cmn_flags
      · intro e
        have : val = 0#32 := BitVec.eq_of_toNat_eq e
        rw [this] at h1
        revert h1; decide
      · intro e
        have : val = 0x80000000#32 := BitVec.eq_of_toNat_eq e
        rw [this] at h1
        revert h1; decide
    | none => simp only [h2] at h; exact nomatch h

example : armCmp 5#32 (-1#32) = some ⟨false, false, false, false⟩ ∧ addFlags 5#32 0x80000000#32 ≠ subFlags 5#32 0x80000000#32 := by
  decide

theorem arm_zero_ext (e : Arm) (bits : Nat) (env : Nat → Word) (he : e.ok) (hb : bits = 8 ∨ bits = 16) :
    ∃ r, armZeroExt e bits = some r ∧ r.ok ∧ (r.eval env).toNat = (e.eval env).toNat % 2 ^ bits := by
  rcases hb with rfl | rfl
  · refine ⟨_, rfl, ⟨he, by decide, by decide, by decide⟩, ?_⟩
    have h1 : armImm 0xFF 0 = 0xFF#32 := by decide
    rw [Arm.eval, h1, BitVec.toNat_and]
    have : (0xFF#32).toNat = 2 ^ 8 - 1 := rfl
    rw [this, Nat.and_two_pow_sub_one_eq_mod]
  · refine ⟨_, rfl, ⟨⟨he, by decide⟩, by decide, by decide⟩, ?_⟩
    simp only [Arm.eval]
    rw [BitVec.toNat_ushiftRight, BitVec.toNat_shiftLeft, Nat.shiftLeft_eq, Nat.shiftRight_eq_div_pow]
    omega

theorem arm_sign_ext (e : Arm) (bits : Nat) (env : Nat → Word) (he : e.ok) (h1 : 0 < bits) (h2 : bits < 32) :
    (armSignExt e bits).ok ∧ (armSignExt e bits).eval env = ((e.eval env).setWidth bits).signExtend 32 := by
  refine ⟨⟨⟨he, by omega⟩, by omega, by omega⟩, ?_⟩
  unfold armSignExt
  simp only [Arm.eval]
  generalize e.eval env = x
  apply BitVec.eq_of_getLsbD_eq
  intro i hi
  rw [BitVec.getLsbD_sshiftRight, BitVec.getLsbD_signExtend, BitVec.msb_shiftLeft]
  simp only [BitVec.getLsbD_shiftLeft, BitVec.getLsbD_setWidth, BitVec.getMsbD_eq_getLsbD, BitVec.msb_eq_getLsbD_last]
  by_cases hlt : i < bits
  · have e1 : 32 - bits + i < 32 := by omega
    have e2 : ¬ 32 - bits + i < 32 - bits := by omega
    have e3 : 32 - bits + i - (32 - bits) = i := by omega
    simp [hlt, hi, e1, e2, e3]
  · have e1 : ¬ 32 - bits + i < 32 := by omega
    have e4 : 32 - 1 - (32 - bits) = bits - 1 := by omega
    have e5 : bits - 1 < bits := by omega
    have e6 : 32 - bits < 32 := by omega
    simp [hlt, hi, e1, e4, e5, e6]

/-! ## C96: ARM, offsets -/

theorem ptr_sum (value : Word) (base : Arm) (env : Nat → Word) {l : List (Nat × Nat)} (h : armVals value = some l) :
    (genPtrAdd base l).eval env = base.eval env + value ∧ (genPtrSub base l).eval env = base.eval env - value := by
  rcases Nat.eq_zero_or_pos value.toNat with h0 | h0
  · have hz : value = 0#32 := BitVec.eq_of_toNat_eq h0
    rw [hz, armVals_zero] at h
    cases h
    have e : armImm 0 0 = 0#32 := by decide
    rw [hz]
    simp [genPtrAdd, genPtrSub, Arm.eval, e]
  · obtain ⟨l', h1, h2, -⟩ := armVals_parts value h0
    rw [h] at h1
    cases h1
    unfold genPtrAdd genPtrSub
    rw [h2.add, h2.sub]
    simp

theorem encodable_of_field {b r : Nat} (h : ArmField b r) : ArmEncodable (armImm b r) := ⟨b, r, h, rfl⟩

/-- address of a frame entity: base and remaining offset give the address, and the offset is encodable -/
theorem arm_frame_addr (base : Arm) (offset : Word) (env : Nat → Word) (hb : base.ok) :
    ∃ base' off', armFrameAddr base offset = some (base', off') ∧ base'.ok ∧ ArmEncodable off' ∧
      base'.eval env + off' = base.eval env + offset := by
  obtain ⟨l, h1, h2, h3, h4, h5⟩ := arm_vals offset
  unfold armFrameAddr
  rw [h1]
  simp only [Option.bind_eq_bind, Option.bind_some]
  by_cases hl : l.length ≤ 1
  · rw [if_pos hl]
    refine ⟨_, _, rfl, hb, ?_, rfl⟩
    match l, h2, hl with
    | [q], _, _ =>
      have : armImm q.1 q.2 = offset := by simpa using h5
      rw [← this]
      exact encodable_of_field (h4 q (by simp))
  · rw [if_neg hl]
    refine ⟨_, _, rfl, ok_foldl (f := fun e p => Arm.add e p.1 p.2) (fun e p a b => ⟨a, b⟩) _ _ hb h4, ⟨0, 0, ⟨by decide, by decide, by decide⟩, by decide⟩, ?_⟩
    rw [(ptr_sum offset base env h1).1, BitVec.add_zero]

example : armFrameAddr (Arm.reg 13) 0x1234#32 = some (Arm.add (Arm.add (Arm.reg 13) 0x8d 30) 1 20, 0#32) := by decide

/-- what a change of the stack pointer has to satisfy: the parts sum up to it, and each of them is encodable as it
is or negated -/
def GoodIncSP (offset : Int) (l : List Int) : Prop :=
  l.sum = offset ∧ ∀ o ∈ l, ArmEncodable (BitVec.ofNat 32 o.natAbs)

theorem ror_part {b p : Nat} (hp0 : 0 < p) (hp : p < 32) (hb : b * 2 ^ p < 2 ^ 32) :
    armRor b ((32 - p) % 32) = some (BitVec.ofNat 32 (b * 2 ^ p)) := by
  rw [← armImm_shift hp hb]
  have e : (32 - p) % 32 = 32 - p := Nat.mod_eq_of_lt (by omega)
  unfold armRor
  rw [e, if_neg (by omega)]
  unfold armImm
  rw [rotateRight_def _ (by omega), BitVec.or_comm]

theorem incsp_parts {k s : Nat} {l : List (Nat × Nat)} (h : Parts k l s) (hk : 0 < k) (hs : s < 2 ^ 31) (sign : Int)
    (hsign : sign = 1 ∨ sign = -1) :
    ∃ r, l.mapM (fun p => (armRor p.1 p.2).map fun x => (BitVec.ofInt 32 sign * x).toInt) = some r ∧
      r.sum = sign * s ∧ ∀ o ∈ r, ArmEncodable (BitVec.ofNat 32 o.natAbs) := by
  induction h with
  | nil => exact ⟨[], rfl, by simp, by simp⟩
  | @cons k p b s l h1 h2 h3 h4 h5 h6 h7 ih =>
    obtain ⟨r, r1, r2, r3⟩ := ih (by omega) (by omega)
    have hi : (BitVec.ofInt 32 sign * BitVec.ofNat 32 (b * 2 ^ p)).toInt = sign * (b * 2 ^ p : Nat) := by
      generalize hX : b * 2 ^ p = X at *
      have hx : (BitVec.ofNat 32 X).toInt = X := by
        rw [BitVec.toInt_eq_toNat_of_lt] <;> rw [BitVec.toNat_ofNat, Nat.mod_eq_of_lt (by omega)]
        omega
      rcases hsign with rfl | rfl
      · have : BitVec.ofInt 32 1 = 1#32 := rfl
        rw [this, BitVec.one_mul, hx, Int.one_mul]
      · have : BitVec.ofInt 32 (-1) = -1#32 := rfl
        rw [this, BitVec.neg_mul, BitVec.one_mul, BitVec.toInt_neg, hx]
        rw [Int.bmod_eq_of_le_mul_two] <;> omega
    refine ⟨(sign * (b * 2 ^ p : Nat)) :: r, ?_, ?_, ?_⟩
    · rw [List.mapM_cons, ror_part (by omega) h2 h6]
      simp only [Option.map_some, hi, Option.bind_eq_bind, Option.bind_some, r1, Option.pure_def]
    · rw [List.sum_cons, r2]
      push_cast
      ring
    · intro o ho
      rcases List.mem_cons.1 ho with rfl | ho
      · have : (sign * (b * 2 ^ p : Nat)).natAbs = b * 2 ^ p := by
          rw [Int.natAbs_mul]
          rcases hsign with rfl | rfl
          · exact Nat.one_mul _
          · exact Nat.one_mul _
        rw [this, ← armImm_shift h2 h6]
        exact encodable_of_field ⟨h4, Nat.mod_lt _ (by decide), by omega⟩
      · exact r3 o ho

/-- change of the stack pointer by a multiple of four -/
theorem arm_incsp_partial (offset : Int) (h1 : -(2 ^ 31) < offset) (h2 : offset < 2 ^ 31) (h4 : offset % 4 = 0) :
    ∃ l, armIncSP offset = some l ∧ GoodIncSP offset l := by
  unfold armIncSP
  rw [if_neg (by omega)]
  simp only
  generalize hM : (if offset < 0 then -offset else offset) = mag
  have hmag : mag = offset.natAbs := by rw [← hM]; split <;> omega
  have hN : (BitVec.ofInt 32 mag).toNat = offset.natAbs := by
    have := ofInt_toNat mag
    omega
  have hword : BitVec.ofInt 32 mag = BitVec.ofNat 32 offset.natAbs := by
    apply BitVec.eq_of_toNat_eq
    rw [hN, BitVec.toNat_ofNat, Nat.mod_eq_of_lt (by omega)]
  obtain ⟨l, l1, l2, l3, l4, l5⟩ := arm_vals (BitVec.ofInt 32 mag)
  rw [l1]
  simp only [Option.bind_eq_bind, Option.bind_some]
  by_cases hl : l.length ≤ 1
  · rw [if_pos hl]
    refine ⟨_, rfl, by simp, ?_⟩
    intro o ho
    rw [List.mem_singleton.1 ho]
    match l, l2, hl with
    | [q], _, _ =>
      have : armImm q.1 q.2 = BitVec.ofInt 32 mag := by simpa using l5
      rw [← hword, ← this]
      exact encodable_of_field (l4 q (by simp))
  · rw [if_neg hl]
    have hbig : 0xFF < (BitVec.ofInt 32 mag).toNat := by
      refine Nat.lt_of_not_le fun hle => hl ?_
      unfold armVals at l1
      rw [if_pos hle] at l1
      cases l1
      simp
    obtain ⟨l', g1, -, -, g4, -⟩ := armVals_big hbig
    rw [l1] at g1
    cases g1
    obtain ⟨r, r1, r2, r3⟩ := incsp_parts (g4 (by rw [hN]; omega)) (by decide) (by rw [hN]; omega)
      (if offset < 0 then -1 else 1) (by split <;> simp)
    refine ⟨r, r1, ?_, r3⟩
    rw [r2, hN]
    split <;> omega

/-- for other offsets beyond one byte the rotation by zero shifts by 32 bits, which is undefined -/
theorem arm_incsp_undefined (offset : Int) (h1 : -(2 ^ 31) < offset) (h2 : offset < 2 ^ 31) (h4 : offset % 4 ≠ 0)
    (h5 : 255 < offset.natAbs) : armIncSP offset = none := by
  unfold armIncSP
  rw [if_neg (by omega)]
  simp only
  generalize hM : (if offset < 0 then -offset else offset) = mag
  have hmag : mag = offset.natAbs := by rw [← hM]; split <;> omega
  have hN : (BitVec.ofInt 32 mag).toNat = offset.natAbs := by
    have := ofInt_toNat mag
    omega
  obtain ⟨l, g1, -, -, -, g5⟩ := armVals_big (value := BitVec.ofInt 32 mag) (by omega)
  obtain ⟨b, rest, rfl, hr⟩ := g5 (by rw [hN]; omega)
  rw [g1]
  simp only [Option.bind_eq_bind, Option.bind_some]
  have : ¬ ((b, 0) :: rest).length ≤ 1 := by
    cases rest with
    | nil => exact absurd rfl hr
    | cons _ _ => simp
  rw [if_neg this, List.mapM_cons]
  have : armRor b 0 = none := by unfold armRor; rw [if_pos (by omega)]
  simp [this]

example : armIncSP 4660 = some [564, 4096] ∧ armIncSP (-4660) = some [-564, -4096] ∧ armIncSP 257 = none := by decide

/-- the offsets a load or store can hold (sign and magnitude) -/
def LoadStoreField (bits : Nat) (signed isStore : Bool) (v : Int) : Prop :=
  v.natAbs < if bits = 32 ∨ (bits = 8 ∧ (isStore = true ∨ signed = false)) then 4096 else 256

theorem arm_valid_offset (bits : Nat) (signed isStore : Bool) (v : Int) :
    armValidOffset bits signed isStore v = true ↔ LoadStoreField bits signed isStore v := by
  unfold armValidOffset LoadStoreField
  simp only
  by_cases h8 : bits = 8
  · subst h8
    cases signed <;> cases isStore <;> simp <;> omega
  · by_cases h32 : bits = 32
    · subst h32; simp; omega
    · simp [h8, h32]; omega

/-- address of a load or store with an offset that is not negative, or that fits -/
theorem arm_load_store_partial (bits : Nat) (signed isStore : Bool) (base : Arm) (offset : Word) (env : Nat → Word)
    (hb : base.ok) (h : 0 ≤ offset.toInt ∨ LoadStoreField bits signed isStore offset.toInt) :
    ∃ base' off', armLoadStore bits signed isStore base offset = some (base', off') ∧ base'.ok ∧
      LoadStoreField bits signed isStore off' ∧ base'.eval env + BitVec.ofInt 32 off' = base.eval env + offset := by
  unfold armLoadStore
  by_cases hv : armValidOffset bits signed isStore offset.toInt = true
  · rw [if_pos hv]
    exact ⟨_, _, rfl, hb, (arm_valid_offset ..).1 hv, by rw [ofInt_toInt]⟩
  · rw [if_neg hv]
    have hpos : 0 ≤ offset.toInt := by
      rcases h with h | h
      · exact h
      · exact absurd ((arm_valid_offset ..).2 h) hv
    obtain ⟨l, h1, -, -, h4, -⟩ := arm_vals offset
    rw [h1]
    simp only [Option.bind_eq_bind, Option.bind_some, decide_eq_true hpos, if_true]
    refine ⟨_, _, rfl, ok_foldl (f := fun e p => Arm.add e p.1 p.2) (fun e p a b => ⟨a, b⟩) _ _ hb h4, ?_, ?_⟩
    · unfold LoadStoreField; simp only [Int.natAbs_zero]; split <;> decide
    · rw [(ptr_sum offset base env h1).1]
      simp

/-- with a negative offset that does not fit, the address is wrong: the offset is subtracted instead of added -/
theorem arm_load_store_negative (bits : Nat) (signed isStore : Bool) (base : Arm) (offset : Word) (env : Nat → Word)
    (hn : offset.toInt < 0) (hf : ¬ LoadStoreField bits signed isStore offset.toInt) :
    ∃ base' off', armLoadStore bits signed isStore base offset = some (base', off') ∧
      base'.eval env + BitVec.ofInt 32 off' = base.eval env - offset ∧
      (offset ≠ 0x80000000#32 → base'.eval env + BitVec.ofInt 32 off' ≠ base.eval env + offset) := by
  unfold armLoadStore
  rw [if_neg (mt (arm_valid_offset ..).1 hf)]
  obtain ⟨l, h1, -, -, h4, -⟩ := arm_vals offset
  rw [h1]
  simp only [Option.bind_eq_bind, Option.bind_some, decide_eq_false (show ¬ 0 ≤ offset.toInt by omega), Bool.false_eq_true,
    if_false]
  have e : (genPtrSub base l).eval env + BitVec.ofInt 32 0 = base.eval env - offset := by
    rw [(ptr_sum offset base env h1).2]
    simp
  refine ⟨_, _, rfl, e, fun hne heq => hne ?_⟩
  rw [e] at heq
  apply BitVec.eq_of_toNat_eq
  have h2 := congrArg BitVec.toNat heq
  rw [BitVec.toNat_sub, BitVec.toNat_add] at h2
  have a := (base.eval env).isLt
  have b := offset.isLt
  have c := toInt_cases offset
  have : (0x80000000#32).toNat = 2 ^ 31 := rfl
  omega

example : (armLoadStore 32 false true (Arm.reg 11) (-5000#32)).map (fun r => r.1.eval fun _ => 100000#32) =
    some 105000#32 := by decide

/-! ## C97: 64 bit operations with carry -/

theorem add64 {a b : BitVec 64} {l r : Word × Word} (ha : Splits a l.1 l.2) (hb : Splits b r.1 r.2) :
    Splits (a + b) (l.1 + r.1) (l.2 + r.2 + (if (addFlags l.1 r.1).c then 1#32 else 0#32)) := by
  unfold Splits at *
  have h1 := l.1.isLt; have h2 := l.2.isLt; have h3 := r.1.isLt; have h4 := r.2.isLt
  have e1 : (1#32).toNat = 1 := rfl
  have e0 : (0#32).toNat = 0 := rfl
  simp only [addFlags, decide_eq_true_eq]
  rw [BitVec.toNat_add, BitVec.toNat_add, BitVec.toNat_add, BitVec.toNat_add, ha, hb]
  split <;> omega

theorem sub64 {a b : BitVec 64} {l r : Word × Word} (ha : Splits a l.1 l.2) (hb : Splits b r.1 r.2) :
    Splits (a - b) (l.1 - r.1) (l.2 - r.2 - (if (subFlags l.1 r.1).c then 0#32 else 1#32)) := by
  unfold Splits at *
  have h1 := l.1.isLt; have h2 := l.2.isLt; have h3 := r.1.isLt; have h4 := r.2.isLt
  have e1 : (1#32).toNat = 1 := rfl
  have e0 : (0#32).toNat = 0 := rfl
  simp only [subFlags, decide_eq_true_eq]
  rw [BitVec.toNat_sub, BitVec.toNat_sub, BitVec.toNat_sub, BitVec.toNat_sub, ha, hb]
  split <;> omega

theorem arm_add64 {a b : BitVec 64} {l r : Word × Word} (ha : Splits a l.1 l.2) (hb : Splits b r.1 r.2) :
    Splits (a + b) (armAdd64 l r).1 (armAdd64 l r).2 := add64 ha hb

theorem arm_sub64 {a b : BitVec 64} {l r : Word × Word} (ha : Splits a l.1 l.2) (hb : Splits b r.1 r.2) :
    Splits (a - b) (armSub64 l r).1 (armSub64 l r).2 := sub64 ha hb

theorem splits_zero : Splits (0#64) (0#32) (0#32) := rfl

theorem arm_minus64 {b : BitVec 64} {r : Word × Word} (hb : Splits b r.1 r.2) :
    Splits (-b) (armMinus64 r).1 (armMinus64 r).2 := by
  have := arm_sub64 (l := (0#32, 0#32)) splits_zero hb
  rwa [BitVec.zero_sub] at this

theorem arm_mul64 {a b : BitVec 64} {l r : Word × Word} (ha : Splits a l.1 l.2) (hb : Splits b r.1 r.2) :
    Splits (a * b) (armMul64 l r).1 (armMul64 l r).2 := by
  unfold Splits at *
  obtain ⟨ll, lh⟩ := l
  obtain ⟨rl, rh⟩ := r
  simp only [armMul64] at *
  rw [BitVec.toNat_mul, ha, hb, BitVec.toNat_ofNat, BitVec.toNat_add, BitVec.toNat_add, BitVec.toNat_mul, BitVec.toNat_mul,
    BitVec.toNat_ofNat]
  generalize ll.toNat = x
  generalize lh.toNat = y
  generalize rl.toNat = z
  generalize rh.toNat = w
  have key : (y * 2 ^ 32 + x) * (w * 2 ^ 32 + z) = y * w * 2 ^ 64 + (z * y + x * w + x * z / 2 ^ 32) * 2 ^ 32 + x * z % 2 ^ 32 := by
    have : x * z = x * z / 2 ^ 32 * 2 ^ 32 + x * z % 2 ^ 32 := by omega
    calc (y * 2 ^ 32 + x) * (w * 2 ^ 32 + z) = y * w * 2 ^ 64 + (z * y + x * w) * 2 ^ 32 + x * z := by ring
      _ = y * w * 2 ^ 64 + (z * y + x * w) * 2 ^ 32 + (x * z / 2 ^ 32 * 2 ^ 32 + x * z % 2 ^ 32) := by rw [← this]
      _ = _ := by ring
  rw [key]
  generalize y * w = q
  generalize z * y = s
  generalize x * w = t
  generalize x * z = u
  omega

theorem sparc_add64 {a b : BitVec 64} {l r : Word × Word} (ha : Splits a l.1 l.2) (hb : Splits b r.1 r.2) :
    Splits (a + b) (sparcAdd64 l r).1 (sparcAdd64 l r).2 := add64 ha hb

theorem sparc_sub64 {a b : BitVec 64} {l r : Word × Word} (ha : Splits a l.1 l.2) (hb : Splits b r.1 r.2) :
    Splits (a - b) (sparcSub64 l r).1 (sparcSub64 l r).2 := by
  have := sub64 ha hb
  unfold sparcSub64
  simp only
  cases h : (subFlags l.1 r.1).c <;> rw [h] at this <;> simpa using this

theorem sparc_minus64 {b : BitVec 64} {r : Word × Word} (hb : Splits b r.1 r.2) :
    Splits (-b) (sparcMinus64 r).1 (sparcMinus64 r).2 := by
  have := sparc_sub64 (l := (0#32, 0#32)) splits_zero hb
  rwa [BitVec.zero_sub] at this

example : Splits 0x1_00000000#64 0#32 1#32 ∧ armSub64 (0#32, 1#32) (1#32, 0#32) = (0xFFFFFFFF#32, 0#32) := by
  exact ⟨rfl, by decide⟩

end Verif.Props.BackendImm
