import Verif.Lemmas.UpperBits
/-!
# Narrow integers in the registers of the ia32 backend

A register holds a number of 8 or 16 bits in its low bits.  The theorems say that the code computed
for an expression keeps it there whatever the upper bits of the operands are, and that the upper
bits are the sign or the zeros where `be_upper_bits_clean` says so, hence wherever an extension is
left out.  `many` says which nodes have several users; nothing depends on it.

Both fail for some expressions: `good` and `askable` leave out conversions from floating point whose
result does not fit, arithmetic shifts seen as unsigned numbers, and shift amounts which are not
smaller than the width.  The refutations below show that none of them can be dropped.
-/
namespace Verif.Props.UpperBits
open Verif.Spec.NarrowIR Verif.Model.UpperBits Verif.Lemmas.UpperBits

/-- Where the upper bits are called clean for a mode no wider than the node, the whole register is
the number of that mode (ir/be/betranshlp.c:348-450).
Missing: the expressions `good` and `askable` leave out, where the claim is false. -/
theorem upper_bits_clean_partial (many : Node → Bool) (e : Node) (m : Mode) (hw : wf e = true)
    (hg : good e = true) (h0 : 0 < m.bits) (hm : m.bits ≤ e.mode.bits) (ha : askable e m = true)
    (hc : clean e m = true) : reg many e = ext m (eval e) := by
  obtain ⟨l, c⟩ := main many e hw hg
  rw [c m h0 hm ha hc]
  exact ext_congr (low_le l hm)

/-- A node which is clean in its own mode has its value in the register. -/
theorem clean_register_is_value_partial (many : Node → Bool) (e : Node) (hw : wf e = true)
    (hg : good e = true) (ha : askable e e.mode = true) (hc : clean e e.mode = true) :
    reg many e = eval e := by
  have hb := wf_mode hw
  rw [upper_bits_clean_partial many e e.mode hw hg (by omega) (Nat.le_refl _) ha hc]
  exact eval_ext e hw

/-- The low bits of the register are the value, whatever the registers hold above the numbers they
stand for (ir/be/ia32/ia32_transform.c).
Missing: the expressions `good` leaves out, where the claim is false. -/
theorem register_holds_value_partial (many : Node → Bool) (e : Node) (hw : wf e = true)
    (hg : good e = true) : (reg many e).setWidth e.mode.bits = (eval e).setWidth e.mode.bits :=
  (main many e hw hg).1

/-- A conversion to a wider mode leaves the extended number in the register, with or without an
instruction (ir/be/ia32/ia32_transform.c:3764-3792, 3799-3872). -/
theorem widening_extends_partial (many : Node → Bool) (dest : Mode) (a : Node)
    (hw : wf (.conv dest a) = true) (hg : good (.conv dest a) = true)
    (hd : a.mode.bits < dest.bits) : reg many (.conv dest a) = eval a := by
  simp only [wf, good, Bool.and_eq_true, Bool.or_eq_true, decide_eq_true_eq] at hw hg
  obtain ⟨l, c⟩ := main many a hw.2 hg.1
  have hb := wf_mode hw.2
  have hr : reg many (.conv dest a)
      = if a.mode.bits ≥ dest.bits then reg many a else i2i many a.mode a (reg many a) := rfl
  rw [hr, if_neg (by omega),
    i2i_eq many a.mode a _ (fun hc => c a.mode (by omega) (Nat.le_refl _)
      (hg.2.resolve_left (by omega)) hc), ext_congr l, eval_ext a hw.2]

/-- Expressions without conversions from floating point, arithmetic shifts and logical shifts by a
constant: the claims hold without further conditions. -/
def simple : Node → Bool
  | .const _ _ | .load _ _ | .other _ _ => true
  | .fconv _ _ | .shrs _ _ _ => false
  | .bin _ _ a b | .mux _ _ a b _ | .shl _ a b => simple a && simple b
  | .shr _ a k => simple a && simple k && (constLong k).isNone
  | .un _ _ a | .conv _ a => simple a

theorem simple_askable (e : Node) (h : simple e = true) (m : Mode) : askable e m = true := by
  induction e with
  | shr _ a k iha ihk =>
    simp only [simple, Bool.and_eq_true] at h
    have : amountBelow 32 k = true := by
      cases k <;> simp [constLong, amountBelow] at h ⊢
    simp [askable, this, iha h.1.1]
  | bin _ _ a b iha ihb =>
    simp only [simple, Bool.and_eq_true] at h
    simp [askable, iha h.1, ihb h.2]
  | mux _ _ a b _ iha ihb =>
    simp only [simple, Bool.and_eq_true] at h
    simp [askable, iha h.1, ihb h.2]
  | conv _ a iha =>
    simp only [simple] at h
    simp [askable, iha h]
  | _ => simp_all [askable, simple]

theorem simple_good (e : Node) (h : simple e = true) : good e = true := by
  induction e with
  | shr _ a k iha ihk =>
    simp only [simple, Bool.and_eq_true] at h
    simp [good, iha h.1.1, ihk h.1.2, simple_askable a h.1.1]
  | bin _ _ a b iha ihb =>
    simp only [simple, Bool.and_eq_true] at h
    simp [good, iha h.1, ihb h.2, simple_askable a h.1]
  | mux _ _ a b _ iha ihb =>
    simp only [simple, Bool.and_eq_true] at h
    simp [good, iha h.1, ihb h.2]
  | shl _ a b iha ihb =>
    simp only [simple, Bool.and_eq_true] at h
    simp [good, iha h.1, ihb h.2]
  | conv _ a iha =>
    simp only [simple] at h
    simp [good, iha h, simple_askable a h]
  | un _ _ a iha =>
    simp only [simple] at h
    simp [good, iha h]
  | _ => simp_all [good, simple]

/-- Arithmetic on numbers from memory, from constants and from elsewhere: the register holds the
value, and all of it where the upper bits are called clean. -/
theorem simple_expressions (many : Node → Bool) (e : Node) (hw : wf e = true)
    (hs : simple e = true) :
    (reg many e).setWidth e.mode.bits = (eval e).setWidth e.mode.bits
    ∧ ∀ m : Mode, 0 < m.bits → m.bits ≤ e.mode.bits → clean e m = true →
        reg many e = ext m (eval e) :=
  ⟨register_holds_value_partial many e hw (simple_good e hs), fun m h0 hm hc =>
    upper_bits_clean_partial many e m hw (simple_good e hs) h0 hm (simple_askable e hs m) hc⟩

/-- Skipping conversions to narrower modes does not change the register, nor the answer
(ir/be/betranshlp.c:844-864). -/
theorem skip_downconv_register (many : Node → Bool) (e : Node) (m : Mode) :
    reg many (skipDownconv many e) = reg many e
    ∧ clean (skipDownconv many e) m = clean e m :=
  ⟨reg_skipDownconv many e, clean_skip many e m⟩

/-! ### Where the claims fail -/

/-- signed 8, unsigned 8, ... -/
def Bs : Mode := ⟨true, 8⟩
def Bu : Mode := ⟨false, 8⟩
def Hs : Mode := ⟨true, 16⟩
def Hu : Mode := ⟨false, 16⟩
def Is : Mode := ⟨true, 32⟩
def Iu : Mode := ⟨false, 32⟩

/-- `(int)d & 0xFF` for `d = 300.0` leaves 300 in the register: the number converted from floating
point counts as clean in every mode, and the mask is left out. -/
theorem float_mask_refuted :
    ∃ e : Node, wf e = true ∧ ∀ many, reg many e = 300 ∧ eval e = 44 :=
  ⟨.bin .and Is (.fconv Is 300) (.const Is 0xFF), by decide, fun _ => ⟨rfl, by decide⟩⟩

/-- `(unsigned short)(int)d` for `d = 70000.0`, widened to 32 bits, stays 70000. -/
theorem float_widening_refuted :
    ∃ e : Node, wf e = true ∧ ∀ many, reg many e = 70000 ∧ eval e = 4464 := by
  refine ⟨.conv Iu (.conv Hu (.fconv Is 70000)), by decide, fun many => ⟨?_, by decide⟩⟩
  have : i2i many Hu (.conv Hu (.fconv Is 70000)) 70000 = 70000 := by
    unfold i2i
    rw [clean_skip, if_pos (by decide)]
  simpa [reg, regs, Node.mode, Hu, Is, Iu] using this

/-- A signed 16-bit number shifted arithmetically, seen as unsigned and widened, keeps the copies of
its sign: the upper bits are called clean because those of the operand are. -/
theorem arithmetic_shift_refuted :
    ∃ e : Node, wf e = true ∧ ∀ many, reg many e = 0xFFFFC000 ∧ eval e = 0xC000 := by
  refine ⟨.conv Iu (.conv Hu (.shrs Hs (.conv Hs (.load Hu 0x8000)) (.const Iu 1))), by decide,
    fun many => ⟨?_, by decide⟩⟩
  have hs : shiftOperand many true 16 (.conv Hs (.load Hu 0x8000)) 0x8000 = 0xFFFF8000 := by
    unfold shiftOperand
    rw [if_neg (by decide), mode_skipSame]
    unfold i2i
    rw [clean_skip, clean_skipSame]
    rfl
  have hskip : ∀ x k, sextShift (skipSameconv many (.conv Hs (.load Hu x))) k = none := by
    intro x k
    simp only [skipSameconv]
    split
    · rfl
    · split <;> rfl
  have hr : reg many (.shrs Hs (.conv Hs (.load Hu 0x8000)) (.const Iu 1)) = 0xFFFFC000 := by
    show genShrs many Hs (.conv Hs (.load Hu 0x8000)) (.const Iu 1) _ 1 = _
    unfold genShrs
    rw [if_neg (by simp [constLong]), hskip]
    show (shiftOperand many true 16 (.conv Hs (.load Hu 0x8000)) 0x8000).sshiftRight 1 = _
    rw [hs]
    decide
  show i2i many Hu (.conv Hu (.shrs Hs (.conv Hs (.load Hu 0x8000)) (.const Iu 1)))
    (reg many (.shrs Hs (.conv Hs (.load Hu 0x8000)) (.const Iu 1))) = _
  unfold i2i
  rw [clean_skip, hr]
  rfl

/-- A 16-bit number shifted by 31 whose operand has other users: the sign is taken from bit 31 of the
register, which holds no part of the number. -/
theorem narrow_shift_by_31_refuted :
    ∃ e : Node, wf e = true ∧ reg (fun _ => true) e = 0 ∧ eval e = 0xFFFFFFFF :=
  ⟨.shrs Hs (.other Hs 0x8000) (.const Iu 31), by decide, by decide, by decide⟩

/-- A 16-bit number shifted by 16 to the left and back is zero; the code extends its sign. -/
theorem narrow_sext_refuted :
    ∃ e : Node, wf e = true ∧ ∀ many, reg many e = 5 ∧ eval e = 0 :=
  ⟨.shrs Hs (.shl Hs (.load Hs 5) (.const Iu 16)) (.const Iu 16), by decide,
    fun _ => ⟨by simp [reg, regs, genShrs, skipSameconv, sextShift, constLong, i2i, skipDownconv,
      clean, Hs], by decide⟩⟩

/-- A shift by 40, which the machine takes modulo 32, counts as leaving 8 bits. -/
theorem large_amount_refuted :
    ∃ e : Node, wf e = true ∧ ∀ many, reg many e = 0x123456 ∧ eval e = 0x56 := by
  refine ⟨.bin .and Iu (.shr Iu (.other Iu 0x12345678) (.const Iu 40)) (.const Iu 0xFF), by decide,
    fun many => ⟨?_, by decide⟩⟩
  simp [reg, regs, genAnd, constLong, i2i, skipDownconv, clean, Iu, shiftOperand]

/-! ### Examples -/

/-- the sum of two bytes with garbage above them, halved and widened -/
def sumOfBytes : Node :=
  .conv Is (.shr Bu (.bin .add Bu (.other Bu 0xABCD12F0) (.load Bu 0x20)) (.const Iu 1))

example : wf sumOfBytes = true ∧ good sumOfBytes = true ∧ eval sumOfBytes = 8 := by decide

example (many : Node → Bool) : reg many sumOfBytes = 8 :=
  widening_extends_partial many Is _ (by decide) (by decide) (by decide)

/-- a mask, an operand of which is clean; a signed load shifted arithmetically -/
example : clean (.bin .and Hu (.other Hu 0xFFFF1234) (.load Hs 0xFF)) Hu = false
    ∧ clean (.bin .and Hu (.other Hu 0xFFFF1234) (.load Hu 0xFF)) Hu = true
    ∧ clean (.shrs Hs (.load Hs 0x8000) (.const Iu 3)) Hs = true
    ∧ askable (.shrs Hs (.load Hs 0x8000) (.const Iu 3)) Hs = true
    ∧ good (.shrs Hs (.load Hs 0x8000) (.const Iu 3)) = true := by decide

example (many : Node → Bool) :
    reg many (.shrs Hs (.load Hs 0x8000) (.const Iu 3)) = 0xFFFFF000 :=
  clean_register_is_value_partial many _ (by decide) (by decide) (by decide) (by decide)

/-- `(signed char)x` written with shifts, and a number converted from floating point which fits -/
example : good (.shrs Is (.shl Is (.other Is 0x1FF) (.const Iu 24)) (.const Iu 24)) = true
    ∧ good (.conv Is (.fconv Bu 200)) = true
    ∧ wf (.shrs Is (.shl Is (.other Is 0x1FF) (.const Iu 24)) (.const Iu 24)) = true := by decide

example : simple (.conv Iu (.bin .mul Hu (.other Hu 0x10003) (.load Hu 7))) = true
    ∧ eval (.conv Iu (.bin .mul Hu (.other Hu 0x10003) (.load Hu 7))) = 21 := by decide

end Verif.Props.UpperBits
