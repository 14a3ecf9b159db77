import Verif.Lemmas.IrOptShift
import Verif.Props.IrOptValue
/-!
# C67, C68: local transformations of shifts and conversions
-/
namespace Verif.Props
open Verif.Spec Verif.Model Verif.Model.IrOpt

variable {m k : IMode} {env : Env} {C : Ctx}

/-! ## C67 -/

/-- C67, Shl: whatever `transform_node_Shl` returns computes the same value, for every mode with a modulo-shift, all operands and all values.
Missing from the full statement: modes without modulo-shift (`shift_shift_wrong`), constant counts in the shifted operand that have not been
reduced by the modulo-shift (`shl_shr_wrong`), and masks that are negative constants (`shift_mask_negative`). -/
theorem transform_shl_sound_partial (S : C.Sound env) (a : Expr m) (s : Expr k) (hm : m.modulo ≠ 0) (ha : a.CountsReduced) (hs : s.MaskNonneg) :
    RuleOk env (.shl a s) (transformShl C a s) :=
  ruleOk_or (shlToMul_ok a s) (ruleOk_or (shiftMux_ok .shl a s) (changed_ok (shiftTail_ok S .shl _ hm (stepInv_mk (o := .shl) ha hs))))

/-- C67, Shr. Missing from the full statement: see `transform_shl_sound_partial`. -/
theorem transform_shr_sound_partial (S : C.Sound env) (a : Expr m) (s : Expr k) (hm : m.modulo ≠ 0) (ha : a.CountsReduced) (hs : s.MaskNonneg) :
    RuleOk env (.shr a s) (transformShr C a s) :=
  ruleOk_or (shrShrs_ok a s) (ruleOk_or (shiftMux_ok .shr a s) (changed_ok (shiftTail_ok S .shr _ hm (stepInv_mk (o := .shr) ha hs))))

/-- C67, Shrs. Missing from the full statement: modes without modulo-shift, masks that are negative constants (see
`transform_shl_sound_partial`), and counts in a mode of fewer bits than the value (`shrs_oversize_wrong`). -/
theorem transform_shrs_sound_partial (S : C.Sound env) (a : Expr m) (s : Expr k) (hm : m.modulo ≠ 0) (hs : s.MaskNonneg)
    (hk : m.bits ≤ m.amt (k.bits - 1) + 1) : RuleOk env (.shrs a s) (transformShrs C a s) :=
  ruleOk_or (shrsOversize_ok a s hk) (ruleOk_or (shiftMux_ok .shrs a s) (ruleOk_or (shiftShift_ok .shrs _ hm) (ruleOk_or (shiftModulo_ok S .shrs _)
    (ruleOk_or (shiftBitop_ok .shrs _) (ruleOk_or (shiftAnd_ok S .shrs _ (by intro k a s' h; cases h; exact hs)) (shrsToShr'_ok S a s))))))

/-- C67 fails when a count exceeds the modulo-shift: `(x << 35) >> 5` is `(x << 3) >> 5` in a 32-bit mode with modulo-shift 32, but
`transform_node_shl_shr` turns it into `(x << 30) & mask`.  Only the count of the outer shift has been reduced before (iropt.c:6207); that of
the inner one has if that shift was optimised itself. -/
theorem shl_shr_wrong : ∃ (env : Env) (a e' : Expr mIu), ctx0.Sound env ∧ (Expr.shr a (.const (m := mIu) 5#32)).Ok env ∧
    transformShr ctx0 a (.const (m := mIu) 5#32) = some e' ∧ e'.eval env ≠ (Expr.shr a (.const (m := mIu) 5#32)).eval env :=
  ⟨fun m _ => BitVec.ofNat m.bits 4, .shl (.leaf mIu 0) (.const (m := mIu) 35#32), _, ctx0_sound _,
    by
      simp only [Expr.Ok]
      exact ⟨⟨mIu_valid, mIu_valid, mIu_counts, by intro c h; cases h; decide⟩, mIu_valid, mIu_counts, by intro c h; cases h; decide⟩, rfl, by decide +kernel⟩

/-- a 16-bit mode whose shifts are executed with 32-bit registers -/
abbrev mHs : IMode := ⟨true, 16, 32⟩

theorem mHs_valid : mHs.Valid := ⟨by decide, by decide, by decide, Or.inr ⟨by decide, by decide, 5, rfl⟩⟩

/-- C67 fails for an oversize Shrs with a count of few bits: `x >>s 20` in a 16-bit mode becomes `x >>s 7` when the count has 8 bits, because
iropt.c:6233 takes the size of the mode of the count. -/
theorem shrs_oversize_wrong : ∃ (env : Env) (a e' : Expr mHs), ctx0.Sound env ∧ (Expr.shrs a (.const (m := mBu) 20#8)).Ok env ∧
    transformShrs ctx0 a (.const (m := mBu) 20#8) = some e' ∧ e'.eval env ≠ (Expr.shrs a (.const (m := mBu) 20#8)).eval env :=
  ⟨fun m _ => BitVec.ofNat m.bits 0x7000, .leaf mHs 0, .shrs (.leaf mHs 0) (.const (m := mBu) 7#8), ctx0_sound _,
    by simp only [Expr.Ok]; exact ⟨mHs_valid, mBu_valid, ⟨by decide, by decide⟩, by intro c h; cases h; decide⟩, by decide +kernel,
    by decide +kernel⟩

/-- a mode without modulo-shift -/
abbrev mN : IMode := ⟨false, 32, 0⟩

theorem mN_valid : mN.Valid := ⟨by decide, by decide, by decide, Or.inl rfl⟩

/-- C67 fails without modulo-shift: the counts are added in their own mode, and `(x << 200) << 60` with 8-bit counts becomes `x << 4`.  With
assertions enabled, iropt.c:5958 stops the compiler for every such mode. -/
theorem shift_shift_wrong : ∃ (env : Env) (a e' : Expr mN), ctx1.Sound env ∧ (Expr.shl a (.const (m := mBu) 60#8)).Ok env ∧
    transformShl ctx1 a (.const (m := mBu) 60#8) = some e' ∧ e'.eval env ≠ (Expr.shl a (.const (m := mBu) 60#8)).eval env :=
  ⟨fun m _ => BitVec.ofNat m.bits 1, .shl (.leaf mN 0) (.const (m := mBu) 200#8), _, ctx1_sound _,
    by
      simp only [Expr.Ok]
      exact ⟨⟨mN_valid, mBu_valid, ⟨by decide, by decide⟩, by intro c h; cases h; decide⟩, mBu_valid, ⟨by decide, by decide⟩, by intro c h; cases h; decide⟩,
    rfl, by decide +kernel⟩

/-- `ctx1` that also knows the bits set by an Or -/
def ctx2 : Ctx := { ctx1 with bi := fun e => match e with
  | .or _ (.const c) => some ⟨BitVec.allOnes _, c⟩
  | _ => none }

theorem ctx2_sound (env : Env) : ctx2.Sound env where
  bi e b _ h := by
    simp only [ctx2] at h
    split at h
    · cases h; intro i hi; simp only [Expr.eval, BitVec.getLsbD_or]
      constructor
      · intro _; simp [hi]
      · intro h; rw [h, Bool.or_true]
    · cases h
  vrp _ _ _ _ := relHolds_true _ _
  confirm _ _ _ _ _ _ h := by cases h

/-- C67 fails for a mask that is a negative constant: `x >>s (-3 & (y | 31))` becomes `x >>s -3`, a shift by a negative count. -/
theorem shift_mask_negative : ∃ (env : Env) (s : Expr mIs) (e' : Expr mIs), ctx2.Sound env ∧ (Expr.shrs (.leaf mIs 0) s).Ok env ∧
    transformShrs ctx2 (.leaf mIs 0) s = some e' ∧ ¬ e'.Ok env :=
  ⟨fun m _ => 0, .and (.const (BitVec.ofInt 32 (-3))) (.or (.leaf mIs 1) (.const 31#32)), .shrs (.leaf mIs 0) (.const (m := mIs) (BitVec.ofInt 32 (-3))), ctx2_sound _,
    by simp only [Expr.Ok]; exact ⟨mIs_valid, ⟨mIs_valid, mIs_valid, mIs_valid⟩, ⟨by decide, by decide⟩, by intro c h; cases h⟩,
    by decide +kernel, by intro h; simp only [Expr.Ok] at h; exact absurd (h.2.2.2 _ rfl) (by decide)⟩

/-! the rules at work -/

/-- `x << 40` becomes `x << 8` -/
example : transformShl ctx1 (.leaf mIu 0) (.const (m := mIu) 40#32) = some (.shl (.leaf mIu 0) (.const (m := mIu) 8#32)) := by decide +kernel
/-- `x << 3` becomes `x * 8` before the code is adapted to the target -/
example : transformShl { ctx0 with archDep := false } (.leaf mIu 0) (.const (m := mIu) 3#32) = some (.mul (.leaf mIu 0) (.const 8#32)) := by decide +kernel
/-- `(x * 16) >> 4` becomes `(x >> 0) & 0x0FFFFFFF` -/
example : transformShr ctx0 (.mul (.leaf mIu 0) (.const 16#32)) (.const (m := mIu) 4#32) =
    some (.and (.shr (.leaf mIu 0) (.const (m := mIu) 0#32)) (.const 0x0FFFFFFF#32)) := by decide +kernel
/-- `x << (y + 33)` becomes `x << (y + 1)` -/
example : transformShl ctx1 (.leaf mIu 0) (.add (.leaf mIu 1) (.const (m := mIu) 33#32)) =
    some (.shl (.leaf mIu 0) (.add (.leaf mIu 1) (.const (m := mIu) 1#32))) := by decide +kernel
/-- `(x >>s 20) >>s 15` becomes `x >>s 31` -/
example : transformShrs ctx1 (.shrs (.leaf mIs 0) (.const (m := mIu) 20#32)) (.const (m := mIu) 15#32) =
    some (.shrs (.leaf mIs 0) (.const (m := mIu) 31#32)) := by decide +kernel
/-- `x >> (y & 31)` becomes `x >> y`: the known bits of the constant are used -/
example : transformShr ctx1 (.leaf mIu 0) (.and (.leaf mIu 1) (.const (m := mIu) 31#32)) = some (.shr (.leaf mIu 0) (.leaf mIu 1)) := by decide +kernel
/-- the hypotheses of the theorems are met, and the value is the same -/
example (x y : BitVec 32) :
    let env : Env := fun m i => BitVec.setWidth m.bits (if i = 0 then x else y)
    (Expr.and (.shr (.leaf mIu 0) (.const (m := mIu) 0#32)) (.const 0x0FFFFFFF#32)).eval env =
      (Expr.shr (.mul (.leaf mIu 0) (.const 16#32)) (.const (m := mIu) 4#32)).eval env := by
  intro env
  refine (transform_shr_sound_partial (ctx0_sound env) (.mul (.leaf mIu 0) (.const 16#32)) (.const (m := mIu) 4#32) (by decide) trivial
    (by intro l r h; cases h) _ (by decide +kernel) ?_).1
  simp only [Expr.Ok]
  exact ⟨⟨mIu_valid, mIu_valid⟩, mIu_valid, mIu_counts, by intro c h; cases h; decide⟩

/-! ## C68 -/

/-- C68: whatever `transform_node_Conv` returns for a conversion between integer modes computes the same value, for all modes, operands and
values. -/
theorem transform_conv_sound (a : Expr k) : RuleOk env (.conv m a) (transformConv C m a) := ruleOk_or (convConv_ok a) (convMux_ok a)

/-- `may_leave_out_middle_conv` in terms of numbers: converting through the middle mode makes no difference, for every value. -/
theorem leave_out_middle_conv (m0 m1 m2 : IMode) (h1 : 0 < m1.bits) (h : leaveOutMiddle m0 m1 m2 = true) (v : BitVec m0.bits) :
    BitVec.ofInt m2.bits (m1.num (BitVec.ofInt m1.bits (m0.num v))) = BitVec.ofInt m2.bits (m0.num v) := (convThrough h1 h v).symm

/-- The condition is also necessary: if it fails and the source has a bit, some value is changed by the detour. -/
theorem leave_out_middle_conv_needed (m0 m1 m2 : IMode) (h0 : 0 < m0.bits) (h1 : 0 < m1.bits) (h : leaveOutMiddle m0 m1 m2 = false)
    (hne : m0.bits = m1.bits → m0.signed ≠ m1.signed) :
    ∃ v : BitVec m0.bits, BitVec.ofInt m2.bits (m1.num (BitVec.ofInt m1.bits (m0.num v))) ≠ BitVec.ofInt m2.bits (m0.num v) := by
  have hc : m1.bits < m2.bits ∧ (m1.bits ≤ m0.bits ∨ (m0.bits < m1.bits ∧ m0.signed = true ∧ m1.signed = false)) := by
    unfold leaveOutMiddle at h
    by_cases h1 : m1.bits < m2.bits
    · refine ⟨h1, ?_⟩
      by_cases h2 : m1.bits ≤ m0.bits
      · exact Or.inl h2
      · right
        rw [if_neg (by simp; omega), if_neg (by omega)] at h
        simp only [Bool.or_eq_false_iff, Bool.not_eq_false'] at h
        exact ⟨by omega, h⟩
    · rw [if_neg (by simp; omega), if_pos (by omega)] at h
      cases h
  obtain ⟨hlt, hc⟩ := hc
  -- bit `m1.bits` of the results differs
  suffices hs : ∃ v : BitVec m0.bits, (BitVec.ofInt m2.bits (m1.num (BitVec.ofInt m1.bits (m0.num v)))).getLsbD m1.bits ≠
      (BitVec.ofInt m2.bits (m0.num v)).getLsbD m1.bits by
    obtain ⟨v, hv⟩ := hs
    exact ⟨v, fun hh => hv (by rw [hh])⟩
  have key : ∀ v : BitVec m0.bits, (BitVec.ofInt m2.bits (m1.num (BitVec.ofInt m1.bits (m0.num v)))).getLsbD m1.bits =
      (m1.signed && if m1.bits - 1 < m0.bits then v.getLsbD (m1.bits - 1) else (m0.signed && v.msb)) := by
    intro v
    rw [convTo_getLsbD m2 _ hlt, if_neg (by omega), BitVec.msb_eq_getLsbD_last, convTo_getLsbD m1 _ (by omega)]
  by_cases h2 : m1.bits < m0.bits
  · refine ⟨BitVec.twoPow m0.bits m1.bits, ?_⟩
    rw [key, convTo_getLsbD m2 _ hlt, if_pos h2, if_pos (by omega), BitVec.getLsbD_twoPow, BitVec.getLsbD_twoPow]
    have : ¬ m1.bits = m1.bits - 1 := by omega
    simp [h2, this]
  · have hmsb : (BitVec.twoPow m0.bits (m0.bits - 1)).msb = true := by
      rw [BitVec.msb_eq_getLsbD_last, BitVec.getLsbD_twoPow]; simp; omega
    refine ⟨BitVec.twoPow m0.bits (m0.bits - 1), ?_⟩
    rw [key, convTo_getLsbD m2 _ hlt, if_neg h2, hmsb, Bool.and_true]
    rcases hc with hc | ⟨_, hs0, hs1⟩
    · have he : m0.bits = m1.bits := by omega
      have hd := hne he
      rw [if_pos (by omega), ← he, ← BitVec.msb_eq_getLsbD_last, hmsb, Bool.and_true]
      exact fun hh => hd hh.symm
    · rw [hs0, hs1]; simp

/-- converting a byte to 32 bits by way of 16 bits, and the mode in the middle may be left out -/
example : transformConv ctx0 mIu (.conv mHs (.leaf mBu 0)) = some (.conv mIu (.leaf mBu 0)) := by decide +kernel
/-- by way of fewer bits it may not -/
example : transformConv ctx0 mIu (.conv mBu (.leaf mHs 0)) = none := by decide +kernel
/-- the conversion of a Mux of constants -/
example : transformConv ctx0 mIs (.mux (.leaf bmode 0) (.const (m := mHs) 1#16) (.const (m := mHs) 0xFFFF#16)) =
    some (.mux (.leaf bmode 0) (.const 1#32) (.const 0xFFFFFFFF#32)) := by decide +kernel

end Verif.Props
