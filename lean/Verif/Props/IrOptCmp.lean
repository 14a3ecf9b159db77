import Verif.Lemmas.IrOptCmp
import Verif.Props.ConstBitsExpr
import Verif.Props.IrOptArith
/-!
# C71: local transformations of comparisons
-/
namespace Verif.Props
open Verif.Spec Verif.Model Verif.Model.IrOpt

variable {m k : IMode} {env : Env} {C : Ctx}

/-- C71: whatever `transform_node_Cmp` returns has the same truth value as the comparison, for every integer mode, every relation, all
operands, all values and any number of passes.  Missing from the full statement: the comparisons excluded by `CmpSafe`, for each of which
a wrong result is shown below. -/
theorem transform_cmp_sound_partial (S : C.Sound env) (K : ConstBits C) (n : Nat) (rel : Rel) (l r : Expr m)
    (h : SafeRun C n (.cmp rel l r)) : RuleOk env (.cmp rel l r) (transformCmp C n rel l r) :=
  fun e' he => cmpLoop_ok S K n _ e' _ h he

/-- the bits of constants are known to the analysis of C72 -/
theorem bitsCtx_constBits : ConstBits bitsCtx := fun _ _ _ _ _ => rfl

abbrev x8 : Expr mBu := .leaf mBu 0
abbrev y8 : Expr mBu := .leaf mBu 1


/-! ## the rules at work -/

/-- `(x | 0x10) < 0x45` becomes `(x | 0x10) <= 0x3F` -/
example : transformCmp bitsCtx 9 Rel.less (.or (.leaf mIu 0) (.const 0x10#32)) (.const 0x45#32) =
    some (.cmp Rel.lessEqual (.or (.leaf mIu 0) (.const 0x10#32)) (.const 0x3F#32)) := by decide +kernel
/-- all its passes start from safe comparisons -/
example : SafeRun bitsCtx 9 (.cmp Rel.less (.or (.leaf mIu 0) (.const 0x10#32)) (.const 0x45#32)) := by
  have h1 : cmpStep bitsCtx Rel.less (.or (.leaf mIu 0) (.const 0x10#32)) (.const 0x45#32) =
    some (.goto (.cmp Rel.lessEqual (.or (.leaf mIu 0) (.const 0x10#32)) (.const 0x3F#32)) true) := by decide +kernel
  have h2 : cmpStep bitsCtx Rel.lessEqual (.or (.leaf mIu 0) (.const 0x10#32)) (.const 0x3F#32) = none := by decide +kernel
  unfold SafeRun
  simp only [asCmp, h1]
  refine ⟨⟨fun h => absurd (by decide +kernel) h, by decide +kernel, fun h => absurd (by decide +kernel) h, (by intro _ _ h; cases h),
    (by intro _ _ h; cases h), (by intro _ _ _ _ h; cases h)⟩, ?_⟩
  unfold SafeRun
  simp only [asCmp, h2, and_true]
  exact ⟨fun h => absurd (by decide +kernel) h, by decide +kernel, fun h => absurd (by decide +kernel) h, (by intro _ _ h; cases h),
    (by intro _ _ h; cases h), (by intro _ _ _ _ h; cases h)⟩
/-- `(x << 3) == 0x28` becomes `(x & 0x1F) == 5` -/
example : transformCmp bitsCtx 9 Rel.equal (.shl x8 (.const (m := mIu) 3#32)) (.const 0x28#8) =
    some (.cmp Rel.equal (.and x8 (.const 0x1F#8)) (.const 5#8)) := by decide +kernel
/-- `x - 5 == 7` becomes `x == 12` -/
example : transformCmp bitsCtx 9 Rel.equal (.sub (.leaf mIs 0) (.const 5#32)) (.const 7#32) = some (.cmp Rel.equal (.leaf mIs 0) (.const 12#32)) := by
  decide +kernel
/-- `((x >> 3) & 6) != 2` becomes `(x & 48) != 16` -/
example : transformCmp bitsCtx 9 Rel.lessGreater (.and (.shr (.leaf mIu 0) (.const (m := mIu) 3#32)) (.const 6#32)) (.const 2#32) =
    some (.cmp Rel.lessGreater (.and (.leaf mIu 0) (.const 48#32)) (.const 16#32)) := by decide +kernel
/-- `(int)s == 100` becomes `s == 100` -/
example : transformCmp bitsCtx 9 Rel.equal (.conv mIs (.leaf mHs 0)) (.const 100#32) = some (.cmp Rel.equal (.leaf mHs 0) (.const 100#16)) := by
  decide +kernel

/-! ## where the full statement fails -/

/-- C71 fails when the same operation is removed from both sides (iropt.c:5080-5151): only an equality may be treated in this way, and the
code tests whether the relation amounts to one, but then keeps the relation.  `~(x | 0x80) < ~(y & 0x80)` amounts to `!=` because `>` is
impossible; it becomes `(x | 0x80) < (y & 0x80)`, and then false. -/
theorem cmp_same_op_wrong : ∃ (env : Env) (l r : Expr mBu) (e' : Expr bmode), bitsCtx.Sound env ∧ (Expr.cmp Rel.less l r).Ok env ∧
    transformCmp bitsCtx 9 Rel.less l r = some e' ∧ e'.eval env ≠ (Expr.cmp Rel.less l r).eval env :=
  ⟨fun m _ => BitVec.ofNat m.bits 0, .not (.or x8 (.const 0x80#8)), .not (.and y8 (.const 0x80#8)), .const 0#1, bitsCtx_sound _,
    ⟨⟨mBu_valid, mBu_valid⟩, mBu_valid, mBu_valid⟩, by decide +kernel, by decide +kernel⟩

/-- C71 fails for two shifts by the same count (iropt.c:5183-5214): the bits lost by the shift must be the same on both sides, but
the code asks for the bits of the shifted values.  `~(x | 2) >> 1 == ~(y | 2) >> 1` becomes `(x | 2) == (y | 2)`. -/
theorem cmp_shifts_wrong : ∃ (env : Env) (l r : Expr mBu) (e' : Expr bmode), bitsCtx.Sound env ∧ (Expr.cmp Rel.equal l r).Ok env ∧
    transformCmp bitsCtx 9 Rel.equal l r = some e' ∧ e'.eval env ≠ (Expr.cmp Rel.equal l r).eval env :=
  ⟨fun m i => BitVec.ofNat m.bits i, .shr (.not (.or x8 (.const 2#8))) (.const (m := mIu) 1#32), .shr (.not (.or y8 (.const 2#8))) (.const (m := mIu) 1#32),
    .cmp Rel.equal (.or x8 (.const 2#8)) (.or y8 (.const 2#8)), bitsCtx_sound _,
    by
      simp only [Expr.Ok]
      exact ⟨⟨⟨mBu_valid, mBu_valid⟩, mIu_valid, ⟨by decide, by decide⟩, by intro c h; cases h; decide⟩, ⟨mBu_valid, mBu_valid⟩, mIu_valid, ⟨by decide, by decide⟩, by intro c h; cases h; decide⟩,
    by decide +kernel, by decide +kernel⟩

/-- C71 fails for an arithmetic shift to the right by more than the size, which the modulo-shift of small modes permits (iropt.c:5715-5748):
`(x >>s 20) == -1` becomes `(x & 0) == 0` in a 16-bit mode. -/
theorem cmp_shrs_wrong : ∃ (env : Env) (l : Expr mHs) (e' : Expr bmode), bitsCtx.Sound env ∧ (Expr.cmp Rel.equal l (.const 0xFFFF#16)).Ok env ∧
    transformCmp bitsCtx 9 Rel.equal l (.const 0xFFFF#16) = some e' ∧ e'.eval env ≠ (Expr.cmp Rel.equal l (.const 0xFFFF#16)).eval env :=
  ⟨fun m _ => BitVec.ofNat m.bits 0, .shrs (.leaf mHs 0) (.const (m := mIu) 20#32), .cmp Rel.equal (.and (.leaf mHs 0) (.const 0#16)) (.const 0#16), bitsCtx_sound _,
    by simp only [Expr.Ok]; exact ⟨⟨mHs_valid, mIu_valid, ⟨by decide, by decide⟩, by intro c h; cases h; decide⟩, mHs_valid⟩, by decide +kernel, by decide +kernel⟩

/-- C71 fails for a comparison of a negated value with the least number (iropt.c:5428-5454): `-a >= min`, which holds, becomes `a <= min`.
`(int)(short)-(s & 0x7fff) >= -32768` gets there through the rule for conversions, and becomes false. -/
theorem cmp_minus_wrong : ∃ (env : Env) (l : Expr mIs) (e' : Expr bmode), bitsCtx.Sound env ∧
    (Expr.cmp Rel.greaterEqual l (.const 0xFFFF8000#32)).Ok env ∧ transformCmp bitsCtx 9 Rel.greaterEqual l (.const 0xFFFF8000#32) = some e' ∧
    e'.eval env ≠ (Expr.cmp Rel.greaterEqual l (.const 0xFFFF8000#32)).eval env :=
  ⟨fun m _ => BitVec.ofNat m.bits 0, .conv mIs (.minus (.and (.leaf mHs 0) (.const 0x7fff#16))), .const 0#1, bitsCtx_sound _,
    ⟨⟨⟨mHs_valid, mHs_valid⟩, mIs_valid⟩, mIs_valid⟩, by decide +kernel, by decide +kernel⟩

/-- C71 fails for a remainder compared with zero by an order relation that amounts to `!=` (iropt.c:5256-5279): were it known that
`x % 4` is not positive, `x % 4 < 0` would become `(x & 3) < 0`.  (The value range analysis of libFirm does not look at Mod, so that
the case does not occur today.) -/
theorem cmp_mod_wrong : ∃ (x : BitVec 32), cmpMod Rel.lessGreater Rel.less (.mod (.leaf mIs 0) (.const 4#32)) (.const 0#32) =
      some (.cmp Rel.less (.and (.leaf mIs 0) (.const 3#32)) (.const 0#32)) ∧
    modBV mIs x 4#32 ≠ 0#32 ∧ relHolds Rel.lessEqual (mIs.num (modBV mIs x 4#32)) 0 = true ∧
    relHolds Rel.less (mIs.num (modBV mIs x 4#32)) 0 = true ∧ relHolds Rel.less (mIs.num (x &&& 3#32)) 0 = false :=
  ⟨0xFFFFFFFF#32, by decide +kernel, by decide +kernel, by decide +kernel, by decide +kernel, by decide +kernel⟩

end Verif.Props
