import Verif.Lemmas.IrOptMux
import Verif.Props.IrOptCmp
/-!
# C73: local transformations of selections
-/
namespace Verif.Props
open Verif.Spec Verif.Model Verif.Model.IrOpt

variable {m k : IMode} {env : Env} {C : Ctx}

theorem eqMux_none_cmp {rel : Rel} {l r : Expr k} {f t : Expr m} (h : eqMux C (.cmp rel l r) f t = none) : cvCmp C rel l r = none := by
  unfold eqMux at h
  simp only [muxCond, asConst, asCmp] at h
  cases hc : cvCmp C rel l r with
  | none => rfl
  | some c => rw [hc] at h; simp only at h; split at h <;> simp at h

theorem eqMux_none_ne {sel : Expr bmode} {f t : Expr m} (h : eqMux C sel f t = none) : t ≠ f := by
  intro hh
  unfold eqMux at h
  simp only [hh, if_true] at h
  cases hc : muxCond C sel with
  | none => simp [hc] at h
  | some c => simp [hc] at h

/-- C73: whatever `transform_node_Mux` returns for a Mux that `equivalent_node` keeps has the same value, for every mode, every selector, all operands and
all values.  Missing from the full statement: the selections by a comparison that are excluded by `MuxSafe`, for each of which a wrong result is shown below. -/
theorem transform_mux_sound_partial (S : C.Sound env) (K : ConstBits C) (sel : Expr bmode) (f t : Expr m) (hn : eqMux C sel f t = none)
    (h : ∀ (k : IMode) (rel : Rel) (l r : Expr k), sel = .cmp rel l r → MuxSafe C rel l r f t) :
    RuleOk env (.mux sel f t) (transformMux C sel f t) := by
  unfold transformMux
  refine ruleOk_or ?_ ?_
  · split
    · next k rel l r hs =>
      rw [asCmp_iff] at hs
      simp only at hs
      subst hs
      have hh := h k rel l r rfl
      exact ruleOk_or (muxAbs_ok rel l r f t hh.absRel hh.absSigned)
        (muxCmp_ok S K rel l r f t (undecided_of_cv (eqMux_none_cmp hn)) hh.bits hh.minusOne)
    · exact ruleOk_none _
  · refine ruleOk_ite (fun _ => ruleOk_none _) (fun _ => ?_)
    refine ruleOk_or (muxTrueMux_ok sel f t) (ruleOk_or (muxFalseMux_ok sel f t) ?_)
    have hne := eqMux_none_ne hn
    unfold onBool2
    split
    · next hm => subst hm; exact muxB_ok sel f t hne
    · exact ruleOk_none _

/-- C73: a selector that is not a comparison needs no restriction -/
theorem transform_mux_sound_other (S : C.Sound env) (K : ConstBits C) (sel : Expr bmode) (f t : Expr m) (hn : eqMux C sel f t = none)
    (h : asCmp sel = none) : RuleOk env (.mux sel f t) (transformMux C sel f t) :=
  transform_mux_sound_partial S K sel f t hn fun k rel l r hs => by subst hs; cases h

/-- C73: the assertion of the rule `Mux((a & 1) != 0, 0, b)` (iropt.c:6955) does not fail for a Mux that `equivalent_node` keeps: a value that is zero or one
and is compared with zero or one is tested for equality, also after the exchange of the operands. -/
theorem mux_assertion (S : C.Sound env) (K : ConstBits C) (rel : Rel) (l r : Expr k) (f t : Expr m) (hl : l.Ok env) (hi : isInt k = true)
    (h1 : k.signed = true → 1 < k.bits) (hn : eqMux C (.cmp rel l r) f t = none) :
    muxAssert C rel l r = true ∧ muxAssert C rel.negated l r = true := by
  have hu := undecided_of_cv (eqMux_none_cmp hn)
  have key : ∀ rel : Rel, Undecided rel (possibleRel C l r) → muxAssert C rel l r = true := by
    intro rel hu
    unfold muxAssert
    cases hb : muxBitApplies C l r
    · rfl
    · simpa using mux_assert K hu hi (ok_pos hl) h1 S hl hb
  exact ⟨key rel hu, key _ (undecided_negated hu)⟩

/-- without that, the assertion does fail: `(x & 1) < 0` is never true -/
example : muxAssert bitsCtx Rel.less (.and (.leaf mIu 0) (.const 1#32)) (.const 0#32) = false := by decide +kernel

/-! ## the rules at work -/

abbrev z32 : Expr mIs := .leaf mIs 0
abbrev w32 : Expr mIs := .leaf mIs 1

/-- `z < 0 ? -z : z` -/
example : transformMux bitsCtx (.cmp Rel.less z32 (.const 0#32)) z32 (.minus z32) =
    some (.sub (.eor z32 (.shrs z32 (.const (m := modeIu) 31#32))) (.shrs z32 (.const (m := modeIu) 31#32))) := by decide +kernel
example : eqMux bitsCtx (.cmp Rel.less z32 (.const 0#32)) z32 (.minus z32) = none := by decide +kernel
example : MuxSafe bitsCtx Rel.less z32 (.const 0#32) z32 (.minus z32) :=
  ⟨fun _ _ => by decide, fun _ _ => .inl rfl, fun _ => by decide, fun _ h => absurd h (by decide)⟩
/-- `(z & 8) == 0 ? 0 : 1` becomes `(z >> 3) & 1`; the operands are exchanged before -/
example : transformMux bitsCtx (.cmp Rel.equal (.and z32 (.const 8#32)) (.const 0#32)) (.const (m := mHs) 1#16) (.const 0#16) =
    some (.conv mHs (.shr (.eor (.and z32 (.const 8#32)) (.const 0#32)) (.const (m := modeIu) 3#32))) := by decide +kernel
/-- `s < t ? 1 : 0` for 16-bit operands: the sign of the difference in 32 bits -/
example : transformMux bitsCtx (.cmp Rel.less (.leaf mHs 0) (.leaf mHs 1)) (.const (m := mIs) 0#32) (.const 1#32) =
    some (.shr (.sub (.conv mIs (.leaf mHs 0)) (.conv mIs (.leaf mHs 1))) (.const (m := modeIu) 31#32)) := by decide +kernel
example : MuxSafe bitsCtx Rel.less (.leaf mHs 0) (.leaf mHs 1) (.const (m := mIs) 0#32) (.const 1#32) :=
  ⟨fun h => absurd h (by decide), fun _ _ => .inl rfl, fun _ => by decide, fun h => absurd h (by decide)⟩
/-- `z >= 0 ? -1 : 0` -/
example : transformMux bitsCtx (.cmp Rel.greaterEqual z32 (.const 0#32)) (.const (m := mIs) 0#32) (.const 0xFFFFFFFF#32) =
    some (.shrs (.not z32) (.const (m := modeIu) 31#32)) := by decide +kernel
/-- `(z & 1) ? w : 0` -/
example : transformMux bitsCtx (.cmp Rel.lessGreater (.and z32 (.const 1#32)) (.const 0#32)) (.const (m := mIs) 0#32) w32 =
    some (.and (.minus (.and z32 (.const 1#32))) w32) := by decide +kernel
/-- nested selections with a common operand -/
example : transformMux bitsCtx (.leaf bmode 0) z32 (.mux (.leaf bmode 1) z32 w32) = some (.mux (.and (.leaf bmode 0) (.leaf bmode 1)) z32 w32) := by decide +kernel

/-! ## where the full statement fails -/

/-- C73 fails for `z != 0 ? -z : z`: `ir_mux_is_abs` (iropt.c:6524-6526) wants to accept order relations only, but accepts `!=`; the selection, which is `-z`,
becomes the absolute value.  `equivalent_node` does not remove this Mux. -/
theorem mux_abs_wrong : ∃ (env : Env) (e' : Expr mIs), bitsCtx.Sound env ∧ (Expr.mux (.cmp Rel.lessGreater z32 (.const 0#32)) z32 (.minus z32)).Ok env ∧
    eqMux bitsCtx (.cmp Rel.lessGreater z32 (.const 0#32)) z32 (.minus z32) = none ∧
    transformMux bitsCtx (.cmp Rel.lessGreater z32 (.const 0#32)) z32 (.minus z32) = some e' ∧
    e'.eval env ≠ (Expr.mux (.cmp Rel.lessGreater z32 (.const 0#32)) z32 (.minus z32)).eval env :=
  ⟨fun m _ => BitVec.ofNat m.bits 5, .sub (.eor z32 (.shrs z32 (.const (m := modeIu) 31#32))) (.shrs z32 (.const (m := modeIu) 31#32)), bitsCtx_sound _,
    ⟨⟨mIs_valid, mIs_valid⟩, mIs_valid, mIs_valid⟩, by decide +kernel, by decide +kernel, by decide +kernel⟩

/-- C73 fails for unsigned values: `x > 0 ? -x : x`, again `-x`, becomes minus the absolute value of `x` taken as a signed number. -/
theorem mux_abs_unsigned_wrong : ∃ (env : Env) (e' : Expr mIu), bitsCtx.Sound env ∧
    (Expr.mux (.cmp Rel.greater (.leaf mIu 0) (.const 0#32)) (.leaf mIu 0) (.minus (.leaf mIu 0))).Ok env ∧
    eqMux bitsCtx (.cmp Rel.greater (.leaf mIu 0) (.const 0#32)) (.leaf mIu 0) (.minus (.leaf mIu 0)) = none ∧
    transformMux bitsCtx (.cmp Rel.greater (.leaf mIu 0) (.const 0#32)) (.leaf mIu 0) (.minus (.leaf mIu 0)) = some e' ∧
    e'.eval env ≠ (Expr.mux (.cmp Rel.greater (.leaf mIu 0) (.const 0#32)) (.leaf mIu 0) (.minus (.leaf mIu 0))).eval env :=
  ⟨fun m _ => BitVec.ofNat m.bits 0x80000001, .sub (.shrs (.leaf mIu 0) (.const (m := modeIu) 31#32)) (.eor (.leaf mIu 0) (.shrs (.leaf mIu 0) (.const (m := modeIu) 31#32))),
    bitsCtx_sound _, ⟨⟨mIu_valid, mIu_valid⟩, mIu_valid, mIu_valid⟩, by decide +kernel, by decide +kernel, by decide +kernel⟩

/-- C73 fails for `c < -1 ? 1 : 0` where `c` is known to be different from -1: the code checks that the comparison is one with `>` or `<=` (which do not overflow
for -1), and then forms `(c - -1) < 0` because it is one with `<`, too (iropt.c:6812-6833).  (`transform_node_Cmp` rewrites comparisons with -1 before.) -/
theorem mux_minus_one_wrong : ∃ (env : Env) (e' : Expr mIs), bitsCtx.Sound env ∧
    (Expr.mux (.cmp Rel.less (.confirm z32 Rel.lessGreater (.const 0xFFFFFFFF#32)) (.const 0xFFFFFFFF#32)) (.const (m := mIs) 0#32) (.const 1#32)).Ok env ∧
    transformMux bitsCtx (.cmp Rel.less (.confirm z32 Rel.lessGreater (.const 0xFFFFFFFF#32)) (.const 0xFFFFFFFF#32)) (.const (m := mIs) 0#32) (.const 1#32) = some e' ∧
    e'.eval env ≠ (Expr.mux (.cmp Rel.less (.confirm z32 Rel.lessGreater (.const 0xFFFFFFFF#32)) (.const 0xFFFFFFFF#32)) (.const (m := mIs) 0#32) (.const 1#32)).eval env :=
  ⟨fun m _ => BitVec.ofNat m.bits 0x7FFFFFFF,
    .shr (.sub (.confirm z32 Rel.lessGreater (.const 0xFFFFFFFF#32)) (.const 0xFFFFFFFF#32)) (.const (m := modeIu) 31#32), bitsCtx_sound _,
    ⟨⟨⟨mIs_valid, mIs_valid, by decide +kernel⟩, mIs_valid⟩, mIs_valid, mIs_valid⟩, by decide +kernel, by decide +kernel⟩

/-- C73 fails for a signed mode with a single bit, whose nonzero value is -1: `b != 0 ? 1 : 0` becomes the conversion of `b`. -/
theorem mux_one_bit_wrong : ∃ (env : Env) (e' : Expr mIs), bitsCtx.Sound env ∧
    (Expr.mux (.cmp Rel.lessGreater (.leaf ⟨true, 1, 32⟩ 0) (.const (m := ⟨true, 1, 32⟩) 0#1)) (.const (m := mIs) 0#32) (.const 1#32)).Ok env ∧
    transformMux bitsCtx (.cmp Rel.lessGreater (.leaf ⟨true, 1, 32⟩ 0) (.const (m := ⟨true, 1, 32⟩) 0#1)) (.const (m := mIs) 0#32) (.const 1#32) = some e' ∧
    e'.eval env ≠ (Expr.mux (.cmp Rel.lessGreater (.leaf ⟨true, 1, 32⟩ 0) (.const (m := ⟨true, 1, 32⟩) 0#1)) (.const (m := mIs) 0#32) (.const 1#32)).eval env :=
  ⟨fun m _ => BitVec.ofNat m.bits 1, .conv mIs (.shr (.eor (.leaf ⟨true, 1, 32⟩ 0) (.const (m := ⟨true, 1, 32⟩) 0#1)) (.const (m := modeIu) 0#32)), bitsCtx_sound _,
    ⟨⟨⟨by decide, by decide, by decide, .inr ⟨by decide, by decide, 5, rfl⟩⟩, ⟨by decide, by decide, by decide, .inr ⟨by decide, by decide, 5, rfl⟩⟩⟩, mIs_valid, mIs_valid⟩,
    by decide +kernel, by decide +kernel⟩

end Verif.Props
