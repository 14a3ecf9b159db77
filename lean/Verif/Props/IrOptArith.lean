import Verif.Lemmas.IrOptArith
import Verif.Props.IrOptShift
/-!
# C69, C70: local transformations of arithmetic
-/
namespace Verif.Props
open Verif.Spec Verif.Model Verif.Model.IrOpt

variable {m k : IMode} {env : Env} {C : Ctx}

/-! ## C69 -/

/-- C69, Add: whatever `transform_node_Add` returns computes the same value, for every integer mode, all operands and all values.  Missing from
the full statement: an Add of two right shifts by the same count, or of two Ands or Ors with a common operand (`add_distributive_wrong`). -/
theorem transform_add_sound_partial (S : C.Sound env) (a b : Expr m) (hm : m ≠ bmode) (hc : distCarry .add a b = none) :
    RuleOk env (.add a b) (transformAdd C a b) := by
  unfold transformAdd
  refine ruleOk_or' (foldAssoc_ok .add a b) fun hf => ?_
  refine ruleOk_or (addConfirm_ok a b) (ruleOk_or (addSubConst_ok a b) (ruleOk_or ?_ (ruleOk_or (addSame_ok a b) (ruleOk_or (addMinus_ok a b)
    (ruleOk_or (addNot_ok a b) (ruleOk_or (addOr_ok a b) (ruleOk_or (addMul_ok a b) (ruleOk_or ?_ ?_))))))))
  · exact binopMux_ok (r := .add) a b _ (fun h => h) (fun _ => rfl)
  · refine ruleOk_ite (fun hd => ?_) (fun _ => ruleOk_none _)
    refine transformOr__ok S (r := .add) (Or.inr rfl) ?_ (notSelfCmp_of_int hm b) (fun _ => foldAssoc_none hf) (fun _ => hc) (fun _ => hd)
    refine ⟨fun h => h, fun h => ?_⟩
    exact BitVec.add_eq_or_of_and_eq_zero _ _ (disjoint_sound S h.1 h.2 hd)
  · refine ruleOk_ite (fun hd => ?_) (fun _ => ruleOk_none _)
    refine transformEor__ok S (r := .add) (Or.inr rfl) ?_ (notSelfCmp_of_int hm b) (fun _ => foldAssoc_none hf) (fun _ => hc)
    exact ⟨fun h => h, fun h => eorAdd_add S h hd⟩

/-- C69, Sub: whatever `transform_node_Sub` returns computes the same value, for every mode, all operands and all values. -/
theorem transform_sub_sound (S : C.Sound env) (a b : Expr m) : RuleOk env (.sub a b) (transformSub C a b) := by
  unfold transformSub
  exact ruleOk_or (subOnes_ok a b) (ruleOk_or (binopMux_ok (r := .add) a b _ (fun h => h) (fun _ => rfl)) (ruleOk_or (subConst_ok a b)
    (ruleOk_or (subAddConst_ok a b) (ruleOk_or (subMinus_ok a b) (ruleOk_or (subZero_ok a b) (ruleOk_or (subAddL_ok S a b)
    (ruleOk_or (subAddR_ok S a b) (ruleOk_or (subMul_ok a b) (ruleOk_or (subSub_ok a b) (ruleOk_or (subFromConst_ok a b)
    (ruleOk_or (subNot_ok a b) (ruleOk_or (subAndMax_ok a b) (subAnd_ok a b)))))))))))))

/-- C69, Minus: whatever `transform_node_Minus` returns computes the same value, for every mode, every operand and all values. -/
theorem transform_minus_sound (a : Expr m) : RuleOk env (.minus a) (transformMinus C a) := by
  unfold transformMinus
  refine ruleOk_or (unopMux_ok a _ (fun h => h) (fun _ => rfl)) (ruleOk_or ?_ (ruleOk_or (minusAdd_ok a) (ruleOk_or (minusAnd_ok a)
    (ruleOk_or (minusOr_ok a) (ruleOk_or (minusMul_ok a) (minusShl_ok a))))))
  intro e' he ho
  exact negateCheaply_ok ho he

/-! ## C70 -/

/-- C70, Mul: whatever `transform_node_Mul` returns computes the same value, for every mode with a modulo-shift, all operands and all values.
Missing from the full statement: modes without modulo-shift and shifts by constants not yet reduced by the modulo-shift as the left operand
(`mul_shr_wrong`). -/
theorem transform_mul_sound_partial (S : C.Sound env) (a b : Expr m) (hm : m.modulo ≠ 0) (ha : a.CountsReduced) :
    RuleOk env (.mul a b) (transformMul C a b) := by
  unfold transformMul
  exact ruleOk_or (foldAssoc_ok .mul a b) (ruleOk_or (binopMux_ok (r := .mul) a b _ (fun h => h) (fun _ => rfl)) (ruleOk_or (mulAddConst_ok a b)
    (ruleOk_or (mulByConst_ok a b hm ha) (ruleOk_or (mulBit_ok S a b) (ruleOk_or (mulMask_ok a b) (ruleOk_or (mulMinus_ok a b)
    (ruleOk_or (mulShl_ok a b) (mulDiv_ok a b))))))))

/-- C70, Div: whatever `transform_node_Div` returns computes the same value whenever the divisor is not zero. -/
theorem transform_div_sound (S : C.Sound env) (a b : Expr m) : RuleOk env (.div a b) (transformDiv C a b) := by
  unfold transformDiv
  refine ruleOk_or (ruleOk_const fun c ho h => cv_div S ho h) (ruleOk_ite (fun h => ruleOk_some fun ho => ⟨?_, ho.1⟩) (fun _ => ruleOk_none _))
  simp only [Bool.and_eq_true, isAllOne_iff] at h
  obtain ⟨hs, rfl⟩ := h
  simp only [Expr.eval, divBV, hs, if_true]
  rw [sdiv_allOnes]

/-- C70, Mod: whatever `transform_node_Mod` returns computes the same value whenever the divisor is not zero. -/
theorem transform_mod_sound (S : C.Sound env) (a b : Expr m) : RuleOk env (.mod a b) (transformMod C a b) := by
  unfold transformMod
  exact ruleOk_or (ruleOk_const fun c ho h => cv_mod S ho h) (ruleOk_or (modMod_ok a b) (modBits_ok S a b))

/-! ## where the full statements fail -/

/-- the bits that may be set in an And of two masked values -/
def ctx3 : Ctx where
  bi e := match e with
    | .and (.and _ (.const c)) (.and _ (.const c')) => some ⟨c &&& c', 0⟩
    | _ => none
  vrpCmp _ _ := Rel.true
  cmpConfirm _ _ _ := none
  one _ := true
  normal _ _ := true
  archDep := true
  norm2 := true
  modebLowered := false

theorem ctx3_sound (env : Env) : ctx3.Sound env where
  bi e b _ h := by
    simp only [ctx3] at h
    split at h
    · cases h
      intro i hi
      simp only [Expr.eval, BitVec.getLsbD_and]
      constructor
      · simp only [Bool.and_eq_true]; tauto
      · simp
    · cases h
  vrp _ _ _ _ := relHolds_true _ _
  confirm _ _ _ _ _ _ h := by cases h

/-- C69 fails for an Add of two Ands: `(x & 3 & w) + (y & 5 & w)` with `w = v & 6` has no carries and is treated as an Or, but
`transform_bitwise_distributive` builds `((x & 3) + (y & 5)) & w` with the operation of the node, which has carries (iropt.c:2413). -/
theorem add_distributive_wrong : ∃ (env : Env) (a b e' : Expr mIu), ctx3.Sound env ∧ (Expr.add a b).Ok env ∧ transformAdd ctx3 a b = some e' ∧
    e'.eval env ≠ (Expr.add a b).eval env :=
  ⟨fun m i => BitVec.ofNat m.bits (if i = 2 then 6 else 1),
    .and (.and (.leaf mIu 0) (.const 3#32)) (.and (.leaf mIu 2) (.const 6#32)),
    .and (.and (.leaf mIu 1) (.const 5#32)) (.and (.leaf mIu 2) (.const 6#32)),
    .and (.add (.and (.leaf mIu 0) (.const 3#32)) (.and (.leaf mIu 1) (.const 5#32))) (.and (.leaf mIu 2) (.const 6#32)),
    ctx3_sound _, ⟨⟨⟨mIu_valid, mIu_valid⟩, mIu_valid, mIu_valid⟩, ⟨mIu_valid, mIu_valid⟩, mIu_valid, mIu_valid⟩, by decide +kernel, by decide +kernel⟩

/-- C70 fails for a multiplication of a shift by an unreduced count: `(x >> 33) * 4` is `(x >> 1) * 4` in a 32-bit mode with modulo-shift 32,
but `transform_node_shl_shr` turns it into `(x >> 31) & mask`. -/
theorem mul_shr_wrong : ∃ (env : Env) (a e' : Expr mIu), ctx0.Sound env ∧ (Expr.mul a (.const 4#32)).Ok env ∧
    transformMul ctx0 a (.const 4#32) = some e' ∧ e'.eval env ≠ (Expr.mul a (.const 4#32)).eval env :=
  ⟨fun m _ => BitVec.ofNat m.bits 7, .shr (.leaf mIu 0) (.const (m := mIu) 33#32),
    .and (.shr (.leaf mIu 0) (.const (m := mIu) 31#32)) (.const 0xFFFFFFFC#32), ctx0_sound _,
    by simp only [Expr.Ok]; exact ⟨⟨mIu_valid, mIu_valid, mIu_counts, by intro c h; cases h; decide⟩, mIu_valid⟩, by decide +kernel, by decide +kernel⟩

/-! the rules at work -/

/-- `(100 - x) + 7` becomes `107 - x` -/
example : transformAdd ctx0 (.sub (.const 100#32) (.leaf mIs 0)) (.const 7#32) = some (.sub (.const 107#32) (.leaf mIs 0)) := by decide +kernel
/-- a value confirmed to be at most 10, plus 5, is at most 15 -/
example : transformAdd ctx0 (.confirm (.leaf mIs 0) Rel.lessEqual (.const 10#32)) (.const 5#32) =
    some (.confirm (.add (.leaf mIs 0) (.const 5#32)) Rel.lessEqual (.const 15#32)) := by decide +kernel
/-- `~(x & 0xF0) + 0x0C`, treated as an Add, becomes `0x0B - (x & 0xF0)` -/
example : transformAdd ctx1 (.not (.and (.leaf mIu 0) (.const 0xF0#32))) (.const 0x0C#32) = some (.sub (.const 0x0B#32) (.and (.leaf mIu 0) (.const 0xF0#32))) := by decide +kernel
/-- `x + x` becomes `x << 1` -/
example : transformAdd ctx0 (.leaf mIs 0) (.leaf mIs 0) = some (.shl (.leaf mIs 0) (.const (m := modeIu) 1#32)) := by decide +kernel
example : mIs ≠ bmode ∧ distCarry .add (.leaf mIs 0) (.leaf mIs 0) = none := by decide +kernel
/-- `x - (x + y)` becomes `-y` -/
example : transformSub ctx0 (.leaf mIs 0) (.add (.leaf mIs 0) (.leaf mIs 1)) = some (.minus (.leaf mIs 1)) := by decide +kernel
/-- `x - (x & y)` becomes `x & ~y` -/
example : transformSub ctx0 (.leaf mIs 0) (.and (.leaf mIs 0) (.leaf mIs 1)) = some (.and (.leaf mIs 0) (.not (.leaf mIs 1))) := by decide +kernel
/-- `-(x >> 31)` becomes `x >>s 31` -/
example : transformMinus ctx0 (.shr (.leaf mIs 0) (.const (m := mIu) 31#32)) = some (.shrs (.leaf mIs 0) (.const (m := mIu) 31#32)) := by decide +kernel
/-- `-(x & -x)` becomes `x | -x` -/
example : transformMinus ctx0 (.and (.leaf mIs 0) (.minus (.leaf mIs 0))) = some (.or (.leaf mIs 0) (.minus (.leaf mIs 0))) := by decide +kernel
/-- `(x / y) * y` becomes `x - x % y` -/
example : transformMul ctx0 (.div (.leaf mIs 0) (.leaf mIs 1)) (.leaf mIs 1) = some (.sub (.leaf mIs 0) (.mod (.leaf mIs 0) (.leaf mIs 1))) := by decide +kernel
/-- `(x >> 5) * 4` becomes `(x >> 3) & 0x1FFFFFFC` -/
example : transformMul ctx0 (.shr (.leaf mIu 0) (.const (m := mIu) 5#32)) (.const 4#32) =
    some (.and (.shr (.leaf mIu 0) (.const (m := mIu) 3#32)) (.const 0x1FFFFFFC#32)) := by decide +kernel
/-- `x / -1` becomes `-x` -/
example : transformDiv ctx0 (.leaf mIs 0) (.const 0xFFFFFFFF#32) = some (.minus (.leaf mIs 0)) := by decide +kernel
/-- `(x % -12) % 4` becomes `x % 4` -/
example : transformMod ctx0 (.mod (.leaf mIs 0) (.const 0xFFFFFFF4#32)) (.const 4#32) = some (.mod (.leaf mIs 0) (.const 4#32)) := by decide +kernel
/-- `(x & 3) % 10` becomes `(x & 3) - 0` -/
example : transformMod ctx1 (.and (.leaf mIs 0) (.const 3#32)) (.const 10#32) = some (.sub (.and (.leaf mIs 0) (.const 3#32)) (.const 0#32)) := by decide +kernel

end Verif.Props
