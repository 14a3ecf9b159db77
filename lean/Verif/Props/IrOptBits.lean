import Verif.Lemmas.IrOptBitRules
import Verif.Props.IrOptValue
/-!
# C66–C67: local transformations of bitwise operations
-/
namespace Verif.Props
open Verif.Spec Verif.Model Verif.Model.IrOpt

variable {m : IMode} {env : Env} {C : Ctx}

/-! ## C66 -/

/-- C66, Or: whatever `transform_node_Or` returns computes the same value, for every mode, all operands and all values.
Missing from the full statement: an Or of two comparisons of which the second compares a node with itself (see `or_self_cmp_wrong`). -/
theorem transform_or_sound_partial (S : C.Sound env) (a b : Expr m) (hb : b.NotSelfCmp) : RuleOk env (.or a b) (transformOr C a b) := by
  unfold transformOr
  refine ruleOk_ite (fun hd => ruleOk_some ?_) (fun _ => ?_)
  · intro ho
    refine ⟨?_, ho⟩
    have h0 := disjoint_sound S ho.1 ho.2 hd
    simp only [Expr.eval]
    exact BitVec.add_eq_or_of_and_eq_zero _ _ h0
  · exact transformOr__ok S (r := .or) (Or.inl rfl) (isOp_mk .or a b) hb (by simp) (by simp) (by simp)

/-- C66, Eor. Missing from the full statement: see `transform_or_sound_partial`. -/
theorem transform_eor_sound_partial (S : C.Sound env) (a b : Expr m) (hb : b.NotSelfCmp) : RuleOk env (.eor a b) (transformEor C a b) := by
  unfold transformEor
  refine ruleOk_ite (fun hd => ruleOk_some ?_) (fun _ => ?_)
  · intro ho
    refine ⟨?_, ho⟩
    obtain ⟨⟨l, r⟩, hl⟩ := Option.isSome_iff_exists.1 hd
    obtain ⟨_, _, h1, h2⟩ := eorAdd_sound S ho hl
    rcases eorAdd_view hl with h | h | h <;> cases h
    exact h2.symm
  · exact transformEor__ok S (r := .eor) (Or.inl rfl) (isOp_mk .eor a b) hb (by simp) (by simp)

/-- C66, And. Missing from the full statement: see `transform_or_sound_partial`. -/
theorem transform_and_sound_partial (S : C.Sound env) (a b : Expr m) (hb : b.NotSelfCmp) : RuleOk env (.and a b) (transformAnd C a b) :=
  transformAnd_ok S hb

/-- C66, Not -/
theorem transform_not_sound (S : C.Sound env) (a : Expr m) : RuleOk env (.not a) (transformNot C a) := transformNot_ok S

/-- only "equal" -/
def OnlyEqual (p : Rel) : Prop := p &&& ~~~Rel.equal = 0#4

theorem onlyEqual_and {p : Rel} (x : Rel) (h : OnlyEqual p) : OnlyEqual (p &&& x) := by
  unfold OnlyEqual at *; revert p x; decide

theorem onlyEqual_ite {c : Prop} [Decidable c] {p q : Rel} (hp : OnlyEqual p) (hq : OnlyEqual q) : OnlyEqual (if c then p else q) := by
  split <;> assumption

theorem possibleRel_self (C : Ctx) (a : Expr m) : OnlyEqual (possibleRel C a a) := by
  unfold possibleRel
  split
  · next x y hx hy =>
    rw [hx] at hy; cases hy
    unfold OnlyEqual BitInfo.tvCmp
    simp
  · simp only [if_true]
    refine onlyEqual_and _ (onlyEqual_and _ ?_)
    have h0 : OnlyEqual (Rel.true &&& ~~~Rel.lessGreater &&& ~~~Rel.unordered) := by unfold OnlyEqual; decide
    repeat' first
      | exact h0
      | apply onlyEqual_ite
      | apply onlyEqual_and
      | split

/-- The excluded case does not survive folding: a comparison of a node with itself has a computed value. -/
theorem self_cmp_folded (C : Ctx) (e : Expr m) (h : computedValue C e = none) : e.NotSelfCmp := by
  cases e with
  | cmp r a b =>
    intro hab
    subst hab
    have h4 : ∀ p r : Rel, OnlyEqual p → p &&& r = Rel.false ∨ p &&& ~~~r = Rel.false := by unfold OnlyEqual; decide
    simp only [computedValue, cvCmp] at h
    rcases h4 _ r (possibleRel_self C a) with h' | h'
    · rw [if_pos h'] at h; cases h
    · split at h
      · cases h
      · cases h
  | _ => trivial

/-- C66 fails for two comparisons of which the second compares a node with itself: iropt.c:2618 (also 2752 and 4349) tests
`b_left == b_right` where it means `a_right == b_right`, and `(x < y) | (x == x)` becomes `x <= y`. -/
theorem or_self_cmp_wrong : ∃ (env : Env) (a b e' : Expr bmode), ctx0.Sound env ∧ (Expr.or a b).Ok env ∧ transformOr ctx0 a b = some e' ∧
    e'.eval env ≠ (Expr.or a b).eval env :=
  ⟨fun m i => BitVec.ofNat m.bits (1 - i), .cmp Rel.less (.leaf mIu 0) (.leaf mIu 1), .cmp Rel.equal (.leaf mIu 0) (.leaf mIu 0), _, ctx0_sound _,
    ⟨⟨mIu_valid, mIu_valid⟩, mIu_valid, mIu_valid⟩, rfl, by decide +kernel⟩

/-! the rules at work -/

/-- `(x & 0xF0) | 0x0C` becomes an Add, as no bit is set in both operands -/
example : transformOr ctx1 (.and (.leaf mIu 0) (.const 0xF0#32)) (.const 0x0C#32) = some (.add (.and (.leaf mIu 0) (.const 0xF0#32)) (.const 0x0C#32)) := by decide +kernel
/-- `(x & 6) & 3` becomes `x & 2` -/
example : transformAnd ctx0 (.and (.leaf mIu 0) (.const 6#32)) (.const 3#32) = some (.and (.leaf mIu 0) (.const 2#32)) := by decide +kernel
/-- `(x + 5) ^ 0x7FFFFFFF` becomes `0x7FFFFFFA - x` -/
example : transformEor ctx0 (.add (.leaf mIs 0) (.const 5#32)) (.const 0x7FFFFFFF#32) = some (.sub (.const 0x7FFFFFFA#32) (.leaf mIs 0)) := by decide +kernel
/-- `(x >>s 16) & 0xFFFF` becomes `(x >> 16) & 0xFFFF` -/
example : transformAnd ctx0 (.shrs (.leaf mIs 0) (.const (m := mIu) 16#32)) (.const 0xFFFF#32) =
    some (.and (.shr (.leaf mIs 0) (.const (m := mIu) 16#32)) (.const 0xFFFF#32)) := by decide +kernel
/-- `~(x - y < 3)` becomes `x - y >= 3` -/
example : transformNot ctx0 (.cmp Rel.less (.sub (.leaf mIs 0) (.leaf mIs 1)) (.const 3#32)) =
    some (.cmp (Rel.less ^^^ Rel.true) (.sub (.leaf mIs 0) (.leaf mIs 1)) (.const 3#32)) := by decide +kernel
/-- `(x != y) | (u != v)` becomes `((x ^ y) | (u ^ v)) != 0` -/
example : transformOr ctx0 (.cmp Rel.lessGreater (.leaf mIs 0) (.leaf mIs 1)) (.cmp Rel.lessGreater (.leaf mIs 2) (.leaf mIs 3)) =
    some (.cmp Rel.lessGreater (.or (.conv mIs (.eor (.leaf mIs 0) (.leaf mIs 1))) (.eor (.leaf mIs 2) (.leaf mIs 3))) (.const 0#32)) := by decide +kernel
/-- the hypotheses of the theorems are met, and the value is the same -/
example (x y u v : BitVec 32) :
    let env : Env := fun m i => BitVec.setWidth m.bits (if i = 0 then x else if i = 1 then y else if i = 2 then u else v)
    (Expr.cmp Rel.lessGreater (.or (.conv mIs (.eor (.leaf mIs 0) (.leaf mIs 1))) (.eor (.leaf mIs 2) (.leaf mIs 3))) (.const 0#32)).eval env =
      (Expr.or (.cmp Rel.lessGreater (.leaf mIs 0) (.leaf mIs 1)) (.cmp Rel.lessGreater (.leaf mIs 2) (.leaf mIs 3))).eval env := by
  intro env
  refine (transform_or_sound_partial (ctx0_sound env) (.cmp Rel.lessGreater (.leaf mIs 0) (.leaf mIs 1)) (.cmp Rel.lessGreater (.leaf mIs 2) (.leaf mIs 3))
    ?_ _ ?_ ⟨⟨mIs_valid, mIs_valid⟩, mIs_valid, mIs_valid⟩).1
  · simp [Expr.NotSelfCmp]
  · decide +kernel

end Verif.Props
