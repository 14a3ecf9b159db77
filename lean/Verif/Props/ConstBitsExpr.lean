import Verif.Lemmas.ConstBitsExpr
import Verif.Props.IrOptValue
/-!
# C72: the known bits of a whole expression
-/
namespace Verif.Props
open Verif.Spec Verif.Model Verif.Model.IrOpt

variable {m k : IMode} {env : Env}

/-- C72: the bits computed for a node describe its value, for every expression without undefined behaviour, all values of the leaves and
all modes.  Missing from the full statement: shifts in modes whose size is not a power of two, arithmetic shifts by counts that may be
greater than the size (`constbits_shrs_wrong`), and graphs with Phis. -/
theorem constbits_expr_partial (e : Expr m) (he : e.Ok env) (hr : regular e = true) :
    Describes (bitsOf e).z (bitsOf e).o (e.eval env) := bitsOf_sound e he hr

/-- a node that is found to be constant has this value -/
theorem constbits_expr_const_partial (e : Expr m) (he : e.Ok env) (hr : regular e = true) (h : (bitsOf e).z = (bitsOf e).o) :
    e.eval env = (bitsOf e).z := by
  have := constbits_expr_partial e he hr
  rw [← h] at this
  exact describes_eq this

/-- no node whose value is defined gets the state "undefined", so the analysis does not take code for unreachable that is executed -/
theorem constbits_expr_defined_partial (e : Expr m) (he : e.Ok env) (hr : regular e = true) : (bitsOf e).isUndefined = false := by
  by_contra h
  simp only [Bool.not_eq_false] at h
  exact not_describes_undefined (ok_pos he) h _ (constbits_expr_partial e he hr)

/-- the surroundings assumed in C64–C71 exist: those the analysis provides -/
theorem bitsCtx_sound (env : Env) : bitsCtx.Sound env where
  bi e b he h := by
    simp only [bitsCtx] at h
    split at h
    · next hr => cases h; exact bitsOf_sound e he hr
    · cases h
  vrp _ _ _ _ := relHolds_true _ _
  confirm _ _ _ _ _ _ h := by cases h

/-- `((x & 3) + (y & 12) * 2) | 64`: the bits 2, 5 and 7 are zero, bit 6 is one -/
example : bitsOf (.or (.add (.and (.leaf mBu 0) (.const 3#8)) (.mul (.and (.leaf mBu 1) (.const 12#8)) (.const 2#8))) (.const 64#8) : Expr mBu) = ⟨0x5b#8, 0x40#8⟩ := by
  decide +kernel
example : regular (.or (.add (.and (.leaf mBu 0) (.const 3#8)) (.mul (.and (.leaf mBu 1) (.const 12#8)) (.const 2#8))) (.const 64#8) : Expr mBu) = true := by
  decide +kernel
/-- `(x & 15) < 16` holds, and the Mux is its second operand -/
example : bitsOf (.mux (.cmp Rel.less (.and (.leaf mBu 0) (.const 15#8)) (.const 16#8)) (.leaf mBu 1) (.const 7#8) : Expr mBu) = ⟨7#8, 7#8⟩ := by
  decide +kernel

end Verif.Props
