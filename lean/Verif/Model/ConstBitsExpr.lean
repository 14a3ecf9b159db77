import Verif.Model.ConstBits
import Verif.Model.IrOptBase
/-!
# The known-bits analysis of expressions

`constbits_analyze` (ir/ana/constbits.c) computes the state of a node from the states of its operands.  On the expressions of
`Verif.Spec.Expr` there are no cycles, and the result is the transfer function applied from the leaves to the root.  The
traversal of graphs with Phis is not part of this file.
-/
namespace Verif.Model.IrOpt
open Verif.Spec

/-- the transfer functions applied from the leaves to the root, ir/ana/constbits.c:329-750, given the states of the
leaves: `undefined` if an operand is undefined; Div and Mod cannot be analysed -/
def bitsWith (σ : (m : IMode) → Nat → BitInfo m.bits) : {m : IMode} → Expr m → BitInfo m.bits
  | _, .leaf m i => σ m i
  | _, .const v => BitInfo.const v
  | _, .minus a => BitInfo.strict1 BitInfo.minus (bitsWith σ a)
  | _, .not a => BitInfo.strict1 BitInfo.not (bitsWith σ a)
  | _, .add a b => BitInfo.strict2 BitInfo.add (bitsWith σ a) (bitsWith σ b)
  | _, .sub a b => BitInfo.strict2 BitInfo.sub (bitsWith σ a) (bitsWith σ b)
  | _, .mul a b => BitInfo.strict2 BitInfo.mul (bitsWith σ a) (bitsWith σ b)
  | m, .div a b => BitInfo.strict2 (fun _ _ => BitInfo.unknown m.bits) (bitsWith σ a) (bitsWith σ b)
  | m, .mod a b => BitInfo.strict2 (fun _ _ => BitInfo.unknown m.bits) (bitsWith σ a) (bitsWith σ b)
  | _, .and a b => BitInfo.strict2 BitInfo.and (bitsWith σ a) (bitsWith σ b)
  | _, .or a b => BitInfo.strict2 BitInfo.or (bitsWith σ a) (bitsWith σ b)
  | _, .eor a b => BitInfo.strict2 BitInfo.eor (bitsWith σ a) (bitsWith σ b)
  | m, .shl a s => BitInfo.strict2 (BitInfo.shl m.modulo) (bitsWith σ a) (bitsWith σ s)
  | m, .shr a s => BitInfo.strict2 (BitInfo.shr m.modulo) (bitsWith σ a) (bitsWith σ s)
  | m, .shrs a s => BitInfo.strict2 (BitInfo.shrs m.modulo) (bitsWith σ a) (bitsWith σ s)
  | _, .conv (k := k) m a => BitInfo.strict1 (BitInfo.conv k.signed m.bits) (bitsWith σ a)
  | _, .cmp (k := k) r a b => BitInfo.strict2 (BitInfo.cmp k.signed r) (bitsWith σ a) (bitsWith σ b)
  | m, .mux s f t =>
    if (bitsWith σ s).isUndefined || (bitsWith σ f).isUndefined || (bitsWith σ t).isUndefined then BitInfo.undefined m.bits
    else BitInfo.mux (bitsWith σ s) (bitsWith σ f) (bitsWith σ t)
  | _, .confirm v r b => BitInfo.strict2 (BitInfo.confirm r) (bitsWith σ v) (bitsWith σ b)

/-- the leaves (parameters, loads, …) cannot be analysed -/
abbrev bitsOf {m : IMode} (e : Expr m) : BitInfo m.bits := bitsWith (fun k _ => BitInfo.unknown k.bits) e

/-- the sizes of shifted values are powers of two, as those of the modes of all back ends are, and the counts of arithmetic shifts to
the right are constants or are reduced modulo the size (see `constbits_shrs_wrong`) -/
def regular : {m : IMode} → Expr m → Bool
  | _, .leaf _ _ => true
  | _, .const _ => true
  | _, .minus a => regular a
  | _, .not a => regular a
  | _, .add a b => regular a && regular b
  | _, .sub a b => regular a && regular b
  | _, .mul a b => regular a && regular b
  | _, .div a b => regular a && regular b
  | _, .mod a b => regular a && regular b
  | _, .and a b => regular a && regular b
  | _, .or a b => regular a && regular b
  | _, .eor a b => regular a && regular b
  | m, .shl a s => regular a && regular s && decide (m.bits = 2 ^ Nat.log2 m.bits)
  | m, .shr a s => regular a && regular s && decide (m.bits = 2 ^ Nat.log2 m.bits)
  | m, .shrs a s => regular a && regular s && decide (m.bits = 2 ^ Nat.log2 m.bits) && ((asConst s).isSome || decide (m.modulo = m.bits))
  | _, .conv _ a => regular a
  | _, .cmp _ a b => regular a && regular b
  | _, .mux s f t => regular s && regular f && regular t
  | _, .confirm v _ b => regular v && regular b

/-- the surroundings given by the analysis alone: no value ranges, no Confirm facts from the graph -/
def bitsCtx : Ctx where
  bi e := if regular e then some (bitsOf e) else none
  vrpCmp _ _ := Rel.true
  cmpConfirm _ _ _ := none
  one _ := true
  normal _ _ := true
  archDep := true
  norm2 := true
  modebLowered := false

end Verif.Model.IrOpt
