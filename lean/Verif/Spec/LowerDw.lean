import Verif.Spec.DoubleWord
import Verif.Model.LowerDw
/-!
# Specification: what the lowering of double words has to achieve

Only the types of the model are used, and the test which modes are replaced.
-/
namespace Verif.Model.LowerDw
open Verif.Spec Verif.Model.IrOpt

variable {P : Params} {m : IMode}

/-- the word modes are valid modes and can hold shift counts -/
structure Params.Ok (P : Params) : Prop where
  valid : P.wu.Valid
  counts : P.wu.Counts P.wu

/-- the mode has not more than a word, or exactly two words -/
def Params.Fits (P : Params) (m : IMode) : Prop := m.bits ≤ P.word ∨ m.bits = 2 * P.word

/-- the nodes made for the leaves have the values of the leaves -/
structure Agrees (P : Params) (N : Names) (env env' : Env) : Prop where
  keep : ∀ m i, P.needs m = false → env' m (N.keep m i) = env m i
  two : ∀ m i, P.needs m = true → Splits (env m i) (env' P.wu (N.low m i)) (env' (P.high m) (N.high m i))

/-- the new nodes have the value `v` and no undefined behaviour -/
def Lowered.Right (env' : Env) : Lowered P m → BitVec m.bits → Prop
  | .one e, v => P.needs m = false ∧ e.eval env' = v ∧ e.Ok env'
  | .two l h, v => P.needs m = true ∧ Splits v (l.eval env') (h.eval env') ∧ l.Ok env' ∧ h.Ok env'

/-- every conversion is between modes that have at most one word or two words -/
def SizesOk (P : Params) : {m : IMode} → Expr m → Prop
  | _, .leaf _ _ => True
  | _, .const _ => True
  | _, .minus a => SizesOk P a
  | _, .not a => SizesOk P a
  | _, .add a b => SizesOk P a ∧ SizesOk P b
  | _, .sub a b => SizesOk P a ∧ SizesOk P b
  | _, .mul a b => SizesOk P a ∧ SizesOk P b
  | _, .div a b => SizesOk P a ∧ SizesOk P b
  | _, .mod a b => SizesOk P a ∧ SizesOk P b
  | _, .and a b => SizesOk P a ∧ SizesOk P b
  | _, .or a b => SizesOk P a ∧ SizesOk P b
  | _, .eor a b => SizesOk P a ∧ SizesOk P b
  | _, .shl a b => SizesOk P a ∧ SizesOk P b
  | _, .shr a b => SizesOk P a ∧ SizesOk P b
  | _, .shrs a b => SizesOk P a ∧ SizesOk P b
  | _, .conv (k := k) m a => SizesOk P a ∧ P.Fits k ∧ P.Fits m
  | _, .cmp _ a b => SizesOk P a ∧ SizesOk P b
  | _, .mux s a b => SizesOk P s ∧ SizesOk P a ∧ SizesOk P b
  | _, .confirm a _ b => SizesOk P a ∧ SizesOk P b

/-- what the code lowers without a call of a function of the runtime library, an assertion that fails or a panic -/
def Supported (P : Params) : {m : IMode} → Expr m → Prop
  | _, .leaf _ _ => True
  | _, .const _ => True
  | _, .minus a => Supported P a
  | _, .not a => Supported P a
  | _, .add a b => Supported P a ∧ Supported P b
  | _, .sub a b => Supported P a ∧ Supported P b
  | m, .mul a b => Supported P a ∧ Supported P b ∧ P.needs m = false
  | m, .div a b => Supported P a ∧ Supported P b ∧ P.needs m = false
  | m, .mod a b => Supported P a ∧ Supported P b ∧ P.needs m = false
  | _, .and a b => Supported P a ∧ Supported P b
  | _, .or a b => Supported P a ∧ Supported P b
  | _, .eor a b => Supported P a ∧ Supported P b
  | m, .shl (k := k) a b => Supported P a ∧ Supported P b ∧ ShiftSupported P m k
  | m, .shr (k := k) a b => Supported P a ∧ Supported P b ∧ ShiftSupported P m k
  | m, .shrs (k := k) a b => Supported P a ∧ Supported P b ∧ ShiftSupported P m k
  | _, .conv (k := k) m a => Supported P a ∧ ((P.needs k = true ∨ P.needs m = true) → isInt k = true ∧ isInt m = true)
  | _, .cmp _ a b => Supported P a ∧ Supported P b
  | _, .mux s a b => Supported P s ∧ Supported P a ∧ Supported P b
  | m, .confirm a _ b => Supported P a ∧ Supported P b ∧ P.needs m = false
where
  /-- a shift of a double word by an unsigned count, modulo the size, or of another value by a count that is no double word -/
  ShiftSupported (P : Params) (m k : IMode) : Prop :=
    if P.needs m then k.signed = false ∧ m.modulo = m.bits ∧ P.modulo = P.word ∧ ∃ q, P.word = 2 ^ q else P.needs k = false

end Verif.Model.LowerDw
