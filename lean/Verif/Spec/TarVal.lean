import Verif.Spec.Bytes
import Verif.Spec.Bits
import Verif.Model.TarVal
/-!
# Specification: what an integer target value denotes

`Denotes E t md x`: the target value `t` is a canonical value of the integer or
reference mode `md` denoting the mathematical integer `x`: the buffer, read as
one two's complement number, is `x`, and `x` is in the range of the mode.
-/
namespace Verif.Spec
open Verif.Model

/-- Modes the tarval module accepts: two's complement, at least one bit and at
most the precision `8 * m` of the module (`new_int_mode`, irmode.c:145-146,
even requires `<`). -/
structure ModeOk (E : TvEnv) (md : Mode) : Prop where
  twos : md.twos = true
  pos : 0 < md.bits
  le : md.bits ≤ 8 * E.m

/-- The module is initialised with a precision of at least 40 bits
(`init_tarval_1` uses 136: `TvEnv.default`). -/
def EnvOk (E : TvEnv) : Prop := 5 ≤ E.m

structure Denotes (E : TvEnv) (t : TarVal) (md : Mode) (x : Int) : Prop where
  ok : ModeOk E md
  inRange : InRange md.signed md.bits x
  repr : ∃ buf, t = .int md buf ∧ buf.length = 2 * E.m ∧ Bytes buf ∧ svalue buf = x

end Verif.Spec
