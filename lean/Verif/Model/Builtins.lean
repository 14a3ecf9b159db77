import Verif.Spec.Builtins
/-!
# Model: lowering of builtins to calls of the compiler library

Source: `/repo/ir/lower/lower_builtins.c`.  Sizes are in bytes.  The called function is the one of the specification at the size of its name (`si` or `di`); its memory and the tuple of results are not modelled.
-/
namespace Verif.Model.Builtins

open Verif.Spec.Builtins

/-- whether `widen_builtin` changes the node, lower_builtins.c:76-88 -/
def widened (k : Kind) (ptr size : Nat) : Bool :=
  !decide (ptr ≤ size) && (k == .clz || k == .ctz || k == .ffs || k == .parity || k == .popcount)

/-- the size of the parameter after `widen_builtin`, lower_builtins.c:90-103: the mode for offsets is as large as a pointer (irmode.c:153-170) -/
def newSize (k : Kind) (ptr size : Nat) : Nat := if widened k ptr size then ptr else size

/-- the argument after `widen_builtin`, lower_builtins.c:93-96: a Conv extends by the sign if the mode it converts from is signed; otherwise the argument stays as it is, and `setWidth` only adjusts the type -/
def arg (k : Kind) (ptr size : Nat) (signed : Bool) (x : BitVec (8 * size)) : BitVec (8 * newSize k ptr size) :=
  if widened k ptr size then (if signed then x.signExtend _ else x.setWidth _) else x.setWidth _

/-- `get_gcc_machmode`, lower_builtins.c:56-65: the size in the name of the called function; `none` is the panic -/
def machmode (size : Nat) : Option Nat := if size = 4 ∨ size = 8 then some size else none

/-- `replace_with_call`, lower_builtins.c:106-131: the size of the called function and its argument, as a number of that size -/
def lower (k : Kind) (ptr size : Nat) (signed : Bool) (x : BitVec (8 * size)) : Option ((s : Nat) × BitVec (8 * s)) :=
  (machmode (newSize k ptr size)).map fun _ => ⟨newSize k ptr size, arg k ptr size signed x⟩

end Verif.Model.Builtins
