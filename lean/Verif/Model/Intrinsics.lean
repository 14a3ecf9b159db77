import Verif.Spec.CString
/-!
# Model: replacement of calls of library functions

ir/lower/lower_intrinsics.c: strings with constant initializers, copies that do nothing, abs, even functions.  Characters have 8 bits; the result mode is wider.
Left out: the checks of types, exceptions, and the rules for constants 0, 1 and -1 of functions on floating point numbers.
-/
namespace Verif.Model.Intrinsics

/-- an element of a compound initializer: IR_INITIALIZER_NULL; a constant of a signed or unsigned mode; a node that is no Const (such as Offset or Size) -/
inductive Entry
  | null
  | val (signed : Bool) (b : BitVec 8)
  | unknown (i : Nat)
  deriving DecidableEq, Repr

/-- the byte in memory; `ρ`: the values of nodes that are not evaluated yet -/
def Entry.byte (ρ : Nat → BitVec 8) : Entry → BitVec 8
  | .null => 0
  | .val _ b => b
  | .unknown i => ρ i

/-- `initializer_val_is_null`, ir/lower/lower_intrinsics.c:521-540 -/
def isNull : Entry → Bool
  | .null => true
  | .val _ b => b == 0
  | .unknown _ => false

/-- `eval_strlen`, ir/lower/lower_intrinsics.c:551-583 -/
def evalStrlen : List Entry → Option Nat
  | [] => none
  | x :: l => if isNull x then some 0 else (evalStrlen l).map (· + 1)

/-- `get_initializer_value`, ir/lower/lower_intrinsics.c:498-519: a tarval is a mode and bits -/
def value (mode : Bool) : Entry → Option (Bool × BitVec 8)
  | .null => some (mode, 0)
  | .val s b => some (s, b)
  | .unknown _ => none

/-- `tarval_convert_to` a wider signed mode -/
def widen (t : Bool × BitVec 8) : Int := if t.1 then t.2.toInt else t.2.toNat

/-- `eval_strcmp`, ir/lower/lower_intrinsics.c:619-687: `mode` is that of the elements of the right string; tarvals are compared by their address, so with mode -/
def evalStrcmp (mode : Bool) : List Entry → List Entry → Option Int
  | x :: xs, y :: ys =>
    match value mode x, value mode y with
    | some a, some b => if a ≠ b then some (widen a - widen b) else if a.2 = 0 then some 0 else evalStrcmp mode xs ys
    | _, _ => none
  | _, _ => none

/-- `is_empty_string`, ir/lower/lower_intrinsics.c:696-723 -/
def emptyString : List Entry → Bool
  | [] => false
  | x :: _ => isNull x

/-- `i_mapper_strcmp`, ir/lower/lower_intrinsics.c:725-816, for different pointers: the initializers of constant strings; `first`: the first byte of the other string;
`mode`: whether char is signed -/
def mapStrcmp (mode : Bool) (left right : Option (List Entry)) (first : BitVec 8) : Option Int :=
  match left, right with
  | some l, some r => evalStrcmp mode l r
  | some l, none => if emptyString l then some (-widen (mode, first)) else none
  | none, some r => if emptyString r then some (widen (mode, first)) else none
  | none, none => none

/-- `i_mapper_memcpy`, `i_mapper_memmove`, `i_mapper_memcmp`, ir/lower/lower_intrinsics.c:861-937: the call is dropped -/
def dropped (a b len : Nat) : Bool := a == b || len == 0

/-- `i_mapper_abs`, ir/lower/lower_intrinsics.c:160-188; the operands of Mux are the selector, the value for false, the value for true -/
def abs {w : Nat} (x : BitVec w) : BitVec w := if x.slt 0 then -x else x

/-- an argument of a function -/
inductive Arg (w : Nat)
  | leaf (signed : Bool) (x : BitVec w)
  | minus (a : Arg w)
  | conv (a : Arg w)
  | real (z : Int)
  deriving DecidableEq

/-- the value: integers of mode `w`, and integers that have been converted to floating point -/
def Arg.int {w : Nat} : Arg w → Bool × BitVec w
  | .leaf s x => (s, x)
  | .minus a => (a.int.1, -a.int.2)
  | .conv a => a.int
  | .real z => (true, BitVec.ofInt w z)

def Arg.eval {w : Nat} : Arg w → Int
  | .conv a => if a.int.1 then a.int.2.toInt else a.int.2.toNat
  | .minus a => -a.eval
  | .leaf _ _ => 0
  | .real z => z

/-- `i_mapper_symmetric_zero_to_one`, the argument of cos and cosh, ir/lower/lower_intrinsics.c:367-392 -/
def evenArg {w : Nat} : Arg w → Arg w
  | .conv (.minus a) => .conv a
  | .minus a => a
  | a => a

end Verif.Model.Intrinsics
