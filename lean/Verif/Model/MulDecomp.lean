import Verif.Spec.IR
/-!
# Model of the multiplication decomposition, `ir/ir/irarch.c:56-520`

Target values are represented by the integers they denote; the functions of
`tv.c` used here (`tarval_get_bit`, `tarval_shl_unsigned`, `tarval_add`,
`tarval_divmod`, `new_tarval_from_long`) are replaced by the operations they are
proved to compute (C01, C04, C05, C14).  A condensed representation `(R, r)` is
the list of the first `r` entries of the array `R`; its entries are `unsigned
char`s.  The recursion carries fuel; `none` = fuel exhausted, failed assertion or
access outside of an array.  Costs only decide between keeping the Mul and using
the new graph and are not modelled.
-/
namespace Verif.Model
open Verif.Spec

/-- `instruction`, irarch.c:56-66.  `MUL` is never built. -/
inductive Insn
  | lea (a b : Insn) (s : Nat)
  | shift (a : Insn) (s : Nat)
  | sub (a b : Insn)
  | add (a b : Insn)
  | zero
  | root
  deriving DecidableEq

/-- store into an `unsigned char` -/
def u8 (n : Nat) : Nat := n % 256

/-- `emit_LEA`, irarch.c:104-115 -/
def emitLea (a b : Insn) (s : Nat) : Insn := if s > 0 then .lea a b s else .add a b

/-- `emit_SHIFT`, irarch.c:120-143 -/
def emitShift (bits : Nat) (a : Insn) (s : Nat) : Insn :=
  if s = bits then .zero else if s ≠ 1 then .shift a s else .add a a

/-- loop of `value_to_condensed`, irarch.c:185-191, from bit `i` on with `k` bits left, for the bits `bit` -/
def condense (bit : Nat → Bool) : Nat → Nat → Nat → List Nat
  | 0, _, _ => []
  | k + 1, i, l => if bit i then u8 (i - l) :: condense bit k (i + 1) i else condense bit k (i + 1) l

/-- `value_to_condensed`, irarch.c:178-195 -/
def valueToCondensed (bits : Nat) (tv : Int) : List Nat := condense (ibit tv) bits 0 0

/-- loop of `calculate_gain`, irarch.c:205-213, over the entries `R[i-1], …, R[r-2]` -/
def gainLoop : List Nat → Nat → Int → Int → Int → Int
  | [], _, _, _, idx => idx
  | [_], _, _, _, idx => idx
  | a :: b :: rest, i, gain, maxGain, idx =>
      let gain' := gain + (2 - (a : Int))
      if gain' > maxGain then gainLoop (b :: rest) (i + 1) gain' gain' i else gainLoop (b :: rest) (i + 1) gain' maxGain idx

/-- `calculate_gain`, irarch.c:200-215 -/
def calculateGain (R : List Nat) : Option Int :=
  match R with
  | [] => none
  | r0 :: rest => some (gainLoop rest 2 (2 - 3 - (r0 : Int)) 0 (-1))

/-- first loop of `complement_condensed`, irarch.c:225-229: mark the bits; returns the array and `j` -/
def markLoop : List Nat → Nat → List Nat → Option (List Nat × Nat)
  | [], j, value => some (value, j)
  | d :: ds, j, value => if j + d < value.length then markLoop ds (j + d) (value.set (j + d) 1) else none

/-- second loop, irarch.c:232-238, from index `i` on with `k` entries left -/
def negateLoop : Nat → Nat → Nat → List Nat → Option (List Nat)
  | 0, _, _, value => some value
  | k + 1, i, c, value =>
      match value[i]? with
      | none => none
      | some x =>
          let v := if x = 0 then 1 else 0
          negateLoop k (i + 1) (v &&& c) (value.set i (v ^^^ c))

/-- third loop, irarch.c:241-249, in place, from index `i` on with `k` entries left; returns the array and `r` -/
def condenseInPlace : Nat → Nat → Nat → Nat → List Nat → Option (List Nat × Nat)
  | 0, _, _, r, value => some (value, r)
  | k + 1, i, l, r, value =>
      match value[i]? with
      | none => none
      | some x => if x = 1 then condenseInPlace k (i + 1) i (r + 1) (value.set r (u8 (i - l))) else condenseInPlace k (i + 1) l r value

/-- `complement_condensed`, irarch.c:220-253 -/
def complementCondensed (bits : Nat) (R : List Nat) (gain : Nat) : Option (List Nat) := do
  let (value, j) ← markLoop (R.take gain) 0 (List.replicate bits 0)
  let value ← negateLoop (j + 1) 0 1 value
  let (value, r) ← condenseInPlace (j + 1) 0 0 0 value
  pure (value.take r)

/-- `res ? tarval_add(res, tv) : tv`, irarch.c:266 -/
def accAdd (m : IMode) (res : Option Int) (tv : Int) : Int :=
  match res with
  | some v => irAdd m v tv
  | none => tv

/-- loop of `condensed_to_value`, irarch.c:262-267: the running bit and the sum -/
def condensedToValueLoop (m : IMode) : List Nat → Int → Option Int → Option Int
  | [], _, res => res
  | j :: rest, tv, res =>
      let tv' := if j ≠ 0 then irShl m tv j else tv
      condensedToValueLoop m rest tv' (some (accAdd m res tv'))

/-- `condensed_to_value`, irarch.c:258-269 -/
def condensedToValue (m : IMode) (R : List Nat) : Option Int := condensedToValueLoop m R (m.wrap 1) none

/-- `if (N == NULL) N = condensed_to_value(env, R, r);`, irarch.c:341-342 -/
def valueOr (m : IMode) (R : List Nat) (N : Option Int) : Option Int :=
  match N with
  | some v => some v
  | none => condensedToValue m R

/-- `decompose_simple_cases`, irarch.c:277-299 -/
def decomposeSimple (bits maxS : Nat) (R : List Nat) : Option Insn :=
  match R with
  | [r0] => some (emitShift bits .root r0)
  | [r0, r1] =>
      if r1 ≤ maxS then
        let ins := emitLea .root .root r1
        some (if r0 ≠ 0 then emitShift bits ins r0 else ins)
      else
        let ins := if r0 ≠ 0 then emitShift bits .root r0 else .root
        some (emitLea ins (emitShift bits .root (r0 + r1)) 0)
  | _ => none

/-- the array `R2` of `decompose_mul`, irarch.c:315-333 -/
def gainR2 (R : List Nat) (gain : Nat) : Option (List Nat) :=
  match R.drop gain with
  | [] => none
  | g :: rest =>
      let k := u8 (1 + (R.take gain).sum)
      if u8 (g + 255) = 0 then some (u8 (k + 1) :: rest) else some (k :: u8 (g + 255) :: rest)

/-- the loop over the LEA factors in `decompose_mul`, irarch.c:344-359: the first `i` (from `maxS` down) whose factor divides `N` and
leaves fewer bits; with the quotient -/
def leaFactor (m : IMode) (N : Int) (r : Nat) : Nat → Option (Nat × Int)
  | 0 => none
  | i + 1 =>
      let tv := m.wrap (2 ^ (i + 1) + 1)
      if irMod m N tv = 0 ∧ (valueToCondensed m.bits (irDiv m N tv)).length < r then some (i + 1, irDiv m N tv) else leaFactor m N r i

/-- `basic_decompose_mul`, irarch.c:366-385; `rec` is `decompose_mul` -/
def basicDecomposeMul (bits maxS : Nat) (rec : List Nat → Option Int → Option Insn) (R : List Nat) (N : Int) : Option Insn :=
  match R with
  | r0 :: r1 :: rest =>
      if r0 = 0 then
        let t := if r1 > max maxS r1 then 1 else 0
        (rec (u8 (r1 - t) :: rest) (some N)).map (fun ns => emitLea .root ns t)
      else if r0 ≤ maxS then (rec (u8 (r1 + r0) :: rest) (some N)).map (fun ns => emitLea ns .root r0)
      else (rec (0 :: r1 :: rest) (some N)).map (fun ns => emitShift bits ns r0)
  | _ => none

/-- `decompose_mul`, irarch.c:304-361 -/
def decomposeMul (m : IMode) (subs : Bool) (maxS : Nat) : Nat → List Nat → Option Int → Option Insn
  | 0, _, _ => none
  | fuel + 1, R, N =>
      if R.length ≤ 2 then decomposeSimple m.bits maxS R
      else
        match calculateGain R with
        | none => none
        | some gain =>
            if subs ∧ gain > 0 then
              match complementCondensed m.bits R gain.toNat, gainR2 R gain.toNat with
              | some R1, some R2 =>
                  match decomposeMul m subs maxS fuel R1 none, decomposeMul m subs maxS fuel R2 none with
                  | some i1, some i2 => some (.sub i2 i1)
                  | _, _ => none
              | _, _ => none
            else
              match valueOr m R N with
              | none => none
              | some v =>
                  match leaFactor m v R.length maxS with
                  | some (i, q) => (decomposeMul m subs maxS fuel (valueToCondensed m.bits q) (some q)).map (fun n1 => emitLea n1 n1 i)
                  | none => basicDecomposeMul m.bits maxS (decomposeMul m subs maxS fuel) R v

/-- the part of `do_decomposition` that finds the instructions, irarch.c:491-503 -/
def doDecomposition (m : IMode) (subs : Bool) (tv : Int) : Option Insn :=
  let R := valueToCondensed m.bits tv
  decomposeMul m subs 3 (2 * m.bits + 2) R (some tv)

/-- `build_graph`, irarch.c:393-429: the value of the built node when the operand has value `x` -/
def Insn.eval (m : IMode) (x : Int) : Insn → Int
  | .lea a b s => irAdd m (a.eval m x) (irShl m (b.eval m x) s)
  | .shift a s => irShl m (a.eval m x) s
  | .sub a b => irSub m (a.eval m x) (b.eval m x)
  | .add a b => irAdd m (a.eval m x) (b.eval m x)
  | .zero => 0
  | .root => x

end Verif.Model
