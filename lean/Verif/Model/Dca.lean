import Verif.Model.ConstBitsExpr
import Verif.Spec.SsaGraph
/-!
# Model of the analysis of don't care bits (ir/ana/dca.c) and of its user (ir/opt/occult_const.c)

Nodes of integer modes and of the mode of booleans have a mask of the bits that matter; all other nodes (blocks, control flow, memory, tuples, and
nodes of other modes) have a flag.  Arithmetic on target values is arithmetic on bit vectors (C01 to C16; sizes are multiples of eight).
-/
namespace Verif.Model.Dca
open Verif.Spec Verif.Model.IrOpt
open Verif.Model.BitInfo (amt andnot oversizeMask rMask amountPossible convertTo)

variable {w : Nat}

/-- `a | ~b`, `tarval_ornot`, ir/tv/tv.c:945-956 -/
def ornot (a b : BitVec w) : BitVec w := a ||| ~~~b

/-- `create_lsb_mask`, ir/ana/dca.c:63-66 -/
def lsbMask (v : BitVec w) : BitVec w := v ||| -v

/-- the loop of `create_msb_mask`, ir/ana/dca.c:71-75; `M` is the modulo-shift of the mode.  Division of -1 by 2 yields 0, as that of 1 -/
def msbLoop (M : Nat) (msb shift : Nat) (v : BitVec w) : BitVec w :=
  if msb = 0 then v else msbLoop M (msb / 2) (shift * 2) (v ||| v >>> amt M shift)
termination_by msb
decreasing_by omega

/-- `create_msb_mask`, ir/ana/dca.c:69-78 -/
def msbMask (M : Nat) (v : BitVec w) : BitVec w := msbLoop M (highestBit v).natAbs 1 v

/-- `create_modulo_shift_mask`, ir/ana/dca.c:81-89; `NULL` means all bits -/
def moduloMask (M v : Nat) : BitVec v := if M = 0 then BitVec.allOnes v else BitVec.ofNat v (M - 1)

/-- the loop over the shift amounts, ir/ana/dca.c:274-300 and :334-358; `sh` is `tarval_shl` for shifts to the right and `tarval_shr` for Shl -/
def careShift {v : Nat} (sh : BitVec w → Nat → BitVec w) (M : Nat) (r : BitInfo v) (care : BitVec w) : BitVec w :=
  if r.o &&& oversizeMask v w M = 0#v then
    (List.range (rMask v w M + 1#v).toNat).foldl
      (fun acc s => if amountPossible w M r (BitVec.ofNat v s) then acc ||| sh care (amt M s) else acc) 0#w
  else 0#w

/-- the mask for the left operand of Shl, ir/ana/dca.c:330-361; `c` is the constant amount, `r` the known bits of the amount -/
def careShl {v : Nat} (M : Nat) (c : Option (BitVec v)) (r : Option (BitInfo v)) (care : BitVec w) : BitVec w :=
  match c with
  | some c => care >>> amt M c.toNat
  | none =>
    match r with
    | some r => careShift (fun x s => x >>> s) M r care
    | none => msbMask M care

/-- the mask for the left operand of Shr, ir/ana/dca.c:268-303 -/
def careShr {v : Nat} (M : Nat) (c : Option (BitVec v)) (r : Option (BitInfo v)) (care : BitVec w) : BitVec w :=
  match c with
  | some c => care <<< amt M c.toNat
  | none =>
    match r with
    | some r => careShift (fun x s => x <<< s) M r care
    | none => lsbMask care

/-- the mask for the left operand of Shrs, ir/ana/dca.c:268-313 -/
def careShrs {v : Nat} (M : Nat) (c : Option (BitVec v)) (r : Option (BitInfo v)) (care : BitVec w) : BitVec w :=
  match c with
  | some s =>
    let msb := 1#w <<< amt M (w - 1)
    if msb.sshiftRight (amt M s.toNat) &&& care ≠ 0#w then careShr M c r care ||| msb else careShr M c r care
  | none => careShr M c r care

/-- the masks for the operands of And without a constant, ir/ana/dca.c:198-208 -/
def careAnd (l r : Option (BitInfo w)) (care : BitVec w) : BitVec w × BitVec w :=
  match l, r with
  | some l, some r => (care &&& ornot r.z l.z, care &&& ornot l.z r.z)
  | _, _ => (care, care)

/-- the masks for the operands of Or without a constant, ir/ana/dca.c:227-237 -/
def careOr (l r : Option (BitInfo w)) (care : BitVec w) : BitVec w × BitVec w :=
  match l, r with
  | some l, some r => (care &&& ornot l.o r.o, care &&& ornot r.o l.o)
  | _, _ => (care, care)

/-- the masks for the operands of Add, ir/ana/dca.c:246-263 -/
def careAdd (M : Nat) (l r : Option (BitInfo w)) (care : BitVec w) : BitVec w × BitVec w :=
  let mask := msbMask M care
  match l, r with
  | some l, some r =>
    if mask &&& (l.z &&& r.z) = 0#w then
      (andnot mask l.z ||| (care &&& ornot l.o r.o), andnot mask r.z ||| (care &&& ornot r.o l.o))
    else (mask, mask)
  | _, _ => (mask, mask)

/-- the mask for the left operand of Mul, ir/ana/dca.c:372-379; `c` is the constant right operand -/
def careMul (M : Nat) (c : Option (BitVec w)) (care : BitVec w) : BitVec w :=
  match c with
  | some c => msbMask M care >>> amt M ((lowestBit c) % 2 ^ 32).toNat
  | none => msbMask M care

/-- the mask for the operand of Conv, ir/ana/dca.c:164-187: `k` is the mode of the operand, `m` that of the result -/
def careConv (k m : IMode) (care : BitVec m.bits) : BitVec k.bits :=
  if k.bits < m.bits ∧ k.signed = true then
    convertTo m.signed k.bits
      (if highestBit care ≥ k.bits then care ||| 1#m.bits <<< amt m.modulo (k.bits - 1) else care)
  else convertTo false k.bits care

/-- the loop in the case Cmp, ir/ana/dca.c:152-157 -/
def cmpLoop (M : Nat) (msb shift : Nat) (v : BitVec w) : BitVec w :=
  if msb = 0 then v else cmpLoop M (msb / 2) (shift * 2) (v ||| v <<< amt M shift)
termination_by msb
decreasing_by omega

/-- the mask for both operands of Cmp, ir/ana/dca.c:137-161; it has no effect, because the case ends with `break` and the worst case is assumed
after it -/
def careCmp (M : Nat) (l r : Option (BitInfo w)) : BitVec w :=
  match l, r with
  | some l, some r =>
    let diff := andnot l.z r.o ||| andnot r.z l.o
    if diff = 0#w then 0#w
    else cmpLoop M (w - 1 - (highestBit diff).toNat) 1 (1#w <<< amt M (highestBit diff).toNat)
  | _, _ => 0#w

/-- a call `care_for(node, care)`, for a node with a mask -/
structure Demand where
  m : IMode
  n : Nat
  care : BitVec m.bits

/-- `dca_transfer` for data nodes, ir/ana/dca.c:133-385: the calls of `care_for` for the leaves of the expression.  An inner node of the expression has
one user only: its mask is the one it gets from it.  Nodes without a bit that matters are not visited.  `info` is `get_bitinfo` -/
def demands (info : (m : IMode) → Expr m → Option (BitInfo m.bits)) : {m : IMode} → Expr m → BitVec m.bits → List Demand
  | m, e, care =>
    if care = 0#m.bits then [] else
    match m, e with
    | _, .leaf m n => [⟨m, n, care⟩]
    | _, .const _ => []
    | m, .minus a => demands info a (msbMask m.modulo care)
    | _, .not a => demands info a care
    | m, .add a b => demands info a (careAdd m.modulo (info m a) (info m b) care).1 ++ demands info b (careAdd m.modulo (info m a) (info m b) care).2
    | m, .sub a b => demands info b (msbMask m.modulo care) ++ demands info a (msbMask m.modulo care)
    | m, .mul a b => demands info a (careMul m.modulo (asConst b) care) ++ demands info b (msbMask m.modulo care)
    | m, .div a b => demands info a (BitVec.allOnes m.bits) ++ demands info b (BitVec.allOnes m.bits)
    | m, .mod a b => demands info a (BitVec.allOnes m.bits) ++ demands info b (BitVec.allOnes m.bits)
    | m, .and a b =>
      match asConst b with
      | some c => demands info a (care &&& c) ++ demands info b care
      | none => demands info a (careAnd (info m a) (info m b) care).1 ++ demands info b (careAnd (info m a) (info m b) care).2
    | m, .or a b =>
      match asConst b with
      | some c => demands info a (andnot care c) ++ demands info b care
      | none => demands info a (careOr (info m a) (info m b) care).1 ++ demands info b (careOr (info m a) (info m b) care).2
    | _, .eor a b => demands info a care ++ demands info b care
    | m, .shl (k := k) a s => demands info a (careShl m.modulo (asConst s) (info k s) care) ++ demands info s (moduloMask m.modulo k.bits)
    | m, .shr (k := k) a s => demands info a (careShr m.modulo (asConst s) (info k s) care) ++ demands info s (moduloMask m.modulo k.bits)
    | m, .shrs (k := k) a s => demands info a (careShrs m.modulo (asConst s) (info k s) care) ++ demands info s (moduloMask m.modulo k.bits)
    | _, .conv (k := k) m a => demands info a (careConv k m care)
    | _, .cmp (k := k) _ a b =>
      demands info a (careCmp k.modulo (info k a) (info k b)) ++ demands info b (careCmp k.modulo (info k a) (info k b)) ++
        (demands info a (BitVec.allOnes k.bits) ++ demands info b (BitVec.allOnes k.bits))
    | _, .mux s f t => demands info t care ++ demands info f care ++ demands info s (BitVec.allOnes 1)
    | _, .confirm v _ b => demands info v care ++ demands info b care
termination_by structural _ e => e

/-! ## Conditions of the theorems -/

/-- the expressions for which the masks are right: sizes of shifted values are powers of two, and the count of an arithmetic shift to the right is
constant, or nothing is known about it -/
def Covered (info : (m : IMode) → Expr m → Option (BitInfo m.bits)) : {m : IMode} → Expr m → Prop
  | _, .leaf _ _ => True
  | _, .const _ => True
  | _, .minus a => Covered info a
  | _, .not a => Covered info a
  | _, .add a b => Covered info a ∧ Covered info b
  | _, .sub a b => Covered info a ∧ Covered info b
  | _, .mul a b => Covered info a ∧ Covered info b
  | _, .div a b => Covered info a ∧ Covered info b
  | _, .mod a b => Covered info a ∧ Covered info b
  | _, .and a b => Covered info a ∧ Covered info b
  | _, .or a b => Covered info a ∧ Covered info b
  | _, .eor a b => Covered info a ∧ Covered info b
  | m, .shl a s => Covered info a ∧ Covered info s ∧ ∃ a, m.bits = 2 ^ a
  | m, .shr a s => Covered info a ∧ Covered info s ∧ ∃ a, m.bits = 2 ^ a
  | m, .shrs (k := k) a s => Covered info a ∧ Covered info s ∧ (∃ a, m.bits = 2 ^ a) ∧ ((asConst s).isSome = true ∨ info k s = none)
  | _, .conv _ a => Covered info a
  | _, .cmp _ a b => Covered info a ∧ Covered info b
  | _, .mux s f t => Covered info s ∧ Covered info f ∧ Covered info t
  | _, .confirm v _ b => Covered info v ∧ Covered info b

/-- what is known about a part of the expression is right -/
def InfoRight (info : (m : IMode) → Expr m → Option (BitInfo m.bits)) (env : Env) {m : IMode} (e : Expr m) : Prop :=
  ∀ (k : IMode) (s : Expr k), (∀ k' i, s.Uses k' i → e.Uses k' i) → s.Ok env → ∀ i, info k s = some i → Describes i.z i.o (s.eval env)

end Verif.Model.Dca
