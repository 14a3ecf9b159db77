import Verif.Model.IrOptBase
/-!
# Local optimisations: constant folding and equivalent nodes

Model of `computed_value_*` and `equivalent_node_*` of `ir/opt/iropt.c` for the nodes of `Verif.Spec.Expr`.
The floating point branches are not modelled.
-/
namespace Verif.Model.IrOpt
open Verif.Spec

variable {m k : IMode}

/-- the same node, where the modes of the operands may differ -/
def sameNode (a : Expr m) (s : Expr k) : Bool := if h : k = m then h ▸ s = a else false

/-- `smaller_mode`, ir/ir/irmode.c:329-383, on integer modes (C18) -/
def smallerI (sm lm : IMode) : Bool :=
  sm = lm ||
  (isInt sm && isInt lm &&
    (if sm.signed then lm.signed && sm.bits ≤ lm.bits
     else if lm.signed then sm.bits < lm.bits
     else sm.bits ≤ lm.bits))

/-- `values_in_mode`, ir/ir/irmode.c:385-417, on integer modes and `mode_b` -/
def valuesIn (sm lm : IMode) : Bool :=
  sm = lm || (if sm = bmode then isInt lm else isInt lm && sm.bits ≤ lm.bits)

/-- a constant shift count for `tarval_shl` and friends (ir/tv/tv.c:971-1057): a negative one fails the assertion
of `sc_shl` (ir/tv/strcalc.c:838), unless the modulo-shift happens to divide it; not followed here -/
def countOf (c : BitVec k.bits) : Option Nat := if 0 ≤ k.num c then some c.toNat else none

/-- `tarval_convert_to`, for two integer modes (C07) -/
def convTo (m : IMode) (c : BitVec k.bits) : BitVec m.bits := BitVec.ofInt m.bits (k.num c)

/-! ## computed_value -/

/-- `computed_value_Add`, iropt.c:311-332 -/
def cvAdd (a b : Expr m) : Option (BitVec m.bits) :=
  match asConst a, asConst b with
  | some x, some y => some (x + y)
  | _, _ =>
    if complementValues a b then some (BitVec.allOnes m.bits)
    else if isNegatedValue a b && isInt m then some 0#m.bits
    else none

/-- `computed_value_Sub`, iropt.c:338-354 -/
def cvSub (a b : Expr m) : Option (BitVec m.bits) :=
  if a = b && isInt m then some 0#m.bits
  else match asConst a, asConst b with
  | some x, some y => some (x - y)
  | _, _ => none

/-- `computed_value_Minus`, iropt.c:359-368 -/
def cvMinus (a : Expr m) : Option (BitVec m.bits) := (asConst a).map fun x => -x

/-- `computed_value_Mul`, iropt.c:373-393 -/
def cvMul (a b : Expr m) : Option (BitVec m.bits) :=
  match asConst a, asConst b with
  | some x, some y => some (x * y)
  | ta, tb => if ta = some 0#m.bits then ta else if tb = some 0#m.bits then tb else none

/-- `computed_value_And`, iropt.c:399-417 -/
def cvAnd (a b : Expr m) : Option (BitVec m.bits) :=
  match asConst a, asConst b with
  | some x, some y => some (x &&& y)
  | ta, tb =>
    if ta = some 0#m.bits then ta else if tb = some 0#m.bits then tb
    else if complementValues a b then some 0#m.bits else none

/-- `computed_value_Or`, iropt.c:423-441 -/
def cvOr (a b : Expr m) : Option (BitVec m.bits) :=
  match asConst a, asConst b with
  | some x, some y => some (x ||| y)
  | ta, tb =>
    if ta = some (BitVec.allOnes m.bits) then ta else if tb = some (BitVec.allOnes m.bits) then tb
    else if complementValues a b then some (BitVec.allOnes m.bits) else none

/-- `computed_value_Eor`, iropt.c:446-465 -/
def cvEor (a b : Expr m) : Option (BitVec m.bits) :=
  if a = b then some 0#m.bits
  else if complementValues a b then some (BitVec.allOnes m.bits)
  else match asConst a, asConst b with
  | some x, some y => some (x ^^^ y)
  | _, _ => none

/-- `computed_value_Not`, iropt.c:470-479 -/
def cvNot (a : Expr m) : Option (BitVec m.bits) := (asConst a).map fun x => ~~~x

/-- `is_oversize_shift`, iropt.c:484-505: of a value of mode `m` by `s` -/
def oversizeShift (m : IMode) (s : Expr k) : Bool :=
  match asConst s with
  | none => false
  | some c =>
    if m.modulo > 0 ∧ m.modulo ≤ m.bits then false
    else
      let v : Int := if m.modulo > 0 then (k.num c).tmod m.modulo else k.num c
      if v < 2 ^ 64 then v < 0 || v ≥ m.bits else false

/-- `computed_value_Shl`, iropt.c:510-523 -/
def cvShl (a : Expr m) (s : Expr k) : Option (BitVec m.bits) :=
  match asConst a, asConst s with
  | some x, some c => (countOf c).map fun n => x <<< m.amt n
  | _, _ => if oversizeShift m s then some 0#m.bits else none

/-- `computed_value_Shr`, iropt.c:528-540 -/
def cvShr (a : Expr m) (s : Expr k) : Option (BitVec m.bits) :=
  match asConst a, asConst s with
  | some x, some c => (countOf c).map fun n => x >>> m.amt n
  | _, _ => if sameNode a s || oversizeShift m s then some 0#m.bits else none

/-- `computed_value_Shrs`, iropt.c:545-555 -/
def cvShrs (a : Expr m) (s : Expr k) : Option (BitVec m.bits) :=
  match asConst a, asConst s with
  | some x, some c => (countOf c).map fun n => x.sshiftRight (m.amt n)
  | _, _ => none

/-- `ir_zero_when_converted`, iropt.c:557-581 -/
def zeroWhenConverted (e : Expr k) (m : IMode) : Bool :=
  isInt k && isInt m &&
  ((match shlConstLike e with
    | some (_, ⟨kc, c⟩) => (m.bits : Int) ≤ kc.num c && kc.num c < (k.modulo : Int)
    | none => false) ||
   (match asAnd e with
    | some (_, r) => (match asConst r with
      | some c => convTo m c = 0#m.bits
      | none => false)
    | none => false))

/-- `computed_value_Conv`, iropt.c:586-598 -/
def cvConv (m : IMode) (a : Expr k) : Option (BitVec m.bits) :=
  match asConst a with
  | some c => some (convTo m c)
  | none => if zeroWhenConverted a m then some 0#m.bits else none

/-- `computed_value_Mux`, iropt.c:615-628 -/
def cvMux (sel : Expr bmode) (f t : Expr m) : Option (BitVec m.bits) :=
  if asConst sel = some 1#1 then asConst t else if asConst sel = some 0#1 then asConst f else none

/-- `computed_value_Confirm`, iropt.c:634-654 (`tarval_bad`, for a Confirm that cannot hold, is `none`) -/
def cvConfirm (C : Ctx) (v : Expr m) (r : Rel) (b : Expr m) : Option (BitVec m.bits) :=
  let p := possibleRel C v b &&& r
  if p = Rel.false then none
  else if p = Rel.equal && (asConst b).isSome then asConst b
  else asConst v

/-- `computed_value_Cmp`, iropt.c:801-821 -/
def cvCmp (C : Ctx) (r : Rel) (a b : Expr k) : Option (BitVec 1) :=
  let p := possibleRel C a b
  if p &&& r = Rel.false then some 0#1
  else if p &&& ~~~r = Rel.false then some 1#1
  else
    let re := complementaryRel Rel.equal r p
    if re ≠ Rel.false && isNull b && valueNotNull C a then some (BitVec.ofBool (re ≠ Rel.equal))
    else (C.cmpConfirm a b r).map BitVec.ofBool

/-- `do_computed_value_Div`, iropt.c:911-933 (a division of constants by zero gives `tarval_bad`: `none`) -/
def cvDiv (C : Ctx) (a b : Expr m) : Option (BitVec m.bits) :=
  if isNull a && isInt m && valueNotNull C b then some 0#m.bits
  else if a = b && isInt m then some 1#m.bits
  else match asConst a, asConst b with
  | some x, some y => if y = 0#m.bits then none else some (divBV m x y)
  | _, _ => none

/-- `do_computed_value_Mod`, iropt.c:939-962 -/
def cvMod (C : Ctx) (a b : Expr m) : Option (BitVec m.bits) :=
  if isOne b || (m.signed && isAllOne b) then some 0#m.bits
  else match asConst a, asConst b with
  | some x, some y => if y = 0#m.bits then none else some (modBV m x y)
  | _, _ => if (isNull a || a = b) && valueNotNull C b then some 0#m.bits else none

/-- `computed_value`, iropt.c:1009-1018, for the nodes modelled -/
def computedValue (C : Ctx) : {m : IMode} → Expr m → Option (BitVec m.bits)
  | _, .const c => some c
  | _, .add a b => cvAdd a b
  | _, .sub a b => cvSub a b
  | _, .minus a => cvMinus a
  | _, .mul a b => cvMul a b
  | _, .and a b => cvAnd a b
  | _, .or a b => cvOr a b
  | _, .eor a b => cvEor a b
  | _, .not a => cvNot a
  | _, .shl a s => cvShl a s
  | _, .shr a s => cvShr a s
  | _, .shrs a s => cvShrs a s
  | _, .conv m a => cvConv m a
  | _, .mux s f t => cvMux s f t
  | _, .confirm v r b => cvConfirm C v r b
  | _, .cmp r a b => cvCmp C r a b
  | _, .div a b => cvDiv C a b
  | _, .mod a b => cvMod C a b
  | _, .leaf _ _ => none

/-! ## equivalent_node: `none` means that the node itself is returned -/

/-- `equivalent_node_neutral_element`, iropt.c:1026-1039 -/
def eqNeutral (neutral : BitVec m.bits) (a b : Expr m) : Option (Expr m) :=
  if asConst b = some neutral then some a else if asConst a = some neutral then some b else none

/-- `equivalent_node_Eor`, iropt.c:1050-1081 -/
def eqEor (C : Ctx) (a b : Expr m) : Option (Expr m) :=
  eqNeutral 0#m.bits a b <|>
  (match eorLike C a with
   | some (l, r) => otherOp l r b
   | none =>
     match eorLike C b with
     | some (l, r) => otherOp l r a
     | none => none)

/-- `equivalent_node_Add`, iropt.c:1092-1130 -/
def eqAdd (a b : Expr m) : Option (Expr m) :=
  eqNeutral 0#m.bits a b <|>
  (do let (x, y) ← asSub a; if y = b then some x else none) <|>
  (do let (x, y) ← asSub b; if y = a then some x else none)

/-- `equivalent_node_right_zero`, iropt.c:1136-1149 (Shl, Shr, Shrs) -/
def eqRightZero (a : Expr m) (s : Expr k) : Option (Expr m) := if isNull s then some a else none

/-- `equivalent_node_Sub`, iropt.c:1160-1188 -/
def eqSub (a b : Expr m) : Option (Expr m) :=
  (if isNull b then some a else none) <|>
  (do
    let ta ← asConst a
    let (_, br) ← asOr b
    let tb ← asConst br
    if ta = BitVec.allOnes m.bits <<< m.amt 1 ∧ tb = BitVec.allOnes m.bits >>> m.amt 1 then some b else none)

/-- `equivalent_node_Minus`, iropt.c:1210-1231 -/
def eqMinus (C : Ctx) (a : Expr m) : Option (Expr m) :=
  asMinus a <|>
  (if isInt m then
    match C.bi a with
    | some b => if b.z <<< m.amt 1 = 0#m.bits then some a else none
    | none => none
   else none)

/-- `equivalent_node_Not`, iropt.c:1233-1236 -/
def eqNot (a : Expr m) : Option (Expr m) := asNot a

/-- `equivalent_node_Mul`, iropt.c:1241-1245 -/
def eqMul (a b : Expr m) : Option (Expr m) := eqNeutral 1#m.bits a b

/-- `equivalent_node_Or`, iropt.c:1250-1295 -/
def eqOr (C : Ctx) (a b : Expr m) : Option (Expr m) :=
  (if a = b then some a else none) <|>
  (match C.bi a, C.bi b with
   | some ba, some bb =>
     if BitInfo.andnot ba.z bb.o = 0#m.bits then some b
     else if BitInfo.andnot bb.z ba.o = 0#m.bits then some a
     else none
   | _, _ => none) <|>
  eqNeutral 0#m.bits a b <|>
  (if andWith a b then some b else none) <|>
  (if andWith b a then some a else none)

/-- an Or-like node with the given operand (iropt.c:1333, 1339) -/
def orWith (C : Ctx) (e x : Expr m) : Bool :=
  match orLike C e with
  | some (l, r) => (otherOp l r x).isSome
  | none => false

/-- `equivalent_node_And`, iropt.c:1300-1344 -/
def eqAnd (C : Ctx) (a b : Expr m) : Option (Expr m) :=
  (match C.bi a, C.bi b with
   | some ba, some bb =>
     if BitInfo.andnot bb.z ba.o = 0#m.bits then some b
     else if BitInfo.andnot ba.z bb.o = 0#m.bits then some a
     else none
   | _, _ => none) <|>
  (if a = b then some a else none) <|>
  eqNeutral (BitVec.allOnes m.bits) a b <|>
  (if orWith C a b then some b else none) <|>
  (if orWith C b a then some a else none)

/-- `is_sext`, iropt.c:1377 -/
def isSext (k : IMode) : Int := if k.signed then 1 else 0

/-- `equivalent_node_Conv`, iropt.c:1349-1390 -/
def eqConv (C : Ctx) (m : IMode) (a : Expr k) : Option (Expr m) :=
  if h : k = m then some (h ▸ a)
  else match asConv a with
  | none => none
  | some ⟨kb, b⟩ =>
    if h : kb = m then
      if valuesIn kb k then some (h ▸ b)
      else match C.bi b with
      | some bb =>
        if smallerI k kb && isInt k && isInt kb && highestBit bb.z + isSext k < k.bits then some (h ▸ b) else none
      | none => none
    else none

/-- `equivalent_node_Proj_Div`, iropt.c:1509-1536, the result -/
def eqDiv (a b : Expr m) : Option (Expr m) := if isOne b then some a else none

/-- `compute_cmp_ext`, iropt.c:827-832, with constant folding switched on, after `value_of` -/
def muxCond (C : Ctx) (sel : Expr bmode) : Option (BitVec 1) :=
  match asConst sel with
  | some c => some c
  | none => match asCmp sel with
    | some ⟨_, r, a, b⟩ => cvCmp C r a b
    | none => none

/-- `Mux(t CMP f, f, t)`, iropt.c:1657-1672 -/
def eqMuxSame {k m : IMode} (isEq isNe : Bool) (cl cr : Expr k) (f t : Expr m) : Option (Expr m) :=
  if (sameNode cl t && sameNode cr f) || (sameNode cl f && sameNode cr t) then
    if isEq then some f else if isNe then some t else none
  else none

/-- an Eor or Sub with its operands (iropt.c:1680) -/
def asEorSub : Expr m → Option (Expr m × Expr m)
  | .eor a b => some (a, b) | .sub a b => some (a, b) | _ => none

/-- `Mux(a != b, 0, a - b)`, iropt.c:1678-1690 -/
def eqMuxDiff {k m : IMode} (isNe : Bool) (cl cr : Expr k) (f t : Expr m) : Option (Expr m) :=
  if isNull f && isNe && isInt k then
    match asEorSub t with
    | some (tl, tr) => if (sameNode cl tl && sameNode cr tr) || (sameNode cr tl && sameNode cl tr) then some t else none
    | none => none
  else none

/-- `Mux(t CMP 0, -t, t)`, iropt.c:1696-1710 -/
def eqMuxNeg {k m : IMode} (isEq isNe : Bool) (cl cr : Expr k) (f t : Expr m) : Option (Expr m) :=
  if sameNode cl t && isNull cr && asMinus f = some t then
    if isEq then some f else if isNe then some t else none
  else none

/-- `Mux(a == 0, 0, -a)`, iropt.c:1713-1715 -/
def eqMuxNegZero {k m : IMode} (isEq : Bool) (cl cr : Expr k) (f t : Expr m) : Option (Expr m) :=
  if isNull f && isEq && isNull cr then
    match asMinus t with
    | some x => if sameNode cl x then some f else none
    | none => none
  else none

/-- `equivalent_node_Mux`, iropt.c:1614-1726.  (`unordered_less_greater` and `less_greater` are the same for
integers, but `is_relation` is asked for both.) -/
def eqMux (C : Ctx) (sel : Expr bmode) (f t : Expr m) : Option (Expr m) :=
  (match muxCond C sel with
   | some c => if c = 1#1 then some t else some f
   | none => none) <|>
  (if t = f then some t else none) <|>
  (match asCmp sel with
   | none => none
   | some ⟨_, r, cl, cr⟩ =>
     let p := possibleRel C cl cr
     let isEq := isRelation Rel.equal r p
     let isLG := isRelation Rel.lessGreater r p
     let isULG := isRelation (Rel.lessGreater ||| Rel.unordered) r p
     eqMuxSame isEq (isLG || isULG) cl cr f t <|>
     eqMuxDiff isLG cl cr f t <|>
     eqMuxNeg isEq (isLG || isULG) cl cr f t <|>
     eqMuxNegZero isEq cl cr f t)

/-- the loop of `equivalent_node_Confirm`, iropt.c:1744-1751, with the last Confirm seen -/
def skipConfirms (r : Rel) : Expr m → Expr m → Expr m
  | .confirm v r' b, n => if r' = r then skipConfirms r v (.confirm v r' b) else n
  | _, n => n

/-- `equivalent_node_Confirm`, iropt.c:1732-1752 -/
def eqConfirm (v : Expr m) (r : Rel) (b : Expr m) : Option (Expr m) :=
  if r = Rel.equal then some v else some (skipConfirms r v (.confirm v r b))

/-- `equivalent_node`, iropt.c:1761-1766, for the nodes modelled -/
def equivalentNode (C : Ctx) : {m : IMode} → Expr m → Option (Expr m)
  | _, .add a b => eqAdd a b
  | _, .and a b => eqAnd C a b
  | _, .confirm v r b => eqConfirm v r b
  | _, .conv m a => eqConv C m a
  | _, .eor a b => eqEor C a b
  | _, .minus a => eqMinus C a
  | _, .mul a b => eqMul a b
  | _, .mux s f t => eqMux C s f t
  | _, .not a => eqNot a
  | _, .or a b => eqOr C a b
  | _, .shl a s => eqRightZero a s
  | _, .shr a s => eqRightZero a s
  | _, .shrs a s => eqRightZero a s
  | _, .sub a b => eqSub a b
  | _, .div a b => eqDiv a b
  | _, _ => none

end Verif.Model.IrOpt
