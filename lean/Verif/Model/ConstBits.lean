import Verif.Model.Relation
/-!
# Known-bits analysis

Model of the transfer functions of `ir/ana/constbits.c`.  A target value of a mode of
`w` bits is represented by its bit pattern, a `BitVec w`; the target value operations
act on the pattern (C01–C07: they agree with the arithmetic modulo `2 ^ w`).  This file
has the transfer functions only, not the traversal of the graph.
-/
namespace Verif.Model

/-- `bitinfo`, ir/ana/constbits.h:14-19: `z` may be one, `o` must be one -/
structure BitInfo (w : Nat) where
  z : BitVec w
  o : BitVec w
  deriving DecidableEq

namespace BitInfo
variable {w : Nat}

/-- `is_undefined`, ir/ana/constbits.c:112-115 -/
def isUndefined (b : BitInfo w) : Bool := b.z == 0#w && b.o == BitVec.allOnes w

/-- ir/ana/constbits.c:341-342 -/
def undefined (w : Nat) : BitInfo w := ⟨0#w, BitVec.allOnes w⟩

/-- `result_unknown`, ir/ana/constbits.c:747-748 -/
def unknown (w : Nat) : BitInfo w := ⟨BitVec.allOnes w, 0#w⟩

/-- case `iro_Const`, ir/ana/constbits.c:345-348 -/
def const (c : BitVec w) : BitInfo w := ⟨c, c⟩

/-- `tarval_andnot` -/
def andnot (a b : BitVec w) : BitVec w := a &&& ~~~b

/-- `z`, `o` from the sums of the bounds, `vz`, `vo`, and the bits not constant `nc`: ir/ana/constbits.c:507-510 -/
def fromBounds (inc vz vo : BitVec w) : BitInfo w := ⟨vz ||| (inc ||| (vz ^^^ vo)), andnot vz (inc ||| (vz ^^^ vo))⟩

/-- case `iro_Add`, ir/ana/constbits.c:496-512 -/
def add (l r : BitInfo w) : BitInfo w :=
  fromBounds ((l.z ^^^ l.o) ||| (r.z ^^^ r.o)) (l.z + r.z) (l.o + r.o)

/-- case `iro_Sub`, ir/ana/constbits.c:514-534 (both operands analysable) -/
def sub (l r : BitInfo w) : BitInfo w :=
  fromBounds ((l.z ^^^ l.o) ||| (r.z ^^^ r.o)) (l.o - r.z) (l.z - r.o)

/-- case `iro_Minus`, ir/ana/constbits.c:576-590 -/
def minus (b : BitInfo w) : BitInfo w := fromBounds (b.z ^^^ b.o) (-b.z) (-b.o)

/-- the join used for Phi and Mux, ir/ana/constbits.c:315-316, 647-648 -/
def join (a b : BitInfo w) : BitInfo w := ⟨a.z ||| b.z, a.o &&& b.o⟩

/-- one partial product, ir/ana/constbits.c:549-566 -/
def mulStep (one : BitVec w) (acc l r : BitInfo w) : BitInfo w :=
  if r.z &&& one = 0#w then acc
  else if andnot one r.o = 0#w then add l acc
  else join acc (add l acc)

/-- the loop of the case `iro_Mul`, ir/ana/constbits.c:548-571; after `w` shifts to the right the operand is zero -/
def mulLoop : Nat → BitInfo w → BitInfo w → BitInfo w → BitInfo w
  | 0, acc, _, _ => acc
  | fuel + 1, acc, l, r =>
    if r.z = 0#w then acc
    else mulLoop fuel (mulStep 1#w acc l r) ⟨l.z <<< 1, l.o <<< 1⟩ ⟨r.z >>> 1, r.o >>> 1⟩

/-- case `iro_Mul`, ir/ana/constbits.c:536-574 -/
def mul (l r : BitInfo w) : BitInfo w :=
  if l.z = l.o ∧ r.z = r.o then const (l.z * r.z) else mulLoop w (const 0#w) l r

/-- case `iro_And`, ir/ana/constbits.c:592-598 -/
def and (l r : BitInfo w) : BitInfo w := ⟨l.z &&& r.z, l.o &&& r.o⟩
/-- case `iro_Or`, ir/ana/constbits.c:600-606 -/
def or (l r : BitInfo w) : BitInfo w := ⟨l.z ||| r.z, l.o ||| r.o⟩
/-- case `iro_Eor`, ir/ana/constbits.c:608-618 -/
def eor (l r : BitInfo w) : BitInfo w :=
  ⟨andnot l.z r.o ||| andnot r.z l.o, andnot r.o l.z ||| andnot l.o r.z⟩
/-- case `iro_Not`, ir/ana/constbits.c:620-625 -/
def not (b : BitInfo w) : BitInfo w := ⟨~~~b.o, ~~~b.z⟩

/-- the number a pattern stands for -/
def num (signed : Bool) (x : BitVec w) : Int := if signed then x.toInt else x.toNat

/-- `tarval_convert_to` between integer modes (C07) -/
def convertTo (signed : Bool) (w' : Nat) (x : BitVec w) : BitVec w' := BitVec.ofInt w' (num signed x)

/-- case `iro_Conv`, ir/ana/constbits.c:627-634; `signed` belongs to the mode of the operand -/
def conv (signed : Bool) (w' : Nat) (b : BitInfo w) : BitInfo w' := ⟨convertTo signed w' b.z, convertTo signed w' b.o⟩

/-- case `iro_Mux`, ir/ana/constbits.c:636-651 -/
def mux (c : BitInfo 1) (f t : BitInfo w) : BitInfo w :=
  if c.o = 1#1 then t else if c.z = 0#1 then f else join f t

/-- case `iro_Confirm` with the relation "equal", ir/ana/constbits.c:350-362 -/
def confirmEq (b bound : BitInfo w) : BitInfo w := ⟨b.z &&& bound.z, b.o ||| bound.o⟩

/-- case `iro_Confirm`, ir/ana/constbits.c:350-362 -/
def confirm (rel : Rel) (b bound : BitInfo w) : BitInfo w :=
  if rel &&& ~~~Rel.unordered = Rel.equal then confirmEq b bound else b

/-- Phi, ir/ana/constbits.c:305-318: the operands together with "the edge is not known to be unreachable" -/
def phi : List (Bool × BitInfo w) → BitInfo w :=
  List.foldl (fun acc p => if p.1 then join acc p.2 else acc) (undefined w)

/-! ## Shifts -/

/-- the effective shift count, ir/tv/tv.c (C05); `M` is the modulo-shift of the mode -/
def amt (M s : Nat) : Nat := if M = 0 then s else s % M

/-- `size_mask` and `modulo_mask`, ir/ana/constbits.c:380-381: `n - 1` in the mode of the shift count -/
def maskOf (v n : Nat) : BitVec v := BitVec.ofNat v n - 1#v

/-- `oversize_mask`, ir/ana/constbits.c:384 -/
def oversizeMask (v W M : Nat) : BitVec v := andnot (maskOf v M) (maskOf v W)

/-- `rmask`, ir/ana/constbits.c:390 -/
def rMask (v W M : Nat) : BitVec v := maskOf v W &&& maskOf v M

/-- the condition that the amount `s` is possible, ir/ana/constbits.c:391, 395 -/
def amountPossible (W M : Nat) {v : Nat} (r : BitInfo v) (s : BitVec v) : Bool :=
  ((~~~(r.o ^^^ r.z) &&& rMask v W M) &&& (s ^^^ r.z)) == 0#v

/-- one iteration, ir/ana/constbits.c:395-398; `sh x s` is `tarval_shl(x, s)` (or shr, shrs) -/
def shiftStep {v : Nat} (sh : BitVec w → Nat → BitVec w) (M : Nat) (l : BitInfo w) (r : BitInfo v) (acc : BitInfo w) (s : Nat) : BitInfo w :=
  if amountPossible w M r (BitVec.ofNat v s) then join acc ⟨sh l.z (amt M s), sh l.o (amt M s)⟩ else acc

/-- ir/ana/constbits.c:386-400; the loop counts from zero up to `rbound` in the mode of the count -/
def shiftUnsure {v : Nat} (sh : BitVec w → Nat → BitVec w) (M : Nat) (l : BitInfo w) (r : BitInfo v) : BitInfo w :=
  if r.o &&& oversizeMask v w M = 0#v then
    (List.range (rMask v w M + 1#v).toNat).foldl (shiftStep sh M l r)
      ⟨0#w, if r.z &&& oversizeMask v w M = 0#v then BitVec.allOnes w else 0#w⟩
  else ⟨0#w, if r.z &&& oversizeMask v w M = 0#v then BitVec.allOnes w else 0#w⟩

/-- the cases `iro_Shl`, `iro_Shr`, `iro_Shrs`, ir/ana/constbits.c:364-494 -/
def shift {v : Nat} (sh : BitVec w → Nat → BitVec w) (M : Nat) (l : BitInfo w) (r : BitInfo v) : BitInfo w :=
  if r.z = r.o then ⟨sh l.z (amt M r.z.toNat), sh l.o (amt M r.z.toNat)⟩ else shiftUnsure sh M l r

/-- case `iro_Shl`, ir/ana/constbits.c:364-406 -/
def shl {v : Nat} (M : Nat) (l : BitInfo w) (r : BitInfo v) : BitInfo w := shift (fun x s => x <<< s) M l r
/-- case `iro_Shr`, ir/ana/constbits.c:408-450 -/
def shr {v : Nat} (M : Nat) (l : BitInfo w) (r : BitInfo v) : BitInfo w := shift (fun x s => x >>> s) M l r
/-- case `iro_Shrs`, ir/ana/constbits.c:452-494 -/
def shrs {v : Nat} (M : Nat) (l : BitInfo w) (r : BitInfo v) : BitInfo w := shift (fun x s => x.sshiftRight s) M l r

/-! ## Comparisons -/

/-- `tarval_cmp` of integers (C08) -/
def tvCmp (signed : Bool) (a b : BitVec w) : Rel :=
  if num signed a = num signed b then Rel.equal else if num signed a < num signed b then Rel.less else Rel.greater

/-- the result `z = o = t` or `z = o = f` -/
def known (b : Bool) : BitInfo 1 := const (BitVec.ofBool b)

/-- "at least one bit differs", ir/ana/constbits.c:665-666 -/
def bitDiffers (l r : BitInfo w) : Bool := andnot r.o l.z != 0#w || andnot l.o r.z != 0#w

/-- both are known and equal, ir/ana/constbits.c:669 -/
def bothEqual (l r : BitInfo w) : Bool := l.z == l.o && r.z == r.o && l.z == r.z

/-- some bound is negative, ir/ana/constbits.c:691-692 -/
def someNegative (signed : Bool) (l r : BitInfo w) : Bool :=
  decide (num signed l.z < 0) || decide (num signed l.o < 0) || decide (num signed r.z < 0) || decide (num signed r.o < 0)

/-- the order comparisons, ir/ana/constbits.c:688-722 -/
def cmpOrder (signed : Bool) (rel : Rel) (isLess : Bool) (l r : BitInfo w) : BitInfo 1 :=
  if someNegative signed l r then unknown 1
  else if isLess then
    if tvCmp signed l.z r.o &&& rel ≠ 0#4 then known Bool.true
    else if tvCmp signed l.o r.z &&& rel = 0#4 then known Bool.false else unknown 1
  else
    if tvCmp signed l.z r.o &&& rel = 0#4 then known Bool.false
    else if tvCmp signed l.o r.z &&& rel ≠ 0#4 then known Bool.true else unknown 1

/-- case `iro_Cmp`, ir/ana/constbits.c:653-728; `signed` belongs to the mode of the operands -/
def cmp (signed : Bool) (rel : Rel) (l r : BitInfo w) : BitInfo 1 :=
  if rel = Rel.lessGreater then
    if bitDiffers l r then known Bool.true else if bothEqual l r then known Bool.false else unknown 1
  else if rel = Rel.equal then
    if bitDiffers l r then known Bool.false else if bothEqual l r then known Bool.true else unknown 1
  else if rel = Rel.lessEqual ∨ rel = Rel.less then cmpOrder signed rel Bool.true l r
  else if rel = Rel.greaterEqual ∨ rel = Rel.greater then cmpOrder signed rel Bool.false l r
  else unknown 1

/-- "undefined if any input is undefined", ir/ana/constbits.c:331-343 -/
def strict1 {v : Nat} (f : BitInfo w → BitInfo v) (a : BitInfo w) : BitInfo v :=
  if a.isUndefined then undefined v else f a
def strict2 {u v : Nat} (f : BitInfo w → BitInfo u → BitInfo v) (a : BitInfo w) (b : BitInfo u) : BitInfo v :=
  if a.isUndefined || b.isUndefined then undefined v else f a b

end BitInfo

end Verif.Model
