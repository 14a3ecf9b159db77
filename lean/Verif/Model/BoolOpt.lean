import Verif.Model.Relation
import Verif.Spec.IR
/-!
# Folding two comparisons

Model of `find_cond_pair`, `bool_and` and `bool_or` of `ir/opt/boolopt.c`, for comparisons of
integer modes (for reference modes the code differs in converting the operands of a zero test to
an unsigned mode first; float modes are rejected by the code unless both are zero tests, and then
they fall through to the rejection).

Simplifications: nodes are numbers; a Cmp whose right operand is no Const has `c = none`; the tests
`is_Const(cmp_lo)` and `is_Const(cmp_hi)` (lines 118-122, 264-268) are dropped, they are false for what
`find_cond_pair` returns; `find_unsigned_mode` does not fail; the mode is a two's complement one.
-/
namespace Verif.Model.BoolOpt
open Verif.Spec Verif.Model

/-- a Cmp node: left operand, its mode, right operand, the value of the right operand if that is a Const, relation -/
structure CmpNode where
  lhs : Nat
  mode : IMode
  rhs : Nat
  c : Option Int
  rel : Rel
  deriving DecidableEq

/-- `cond_pair`, ir/opt/boolopt.c:23-31 -/
structure CondPair where
  lo : CmpNode
  hi : CmpNode
  relLo : Rel
  relHi : Rel
  tvLo : Int
  tvHi : Int
  deriving DecidableEq

/-- the results of `bool_and` and `bool_or` -/
inductive Result
  /-- a constant -/
  | const (b : Bool)
  /-- the comparison `cmp_lo` or `cmp_hi` -/
  | cmpLo | cmpHi
  /-- `make_Cmp(dst_block, cmp_lo, rel)` (or `cmp_hi`): the operands of the comparison with another relation -/
  | newLo (r : Rel) | newHi (r : Rel)
  /-- the left operands combined by And, compared with a constant -/
  | andCmp (c : Int) (r : Rel)
  | orCmp (c : Int) (r : Rel)
  /-- the left operand, converted to the unsigned mode, minus `lo`, compared with the constant `d` -/
  | range (m : IMode) (lo d : Int) (r : Rel)
  deriving DecidableEq

/-- `tarval_cmp` of integers of one mode (C08) -/
def tvCmp (a b : Int) : Rel := if a = b then Rel.equal else if a < b then Rel.less else Rel.greater

/-- `is_irn_null` -/
def isNull (c : CmpNode) : Bool := c.c == some 0

/-- two constants that differ are put in order: ir/opt/boolopt.c:69-100 -/
def orderPair (l r : CmpNode) (tvL tvR : Int) : Option CondPair :=
  if tvCmp tvL tvR = Rel.less then some ⟨l, r, l.rel, r.rel, tvL, tvR⟩
  else if tvCmp tvL tvR = Rel.greater then some ⟨r, l, r.rel, l.rel, tvR, tvL⟩
  else none

/-- the second case of `find_cond_pair`, ir/opt/boolopt.c:69-100 -/
def findOrdered (l r : CmpNode) : Option CondPair :=
  if l.lhs = r.lhs ∧ l.rhs ≠ r.rhs then
    match l.c, r.c with
    | some tvL, some tvR => orderPair l r tvL tvR
    | _, _ => none
  else none

/-- `find_cond_pair`, ir/opt/boolopt.c:44-102 -/
def findCondPair (l r : CmpNode) : Option CondPair :=
  if isNull l ∧ isNull r ∧ l.rel = r.rel ∧ (l.rel = Rel.lessGreater ∨ l.rel = Rel.equal) then
    some ⟨l, r, l.rel, l.rel, 0, 0⟩
  else findOrdered l r

/-- the unsigned mode of the same size -/
def unsignedMode (m : IMode) : IMode := ⟨false, m.bits, m.modulo⟩

/-- Conv, Sub and Cmp of the range test, ir/opt/boolopt.c:229-252, 375-398 -/
def rangeTest (m : IMode) (lo hi : Int) (rel : Rel) : Result :=
  let u := unsignedMode m
  .range u (u.wrap lo) (irSub u (u.wrap hi) (u.wrap lo)) rel

/-- `lo + 1` without overflow, ir/opt/boolopt.c:219-228, 365-374 -/
def bump (m : IMode) (lo : Int) : Option Int :=
  if tvCmp (m.wrap (lo + 1)) lo = Rel.greater then some (m.wrap (lo + 1)) else none

/-- `tarval_is_one(tarval_sub(tv_hi, tv_lo))` -/
def adjacent (m : IMode) (lo hi : Int) : Bool := irSub m hi lo == m.wrap 1

/-- "==, <, <=" and the like: the sets of relations tested by the code -/
def below (r : Rel) : Bool := r == Rel.less || r == Rel.lessEqual || r == Rel.equal
def above (r : Rel) : Bool := r == Rel.equal || r == Rel.greaterEqual || r == Rel.greater
def belowNe (r : Rel) : Bool := r == Rel.less || r == Rel.lessEqual || r == Rel.lessGreater
def aboveNe (r : Rel) : Bool := r == Rel.greaterEqual || r == Rel.greater || r == Rel.lessGreater

/-- adjacent constants, ir/opt/boolopt.c:194-213 -/
def andAdjacent (relLo relHi : Rel) : Option Result :=
  if relLo = Rel.greaterEqual ∧ relHi = Rel.less then some (.newLo Rel.equal)
  else if relLo = Rel.greater then
    if relHi = Rel.lessGreater then some (.newHi Rel.greater)
    else if relHi = Rel.less then some (.const false)
    else if relHi = Rel.lessEqual then some (.newHi Rel.equal)
    else none
  else if relLo = Rel.lessGreater ∧ relHi = Rel.less then some (.newLo Rel.less)
  else none

/-- the range test of the conjunction, ir/opt/boolopt.c:214-253 -/
def andRange (m : IMode) (relLo relHi : Rel) (lo hi : Int) : Option Result :=
  if (relLo = Rel.greater ∨ relLo = Rel.greaterEqual) ∧ (relHi = Rel.less ∨ relHi = Rel.lessEqual) then
    if relLo = Rel.greater then (bump m lo).map fun n => rangeTest m n hi relHi
    else some (rangeTest m lo hi relHi)
  else none

/-- both compare with the same constant, ir/opt/boolopt.c:165-179 -/
def andSame (relLo relHi : Rel) : Result :=
  if relLo &&& relHi = Rel.false then .const false
  else if relLo &&& relHi = relLo then .cmpLo
  else if relLo &&& relHi = relHi then .cmpHi
  else .newHi (relLo &&& relHi)

/-- one common operand: ir/opt/boolopt.c:165-254 -/
def andCommon (m : IMode) (relLo relHi : Rel) (lo hi : Int) : Option Result :=
  if tvCmp lo hi = Rel.equal then some (andSame relLo relHi)
  else if below relLo && above relHi then some (.const false)
  else if below relLo && belowNe relHi then some .cmpLo
  else if aboveNe relLo && above relHi then some .cmpHi
  else if adjacent m lo hi then andAdjacent relLo relHi
  else andRange m relLo relHi lo hi

/-- `bool_and`, ir/opt/boolopt.c:114-255 -/
def boolAnd (p : CondPair) : Option Result :=
  if p.relLo &&& ~~~Rel.unordered = Rel.equal ∧ p.relHi &&& ~~~Rel.unordered = p.relLo ∧ p.tvLo = 0 ∧ p.tvHi = 0 ∧ p.lo.mode = p.hi.mode then
    some (.andCmp p.tvLo Rel.equal)
  else if p.lo.lhs ≠ p.hi.lhs then none
  else andCommon p.lo.mode p.relLo p.relHi p.tvLo p.tvHi

/-- ir/opt/boolopt.c:340-359 -/
def orAdjacent (relLo relHi : Rel) : Option Result :=
  if relLo = Rel.less ∧ relHi = Rel.greaterEqual then some (.newLo Rel.lessGreater)
  else if relLo = Rel.lessEqual then
    if relHi = Rel.equal then some (.newHi Rel.lessEqual)
    else if relHi = Rel.greaterEqual then some (.const true)
    else if relHi = Rel.greater then some (.newHi Rel.lessGreater)
    else none
  else if relLo = Rel.equal ∧ relHi = Rel.greaterEqual then some (.newLo Rel.greaterEqual)
  else none

/-- ir/opt/boolopt.c:360-399 -/
def orRange (m : IMode) (relLo relHi : Rel) (lo hi : Int) : Option Result :=
  if (relLo = Rel.less ∨ relLo = Rel.lessEqual) ∧ (relHi = Rel.greater ∨ relHi = Rel.greaterEqual) then
    if relLo = Rel.lessEqual then (bump m lo).map fun n => rangeTest m n hi relHi
    else some (rangeTest m lo hi relHi)
  else none

/-- ir/opt/boolopt.c:311-325 -/
def orSame (relLo relHi : Rel) : Result :=
  if relLo ||| relHi = Rel.true then .const true
  else if relLo ||| relHi = relLo then .cmpLo
  else if relLo ||| relHi = relHi then .cmpHi
  else .newHi (relLo ||| relHi)

/-- ir/opt/boolopt.c:311-400 -/
def orCommon (m : IMode) (relLo relHi : Rel) (lo hi : Int) : Option Result :=
  if tvCmp lo hi = Rel.equal then some (orSame relLo relHi)
  else if aboveNe relLo && belowNe relHi then some (.const true)
  else if below relLo && belowNe relHi then some .cmpHi
  else if aboveNe relLo && above relHi then some .cmpLo
  else if adjacent m lo hi then orAdjacent relLo relHi
  else orRange m relLo relHi lo hi

/-- `bool_or`, ir/opt/boolopt.c:260-401 -/
def boolOr (p : CondPair) : Option Result :=
  if p.relLo &&& ~~~Rel.unordered = Rel.lessGreater ∧ p.relHi &&& ~~~Rel.unordered = Rel.lessGreater ∧ p.tvLo = 0 ∧ p.tvHi = 0 ∧
      p.lo.mode = p.hi.mode then
    some (.orCmp p.tvLo Rel.lessGreater)
  else if p.lo.lhs ≠ p.hi.lhs then none
  else orCommon p.lo.mode p.relLo p.relHi p.tvLo p.tvHi

/-- `normalize_cmp`, ir/opt/boolopt.c:571-588, for an integer mode; the new Cmp is assumed not to be simplified further -/
def negateNode (n : CmpNode) : CmpNode := { n with rel := n.rel.negated &&& ~~~Rel.unordered }

/-- the normalisation in `find_cf_and_or_walker`, ir/opt/boolopt.c:684-699: the conditions whose false edge leads to the block -/
def normalizePair (negLo negHi : Bool) (p : CondPair) : CondPair :=
  { p with
    lo := if negLo then negateNode p.lo else p.lo
    relLo := if negLo then p.relLo.negated &&& ~~~Rel.unordered else p.relLo
    hi := if negHi then negateNode p.hi else p.hi
    relHi := if negHi then p.relHi.negated &&& ~~~Rel.unordered else p.relHi }

end Verif.Model.BoolOpt
