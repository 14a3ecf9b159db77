import Verif.Model.Relation
/-!
# Comparisons of confirmed values

Model of `computed_value_Cmp_Confirm` and its helpers, `ir/opt/opt_confirms.c:46-459`.

`V` is the type of target values of the mode of the operands, `key` the position of a value in the order
of the mode, `none` for a NaN (`tarval_cmp` compares the positions, C08 and C48).  Two different target
values may have one position: the two zeros of a floating point mode.  Pointer comparison of target
values is equality of `V` (C09).

Simplifications: nodes are numbers; `value_of` is the default one, it knows Const nodes only.
-/
namespace Verif.Model.Confirms
open Verif.Model

variable {V : Type} [DecidableEq V]

/-- the parts of a mode the code refers to -/
structure FMode (V : Type) where
  key : V → Option Int
  min : V
  max : V

/-- `tarval_cmp` -/
def tvCmp (m : FMode V) (a b : V) : Rel :=
  match m.key a, m.key b with
  | some x, some y => if x = y then Rel.equal else if x < y then Rel.less else Rel.greater
  | _, _ => Rel.unordered

/-- `interval_t`, ir/opt/opt_confirms.c:34-38; the flags tell which borders are excluded -/
structure Interval (V : Type) where
  min : V
  max : V
  minEx : Bool
  maxEx : Bool

/-- a node: a Const with its value, a Confirm with relation and bound (itself a node: its number and its value if it is a
Const), or anything else -/
inductive Node (V : Type)
  | const (id : Nat) (v : V)
  | confirm (id : Nat) (rel : Rel) (bound : Nat) (boundConst : Option V)
  | other (id : Nat)

def Node.id : Node V → Nat
  | .const i _ => i
  | .confirm i _ _ _ => i
  | .other i => i

/-- `value_of`, ir/opt/iropt.c:132-138 -/
def Node.valueOf : Node V → Option V
  | .const _ v => some v
  | _ => none

/-- `get_interval_from_tv` for a known value, ir/opt/opt_confirms.c:65-77 -/
def intervalFromTv (m : FMode V) (v : V) : Option (Interval V) :=
  if m.key v = none then none else some ⟨v, v, false, false⟩

/-- the cases of `get_interval`, ir/opt/opt_confirms.c:116-171 -/
def intervalCases (m : FMode V) (tv : V) (rel : Rel) : Option (Interval V) :=
  if rel = Rel.equal then some ⟨tv, tv, false, false⟩
  else if rel = Rel.lessEqual then some ⟨m.min, tv, false, false⟩
  else if rel = Rel.less then some ⟨m.min, tv, false, true⟩
  else if rel = Rel.greater then some ⟨tv, m.max, true, false⟩
  else if rel = Rel.greaterEqual then some ⟨tv, m.max, false, false⟩
  else if rel = Rel.lessEqualGreater then some ⟨m.min, m.max, false, false⟩
  else none

/-- `get_interval`, ir/opt/opt_confirms.c:90-176 -/
def interval (m : FMode V) (bound : Option V) (rel : Rel) : Option (Interval V) :=
  match bound with
  | none => none
  | some tv => if m.key tv = none then none else intervalCases m tv rel

/-- case `ir_relation_equal` of `compare_iv`, ir/opt/opt_confirms.c:218-247; the result is whether the relation holds -/
def ivEqual (m : FMode V) (l r : Interval V) : Option Bool :=
  if l.min = l.max ∧ r.min = r.max then some (decide (l.min = r.min))
  else if tvCmp m l.max r.min = Rel.less then some false
  else if (l.maxEx || r.minEx) ∧ tvCmp m l.max r.min = Rel.equal then some false
  else if tvCmp m r.max l.min = Rel.less then some false
  else if (r.maxEx || l.minEx) ∧ tvCmp m r.max l.min = Rel.equal then some false
  else none

/-- case `ir_relation_less_greater`, ir/opt/opt_confirms.c:249-253 -/
def ivLessGreater (l r : Interval V) : Option Bool :=
  if l.min = l.max ∧ r.min = r.max then some (decide (l.min ≠ r.min)) else none

/-- case `ir_relation_less`, ir/opt/opt_confirms.c:255-277 -/
def ivLess (m : FMode V) (l r : Interval V) : Option Bool :=
  if tvCmp m l.max r.min = Rel.less then some true
  else if (l.maxEx || r.minEx) ∧ tvCmp m l.max r.min = Rel.equal then some true
  else if tvCmp m l.min r.max = Rel.greater then some false
  else if (l.minEx || r.maxEx) ∧ tvCmp m l.min r.max = Rel.equal then some false
  else none

/-- case `ir_relation_less_equal`, ir/opt/opt_confirms.c:279-300 -/
def ivLessEqual (m : FMode V) (l r : Interval V) : Option Bool :=
  if (l.maxEx || r.minEx) ∧ (tvCmp m l.max r.min = Rel.less ∨ tvCmp m l.max r.min = Rel.equal) then some true
  else if tvCmp m l.min r.max = Rel.greater then some false
  else if (l.minEx || r.maxEx) ∧ tvCmp m l.min r.max = Rel.equal then some false
  else none

/-- the switch of `compare_iv`, ir/opt/opt_confirms.c:216-309 -/
def ivSwitch (m : FMode V) (l r : Interval V) (rel : Rel) : Option Bool :=
  if rel = Rel.equal then ivEqual m l r
  else if rel = Rel.lessGreater then ivLessGreater l r
  else if rel = Rel.less then ivLess m l r
  else if rel = Rel.lessEqual then ivLessEqual m l r
  else if rel = Rel.lessEqualGreater then some true
  else none

/-- `>` and `>=` are turned round, ir/opt/opt_confirms.c:206-213 -/
def ivOrdered (m : FMode V) (l r : Interval V) (rel : Rel) : Option Bool :=
  if rel = Rel.greaterEqual ∨ rel = Rel.greater then ivSwitch m r l rel.inversed else ivSwitch m l r rel

/-- `compare_iv`, ir/opt/opt_confirms.c:190-310; relations with "unordered" are negated first, `tv_true` and `tv_false` are exchanged -/
def compareIv (m : FMode V) (l r : Option (Interval V)) (rel : Rel) : Option Bool :=
  match l, r with
  | some l, some r =>
    if rel &&& Rel.unordered ≠ 0#4 then (ivOrdered m l r rel.negated).map (!·) else ivOrdered m l r rel
  | _, _ => none

/-- `is_transitive`, ir/opt/opt_confirms.c:315-318 -/
def isTransitive (rel : Rel) : Bool := decide (0 < rel.toNat ∧ rel.toNat < Rel.lessGreater.toNat)

/-- the decision of the relation `rel` from a relation that is known to hold, `known == rel` or `known == rel without equality`:
ir/opt/opt_confirms.c:395-408, 433-446 -/
def decideFrom (known rel : Rel) : Option Bool :=
  if known = rel ∨ known = rel &&& ~~~Rel.equal then some true
  else if known = rel.negated ∨ known = rel.negated &&& ~~~Rel.equal then some false
  else none

/-- one bound of both: ir/opt/opt_confirms.c:358-383 -/
def triangle (lrel rrel rel : Rel) : Option Bool :=
  if isTransitive lrel ∧ lrel &&& ~~~Rel.equal = rrel.inversed &&& ~~~Rel.equal then
    let res := (lrel &&& ~~~Rel.equal) ||| (lrel &&& rrel.inversed &&& Rel.equal)
    if rel = res ∨ rel &&& ~~~Rel.equal = res then some true
    else if rel.negated = res ∨ rel.negated &&& ~~~Rel.equal = res then some false
    else none
  else none

/-- the part for two Confirms, ir/opt/opt_confirms.c:349-420 -/
def bothConfirms (m : FMode V) (leftId : Nat) (lrel : Rel) (lbound : Nat) (lconst : Option V) (rrel : Rel) (rbound : Nat) (rconst : Option V)
    (rel : Rel) : Option Bool :=
  (if rbound = lbound then triangle lrel rrel rel else none).or
    ((if leftId = rbound then decideFrom rrel rel else none).or
      (compareIv m (interval m lconst lrel) (interval m rconst rrel) rel))

/-- the part for the left Confirm, ir/opt/opt_confirms.c:422-458 -/
def leftConfirm (m : FMode V) (lrel : Rel) (lbound : Nat) (lconst : Option V) (right : Node V) (rel : Rel) : Option Bool :=
  (if right.id = lbound then decideFrom lrel rel else none).or
    (match right.valueOf with
    | none => none
    | some tv => compareIv m (interval m lconst lrel) (intervalFromTv m tv) rel)

/-- after the exchange: the left operand is a Confirm -/
def cmpLeft (m : FMode V) (left right : Node V) (rel : Rel) : Option Bool :=
  match left with
  | .confirm lid lrel lbound lconst =>
    match right with
    | .confirm _ rrel rbound rconst =>
      (bothConfirms m lid lrel lbound lconst rrel rbound rconst rel).or (leftConfirm m lrel lbound lconst right rel)
    | _ => leftConfirm m lrel lbound lconst right rel
  | _ => none

def Node.isConfirm : Node V → Bool
  | .confirm _ _ _ _ => true
  | _ => false

/-- `computed_value_Cmp_Confirm`, ir/opt/opt_confirms.c:328-459; `none`: unknown -/
def computedValue (m : FMode V) (left right : Node V) (rel : Rel) : Option Bool :=
  if right.isConfirm then cmpLeft m right left rel.inversed else cmpLeft m left right rel

end Verif.Model.Confirms
