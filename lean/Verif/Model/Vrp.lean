import Verif.Model.ConstBits
import Verif.Model.IrOptBase
import Verif.Spec.SsaGraph
/-!
# The value range analysis

`set_vrp_data` and `vrp_cmp` (ir/ana/vrp.c).  The data nodes are those of `Verif.Spec.SsaGraph`; every operand of an operation is a leaf of
its expression, that is, a node of its own.  The mode of a node does not change during the analysis, so lines 367-378 of ir/ana/vrp.c have no effect.
-/
namespace Verif.Model.Vrp
open Verif.Spec Verif.Model.IrOpt
open BitInfo (tvCmp convertTo)

/-- `range_type` with `range_bottom` and `range_top`, include/libfirm/vrp.h:26-32, 42-44.  The bounds are only kept where they are used. -/
inductive Range (w : Nat)
  | undefined
  | range (bottom top : BitVec w)
  | anti (bottom top : BitVec w)
  | varying
  deriving DecidableEq

/-- `vrp_attr`, include/libfirm/vrp.h:34-45 -/
structure Attr (w : Nat) where
  set : BitVec w
  notSet : BitVec w
  range : Range w
  deriving DecidableEq

/-- the information a new node gets, ir/ana/vrp.c:42-47 -/
def Attr.initial (w : Nat) : Attr w := ⟨0#w, BitVec.allOnes w, .undefined⟩

/-- the map `infos`; a node without an entry gets one when it is read (`vrp_get_or_set_info`, ir/ana/vrp.c:35-52) -/
abbrev State := (m : IMode) → Nat → Attr m.bits

/-- the variables `new_bits_set`, `new_bits_not_set` (absent: `tarval_bad`) and `new_range_*`, ir/ana/vrp.c:64-68 -/
structure New (w : Nat) where
  bits : Option (BitVec w × BitVec w)
  range : Range w
  deriving DecidableEq

/-- nothing was found out; also `return 0` -/
def New.nothing (w : Nat) : New w := ⟨none, .undefined⟩

/-- the information about an operand -/
def operand (s : State) : {m : IMode} → Expr m → Attr m.bits
  | _, .leaf m i => s m i
  | m, _ => Attr.initial m.bits

/-- `is_Const` and `get_Const_tarval` of an operand -/
def constOf (G : SsaGraph) : {m : IMode} → Expr m → Option (BitVec m.bits)
  | _, .leaf m i =>
    match G.node m i with
    | .op (.const c) => some c
    | _ => none
  | _, _ => none

/-- `tarval_add` without wrap around, tv.c:732-765 (C02): absent for `tarval_bad` -/
def addNoWrap (m : IMode) (x y : BitVec m.bits) : Option (BitVec m.bits) :=
  if m.num (x + y) = m.num x + m.num y then some (x + y) else none

/-- `tarval_sub` without wrap around, tv.c:759-807 (C02): absent for `tarval_bad` -/
def subNoWrap (m : IMode) (x y : BitVec m.bits) : Option (BitVec m.bits) :=
  if m.num (x - y) = m.num x - m.num y then some (x - y) else none

/-- the range of a sum, ir/ana/vrp.c:102-133 -/
def addRange (m : IMode) : Range m.bits → Range m.bits → Range m.bits
  | .range lb lt, .range rb rt =>
    match addNoWrap m lt rt, addNoWrap m lb rb with
    | some t, some b => .range b t
    | _, _ => .undefined
  | _, _ => .undefined

/-- the range of a difference, ir/ana/vrp.c:135-170 -/
def subRange (m : IMode) : Range m.bits → Range m.bits → Range m.bits
  | .range lb lt, .range rb rt =>
    match subNoWrap m lt rb, subNoWrap m lb rt with
    | some t, some b => .range b t
    | _, _ => .undefined
  | _, _ => .undefined

/-- a shift by a constant, ir/ana/vrp.c:184-195, 197-209, 211-223: `tarval_shl`, `tarval_shr`, `tarval_shrs` fail on negative counts (C05);
`none` for this failure -/
def shiftBits {w : Nat} {k : IMode} (f : Nat → BitVec w → BitVec w) (a : Attr w) : Option (BitVec k.bits) → Option (New w)
  | none => some (New.nothing w)
  | some c => if k.num c < 0 then none else some ⟨some (f c.toNat a.set, f c.toNat a.notSet), .undefined⟩

/-- `iro_Eor`, ir/ana/vrp.c:225-239 -/
def eorBits {w : Nat} (l r : Attr w) : BitVec w × BitVec w :=
  ((l.set &&& ~~~r.notSet) ||| (~~~l.notSet &&& r.set), ~~~((l.set &&& r.set) ||| (~~~l.notSet &&& ~~~r.notSet)))

/-- `iro_Conv`, ir/ana/vrp.c:258-287.  The assignments in lines 279 and 284 are not executed, as `tarval_cmp` never returns
`ir_relation_less_equal` or `ir_relation_greater_equal`. -/
def convBits (k m : IMode) (a : Attr k.bits) : BitVec m.bits × BitVec m.bits :=
  let n := convertTo k.signed m.bits (BitVec.allOnes k.bits) &&& convertTo k.signed m.bits a.notSet
  (n &&& convertTo k.signed m.bits a.set, n)

/-- `iro_Confirm`, ir/ana/vrp.c:289-309 -/
def confirmRange (m : IMode) (r : Rel) (bound : Option (BitVec m.bits)) : Range m.bits :=
  match bound with
  | none => .undefined
  | some c =>
    if r = Rel.lessGreater then .anti c c
    else if r = Rel.lessEqual then .range (minOf m) c
    else .undefined

/-- the case distinction on the opcode, ir/ana/vrp.c:78-309, for nodes with operands; an expression that is a leaf stands for an Id -/
def transferOp (G : SsaGraph) (s : State) : {m : IMode} → Expr m → Option (New m.bits)
  | _, .leaf m i => some ⟨some ((s m i).set, (s m i).notSet), (s m i).range⟩
  | _, .const c => some ⟨some (c, c), .range c c⟩
  | _, .and a b => some ⟨some ((operand s a).set &&& (operand s b).set, (operand s a).notSet &&& (operand s b).notSet), .undefined⟩
  | _, .or a b => some ⟨some ((operand s a).set ||| (operand s b).set, (operand s a).notSet ||| (operand s b).notSet), .undefined⟩
  | _, .eor a b => some ⟨some (eorBits (operand s a) (operand s b)), .undefined⟩
  | _, .not a => some ⟨some (~~~(operand s a).notSet, ~~~(operand s a).set), .undefined⟩
  | m, .add a b => some ⟨none, addRange m (operand s a).range (operand s b).range⟩
  | m, .sub a b => some ⟨none, subRange m (operand s a).range (operand s b).range⟩
  | m, .shl a c => shiftBits (fun n x => x <<< m.amt n) (operand s a) (constOf G c)
  | m, .shr a c => shiftBits (fun n x => x >>> m.amt n) (operand s a) (constOf G c)
  | m, .shrs a c => shiftBits (fun n x => x.sshiftRight (m.amt n)) (operand s a) (constOf G c)
  | _, .conv (k := k) m a => if isInt k then some ⟨some (convBits k m (operand s a)), .undefined⟩ else some (New.nothing m.bits)
  | m, .confirm _ r b => some ⟨none, confirmRange m r (constOf G b)⟩
  | m, _ => some (New.nothing m.bits)

/-- the range of a Phi and another operand, ir/ana/vrp.c:324-335 -/
def phiRange (m : IMode) : Range m.bits → Range m.bits → Range m.bits
  | .range b t, .range b' t' =>
    .range (if tvCmp m.signed b b' = Rel.greater then b' else b) (if tvCmp m.signed t t' = Rel.less then t' else t)
  | _, _ => .varying

/-- one round of the loop, ir/ana/vrp.c:321-339 -/
def phiStep (m : IMode) (s : State) (acc : (BitVec m.bits × BitVec m.bits) × Range m.bits) (i : Nat) :
    (BitVec m.bits × BitVec m.bits) × Range m.bits :=
  ((acc.1.1 &&& (s m i).set, acc.1.2 ||| (s m i).notSet), phiRange m acc.2 (s m i).range)

/-- `iro_Phi`, ir/ana/vrp.c:311-342; `none` for a Phi without operands -/
def transferPhi (m : IMode) (s : State) : List Nat → Option (New m.bits)
  | [] => none
  | i :: is =>
    let r := is.foldl (phiStep m s) (((s m i).set, (s m i).notSet), (s m i).range)
    some ⟨some r.1, r.2⟩

/-- what is found out about a node, ir/ana/vrp.c:69-346 -/
def transfer (G : SsaGraph) (s : State) (m : IMode) (n : Nat) : Option (New m.bits) :=
  if !isInt m then some (New.nothing m.bits)
  else match G.node m n with
    | .op e => transferOp G s e
    | .phi args => transferPhi m s args
    | .input => some (New.nothing m.bits)

/-- `range_type`, `range_bottom` and `range_top` in lines 397-456 of ir/ana/vrp.c -/
def mergeRange (sg : Bool) {w : Nat} : Range w → Range w → Range w
  | .undefined, n => n
  | .range b t, .range b' t' =>
    .range (if tvCmp sg b b' = Rel.less then b' else b) (if tvCmp sg t t' = Rel.greater then t' else t)
  | .range b t, .anti b' t' =>
    if tvCmp sg b t' = Rel.greater ∧ tvCmp sg b b' = Rel.greater then .range t' t
    else if tvCmp sg t b' = Rel.greater ∧ tvCmp sg t t' = Rel.less then .range b b'
    else .range b t
  | .anti b t, .anti b' t' =>
    .anti (if tvCmp sg b b' = Rel.greater then b' else b) (if tvCmp sg t t' = Rel.less then t' else t)
  | .anti b t, .range b' t' =>
    .anti (if tvCmp sg b t' = Rel.greater then t' else b) (if tvCmp sg t b' = Rel.less then b' else t)
  | old, _ => old

/-- the new information is added to what is known, ir/ana/vrp.c:380-456 -/
def merge (sg : Bool) {w : Nat} (old : Attr w) (new : New w) : Attr w :=
  match new.bits with
  | none => { old with range := mergeRange sg old.range new.range }
  | some (b, n) => ⟨b ||| old.set, n &&& old.notSet, mergeRange sg old.range new.range⟩

/-- the assignments to the members of `vrp` -/
def State.put (s : State) (m : IMode) (n : Nat) (a : Attr m.bits) : State :=
  fun m' n' => if h : m = m' ∧ n' = n then h.1 ▸ a else s m' n'

/-- `vrp_update_node`, ir/ana/vrp.c:62-460; `none` if an assertion fails, among them the one in line 458.  If something changed is whether
the information about the node is not the old one. -/
def updateNode (G : SsaGraph) (s : State) (m : IMode) (n : Nat) : Option State :=
  match transfer G s m n with
  | none => none
  | some new =>
    let a := merge m.signed (s m n) new
    if a.set &&& ~~~a.notSet = 0#m.bits then some (s.put m n a) else none

/-- a data node -/
abbrev Key := (_ : IMode) × Nat

/-- `vrp_first_pass` for the nodes in the order of the walk, ir/ana/vrp.c:462-478: the state, the visited nodes and the work queue -/
def firstPass (G : SsaGraph) (outs : Key → List Key) : List Key → State → List Key → List Key → Option (State × List Key)
  | [], s, _, q => some (s, q)
  | n :: ns, s, visited, q =>
    match updateNode G s n.1 n.2 with
    | none => none
    | some s' => firstPass G outs ns s' (n :: visited) (q ++ (outs n).filter (fun k => decide (k ∈ n :: visited)))

/-- the loop over the work queue, ir/ana/vrp.c:526-536; `none` if an assertion fails or the number of steps is not enough.  The outer
`Option` is for the steps. -/
def workLoop (G : SsaGraph) (outs : Key → List Key) : Nat → State → List Key → Option (Option State)
  | _, s, [] => some (some s)
  | 0, _, _ :: _ => none
  | fuel + 1, s, n :: q =>
    match updateNode G s n.1 n.2 with
    | none => some none
    | some s' => workLoop G outs fuel s' (if s' n.1 n.2 = s n.1 n.2 then q else q ++ outs n)

/-- `set_vrp_data`, ir/ana/vrp.c:501-538: `order` is the order in which `irg_walk_graph` leaves the nodes, `outs` are the users of a node
(`foreach_irn_out_r`) -/
def setVrpData (G : SsaGraph) (outs : Key → List Key) (order : List Key) (fuel : Nat) : Option (Option State) :=
  match firstPass G outs order (fun m _ => Attr.initial m.bits) [] [] with
  | none => some none
  | some (s, q) => workLoop G outs fuel s q

/-- `vrp_cmp`, ir/ana/vrp.c:548-574; a node without an entry behaves like one with the initial entry -/
def vrpCmp (s : State) (m : IMode) (l r : Nat) : Rel :=
  if !isInt m then Rel.true
  else
    let byRange :=
      match (s m l).range, (s m r).range with
      | .range lb lt, .range rb rt =>
        if tvCmp m.signed lt rb = Rel.less then some Rel.less
        else if tvCmp m.signed lb rt = Rel.greater then some Rel.greater
        else none
      | _, _ => none
    match byRange with
    | some rel => rel
    | none =>
      if (s m l).set &&& ~~~(s m r).notSet ≠ 0#m.bits ∨ ~~~(s m l).notSet &&& (s m r).set ≠ 0#m.bits then Rel.lessGreater
      else Rel.true

/-- the value of a node according to the analysis, ir/opt/iropt.c:1013-1015 -/
def vrpValue (s : State) (m : IMode) (n : Nat) : Option (BitVec m.bits) :=
  if (s m n).set = (s m n).notSet then some (s m n).set else none

end Verif.Model.Vrp
