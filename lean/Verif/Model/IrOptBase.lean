import Verif.Spec.Expr
import Verif.Model.ConstBits
/-!
# Local optimisations: looking at nodes

Model of the helper predicates of `ir/opt/iropt.c`.  A node with an integer mode or of mode `mode_b` is an
expression (`Verif.Spec.Expr`).  Two nodes are the same pointer in the code when they are the same expression
here (nodes are hash-consed; an expression that occurs twice in the graph as two nodes would merely not be
recognised).  Target values are bit vectors, their operations the bit vector operations (C01–C08).  A
constructor call `new_rd_X` is the constructor of the expression (in the code the new node is optimised
further, by the same functions).  Phi nodes, reference modes and floating point modes are not modelled, nor are
the debug information and the Block operand.
-/
namespace Verif.Model.IrOpt
open Verif.Spec

variable {m k : IMode}

/-! ## `is_X` and the getters of the operands -/

/-- `is_Const`, `get_Const_tarval`; also `value_of` with `default_value_of`, iropt.c:132-138 -/
def asConst : Expr m → Option (BitVec m.bits) | .const v => some v | _ => none
/-- `is_Minus`, `get_Minus_op` -/
def asMinus : Expr m → Option (Expr m) | .minus a => some a | _ => none
/-- `is_Not`, `get_Not_op` -/
def asNot : Expr m → Option (Expr m) | .not a => some a | _ => none
/-- `is_Add`, `get_Add_left`, `get_Add_right` -/
def asAdd : Expr m → Option (Expr m × Expr m) | .add a b => some (a, b) | _ => none
/-- `is_Sub`, `get_Sub_left`, `get_Sub_right` -/
def asSub : Expr m → Option (Expr m × Expr m) | .sub a b => some (a, b) | _ => none
/-- `is_Mul`, `get_Mul_left`, `get_Mul_right` -/
def asMul : Expr m → Option (Expr m × Expr m) | .mul a b => some (a, b) | _ => none
/-- `is_Proj` of a Div, `get_Div_left`, `get_Div_right` -/
def asDiv : Expr m → Option (Expr m × Expr m) | .div a b => some (a, b) | _ => none
/-- `is_Proj` of a Mod, `get_Mod_left`, `get_Mod_right` -/
def asMod : Expr m → Option (Expr m × Expr m) | .mod a b => some (a, b) | _ => none
/-- `is_And`, `get_And_left`, `get_And_right` -/
def asAnd : Expr m → Option (Expr m × Expr m) | .and a b => some (a, b) | _ => none
/-- `is_Or`, `get_Or_left`, `get_Or_right` -/
def asOr : Expr m → Option (Expr m × Expr m) | .or a b => some (a, b) | _ => none
/-- `is_Eor`, `get_Eor_left`, `get_Eor_right` -/
def asEor : Expr m → Option (Expr m × Expr m) | .eor a b => some (a, b) | _ => none
/-- `is_Shl`, `get_Shl_left`, `get_Shl_right` -/
def asShl : Expr m → Option ((k : IMode) × (Expr m × Expr k)) | .shl a s => some ⟨_, a, s⟩ | _ => none
/-- `is_Shr`, `get_Shr_left`, `get_Shr_right` -/
def asShr : Expr m → Option ((k : IMode) × (Expr m × Expr k)) | .shr a s => some ⟨_, a, s⟩ | _ => none
/-- `is_Shrs`, `get_Shrs_left`, `get_Shrs_right` -/
def asShrs : Expr m → Option ((k : IMode) × (Expr m × Expr k)) | .shrs a s => some ⟨_, a, s⟩ | _ => none
/-- `is_Conv`, `get_Conv_op` -/
def asConv : Expr m → Option ((k : IMode) × Expr k) | .conv _ a => some ⟨_, a⟩ | _ => none
/-- `is_Mux`, `get_Mux_sel`, `get_Mux_false`, `get_Mux_true` -/
def asMux : Expr m → Option (Expr bmode × Expr m × Expr m) | .mux s f t => some (s, f, t) | _ => none
/-- `is_Confirm`, `get_Confirm_value`, `get_Confirm_relation`, `get_Confirm_bound` -/
def asConfirm : Expr m → Option (Expr m × Rel × Expr m) | .confirm v r b => some (v, r, b) | _ => none
/-- `is_Cmp`, `get_Cmp_relation`, `get_Cmp_left`, `get_Cmp_right` -/
def asCmp : Expr bmode → Option ((k : IMode) × (Rel × Expr k × Expr k)) | .cmp r a b => some ⟨_, r, a, b⟩ | _ => none

/-- `is_irn_null` (ir/ir/irnode_t.h) -/
def isNull (e : Expr m) : Bool := asConst e = some 0#m.bits
/-- `is_irn_one` -/
def isOne (e : Expr m) : Bool := asConst e = some 1#m.bits
/-- `is_irn_all_one` -/
def isAllOne (e : Expr m) : Bool := asConst e = some (BitVec.allOnes m.bits)

/-- `get_commutative_other_op`, iropt.c:656-666, on the operands of the node -/
def otherOp (l r x : Expr m) : Option (Expr m) := if l = x then some r else if r = x then some l else none

/-! ## what the surroundings know -/

/-- What the optimisation asks other parts of the compiler.
`bi` is `get_bitinfo` (ir/ana/constbits.c:209-212), `none` for NULL.
`vrpCmp` is `vrp_cmp` (ir/ana/vrp.c).
`cmpConfirm` is `computed_value_Cmp_Confirm` (ir/opt/opt_confirms.c:328-459; see C30), `none` for `tarval_unknown`.
`one` is `only_one_user` (iropt.c:1769-1777).
`normal` is `operands_are_normalized` (iropt.c:2169-2172).
`archDep`: `irg_is_constrained(irg, IR_GRAPH_CONSTRAINT_ARCH_DEP)`; `norm2`: `…NORMALISATION2`;
`modebLowered`: `…MODEB_LOWERED`. -/
structure Ctx where
  bi : {m : IMode} → Expr m → Option (BitInfo m.bits)
  vrpCmp : {m : IMode} → Expr m → Expr m → Rel
  cmpConfirm : {m : IMode} → Expr m → Expr m → Rel → Option Bool
  one : {m : IMode} → Expr m → Bool
  normal : {m k : IMode} → Expr m → Expr k → Bool
  archDep : Bool
  norm2 : Bool
  modebLowered : Bool

/-! ## bits of constants -/

/-- `get_tarval_lowest_bit`, tv.c (C15): -1 when there is none -/
def lowestBit {w : Nat} (v : BitVec w) : Int :=
  match (List.range w).find? (fun i => v.getLsbD i) with
  | some i => i
  | none => -1

/-- `get_tarval_highest_bit`, tv.c (C15): -1 when there is none -/
def highestBit {w : Nat} (v : BitVec w) : Int :=
  match (List.range w).reverse.find? (fun i => v.getLsbD i) with
  | some i => i
  | none => -1

/-- `get_tarval_popcount`, tv.c (C15) -/
def popcount {w : Nat} (v : BitVec w) : Nat := ((List.range w).filter (fun i => v.getLsbD i)).length

/-- the least number of the mode (`get_mode_min`, C17) -/
def minOf (m : IMode) : BitVec m.bits := if m.signed then BitVec.intMin m.bits else 0#m.bits
/-- the greatest number of the mode (`get_mode_max`, C17) -/
def maxOf (m : IMode) : BitVec m.bits := if m.signed then BitVec.intMax m.bits else BitVec.allOnes m.bits

/-- `get_mode_arithmetic(mode) == irma_twos_complement`: every mode here except `mode_b` -/
def isInt (m : IMode) : Bool := m ≠ bmode

/-! ## predicates of iropt.c -/

/-- the operands of an Or, Eor or Add (first condition of `is_Or_Eor_Add`, iropt.c:58-60) -/
def asOrEorAdd : Expr m → Option (Expr m × Expr m)
  | .or a b => some (a, b) | .eor a b => some (a, b) | .add a b => some (a, b) | _ => none

/-- no bit may be set in both operands (`is_Or_Eor_Add`, iropt.c:61-68) -/
def disjoint (C : Ctx) (l r : Expr m) : Bool :=
  match C.bi l, C.bi r with
  | some bl, some br => bl.z &&& br.z = 0#m.bits
  | _, _ => false

/-- `is_Or_Eor_Add`, iropt.c:56-70, with the operands -/
def orEorAdd (C : Ctx) (e : Expr m) : Option (Expr m × Expr m) := do
  let (l, r) ← asOrEorAdd e
  if disjoint C l r then some (l, r) else none

/-- all bits of the operand except the highest are known to be zero (iropt.c:88-92) -/
def topOnly (C : Ctx) (e : Expr m) : Bool :=
  match C.bi e with
  | some b => lowestBit b.z = (m.bits : Int) - 1
  | none => false

/-- the operands of an Eor or Add (iropt.c:78) -/
def asEorAdd : Expr m → Option (Expr m × Expr m)
  | .eor a b => some (a, b) | .add a b => some (a, b) | _ => none

/-- `is_Eor_Add`, iropt.c:74-93, with the operands -/
def eorAdd (C : Ctx) (e : Expr m) : Option (Expr m × Expr m) :=
  orEorAdd C e <|> do
    let (l, r) ← asEorAdd e
    if isInt m && (topOnly C l || topOnly C r) then some (l, r) else none

/-- `is_Or(e) || is_Or_Eor_Add(e)`, with the operands -/
def orLike (C : Ctx) (e : Expr m) : Option (Expr m × Expr m) := asOr e <|> orEorAdd C e
/-- `is_Add(e) || is_Or_Eor_Add(e)`, with the operands -/
def addLike (C : Ctx) (e : Expr m) : Option (Expr m × Expr m) := asAdd e <|> orEorAdd C e
/-- `is_Eor(e) || is_Eor_Add(e)`, with the operands -/
def eorLike (C : Ctx) (e : Expr m) : Option (Expr m × Expr m) := asEor e <|> eorAdd C e

/-- `is_shl_const_like`, iropt.c:99-117: the shifted operand and the constant shift count with its mode -/
def shlConstLike (e : Expr m) : Option (Expr m × ((k : IMode) × BitVec k.bits)) :=
  match e with
  | .shl (k := k) a (.const c) => some (a, ⟨k, c⟩)
  | .mul a (.const c) => if popcount c = 1 then some (a, ⟨m, BitVec.ofInt m.bits (lowestBit c)⟩) else none
  | _ => none

/-- `is_size_minus_1`, iropt.c:119-127 -/
def isSizeMinus1 (e : Expr k) (m : IMode) : Bool :=
  match asConst e with
  | some c => k.num c = (m.bits : Int) - 1
  | none => false

/-- the first step of `complement_values`, iropt.c:293-296: two Eors with the same left operand -/
def stripEor (a b : Expr m) : Expr m × Expr m :=
  match asEor a, asEor b with
  | some (al, ar), some (bl, br) => if al = bl then (ar, br) else (a, b)
  | _, _ => (a, b)

/-- the rest of `complement_values`, iropt.c:297-305 -/
def complementDirect (a b : Expr m) : Bool :=
  asNot a = some b || asNot b = some a ||
    match asConst a, asConst b with
    | some x, some y => x ^^^ y = BitVec.allOnes m.bits
    | _, _ => false

/-- `complement_values`, iropt.c:291-306 -/
def complementValues (a b : Expr m) : Bool := complementDirect (stripEor a b).1 (stripEor a b).2

/-- `ir_is_negated_value`, iropt.c:6472-6489 -/
def isNegatedValue (a b : Expr m) : Bool :=
  asMinus a = some b || asMinus b = some a ||
    match asSub a, asSub b with
    | some (al, ar), some (bl, br) => al = br && ar = bl
    | _, _ => false

/-- a Confirm with a constant bound shows that the value is not zero, iropt.c:176-217;
`rc` is the comparison of the bound with zero -/
def confirmsNonZero (r rc : Rel) : Bool :=
  if r = Rel.equal then rc ≠ Rel.equal
  else if r = Rel.lessGreater then rc = Rel.equal
  else if r = Rel.less then rc = Rel.less || rc = Rel.equal
  else if r = Rel.lessEqual then rc = Rel.less
  else if r = Rel.greaterEqual then rc = Rel.greater
  else if r = Rel.greater then rc = Rel.greater || rc = Rel.equal
  else false

/-- some bit is known to be one, iropt.c:240-242 -/
def biNotNull (C : Ctx) (e : Expr m) : Bool :=
  match C.bi e with
  | some b => b.o ≠ 0#m.bits
  | none => false

/-- `value_not_null`, iropt.c:150-247 (Sel, Member, Address, frame pointer and Alloc nodes, which have reference
modes, are not modelled) -/
def valueNotNull (C : Ctx) : {m : IMode} → Expr m → Bool
  | _, .minus a => valueNotNull C a
  | m, .confirm v r (.const c) =>
    if confirmsNonZero r (BitInfo.tvCmp m.signed c 0#m.bits) then true else valueNotNull C v
  | _, .confirm v _ _ => valueNotNull C v
  | m, .const c => c ≠ 0#m.bits
  | _, e => biNotNull C e

/-! ## comparison results -/

/-- the bounds from the known bits, iropt.c:723-731 -/
def biRelations (m : IMode) (bl br : BitInfo m.bits) : Rel :=
  let min := minOf m
  let lmax := bl.z &&& (bl.o ||| ~~~min)
  let lmin := bl.o ||| (bl.z &&& min)
  let rmax := br.z &&& (br.o ||| ~~~min)
  let rmin := br.o ||| (br.z &&& min)
  let p := Rel.true
  let p := if isInt m && (BitInfo.tvCmp m.signed lmax rmin &&& Rel.greater = 0#4) then p &&& ~~~Rel.greater else p
  let p := if isInt m && (BitInfo.tvCmp m.signed lmin rmax &&& Rel.less = 0#4) then p &&& ~~~Rel.less else p
  if BitInfo.andnot bl.o br.z ≠ 0#m.bits || BitInfo.andnot br.o bl.z ≠ 0#m.bits then p &&& ~~~Rel.equal else p

/-- the operands of a node that are Ands, for iropt.c:746-749 -/
def andWith (e x : Expr m) : Bool :=
  match asAnd e with
  | some (l, r) => (otherOp l r x).isSome
  | none => false

/-- what a Confirm tells about its value and its bound, iropt.c:751-757 -/
def confirmRel (l r : Expr m) : Rel :=
  match asConfirm l with
  | some (_, rel, b) => if b = r then rel else Rel.true
  | none => Rel.true

/-- `ir_get_possible_cmp_relations`, iropt.c:672-760, for integer operands (`mode_b` has no comparisons) -/
def possibleRel (C : Ctx) (l r : Expr m) : Rel :=
  match asConst l, asConst r with
  | some x, some y => BitInfo.tvCmp m.signed x y
  | tl, tr =>
    let p := Rel.true
    let p := if l = r then p &&& ~~~Rel.lessGreater else p
    let p := p &&& ~~~Rel.unordered
    let p := if tl = some (minOf m) then p &&& ~~~Rel.greater else p
    let p := if tl = some (maxOf m) then p &&& ~~~Rel.less else p
    let p := if tr = some (maxOf m) then p &&& ~~~Rel.greater else p
    let p := if tr = some (minOf m) then p &&& ~~~Rel.less else p
    let p := match C.bi l, C.bi r with
      | some bl, some br => p &&& biRelations m bl br
      | _, _ => p
    let p := p &&& C.vrpCmp l r
    let p := if !m.signed && andWith l r then p &&& ~~~Rel.greater else p
    let p := if !m.signed && andWith r l then p &&& ~~~Rel.less else p
    let p := p &&& confirmRel l r
    p &&& (confirmRel r l).inversed

/-- `is_relation`, iropt.c:766-772 -/
def isRelation (rel cmpRel possible : Rel) : Bool := (cmpRel &&& possible) ||| (rel &&& ~~~possible) = rel

/-- `get_complementary_relations`, iropt.c:784-793 -/
def complementaryRel (rel cmpRel possible : Rel) : Rel :=
  if isRelation rel cmpRel possible then rel
  else if isRelation (rel ^^^ Rel.lessEqualGreater) cmpRel possible then rel ^^^ Rel.lessEqualGreater
  else Rel.false

/-! ## what the surroundings have to guarantee -/

/-- The known bits describe the value of every well-defined node (C25–C28), the relations of the value range
analysis contain the actual outcome, and a comparison decided from Confirm nodes has the decided result. -/
structure Ctx.Sound (C : Ctx) (env : Env) : Prop where
  bi : ∀ {m : IMode} (e : Expr m) (b : BitInfo m.bits), e.Ok env → C.bi e = some b → Describes b.z b.o (e.eval env)
  vrp : ∀ {m : IMode} (l r : Expr m), l.Ok env → r.Ok env →
    relHolds (C.vrpCmp l r) (m.num (l.eval env)) (m.num (r.eval env)) = true
  confirm : ∀ {m : IMode} (l r : Expr m) (rel : Rel) (b : Bool), l.Ok env → r.Ok env → C.cmpConfirm l r rel = some b →
    relHolds rel (m.num (l.eval env)) (m.num (r.eval env)) = b

/-- a rule that returns a new expression returns one that may be used instead of the old one -/
def RuleOk (env : Env) (old : Expr m) (r : Option (Expr m)) : Prop := ∀ e', r = some e' → Replaces env e' old

end Verif.Model.IrOpt
