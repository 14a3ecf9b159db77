import Verif.Model.IrOptArith
/-!
# Local optimisations: comparisons

Model of `transform_node_Cmp` of `ir/opt/iropt.c` for integer operands.  The function keeps the relation and the two
operands in variables and starts again whenever it changed one of them (`goto restart`); here one pass is the function
`cmpStep`, which yields the new comparison or a result, and the passes are iterated by `cmpLoop`, with a bound for
the number of passes.  In the comments `p` is the variable `possible` and `q` is the variable `rel_eq`.  Reference and
floating point operands are not modelled.
-/
namespace Verif.Model.IrOpt
open Verif.Spec

variable {m k : IMode}

/-- `is_single_bit`, iropt.c:4966-4982 -/
def isSingleBit (e : Expr m) : Bool :=
  match asShl e with
  | some ⟨_, a, _⟩ => isOne a && 0 < m.modulo && m.modulo ≤ m.bits
  | none =>
    match asConst e with
    | some c => popcount c = 1
    | none => false

/-- `flips_bit`, iropt.c:4988-5001 -/
def flipsBit (e : Expr m) (tv : BitVec m.bits) : Option (Expr m) :=
  match asNot e with
  | some a => some a
  | none => do
    let (l, r) ← asEor e
    let c ← asConst r
    if c &&& tv ≠ 0#m.bits then some l else none

/-! ## first step: similar operations on both sides -/

/-- conversions on both sides, iropt.c:5034-5064 -/
def cmpConvs (rel : Rel) (l r : Expr m) : Option (Expr bmode) := do
  let ⟨ka, a⟩ ← asConv l
  let ⟨kb, b⟩ ← asConv r
  if smallerI ka m && smallerI kb m then
    if h : kb = ka then some (.cmp rel a (h ▸ b))
    else if smallerI ka kb then some (.cmp rel (.conv kb a) b)
    else if smallerI kb ka then some (.cmp rel a (.conv ka b))
    else none
  else none

/-- two commutative operations with a common operand, iropt.c:5101-5122: the other operands -/
def otherOps (ll lr rl rr : Expr m) : Option (Expr m × Expr m) :=
  match otherOp rl rr ll with
  | some r0 => some (lr, r0)
  | none =>
    match otherOp rl rr lr with
    | some r1 => some (ll, r1)
    | none => none

/-- two subtractions with a common operand, iropt.c:5125-5147 -/
def commonSub (ll lr rl rr : Expr m) : Option (Expr m × Expr m) :=
  if ll = rl then some (lr, rr) else if lr = rr then some (ll, rl) else none

/-- the same operation on both sides, iropt.c:5085-5151: what remains -/
def sameOps (l r : Expr m) : Option (Expr m × Expr m) :=
  (do let a ← asNot l; let b ← asNot r; some (a, b)) <|>
  (do let a ← asMinus l; let b ← asMinus r; some (a, b)) <|>
  (do let (ll, lr) ← asAdd l; let (rl, rr) ← asAdd r; otherOps ll lr rl rr) <|>
  (do let (ll, lr) ← asEor l; let (rl, rr) ← asEor r; otherOps ll lr rl rr) <|>
  (do let (ll, lr) ← asSub l; let (rl, rr) ← asSub r; commonSub ll lr rl rr)

/-- the same operation on both sides, iropt.c:5080-5151; the relation stays as it is -/
def cmpSame (q rel : Rel) (l r : Expr m) : Option (Expr bmode) := do
  let (a, b) ← sameOps l r
  if q ≠ Rel.false && isInt m then some (.cmp rel a b) else none

/-- `X` for `X + A`, `X ^ A`, `X | A` or `A - X`, compared with `A`, iropt.c:5155-5163 and 5164-5171 -/
def cancels (C : Ctx) (l r : Expr m) : Option (Expr m) :=
  match asSub l with
  | some (a, x) => if a = r then some x else none
  | none => do
    let (a, b) ← asAdd l <|> asEor l <|> orEorAdd C l
    otherOp a b r

/-- `X + A == A` becomes `X == 0`, iropt.c:5153-5180 -/
def cmpCancel (C : Ctx) (q : Rel) (l r : Expr m) : Option (Expr bmode) := do
  let x ← cancels C l r <|> cancels C r l
  if q ≠ Rel.false && isInt m then some (.cmp q x (.const 0#m.bits)) else none

/-- two shifts to the right by the same constant, iropt.c:5183-5188: the operands and the count -/
def sameShifts (l r : Expr m) : Option ((k : IMode) × (Expr m × Expr m × BitVec k.bits)) :=
  (do let ⟨ka, a, s⟩ ← asShr l; let ⟨kb, b, t⟩ ← asShr r; let c ← asConst s
      if (⟨ka, s⟩ : (k : IMode) × Expr k) = ⟨kb, t⟩ then some ⟨ka, a, b, c⟩ else none) <|>
  (do let ⟨ka, a, s⟩ ← asShrs l; let ⟨kb, b, t⟩ ← asShrs r; let c ← asConst s
      if (⟨ka, s⟩ : (k : IMode) × Expr k) = ⟨kb, t⟩ then some ⟨ka, a, b, c⟩ else none)

/-- the bits shifted out seem to be the same on both sides, iropt.c:5191-5205 (the bits tested are those of the shifted values) -/
def lowBitsSame (bl br : BitInfo m.bits) (n : Nat) : Bool :=
  let leq := bl.z ^^^ bl.o
  let req := br.z ^^^ br.o
  let mask := (1#m.bits <<< m.amt n) - 1#m.bits
  (leq ||| req) &&& minOf m = 0#m.bits && (leq &&& mask) ||| (req &&& mask) = 0#m.bits && bl.z ^^^ br.z = 0#m.bits

/-- `Cmp(x >> c, y >> c) -> Cmp(x,y)`, iropt.c:5183-5214 (without `changed = true`) -/
def cmpShifts (C : Ctx) (rel : Rel) (l r : Expr m) : Option (Expr bmode) := do
  let ⟨_, a, b, c⟩ ← sameShifts l r
  let bl ← C.bi l
  let br ← C.bi r
  let n ← countOf c
  if isInt m && lowBitsSame bl br n then some (.cmp rel a b) else none

/-! ## second step -/

/-- the operands are exchanged, iropt.c:5216-5229 -/
def cmpSwap (C : Ctx) (rel : Rel) (l r : Expr m) : Option (Expr bmode) :=
  if !C.normal l r then some (.cmp rel.inversed r l) else none

/-! ## third step: operations on the left side -/

/-- a conversion compared with a constant, iropt.c:5235-5254; `tarval_convert_to` without wrapping fails when the
constant is not a number of the mode (C07) -/
def cmpConvConst (rel : Rel) (l r : Expr m) : Option (Expr bmode) := do
  let ⟨ka, a⟩ ← asConv l
  let tv ← asConst r
  if smallerI ka m && ka.num (convTo ka tv) = m.num tv then some (.cmp rel a (.const (convTo ka tv))) else none

/-- `(x % 2^n) CMP 0 ==> x & (2^n-1) CMP 0`, iropt.c:5256-5279 -/
def cmpMod (q rel : Rel) (l r : Expr m) : Option (Expr bmode) := do
  let (v, c) ← asMod l
  let tv ← asConst c
  if isNull r && q ≠ Rel.false && popcount tv = 1 then some (.cmp rel (.and v (.const (tv - 1#m.bits))) r) else none

/-- `Cmp(Eor(x, y), 0)`, `Cmp(Sub(x, y), 0)` -> `Cmp(x, y)`, iropt.c:5281-5290 with `is_cmp_equality_zero`, 2190-2198 -/
def cmpEqZero (C : Ctx) (q : Rel) (l r : Expr m) : Option (Expr bmode) := do
  let (a, b) ← asEor l <|> asSub l <|> orEorAdd C l
  if isInt m && isNull r && q ≠ Rel.false then some (.cmp q a b) else none

/-- `Cmp((x >>u c1) & c2, c3) = Cmp(x & (c2 << c1), c3 << c1)`, iropt.c:5292-5325 -/
def cmpAndShr (q : Rel) (l r : Expr m) : Option (Expr bmode) := do
  let (ll, lr) ← asAnd l
  let c3 ← asConst r
  let ⟨_, x, llr⟩ ← asShr ll
  let c2 ← asConst lr
  let c1 ← asConst llr
  let n ← countOf c1
  if q ≠ Rel.false && (n : Int) + highestBit c2 < m.bits && (n : Int) + highestBit c3 < m.bits then
    some (.cmp q (.and x (.const (c2 <<< m.amt n))) (.const (c3 <<< m.amt n)))
  else none

/-- `Cmp(And(1bit, val), 1bit)`, iropt.c:5327-5334 -/
def cmpAndBit (q : Rel) (l r : Expr m) : Option (Expr bmode) := do
  let (a, b) ← asAnd l
  let _ ← otherOp a b r
  if q ≠ Rel.false && isSingleBit r then some (.cmp (q ^^^ Rel.lessEqualGreater) l (.const 0#m.bits)) else none

/-- a bit that is flipped and tested, iropt.c:5336-5355; the relation is negated -/
def cmpFlip (q rel : Rel) (l r : Expr m) : Option (Expr bmode) := do
  let (and0, and1) ← asAnd l
  let tv ← asConst and1
  let f ← flipsBit and0 tv
  if q ≠ Rel.false && isNull r && popcount tv = 1 then some (.cmp rel.negated (.and f and1) r) else none

/-! ## fourth step: constants on the right side -/

/-- a Mux of constants, iropt.c:5366-5402: `none` when the node is no such Mux, otherwise the result
(`relation = ir_relation_true; goto restart` returns the constant) -/
def cmpMux (rel : Rel) (l : Expr m) (tv : BitVec m.bits) : Option (Expr bmode) := do
  let (sel, f, t) ← asMux l
  let tt ← asConst t
  let tf ← asConst f
  let rt := BitInfo.tvCmp m.signed tt tv
  let rf := BitInfo.tvCmp m.signed tf tv
  if rt ≠ Rel.false || rf ≠ Rel.false then
    let bt : Bool := rt &&& rel ≠ 0#4
    let bf : Bool := rf &&& rel ≠ 0#4
    if bt = bf then some (.const (BitVec.ofBool bt))
    else if bt then some sel
    else some (.not sel)
  else none

/-- `UpConv(x) REL 0  ==> x REL 0`, iropt.c:5404-5426 -/
def cmpUpConv (q rel : Rel) (l : Expr m) (tv : BitVec m.bits) : Option (Expr bmode) := do
  let ⟨ka, a⟩ ← asConv l
  if tv = 0#m.bits && ka.bits < m.bits && (q ≠ Rel.false || m.signed || !ka.signed) then
    some (.cmp (if !m.signed && ka.signed then q else rel) a (.const 0#ka.bits))
  else none

/-- the operand of a Minus is known not to be the least number, iropt.c:5442-5444 -/
def notMin (C : Ctx) (e : Expr m) : Bool :=
  match C.bi e with
  | some b => maxOf m ||| b.z ≠ BitVec.allOnes m.bits || b.o &&& maxOf m ≠ 0#m.bits
  | none => false

/-- `-a CMP c  ==>  a swap(CMP) -c`, iropt.c:5428-5458 -/
def cmpMinus (C : Ctx) (q rel : Rel) (l : Expr m) (tv : BitVec m.bits) : Option (Expr bmode) := do
  let a ← asMinus l
  if (isInt m && q ≠ Rel.false) || (isInt m && notMin C a) then
    some (.cmp (if isInt m && q ≠ Rel.false then q else rel.inversed) a (.const (-tv)))
  else none

/-- `Not(a) ==/!= c  ==>  a ==/!= Not(c)`, iropt.c:5459-5470 -/
def cmpNot (q : Rel) (l : Expr m) (tv : BitVec m.bits) : Option (Expr bmode) := do
  let a ← asNot l
  if q ≠ Rel.false then some (.cmp q a (.const (~~~tv))) else none

/-- the highest bit in which a value surely differs from a constant, iropt.c:5480-5481 -/
def surelyDiffer (b : BitInfo m.bits) (tv : BitVec m.bits) : Int :=
  highestBit (BitInfo.andnot tv b.z ||| BitInfo.andnot b.o tv)

/-- the smaller constant for `<` and `>=`, iropt.c:5478-5500 -/
def smallerConst (C : Ctx) (l : Expr m) (tv : BitVec m.bits) : BitVec m.bits :=
  match C.bi l with
  | some b =>
    if 0 ≤ surelyDiffer b tv then
      let hibit := 1#m.bits <<< (surelyDiffer b tv).toNat
      let mask := hibit - 1#m.bits
      BitInfo.andnot (tv - hibit) mask ||| (b.z &&& mask)
    else tv - 1#m.bits
  | none => tv - 1#m.bits

/-- the greater constant for `>` and `<=`, iropt.c:5503-5524 -/
def greaterConst (C : Ctx) (l : Expr m) (tv : BitVec m.bits) : BitVec m.bits :=
  match C.bi l with
  | some b =>
    if 0 ≤ surelyDiffer b tv then
      let hibit := 1#m.bits <<< (surelyDiffer b tv).toNat
      let mask := hibit - 1#m.bits
      BitInfo.andnot (tv + hibit) mask ||| (b.o &&& mask)
    else tv + 1#m.bits
  | none => tv + 1#m.bits

/-- reduce the magnitude of the constant, iropt.c:5472-5534 -/
def cmpReduce (C : Ctx) (p rel : Rel) (l : Expr m) (tv : BitVec m.bits) : Option (Expr bmode) :=
  if isInt m && (asConst l).isNone && !isRelation Rel.false rel p && !isRelation Rel.true rel p then
    if (rel = Rel.less || rel = Rel.greaterEqual) && 0 < m.num tv then
      some (.cmp (rel ^^^ Rel.equal) l (.const (smallerConst C l tv)))
    else if (rel = Rel.greater || rel = Rel.lessEqual) && m.num tv < 0 then
      some (.cmp (rel ^^^ Rel.equal) l (.const (greaterConst C l tv)))
    else none
  else none

/-- reassociations for `==` and `!=`, iropt.c:5536-5586 -/
def cmpReassoc (C : Ctx) (q : Rel) (l : Expr m) (tv : BitVec m.bits) : Option (Expr bmode) :=
  if isInt m && (asConst l).isNone && q ≠ Rel.false then
    match asSub l with
    | some (a, c) => do let t ← asConst c; some (.cmp q a (.const (tv + t)))
    | none =>
      match addLike C l with
      | some (a, c) => do let t ← asConst c; if C.one l then some (.cmp q a (.const (tv - t))) else none
      | none => do let a ← asMinus l; some (.cmp q a (.const (-tv)))
  else none

/-- the result of an equality that never holds, iropt.c:5601, 5647, 5699 (`rel_eq != ir_relation_equal`) and
5668, 5733 (`relation != ir_relation_equal`) -/
def neverEqual (r : Rel) : Expr bmode := .const (BitVec.ofBool (r ≠ Rel.equal))

/-- `And(x, C1) == C2` is false when `C2 & C1 != C2`, iropt.c:5594-5604 -/
def cmpAndConst (q : Rel) (l : Expr m) (tv : BitVec m.bits) : Option (Expr bmode) := do
  let (_, c) ← asAnd l
  let t ← asConst c
  if q ≠ Rel.false && t &&& tv ≠ tv then some (neverEqual q) else none

/-- `And(x, C) == C` becomes `And(x, C) != 0`, iropt.c:5606-5625 -/
def cmpAndSame (q rel : Rel) (l : Expr m) (tv : BitVec m.bits) : Option (Expr bmode) := do
  let (_, c) ← asAnd l
  let t ← asConst c
  if q ≠ Rel.false && popcount tv = 1 && t = tv then some (.cmp (rel ^^^ Rel.lessEqualGreater) l (.const 0#m.bits)) else none

/-- `And(x, 0x80000000) == 0 ==> x >= 0`, iropt.c:5627-5636 -/
def cmpAndSign (q : Rel) (l : Expr m) (tv : BitVec m.bits) : Option (Expr bmode) := do
  let (x, c) ← asAnd l
  let t ← asConst c
  if q ≠ Rel.false && m.signed && isInt m && t = minOf m && tv = 0#m.bits then
    some (.cmp (if q ≠ Rel.equal then Rel.less else Rel.greaterEqual) x (.const tv))
  else none

/-- `Or(x, C) == 0` is false when `C != 0`, iropt.c:5640-5652 -/
def cmpOrConst (q : Rel) (l : Expr m) (tv : BitVec m.bits) : Option (Expr bmode) := do
  let (_, c) ← asOr l
  let t ← asConst c
  if q ≠ Rel.false && tv = 0#m.bits && t ≠ 0#m.bits then some (neverEqual q) else none

/-- `x << c1 == c`, iropt.c:5653-5683: a constant, or else a new comparison -/
def cmpShlConst (q rel : Rel) (l : Expr m) (tv : BitVec m.bits) : Option (Expr bmode) := do
  let ⟨_, x, s⟩ ← asShl l
  let c1 ← asConst s
  let n ← countOf c1
  if q ≠ Rel.false then
    if tv &&& (BitVec.allOnes m.bits <<< m.amt n) ≠ tv then some (neverEqual rel)
    else some (.cmp q (.and x (.const (BitVec.allOnes m.bits >>> m.amt n))) (.const (tv >>> m.amt n)))
  else none

/-- `x >>u c1 == c`, iropt.c:5684-5714 -/
def cmpShrConst (q : Rel) (l : Expr m) (tv : BitVec m.bits) : Option (Expr bmode) := do
  let ⟨_, x, s⟩ ← asShr l
  let c1 ← asConst s
  let n ← countOf c1
  if q ≠ Rel.false then
    if tv &&& (BitVec.allOnes m.bits >>> m.amt n) ≠ tv then some (neverEqual q)
    else some (.cmp q (.and x (.const (BitVec.allOnes m.bits <<< m.amt n))) (.const (tv <<< m.amt n)))
  else none

/-- the constant shifted by `BITS - 1 - c1`, iropt.c:5726-5729; the difference is computed in the mode of the count -/
def shrsCond (tv : BitVec m.bits) (c1 : BitVec k.bits) : Option (BitVec m.bits) := do
  let n ← countOf (BitVec.ofInt k.bits (m.bits - 1) - c1)
  some (tv.sshiftRight (m.amt n))

/-- `x >>s c1 == c`, iropt.c:5715-5748 -/
def cmpShrsConst (q rel : Rel) (l : Expr m) (tv : BitVec m.bits) : Option (Expr bmode) := do
  let ⟨_, x, s⟩ ← asShrs l
  let c1 ← asConst s
  let n ← countOf c1
  let cond ← shrsCond tv c1
  if q ≠ Rel.false then
    if cond ≠ BitVec.allOnes m.bits && cond ≠ 0#m.bits then some (neverEqual rel)
    else some (.cmp q (.and x (.const (BitVec.allOnes m.bits <<< m.amt n))) (.const (tv <<< m.amt n)))
  else none

/-! ## one pass, and all passes -/

/-- what one pass ends with: `goto restart` with a comparison and the change of `changed`, or a `return` -/
inductive Step where
  | goto (e : Expr bmode) (changed : Bool)
  | ret (e : Expr bmode)
  deriving DecidableEq

/-- the expression of the outcome -/
def Step.expr : Step → Expr bmode | .goto e _ => e | .ret e => e

/-- `changed = true; goto restart` -/
def again (r : Option (Expr bmode)) : Option Step := r.map (Step.goto · true)
/-- `return` -/
def returns (r : Option (Expr bmode)) : Option Step := r.map Step.ret
/-- a rule that returns constants, or starts again with a comparison -/
def ends (r : Option (Expr bmode)) : Option Step := r.map fun e => if (asCmp e).isSome then .goto e true else .ret e

/-- a comparison that is always or never true, iropt.c:5014-5017 -/
def cmpTrivial (rel : Rel) : Option (Expr bmode) :=
  if rel = Rel.false || rel = Rel.true then some (.const (BitVec.ofBool (rel = Rel.true))) else none

/-- the impossible outcomes are removed from the relation, iropt.c:5022-5028 -/
def cmpMask (p rel : Rel) (l r : Expr m) : Option (Expr bmode) :=
  if rel &&& p ≠ rel then some (.cmp (rel &&& p) l r) else none

/-- the fourth step, iropt.c:5358-5752 -/
def cmpConstStep (C : Ctx) (p q rel : Rel) (l : Expr m) (tv : BitVec m.bits) : Option Step :=
  returns (cmpMux rel l tv) <|>
  again (cmpUpConv q rel l tv) <|>
  again (cmpMinus C q rel l tv) <|>
  again (cmpNot q l tv) <|>
  again (cmpReduce C p rel l tv) <|>
  again (cmpReassoc C q l tv) <|>
  returns (cmpAndConst q l tv) <|>
  again (cmpAndSame q rel l tv) <|>
  again (cmpAndSign q l tv) <|>
  returns (cmpOrConst q l tv) <|>
  ends (cmpShlConst q rel l tv) <|>
  ends (cmpShrConst q l tv) <|>
  ends (cmpShrsConst q rel l tv)

/-- one pass from the label `restart`, iropt.c:5014-5752; `none` when the end is reached.  (`-a CMP -b`, 5066-5078, is
for modes without overflow on unary Minus, that is, floating point modes.) -/
def cmpStep (C : Ctx) (rel : Rel) (l r : Expr m) : Option Step :=
  let p := possibleRel C l r
  let q := complementaryRel Rel.equal rel p
  returns (cmpTrivial rel) <|>
  again (cmpMask p rel l r) <|>
  again (cmpConvs rel l r) <|>
  again (cmpSame q rel l r) <|>
  again (cmpCancel C q l r) <|>
  (cmpShifts C rel l r).map (Step.goto · false) <|>
  again (cmpSwap C rel l r) <|>
  again (cmpConvConst rel l r) <|>
  again (cmpMod q rel l r) <|>
  again (cmpEqZero C q l r) <|>
  again (cmpAndShr q l r) <|>
  again (cmpAndBit q l r) <|>
  again (cmpFlip q rel l r) <|>
  (match asConst r with
   | some tv => cmpConstStep C p q rel l tv
   | none => none)

/-- the passes, iropt.c:5006-5762; `none` when the node stays as it is, or when the bound is reached -/
def cmpLoop (C : Ctx) : Nat → Expr bmode → Bool → Option (Expr bmode)
  | 0, _, _ => none
  | n + 1, e, changed =>
    match asCmp e with
    | none => none
    | some ⟨_, rel, l, r⟩ =>
      match cmpStep C rel l r with
      | some (.ret e') => some e'
      | some (.goto e' c) => cmpLoop C n e' (changed || c)
      | none => if changed then some e else none

/-- `transform_node_Cmp`, iropt.c:5006-5762, with a bound for the number of passes -/
def transformCmp (C : Ctx) (n : Nat) (rel : Rel) (l r : Expr m) : Option (Expr bmode) := cmpLoop C n (.cmp rel l r) false

end Verif.Model.IrOpt
