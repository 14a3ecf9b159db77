import Verif.Model.IrOptCmp
/-!
# Local optimisations: selections

Model of `transform_node_Mux` of `ir/opt/iropt.c` for integer modes and `mode_b`.  Counts are constants of mode
`mode_Iu`.  `notIf` is the conditional complement (here of iropt.c:6790-6791, 6844-6845 and 6931-6932).
-/
namespace Verif.Model.IrOpt
open Verif.Spec

variable {m k : IMode}

/-- `new_rd_Const_long(dbgi, irg, mode_Iu, n)` -/
def countIu (n : Int) : Expr modeIu := .const (BitVec.ofInt 32 n)

/-- `if (mode != dest_mode) e = new_rd_Conv(dbgi, block, e, dest_mode)`, e.g. iropt.c:6765-6766 -/
def convUnless (m : IMode) (e : Expr k) : Expr m := if h : k = m then h ▸ e else .conv m e

/-! ## absolute value -/

/-- `skip_upconv`, iropt.c:6491-6502 -/
def skipUpconv : {m : IMode} → Expr m → (k : IMode) × Expr k
  | _, .conv (k := k) m a => if smallerI k m then skipUpconv a else ⟨m, .conv m a⟩
  | m, e => ⟨m, e⟩

/-- `ir_mux_is_abs`, iropt.c:6504-6554, for integer modes -/
def muxIsAbs (rel : Rel) (l r : Expr k) (f t : Expr m) : Int :=
  if rel &&& Rel.lessGreater = 0#4 then 0
  else if !isNegatedValue t f then 0
  else if !isNull r then 0
  else if sameNode (skipUpconv f).2 l then if rel &&& Rel.less ≠ 0#4 then 1 else -1
  else if sameNode (skipUpconv t).2 l then if rel &&& Rel.less ≠ 0#4 then -1 else 1
  else 0

/-- `ir_get_abs_op`, iropt.c:6556-6561 -/
def absOp (l : Expr k) (f t : Expr m) : Expr m := if sameNode (skipUpconv f).2 l then f else t

/-- `op >>s (bits - 1)`, iropt.c:6879-6880 -/
def signFill (e : Expr m) : Expr m := .shrs e (countIu ((m.bits : Int) - 1))

/-- the absolute value, iropt.c:6871-6890 -/
def muxAbs (rel : Rel) (l r : Expr k) (f t : Expr m) : Option (Expr m) :=
  if isInt m && muxIsAbs rel l r f t ≠ 0 then
    let op := absOp l f t
    if muxIsAbs rel l r f t > 0 then some (.sub (.eor op (signFill op)) (signFill op))
    else some (.sub (signFill op) (.eor op (signFill op)))
  else none

/-! ## Mux(c, 0, 1) -/

/-- the operands differ in at most one bit position, iropt.c:6738-6771 -/
def setBits (C : Ctx) (rel : Rel) (l r : Expr k) (m : IMode) : Option (Expr m) :=
  if complementaryRel Rel.equal rel (possibleRel C l r) = Rel.lessGreater then
    match C.bi l, C.bi r with
    | some bl, some br =>
      if lowestBit bl.z = highestBit bl.z && lowestBit br.z = highestBit br.z &&
          (lowestBit bl.z = -1 || lowestBit br.z = -1 || lowestBit bl.z = lowestBit br.z) then
        some (convUnless m (.shr (.eor l r) (countIu (max (lowestBit bl.z) (lowestBit br.z)))))
      else none
    | _, _ => none
  else none

/-- `(e >> n) & 1`, iropt.c:6793-6798 -/
def bitAt (e : Expr m) (n : Int) : Expr m := .and (.shr e (countIu n)) (.const 1#m.bits)

/-- the test of one bit, iropt.c:6773-6806 -/
def setAnd (C : Ctx) (rel : Rel) (l r : Expr k) (m : IMode) : Option (Expr m) := do
  let q := complementaryRel Rel.equal rel (possibleRel C l r)
  let (a, b) ← asAnd l
  let tv ← asConst b
  if q ≠ Rel.false && isNull r && popcount tv = 1 then
    if k.bits < m.bits then some (bitAt (notIf (q = Rel.equal) (.conv m a)) (highestBit tv))
    else some (convUnless m (bitAt (notIf (q = Rel.equal) a) (highestBit tv)))
  else none

/-- the highest bit of the value or its complement, iropt.c:6844-6851 -/
def signBit (c : Bool) (e : Expr m) : Expr m := .shr (notIf c e) (countIu ((m.bits : Int) - 1))

/-- the sign of the difference, iropt.c:6834-6856 -/
def setDiff (a b : Expr k) (c : Bool) (m : IMode) : Expr m :=
  if k.bits < m.bits then signBit c (.sub (.conv m a) (.conv m b)) else convUnless m (signBit c (.sub a b))

/-- may the difference be used?  iropt.c:6812-6822 -/
def diffFits (lt gt : Rel) (r : Expr k) (m : IMode) : Bool :=
  if m.bits ≤ k.bits then
    k.signed && (asConst r).isSome && ((lt ≠ Rel.false && isNull r) || (gt ≠ Rel.false && isAllOne r))
  else m.signed

/-- order relations, iropt.c:6809-6856 -/
def setOrder (C : Ctx) (rel : Rel) (l r : Expr k) (m : IMode) : Option (Expr m) :=
  let lt := complementaryRel Rel.less rel (possibleRel C l r)
  let gt := complementaryRel Rel.greater rel (possibleRel C l r)
  if diffFits lt gt r m then
    if lt ≠ Rel.false then some (setDiff l r (lt = Rel.greaterEqual) m)
    else if gt ≠ Rel.false then some (setDiff r l (gt = Rel.lessEqual) m)
    else none
  else none

/-- `transform_Mux_set`, iropt.c:6727-6857 -/
def muxSet (C : Ctx) (rel : Rel) (l r : Expr k) (m : IMode) : Option (Expr m) :=
  setBits C rel l r m <|> setAnd C rel l r m <|> setOrder C rel l r m

/-! ## selections by a comparison -/

/-- should the operands be exchanged?  iropt.c:6898-6901 -/
def muxSwap (f t : Expr m) : Bool := (asConst t).isSome && ((asConst f).isNone || (isNull t && !isNull f))

/-- `Mux(a < 0, 0, -1)`, iropt.c:6921-6943 -/
def muxAllOne (C : Ctx) (rel : Rel) (l r : Expr k) (m : IMode) : Option (Expr m) :=
  if isNull r && k.signed then
    let lt := complementaryRel Rel.less rel (possibleRel C l r)
    if lt ≠ Rel.false then some (convUnless m (signFill (notIf (lt = Rel.greaterEqual) l))) else none
  else none

/-- the test of iropt.c:6947-6950: the compared value is zero or one -/
def muxBitApplies (C : Ctx) (l r : Expr k) : Bool :=
  (isNull r || isOne r) && (match C.bi l with | some b => b.z = 1#k.bits | none => false)

/-- `Mux((a & 1) != 0, 0, b)`, iropt.c:6946-6970, with assertions disabled; `muxAssert` is the assertion -/
def muxBit (C : Ctx) (rel : Rel) (l r : Expr k) (t : Expr m) : Option (Expr m) :=
  if muxBitApplies C l r then
    let q := complementaryRel Rel.equal rel (possibleRel C l r)
    let a := convUnless m l
    if (if q = Rel.equal then isOne r else isNull r) then some (.and (.minus a) t)
    else some (.and (.sub a (.const 1#m.bits)) t)
  else none

/-- the assertion of iropt.c:6955 -/
def muxAssert (C : Ctx) (rel : Rel) (l r : Expr k) : Bool :=
  !muxBitApplies C l r || complementaryRel Rel.equal rel (possibleRel C l r) ≠ Rel.false

/-- the rules for a false operand that is zero, iropt.c:6911-6972 -/
def muxZero (C : Ctx) (rel : Rel) (l r : Expr k) (f t : Expr m) : Option (Expr m) :=
  if isNull f && isInt m && isInt k then
    (if isOne t then muxSet C rel l r m else if isAllOne t then muxAllOne C rel l r m else none) <|> muxBit C rel l r t
  else none

/-- the selection of a bit by its own test, iropt.c:6974-6995 -/
def muxSingleBit (C : Ctx) (rel : Rel) (l r : Expr k) (f t : Expr m) : Option (Expr m) :=
  if h : k = m then
    let q := complementaryRel Rel.equal rel (possibleRel C l r)
    match asAnd l with
    | some (x, y) =>
      if q ≠ Rel.false && isNull r && f = h ▸ r && (h ▸ x = t || h ▸ y = t) && isSingleBit t then
        if q = Rel.equal then some (.eor (h ▸ l) t) else some (h ▸ l)
      else none
    | none => none
  else none

/-- the rules after the normalisation, with the relation and the operands it yields -/
def muxRules (C : Ctx) (rel : Rel) (l r : Expr k) (f t : Expr m) : Option (Expr m) :=
  muxZero C rel l r f t <|> muxSingleBit C rel l r f t

/-- a selection by a comparison, iropt.c:6892-7005 -/
def muxCmp (C : Ctx) (rel : Rel) (l r : Expr k) (f t : Expr m) : Option (Expr m) :=
  if muxSwap f t then muxRules C rel.negated l r t f <|> some (.mux (.cmp rel.negated l r) t f)
  else muxRules C rel l r f t

/-! ## other selections -/

/-- the true operand is a Mux, iropt.c:7011-7029 -/
def muxTrueMux (sel : Expr bmode) (f t : Expr m) : Option (Expr m) := do
  let (c1, f1, t1) ← asMux t
  if f = f1 then some (.mux (.and sel c1) f1 t1)
  else if f = t1 then some (.mux (.and sel (.not c1)) t1 f1)
  else none

/-- the false operand is a Mux (and the true operand is not), iropt.c:7030-7049 -/
def muxFalseMux (sel : Expr bmode) (f t : Expr m) : Option (Expr m) := do
  let (c1, f1, t1) ← asMux f
  if (asMux t).isSome then none
  else if t = t1 then some (.mux (.or sel c1) f1 t1)
  else if t = f1 then some (.mux (.or sel (.not c1)) t1 f1)
  else none

/-- selections of truth values, iropt.c:7051-7084; the assertion of line 7060 is that the operands are not both true -/
def muxB (sel f t : Expr bmode) : Option (Expr bmode) :=
  match asConst t, asConst f with
  | some tv, some _ => if tv = 1#1 then some sel else none
  | some tv, none => if tv = 1#1 then some (.or sel f) else none
  | none, some fv => if fv = 1#1 then some (.or (.not sel) t) else some (.and sel t)
  | none, none => none

/-- `transform_node_Mux`, iropt.c:6862-7088; `none` when the node is returned unchanged -/
def transformMux (C : Ctx) (sel : Expr bmode) (f t : Expr m) : Option (Expr m) :=
  (match asCmp sel with
   | some ⟨_, rel, l, r⟩ => muxAbs rel l r f t <|> muxCmp C rel l r f t
   | none => none) <|>
  (if C.modebLowered then none
   else muxTrueMux sel f t <|> muxFalseMux sel f t <|> onBool2 (muxB sel) f t)

end Verif.Model.IrOpt
