import Verif.Model.IrOptShift
/-!
# Local optimisations: arithmetic

Model of `transform_node_Add`, `transform_node_Sub`, `transform_node_Mul`, `transform_node_Minus`,
`transform_node_Div` and `transform_node_Mod` of `ir/opt/iropt.c`.  Rules that only involve Phi nodes, reference modes
or floating point modes are left out, as are the architecture dependent replacements of a multiplication or division by a
constant (C21–C23).  The modes are integer modes.
-/
namespace Verif.Model.IrOpt
open Verif.Spec

variable {m k : IMode}

/-- `mode_Iu`: 32 bits, unsigned, modulo-shift 32 (ir/ir/irmode.c) -/
abbrev modeIu : IMode := ⟨false, 32, 32⟩

/-! ## Add -/

/-- an Add of a constant to a value confirmed to be at most a constant, iropt.c:3063-3083 -/
def addConfirm (a b : Expr m) : Option (Expr m) := do
  let tb ← asConst b
  let (v, rel, bound) ← asConfirm a
  let tbound ← asConst bound
  if rel = Rel.lessEqual && BitInfo.tvCmp m.signed tbound (maxOf m - tb) = Rel.less then
    some (.confirm (.add v b) Rel.lessEqual (.const (tbound + tb)))
  else none

/-- `(C1 - x) + C2 = (C1 + C2) - x`, iropt.c:3084-3103 -/
def addSubConst (a b : Expr m) : Option (Expr m) := do
  let tb ← asConst b
  let (l, x) ← asSub a
  let ts ← asConst l
  some (.sub (.const (ts + tb)) x)

/-- `a + a -> a * 2` or `a + a -> a << 1`, iropt.c:3116-3133 -/
def addSame (C : Ctx) (a b : Expr m) : Option (Expr m) :=
  if a = b then
    if !C.archDep then some (.mul a (.const (1#m.bits + 1#m.bits)))
    else some (.shl a (.const (m := modeIu) 1#32))
  else none

/-- `-a + b -> b - a` and `a + -b -> a - b`, iropt.c:3134-3149 -/
def addMinus (a b : Expr m) : Option (Expr m) :=
  (do let x ← asMinus a; some (.sub b x)) <|>
  (do let y ← asMinus b; some (.sub a y))

/-- `~x + C = (C - 1) - x`, iropt.c:3152-3170 -/
def addNot (a b : Expr m) : Option (Expr m) := do
  let x ← asNot a
  let c ← asConst b
  some (.sub (.const (c - 1#m.bits)) x)

/-- `(x | c) + -c -> x & ~c`, iropt.c:3171-3187 -/
def addOr (a b : Expr m) : Option (Expr m) := do
  let (x, y) ← asOr a
  let tb ← asConst b
  let tab ← asConst y
  if tab + tb = 0#m.bits then some (.and x (.const (~~~tab))) else none

/-- the sum of two products, iropt.c:3197-3212; the second search repeats the first one -/
def addMulMul (a b : Expr m) : Option (Expr m) := do
  let (al, ar) ← asMul a
  let (bl, br) ← asMul b
  match otherOp bl br al with
  | some z => some (.mul al (.add ar z))
  | none =>
    match otherOp bl br al with
    | some z => some (.mul ar (.add al z))
    | none => none

/-- `(x * y) + x -> x * (y + 1)` and the other factorisations, iropt.c:3188-3228 -/
def addMul (C : Ctx) (a b : Expr m) : Option (Expr m) :=
  if !C.archDep then
    (do
      let (al, ar) ← asMul a
      let y ← otherOp al ar b
      if (asConst b).isNone then some (.mul b (.add y (.const 1#m.bits))) else none) <|>
    addMulMul a b <|>
    (do
      let (bl, br) ← asMul b
      let y ← otherOp bl br a
      some (.mul a (.add y (.const 1#m.bits))))
  else none

/-- `transform_node_Add`, iropt.c:3028-3274 -/
def transformAdd (C : Ctx) (a b : Expr m) : Option (Expr m) :=
  foldAssoc .add (· + ·) a b <|>
  addConfirm a b <|>
  addSubConst a b <|>
  binopMux C (· + ·) a b <|>
  addSame C a b <|>
  addMinus a b <|>
  addNot a b <|>
  addOr a b <|>
  addMul C a b <|>
  (if disjoint C a b then transformOr_ C .add a b else none) <|>
  (if (eorAdd C (.add a b)).isSome then transformEor_ C .add a b else none)

/-! ## Sub -/

/-- `-1 - x -> ~x` and `0x7F...F - x -> x ^ 0x7F...F`, iropt.c:3319-3339 -/
def subOnes (a b : Expr m) : Option (Expr m) := do
  let ta ← asConst a
  let expected := BitVec.allOnes m.bits >>> 1
  if ta = BitVec.allOnes m.bits then some (.not b)
  else if ta &&& expected = expected then some (.eor b a)
  else none

/-- `a - C -> a + (-C)`, iropt.c:3350-3361 -/
def subConst (a b : Expr m) : Option (Expr m) := do
  let c ← asConst b
  some (.add a (.const (-c)))

/-- `C1 - (x + C2) = (C1 - C2) - x`, iropt.c:3363-3382 -/
def subAddConst (a b : Expr m) : Option (Expr m) := do
  let ta ← asConst a
  let (x, y) ← asAdd b
  let tr ← asConst y
  some (.sub (.const (ta - tr)) x)

/-- `(-a) - b -> -(a + b)`, `a - (-b) -> a + b` and `a - (b - c) -> a + (c - b)`, iropt.c:3383-3431 -/
def subMinus (C : Ctx) (a b : Expr m) : Option (Expr m) :=
  (do
    let x ← asMinus a
    if C.one a then some (.minus (.add x b)) else none) <|>
  (do let y ← asMinus b; some (.add a y)) <|>
  (do let (y, z) ← asSub b; some (.add a (.sub z y)))

/-- `0 - b -> -b`, iropt.c:3433-3438 -/
def subZero (a b : Expr m) : Option (Expr m) := if isNull a then some (.minus b) else none

/-- `(x + y) - x -> y` and `(x + y) - y -> x`, iropt.c:3439-3459 -/
def subAddL (C : Ctx) (a b : Expr m) : Option (Expr m) := do
  let (l, r) ← addLike C a
  if l = b then some r else if r = b then some l else none

/-- `x - (x + y) -> -y` and `y - (x + y) -> -x`, iropt.c:3460-3480 -/
def subAddR (C : Ctx) (a b : Expr m) : Option (Expr m) := do
  let (l, r) ← addLike C b
  if l = a then some (.minus r) else if r = a then some (.minus l) else none

/-- `(x * y) - x -> x * (y - 1)`, iropt.c:3506-3520 -/
def subMul (a b : Expr m) : Option (Expr m) := do
  let (l, r) ← asMul a
  let y ← otherOp l r b
  some (.mul b (.sub y (.const 1#m.bits)))

/-- `(x - y) - b -> x - (y + b)`, iropt.c:3521-3530 -/
def subSub (a b : Expr m) : Option (Expr m) := do
  let (x, y) ← asSub a
  some (.sub x (.add y b))

/-- `c - ~X = X + (c+1)` and `C - (x | C) => -(x & ~C)`, iropt.c:3533-3561 -/
def subFromConst (a b : Expr m) : Option (Expr m) :=
  (do
    let c ← asConst a
    let x ← asNot b
    some (.add x (.const (c + 1#m.bits)))) <|>
  (do
    let c ← asConst a
    let (l, r) ← asOr b
    let o ← otherOp l r a
    some (.minus (.and o (.const (~~~c)))))

/-- `~x - y = ~(x + y)`, iropt.c:3562-3569 -/
def subNot (a b : Expr m) : Option (Expr m) := do
  let x ← asNot a
  some (.not (.add x b))

/-- `(x & 0x7F...F) - x -> x & 0x80...0`, iropt.c:3570-3586 -/
def subAndMax (a b : Expr m) : Option (Expr m) := do
  let (l, r) ← asAnd a
  let tv ← asConst r
  if l = b && tv = BitVec.allOnes m.bits >>> 1 then some (.and b (.const (~~~tv))) else none

/-- `a - (a & y) = a & ~y`, iropt.c:3587-3597 -/
def subAnd (a b : Expr m) : Option (Expr m) := do
  let (l, r) ← asAnd b
  let y ← otherOp l r a
  some (.and a (.not y))

/-- `transform_node_Sub`, iropt.c:3300-3618 -/
def transformSub (C : Ctx) (a b : Expr m) : Option (Expr m) :=
  subOnes a b <|>
  binopMux C (· - ·) a b <|>
  subConst a b <|>
  subAddConst a b <|>
  subMinus C a b <|>
  subZero a b <|>
  subAddL C a b <|>
  subAddR C a b <|>
  subMul a b <|>
  subSub a b <|>
  subFromConst a b <|>
  subNot a b <|>
  subAndMax a b <|>
  subAnd a b

/-! ## Minus -/

/-- `can_negate_cheaply`, iropt.c:3624-3701 -/
def negateCheaply (e : Expr m) : Option (Expr m) :=
  match e with
  | .const c => some (.const (-c))
  | .minus x => some x
  | .sub x y => some (.sub y x)
  | .mul x (.const c) => some (.mul x (.const (-c)))
  | .add x (.const c) => some (.sub (.const (-c)) x)
  | .not x => some (.add x (.const 1#m.bits))
  | .shr x s => if isSizeMinus1 s m then some (.shrs x s) else none
  | .shrs x s => if isSizeMinus1 s m then some (.shr x s) else none
  | _ => none

/-- `-((a - b) + c) -> (b - a) - c`, iropt.c:4700-4715 -/
def minusAdd (C : Ctx) (e : Expr m) : Option (Expr m) := do
  let (l, r) ← asAdd e
  if C.one e then
    match negateCheaply l with
    | some nl => some (.sub nl r)
    | none =>
      match negateCheaply r with
      | some nr => some (.sub nr l)
      | none => none
  else none

/-- `-(a & (-a)) -> a | (-a)`, iropt.c:4716-4729 -/
def minusAnd (C : Ctx) (e : Expr m) : Option (Expr m) := do
  let (l, r) ← asAnd e
  if C.one e && (asMinus r = some l || asMinus l = some r) then some (.or l r) else none

/-- `-(a | (-a)) -> a & (-a)`, iropt.c:4730-4743 -/
def minusOr (C : Ctx) (e : Expr m) : Option (Expr m) := do
  let (l, r) ← asOr e
  if C.one e && (asMinus r = some l || asMinus l = some r) then some (.and l r) else none

/-- `-((a - b) * c) -> (b - a) * c`, iropt.c:4745-4760 -/
def minusMul (C : Ctx) (e : Expr m) : Option (Expr m) := do
  let (l, r) ← asMul e
  if C.one e then
    match negateCheaply l with
    | some nl => some (.mul nl r)
    | none =>
      match negateCheaply r with
      | some nr => some (.mul l nr)
      | none => none
  else none

/-- `-((a - b) << c) -> (b - a) << c`, iropt.c:4762-4774 -/
def minusShl (C : Ctx) (e : Expr m) : Option (Expr m) := do
  let ⟨_, l, r⟩ ← asShl e
  let nl ← negateCheaply l
  if C.one e then some (.shl nl r) else none

/-- `transform_node_Minus`, iropt.c:4687-4777 -/
def transformMinus (C : Ctx) (a : Expr m) : Option (Expr m) :=
  unopMux C (fun v => -v) a <|>
  negateCheaply a <|>
  minusAdd C a <|>
  minusAnd C a <|>
  minusOr C a <|>
  minusMul C a <|>
  minusShl C a

/-! ## Mul -/

/-- `is_zero_or_all_one`, iropt.c:3703-3711 -/
def isZeroOrAllOne (e : Expr m) : Bool :=
  match asShrs e with
  | some ⟨_, _, s⟩ => isSizeMinus1 s m
  | none => false

/-- `(x+C1) * C2 => x*C2 + (C1*C2)`, iropt.c:3733-3750 -/
def mulAddConst (C : Ctx) (a b : Expr m) : Option (Expr m) := do
  let c1 ← asConst b
  let (x, y) ← asAdd a
  let c2 ← asConst y
  if C.one a then some (.add (.mul x b) (.const (c1 * c2))) else none

/-- `x*-1 => -x`, and a power of two as a left shift, iropt.c:3752-3764 -/
def mulByConst (C : Ctx) (a b : Expr m) : Option (Expr m) := do
  let c1 ← asConst b
  if c1 = BitVec.allOnes m.bits then some (.minus a)
  else if popcount c1 = 1 then shlShr C (.mul a b)
  else none

/-- only the lowest bit may be set, iropt.c:3773 and 3776 -/
def isBit (C : Ctx) (e : Expr m) : Bool :=
  match C.bi e with
  | some b => b.z = 1#m.bits
  | none => false

/-- `a * (b & 1) -> a & -(b & 1)`, iropt.c:3768-3786 -/
def mulBit (C : Ctx) (a b : Expr m) : Option (Expr m) :=
  if isBit C a then some (.and b (.minus a))
  else if isBit C b then some (.and a (.minus b))
  else none

/-- `a * b [-1 <= b <= 0] -> -(a & b)`, iropt.c:3788-3794 -/
def mulMask (a b : Expr m) : Option (Expr m) :=
  if isZeroOrAllOne a || isZeroOrAllOne b then some (.minus (.and a b)) else none

/-- `-x * y => x * (-y)` if `-y` can be computed cheaply, and the same for the other operand, iropt.c:3797-3816 -/
def mulMinus (a b : Expr m) : Option (Expr m) :=
  (do
    let x ← asMinus a
    let nb ← negateCheaply b
    some (.mul x nb)) <|>
  (do
    let y ← asMinus b
    let na ← negateCheaply a
    some (.mul na y))

/-- `(1 << x) * b -> b << x`, iropt.c:3817-3837 -/
def mulShl (a b : Expr m) : Option (Expr m) :=
  match asShl a with
  | some ⟨_, l, s⟩ => if isOne l then some (.shl b s) else none
  | none =>
    match asShl b with
    | some ⟨_, l, s⟩ => if isOne l then some (.shl a s) else none
    | none => none

/-- the second operand is a division by the first, iropt.c:3875-3900 -/
def mulDivR (C : Ctx) (a b : Expr m) : Option (Expr m) := do
  let (x, y) ← asDiv b
  if y = a && C.one b then some (.sub x (.mod x y)) else none

/-- `(a/b)*b == a-(a%b)`, iropt.c:3861-3903 -/
def mulDiv (C : Ctx) (a b : Expr m) : Option (Expr m) :=
  match asDiv a with
  | some (x, y) => if y = b then (if C.one a then some (.sub x (.mod x y)) else none) else mulDivR C a b
  | none => mulDivR C a b

/-- `transform_node_Mul`, iropt.c:3715-3906 -/
def transformMul (C : Ctx) (a b : Expr m) : Option (Expr m) :=
  foldAssoc .mul (· * ·) a b <|>
  binopMux C (· * ·) a b <|>
  mulAddConst C a b <|>
  mulByConst C a b <|>
  mulBit C a b <|>
  mulMask a b <|>
  mulMinus a b <|>
  mulShl a b <|>
  mulDiv C a b

/-! ## Div and Mod -/

/-- `transform_node_Div`, iropt.c:3911-4011 -/
def transformDiv (C : Ctx) (a b : Expr m) : Option (Expr m) :=
  (do let c ← cvDiv C a b; some (.const c)) <|>
  (if m.signed && isAllOne b then some (.minus a) else none)

/-- `(a % c1) % c2 -> a % c2`, iropt.c:4059-4076 -/
def modMod (C : Ctx) (a b : Expr m) : Option (Expr m) := do
  let tv ← asConst b
  let (x, y) ← asMod a
  let c1 ← asConst y
  if C.one a && tv ≠ 0#m.bits && modBV m c1 tv = 0#m.bits then some (.mod x b) else none

/-- a quotient known from the known bits, iropt.c:4078-4098; the quotient by zero is not a constant -/
def modBits (C : Ctx) (a b : Expr m) : Option (Expr m) := do
  let tv ← asConst b
  let ba ← C.bi a
  if tv ≠ 0#m.bits && divBV m ba.z tv = divBV m ba.o tv && (ba.z ^^^ ba.o) &&& minOf m = 0#m.bits then
    some (.sub a (.const (divBV m ba.z tv * tv)))
  else none

/-- `transform_node_Mod`, iropt.c:4016-4127 -/
def transformMod (C : Ctx) (a b : Expr m) : Option (Expr m) :=
  (do let c ← cvMod C a b; some (.const c)) <|>
  modMod C a b <|>
  modBits C a b

end Verif.Model.IrOpt
