import Verif.Model.IrOptValue
/-!
# Local optimisations: bitwise operations

Model of the `transform_node_*` functions of `ir/opt/iropt.c` for And, Or, Eor and Not.  Every rule
`if (...) return ...;` is a function that returns `none` when it does not apply; a `transform_node` function tries
its rules in the order of the code.  Rules that only involve Phi nodes, reference modes or floating point modes are
left out.
-/
namespace Verif.Model.IrOpt
open Verif.Spec

variable {m k : IMode}

/-- the operation of the node that is transformed -/
inductive Root
  | and | or | eor | add | mul
  deriving DecidableEq, Repr

/-- `new_binop`, iropt.c:2333-2342: a node with the same operation -/
def Root.mk : Root → Expr m → Expr m → Expr m
  | .and, a, b => .and a b
  | .or, a, b => .or a b
  | .eor, a, b => .eor a b
  | .add, a, b => .add a b
  | .mul, a, b => .mul a b

/-- the operands, if the node has this operation -/
def Root.view : Root → Expr m → Option (Expr m × Expr m)
  | .and, e => asAnd e
  | .or, e => asOr e
  | .eor, e => asEor e
  | .add, e => asAdd e
  | .mul, e => asMul e

/-- a rule for nodes of mode `mode_b` -/
def onBool2 (f : Expr bmode → Expr bmode → Option (Expr bmode)) (a b : Expr m) : Option (Expr m) :=
  if h : m = bmode then by subst h; exact f a b else none

/-- a rule for nodes of mode `mode_b` -/
def onBool (f : Expr bmode → Option (Expr bmode)) (a : Expr m) : Option (Expr m) :=
  if h : m = bmode then by subst h; exact f a else none

/-! ## functions used by several transformations -/

/-- `is_const_Mux` (iropt.c:1796-1800) with the selector and the two constants -/
def asConstMux (e : Expr m) : Option (Expr bmode × BitVec m.bits × BitVec m.bits) := do
  let (s, f, t) ← asMux e
  let cf ← asConst f
  let ct ← asConst t
  some (s, cf, ct)

/-- `HANDLE_BINOP_CHOICE` (iropt.c:2096-2124) with `apply_binop_on_mux` (1960-1986) and `apply_binop_on_2_muxs`
(1997-2030), for Mux nodes -/
def binopMux (C : Ctx) (op : BitVec m.bits → BitVec m.bits → BitVec m.bits) (a b : Expr m) : Option (Expr m) :=
  (do
    let c ← asConst b
    let (s, f, t) ← asConstMux a
    if C.one a then some (.mux s (.const (op f c)) (.const (op t c))) else none) <|>
  (do
    let c ← asConst a
    let (s, f, t) ← asConstMux b
    if C.one b then some (.mux s (.const (op c f)) (.const (op c t))) else none) <|>
  (do
    let (s, f, t) ← asConstMux a
    let (s', f', t') ← asConstMux b
    if C.one a && C.one b && s = s' then some (.mux s (.const (op f f')) (.const (op t t'))) else none)

/-- `HANDLE_UNOP_CHOICE` (iropt.c:2124-2138) with `apply_unop_on_mux` (2040-2060), for Mux nodes -/
def unopMux (C : Ctx) (op : BitVec m.bits → BitVec m.bits) (a : Expr m) : Option (Expr m) := do
  let (s, f, t) ← asConstMux a
  if C.one a then some (.mux s (.const (op f)) (.const (op t))) else none

/-- `fold_constant_associativity`, iropt.c:2522-2550 -/
def foldAssoc (root : Root) (fold : BitVec m.bits → BitVec m.bits → BitVec m.bits) (a b : Expr m) : Option (Expr m) := do
  let c1 ← asConst b
  let (x, y) ← root.view a
  let c0 ← asConst y
  some (root.mk x (.const (fold c0 c1)))

/-- the variables of the loop of `transform_bitop_chain`; the nodes `top_and`, `top_not` and `top_or` are reused
only for nodes that would be created with the same operation and operands -/
structure Chain (m : IMode) where
  cur : Expr m
  keep : BitVec m.bits
  flip : BitVec m.bits
  topEor : Option (Expr m)

/-- the loop of `transform_bitop_chain`, iropt.c:2232-2281 -/
def chainWalk (C : Ctx) : {m : IMode} → Expr m → BitVec m.bits → BitVec m.bits → Option (Expr m) → Chain m
  | _, .not x, keep, flip, top => chainWalk C x keep (flip ^^^ keep) top
  | _, .and x (.const c), keep, flip, top => chainWalk C x (keep &&& c) flip top
  | _, .add x (.const c), keep, flip, top =>
    if (eorAdd C (.add x (.const c))).isSome then
      chainWalk C x keep (flip ^^^ (keep &&& c)) (some (.add x (.const c)))
    else ⟨.add x (.const c), keep, flip, top⟩
  | _, .eor x (.const c), keep, flip, _ => chainWalk C x keep (flip ^^^ (keep &&& c)) (some (.eor x (.const c)))
  | _, .or x (.const c), keep, flip, top => chainWalk C x (BitInfo.andnot keep c) (flip ^^^ (keep &&& c)) top
  | _, e, keep, flip, top => ⟨e, keep, flip, top⟩

/-- is the node an Eor (or Add) of these operands (`is_binop_const`, iropt.c:2200-2206)? -/
def isEorAddOf (top : Option (Expr m)) (res : Expr m) (flip : BitVec m.bits) : Option (Expr m) := do
  let t ← top
  let (l, r) ← asEorAdd t
  if l = res && r = .const flip then some t else none

/-- iropt.c:2311-2328, from the label `flip` -/
def chainFlip (top : Option (Expr m)) (res : Expr m) (flip : BitVec m.bits) : Expr m :=
  if flip = BitVec.allOnes m.bits then .not res
  else if flip ≠ 0#m.bits then
    match isEorAddOf top res flip with
    | some t => t
    | none => .eor res (.const flip)
  else res

/-- iropt.c:2284-2330 -/
def chainFinish (c : Chain m) : Expr m :=
  if c.keep ≠ BitVec.allOnes m.bits then
    if c.keep ^^^ c.flip = BitVec.allOnes m.bits then .or c.cur (.const c.flip)
    else if c.keep = c.flip then chainFlip c.topEor (.and (.not c.cur) (.const c.keep)) 0#m.bits
    else chainFlip c.topEor (.and c.cur (.const c.keep)) c.flip
  else chainFlip c.topEor c.cur c.flip

/-- `transform_bitop_chain`, iropt.c:2215-2331; `none` when the result is the node itself -/
def bitopChain (C : Ctx) (n : Expr m) : Option (Expr m) :=
  let r := chainFinish (chainWalk C n (BitVec.allOnes m.bits) 0#m.bits none)
  if r = n then none else some r

/-- the two operands with a common operand `c`, iropt.c:2389-2412 -/
def commonOp (al ar bl br : Expr m) : Option (Expr m × Expr m × Expr m) :=
  if ar = br then some (ar, al, bl)
  else if al = bl then some (al, ar, br)
  else if al = br then some (al, ar, bl)
  else if ar = bl then some (ar, al, br)
  else none

/-- `transform_bitwise_distributive` for two Convs, iropt.c:2363-2377 -/
def distConv (root : Root) (a b : Expr m) : Option (Expr m) := do
  let ⟨ka, x⟩ ← asConv a
  let ⟨kb, y⟩ ← asConv b
  if h : kb = ka then (if isInt ka then some (.conv m (root.mk x (h ▸ y))) else none) else none

/-- `transform_bitwise_distributive` for two Shls, iropt.c:2382-2429 -/
def distShl (root : Root) (a b : Expr m) : Option (Expr m) := do
  let ⟨_, x, c⟩ ← asShl a
  let ⟨_, y, c'⟩ ← asShl b
  if sameNode c c' then some (.shl (root.mk x y) c) else none

/-- `transform_bitwise_distributive` for two Shrs, iropt.c:2382-2429 -/
def distShr (root : Root) (a b : Expr m) : Option (Expr m) := do
  let ⟨_, x, c⟩ ← asShr a
  let ⟨_, y, c'⟩ ← asShr b
  if sameNode c c' then some (.shr (root.mk x y) c) else none

/-- `transform_bitwise_distributive` for two Shrss, iropt.c:2382-2429 -/
def distShrs (root : Root) (a b : Expr m) : Option (Expr m) := do
  let ⟨_, x, c⟩ ← asShrs a
  let ⟨_, y, c'⟩ ← asShrs b
  if sameNode c c' then some (.shrs (root.mk x y) c) else none

/-- `transform_bitwise_distributive` for two Ands, iropt.c:2382-2429 -/
def distAnd (root : Root) (a b : Expr m) : Option (Expr m) := do
  let (al, ar) ← asAnd a
  let (bl, br) ← asAnd b
  let (c, x, y) ← commonOp al ar bl br
  some (.and (root.mk x y) c)

/-- `transform_bitwise_distributive` for two Ors, iropt.c:2382-2429 -/
def distOr (root : Root) (a b : Expr m) : Option (Expr m) := do
  let (al, ar) ← asOr a
  let (bl, br) ← asOr b
  let (c, x, y) ← commonOp al ar bl br
  if root = .eor then some (.and (.eor x y) (.not c)) else some (.or (root.mk x y) c)

/-- the right shifts and the bitwise operations among the cases of `transform_bitwise_distributive` -/
def distCarry (root : Root) (a b : Expr m) : Option (Expr m) :=
  distShr root a b <|> distShrs root a b <|> distAnd root a b <|> distOr root a b

/-- `transform_bitwise_distributive`, iropt.c:2349-2433 -/
def distributive (C : Ctx) (root : Root) (a b : Expr m) : Option (Expr m) :=
  if C.one a || C.one b then distConv root a b <|> distShl root a b <|> distCarry root a b else none

/-- the bitwise operation that `transform_node_bitop_shift` builds, iropt.c:2497-2504 -/
def bitopOf (C : Ctx) (root : Root) (a b x y : Expr m) : Expr m :=
  match root with
  | .and => .and x y
  | .or => .or x y
  | _ => if disjoint C a b then .or x y else .eor x y

/-- `transform_node_bitop_shift`, iropt.c:2445-2515, of a Shl -/
def bitopShl (C : Ctx) (root : Root) (a b : Expr m) : Option (Expr m) := do
  let c2 ← asConst b
  let ⟨_, x, s⟩ ← asShl a
  let c1 ← asConst s
  let n ← countOf c1
  let t := c2 >>> m.amt n
  if root = .and || t <<< m.amt n = c2 then some (.shl (bitopOf C root a b x (.const t)) s) else none

/-- `transform_node_bitop_shift`, iropt.c:2445-2515, of a Shr -/
def bitopShr (C : Ctx) (root : Root) (a b : Expr m) : Option (Expr m) := do
  let c2 ← asConst b
  let ⟨_, x, s⟩ ← asShr a
  let c1 ← asConst s
  let n ← countOf c1
  if root = .and then some (.shr (bitopOf C root a b x (.const (c2 <<< m.amt n))) s) else none

/-- `transform_node_bitop_shift`, iropt.c:2445-2515 -/
def bitopShift (C : Ctx) (root : Root) (a b : Expr m) : Option (Expr m) :=
  if C.norm2 then bitopShl C root a b <|> bitopShr C root a b else none

/-- combine two comparisons with the same operands, iropt.c:2615-2623, 2749-2758 and 4346-4352; the condition is the
one of the code, which compares the operands of the second comparison with each other -/
def cmpsSame (op : Rel → Rel → Rel) (a b : Expr bmode) : Option (Expr bmode) := do
  let ⟨_, ra, al, ar⟩ ← asCmp a
  let ⟨_, rb, bl, br⟩ ← asCmp b
  if sameNode al bl && bl = br then some (.cmp (op ra rb) al ar) else none

/-- combine `a != b` with `c != d` (`rel` is `!=`) or `a == b` with `c == d` (`rel` is `==`), iropt.c:2625-2674 and
4358-4403 -/
def cmpsEor (C : Ctx) (rel : Rel) (a b : Expr bmode) : Option (Expr bmode) := do
  let ⟨ka, ra, al, ar⟩ ← asCmp a
  let ⟨kb, rb, bl, br⟩ ← asCmp b
  if isRelation rel ra (possibleRel C al ar) && isRelation rel rb (possibleRel C bl br) then
    if valuesIn ka kb then some (.cmp rel (.or (.conv kb (.eor al ar)) (.eor bl br)) (.const 0#kb.bits))
    else if valuesIn kb ka then some (.cmp rel (.or (.eor al ar) (.conv ka (.eor bl br))) (.const 0#ka.bits))
    else none
  else none

/-- the mask for the rightmost bit that may be set and the zeros after it, iropt.c:2580-2590 and 4485-4495 -/
def minusMask (C : Ctx) (a : Expr m) : BitVec m.bits :=
  match C.bi a with
  | some b => b.z ^^^ (b.z - 1#m.bits)
  | none => 1#m.bits

/-- an arithmetic shift of which only bits below `highest_bit` matter, iropt.c:2678-2693 and 4507-4524 -/
def shrsToShr (C : Ctx) (a : Expr m) (relevant : BitVec m.bits) : Option (Expr m) := do
  let ⟨k, x, s⟩ ← asShrs a
  let c ← asConst s
  if C.one a && highestBit relevant + k.num c < (m.bits : Int) then some (.shr x s) else none

/-! ## Or -/

/-- `~a | ~b = ~(a & b)`, iropt.c:2565-2575 -/
def orNots (C : Ctx) (a b : Expr m) : Option (Expr m) := do
  let x ← asNot a
  let y ← asNot b
  if C.one a || C.one b then some (.not (.and x y)) else none

/-- `-x | 11111000 => x | 11111000`, iropt.c:2577-2600 -/
def orMinus (C : Ctx) (a b : Expr m) : Option (Expr m) := do
  let x ← asMinus a
  let c ← asConst b
  if isInt m && c ||| minusMask C a = BitVec.allOnes m.bits then some (.or x b) else none

/-- `(x ^ y) | y => x | y`, iropt.c:2602-2610 -/
def orEorL (C : Ctx) (a b : Expr m) : Option (Expr m) := do
  let (l, r) ← eorLike C a
  let o ← otherOp l r b
  some (.or o b)

/-- `x | (x ^ y) => x | y`, iropt.c:2611-2619 -/
def orEorR (C : Ctx) (a b : Expr m) : Option (Expr m) := do
  let (l, r) ← eorLike C b
  let o ← otherOp l r a
  some (.or a o)

/-- `(x >>s 16) | 0xFFFF0000 => (x >> 16) | 0xFFFF0000`, iropt.c:2678-2697 -/
def orShrs (C : Ctx) (a b : Expr m) : Option (Expr m) := do
  let c ← asConst b
  let s ← shrsToShr C a (~~~c)
  some (.or s b)

/-- `transform_node_Or_`, iropt.c:2555-2719; `root` is the operation of the node, an Or or an Add -/
def transformOr_ (C : Ctx) (root : Root) (a b : Expr m) : Option (Expr m) :=
  foldAssoc root (· ||| ·) a b <|>
  orNots C a b <|>
  orMinus C a b <|>
  orEorL C a b <|>
  orEorR C a b <|>
  onBool2 (cmpsSame (· ||| ·)) a b <|>
  onBool2 (cmpsEor C Rel.lessGreater) a b <|>
  orShrs C a b <|>
  binopMux C (· ||| ·) a b <|>
  bitopChain C (root.mk a b) <|>
  distributive C root a b <|>
  bitopShift C root a b

/-- `transform_node_Or`, iropt.c:2721-2731 -/
def transformOr (C : Ctx) (a b : Expr m) : Option (Expr m) :=
  if disjoint C a b then some (.add a b) else transformOr_ C .or a b

/-! ## Eor -/

/-- `~a ^ b => a ^ ~b`, iropt.c:2763-2784 -/
def eorNots (C : Ctx) (a b : Expr m) : Option (Expr m) :=
  (do
    let x ← asNot a
    if C.one a && C.normal x b then some (.eor x (.not b)) else none) <|>
  (do
    let y ← asNot b
    if C.one b && !C.normal a y then some (.eor (.not a) y) else none)

/-- `x ^ 1...1 => ~x`, iropt.c:2787-2794 -/
def eorAllOne (a b : Expr m) : Option (Expr m) := if isAllOne b then some (.not a) else none

/-- `(x + c) ^ 0x7F...F => (0x7F...F - c) - x`, iropt.c:2796-2815 -/
def eorMaxAdd (a b : Expr m) : Option (Expr m) := do
  let tb ← asConst b
  let (x, y) ← asAdd a
  let c ← asConst y
  if isInt m && tb = BitVec.allOnes m.bits >>> 1 then some (.sub (.const (tb - c)) x) else none

/-- `(c - x) ^ 0x7F...F => x + (0x7F...F - c)`, iropt.c:2816-2828 -/
def eorMaxSub (a b : Expr m) : Option (Expr m) := do
  let tb ← asConst b
  let (x, y) ← asSub a
  let c ← asConst x
  if isInt m && tb = BitVec.allOnes m.bits >>> 1 then some (.add y (.const (tb - c))) else none

/-- `-x ^ ?1...1 => x + ?1...1`, iropt.c:2830-2840 -/
def eorMinus (a b : Expr m) : Option (Expr m) := do
  let tb ← asConst b
  let x ← asMinus a
  if isInt m && (popcount (tb <<< 1) : Int) = (m.bits : Int) - 1 then some (.add x b) else none

/-- `(x & y) ^ y => ~x & y` and `x ^ (x & y) => x & ~y`, iropt.c:2844-2863 -/
def eorAnd (C : Ctx) (a b : Expr m) : Option (Expr m) :=
  (do
    let (l, r) ← asAnd a
    let o ← otherOp l r b
    if C.one a then some (.and (.not o) b) else none) <|>
  (do
    let (l, r) ← asAnd b
    let o ← otherOp l r a
    if C.one b then some (.and a (.not o)) else none)

/-- `(x | y) ^ y => x & ~y` and `x ^ (x | y) => ~x & y`, iropt.c:2865-2884 -/
def eorOr (C : Ctx) (a b : Expr m) : Option (Expr m) :=
  (do
    let (l, r) ← asOr a
    let o ← otherOp l r b
    if C.one a then some (.and o (.not b)) else none) <|>
  (do
    let (l, r) ← asOr b
    let o ← otherOp l r a
    if C.one b then some (.and (.not a) o) else none)

/-- `(x | y) ^ (x & y) => x ^ y`, iropt.c:2887-2914 -/
def eorOrAnd (C : Ctx) (a b : Expr m) : Option (Expr m) :=
  (do
    let (al, ar) ← asOr a
    let (bl, br) ← asAnd b
    if C.one a && C.one b && ((al = bl && ar = br) || (al = br && ar = bl)) then some (.eor al ar) else none) <|>
  (do
    let (al, ar) ← asAnd a
    let (bl, br) ← asOr b
    if C.one a && C.one b && ((al = bl && ar = br) || (al = br && ar = bl)) then some (.eor al ar) else none)

/-- skip a Not with one user; was there one (iropt.c:2917-2928)? -/
def skipNot (C : Ctx) (a : Expr m) : Expr m × Bool :=
  match asNot a with
  | some x => if C.one a then (x, true) else (a, false)
  | none => (a, false)

/-- iropt.c:2934-2938 and 2967-2971: swap the operands when the right one matches -/
def matchSwap (t l r : Expr m) : Expr m × Expr m :=
  if t = r || asNot r = some t then (r, l) else (l, r)

/-- does `l` match, and does it by a Not (iropt.c:2940-2945 and 2973-2978)? -/
def matchNot (t l : Expr m) : Option Bool :=
  if asNot l = some t then some true else if t = l then some false else none

/-- negate if the number of Nots is odd, iropt.c:2957-2959 -/
def notIf (b : Bool) (e : Expr m) : Expr m := if b then .not e else e

/-- Eor elimination with `t` and the And or Or `o`, iropt.c:2930-2961 and 2963-2994;
`nots`: the number of Nots skipped is odd -/
def eorElim (C : Ctx) (t o : Expr m) (nots : Bool) : Option (Expr m) :=
  (do
    let (l, r) ← asAnd o
    let s := matchSwap t l r
    let n ← matchNot t s.1
    if C.one o then some (notIf (nots ^^ n) (.and s.1 (.not s.2))) else none) <|>
  (do
    let (l, r) ← asOr o
    let s := matchSwap t l r
    let n ← matchNot t s.1
    if C.one o then some (notIf (nots ^^ n) (.and (.not s.1) s.2)) else none)

/-- `ta` is replaced by a Not (iropt.c:2940-2943), which is neither an And nor an Or -/
def elimNegates (t o : Expr m) : Bool :=
  match asAnd o <|> asOr o with
  | some (l, r) => matchNot t (matchSwap t l r).1 = some true
  | none => false

/-- Eor elimination, iropt.c:2916-2994 -/
def eorElims (C : Ctx) (a b : Expr m) : Option (Expr m) :=
  let ta := skipNot C a
  let tb := skipNot C b
  eorElim C ta.1 tb.1 (ta.2 ^^ tb.2) <|>
  (if elimNegates ta.1 tb.1 then none else eorElim C tb.1 ta.1 (ta.2 ^^ tb.2))

/-- `transform_node_Eor_`, iropt.c:2736-3004; `root` is the operation of the node, an Eor or an Add -/
def transformEor_ (C : Ctx) (root : Root) (a b : Expr m) : Option (Expr m) :=
  foldAssoc root (· ^^^ ·) a b <|>
  onBool2 (cmpsSame (· ^^^ ·)) a b <|>
  binopMux C (· ^^^ ·) a b <|>
  eorNots C a b <|>
  eorAllOne a b <|>
  eorMaxAdd a b <|>
  eorMaxSub a b <|>
  eorMinus a b <|>
  eorAnd C a b <|>
  eorOr C a b <|>
  eorOrAnd C a b <|>
  eorElims C a b <|>
  bitopChain C (root.mk a b) <|>
  distributive C root a b <|>
  bitopShift C root a b

/-- `transform_node_Eor`, iropt.c:3006-3017 -/
def transformEor (C : Ctx) (a b : Expr m) : Option (Expr m) :=
  if (eorAdd C (.eor a b)).isSome then some (.add a b) else transformEor_ C .eor a b

/-! ## And -/

/-- `(a | b) & ~a => b & ~a` and `(a | b) & ~(a & b) => a ^ b`, iropt.c:4409-4436 and 4437-4465 -/
def andOr (C : Ctx) (a b : Expr m) : Option (Expr m) := do
  let (l, r) ← orLike C a
  if complementValues l b then some (.and r b)
  else if complementValues r b then some (.and l b)
  else do
    let x ← asNot b
    let (p, q) ← asAnd x
    if l = p && r = q then some (.eor p q) else none

/-- `(x ^ y) & x => ~y & x`, iropt.c:4466-4488; `x` is the other operand of the And -/
def andEor (C : Ctx) (e x : Expr m) : Option (Expr m) := do
  let (l, r) ← eorLike C e
  let y ← otherOp l r x
  if C.one e then some (.and (.not y) x) else none

/-- `~a & ~b = ~(a | b)`, iropt.c:4489-4499 -/
def andNots (C : Ctx) (a b : Expr m) : Option (Expr m) := do
  let x ← asNot a
  let y ← asNot b
  if C.one a || C.one b then some (.not (.or x y)) else none

/-- `-x & 00000111 => x & 00000111`, iropt.c:4501-4524 -/
def andMinus (C : Ctx) (a b : Expr m) : Option (Expr m) := do
  let x ← asMinus a
  let c ← asConst b
  if isInt m && c &&& minusMask C a = c then some (.and x b) else none

/-- `(x >>s 16) & 0xFFFF => (x >> 16) & 0xFFFF`, iropt.c:4526-4544 -/
def andShrs (C : Ctx) (a b : Expr m) : Option (Expr m) := do
  let c ← asConst b
  let s ← shrsToShr C a c
  some (.and s b)

/-- the end of `transform_node_And`, iropt.c:4549-4552 -/
def andDist (C : Ctx) (a b : Expr m) : Option (Expr m) :=
  match distributive C .and a b with
  | none => bitopShift C .and a b
  | some n =>
    (match asAnd n with
    | some (x, y) => bitopShift C .and x y
    | none => none) <|> some n

/-- `transform_node_And`, iropt.c:4323-4553 -/
def transformAnd (C : Ctx) (a b : Expr m) : Option (Expr m) :=
  foldAssoc .and (· &&& ·) a b <|>
  onBool2 (cmpsSame (· &&& ·)) a b <|>
  onBool2 (cmpsEor C Rel.equal) a b <|>
  binopMux C (· &&& ·) a b <|>
  andOr C a b <|>
  andOr C b a <|>
  andEor C a b <|>
  andEor C b a <|>
  andNots C a b <|>
  andMinus C a b <|>
  andShrs C a b <|>
  bitopChain C (.and a b) <|>
  andDist C a b

/-! ## Not -/

/-- a boolean Not of a Cmp, iropt.c:4566-4575 -/
def notCmp (a : Expr bmode) : Option (Expr bmode) := do
  let ⟨_, r, x, y⟩ ← asCmp a
  some (.cmp r.negated x y)

/-- De Morgan's laws, iropt.c:4579-4614 -/
def notDeMorgan (C : Ctx) (a : Expr m) : Option (Expr m) :=
  (do
    let (l, r) ← asAnd a
    let x ← asNot l
    if C.one a then some (.or x (.not r)) else none) <|>
  (do
    let (l, r) ← asOr a
    let x ← asNot l
    if C.one a then some (.and x (.not r)) else none) <|>
  (do
    let (l, r) ← asAnd a
    let x ← asNot r
    if C.one a then some (.or (.not l) x) else none) <|>
  (do
    let (l, r) ← asOr a
    let x ← asNot r
    if C.one a then some (.and (.not l) x) else none)

/-- `~(a ^ b) => a ^ ~b`, iropt.c:4616-4626 -/
def notEor (C : Ctx) (a : Expr m) : Option (Expr m) := do
  let (l, r) ← asEor a <|> orEorAdd C a
  if C.one a then some (.eor l (.not r)) else none

/-- `~-x => x + -1`, iropt.c:4629-4636 -/
def notMinus (a : Expr m) : Option (Expr m) := do
  let x ← asMinus a
  if isInt m then some (.add x (.const (BitVec.allOnes m.bits))) else none

/-- `~(x + C) => ~C - x`, iropt.c:4637-4654 -/
def notAdd (C : Ctx) (a : Expr m) : Option (Expr m) := do
  let (l, r) ← addLike C a
  let c ← asConst r
  if isInt m then some (.sub (.const (~~~c)) l) else none

/-- `~(C - x) => x + ~C`, iropt.c:4655-4672 -/
def notSub (a : Expr m) : Option (Expr m) := do
  let (l, r) ← asSub a
  let c ← asConst l
  if isInt m then some (.add r (.const (~~~c))) else none

/-- `transform_node_Not`, iropt.c:4558-4676 -/
def transformNot (C : Ctx) (a : Expr m) : Option (Expr m) :=
  unopMux C (~~~ ·) a <|>
  onBool notCmp a <|>
  notDeMorgan C a <|>
  notEor C a <|>
  notMinus a <|>
  notAdd C a <|>
  notSub a <|>
  bitopChain C (.not a)

end Verif.Model.IrOpt
