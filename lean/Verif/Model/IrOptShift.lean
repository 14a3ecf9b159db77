import Verif.Model.IrOptBits
/-!
# Local optimisations: shifts and conversions

Model of `transform_node_Shl`, `transform_node_Shr`, `transform_node_Shrs` and `transform_node_Conv` of
`ir/opt/iropt.c`, with the functions they share.  Rules that only involve Phi nodes, reference modes or floating
point modes are left out.  Constant shift counts are not negative (`Expr.Ok`).
-/
namespace Verif.Model.IrOpt
open Verif.Spec

variable {m k : IMode}

/-- the three shift operations -/
inductive Sh
  | shl | shr | shrs
  deriving DecidableEq, Repr

/-- `new_rd_Shl`, `new_rd_Shr`, `new_rd_Shrs` -/
def Sh.mk : Sh → Expr m → Expr k → Expr m
  | .shl, a, s => .shl a s
  | .shr, a, s => .shr a s
  | .shrs, a, s => .shrs a s

/-- the operands, if the node has this operation -/
def Sh.view : Sh → Expr m → Option ((k : IMode) × (Expr m × Expr k))
  | .shl, e => asShl e
  | .shr, e => asShr e
  | .shrs, e => asShrs e

/-- `tarval_shl`, `tarval_shr`, `tarval_shrs` (C08) with a count reduced by the modulo-shift -/
def Sh.op {w : Nat} : Sh → BitVec w → Nat → BitVec w
  | .shl, x, n => x <<< n
  | .shr, x, n => x >>> n
  | .shrs, x, n => x.sshiftRight n

/-- `HANDLE_BINOP_CHOICE` (iropt.c:2096-2124) for shifts and Mux nodes; a negative count has no value -/
def shiftMux (C : Ctx) (o : Sh) (a : Expr m) (s : Expr k) : Option (Expr m) :=
  (do
    let c ← asConst s
    let (p, f, t) ← asConstMux a
    let n ← countOf c
    if C.one a then some (.mux p (.const (o.op f (m.amt n))) (.const (o.op t (m.amt n)))) else none) <|>
  (do
    let x ← asConst a
    let (p, f, t) ← asConstMux s
    let nf ← countOf f
    let nt ← countOf t
    if C.one s then some (.mux p (.const (o.op x (m.amt nf))) (.const (o.op x (m.amt nt)))) else none) <|>
  (do
    let (p, f, t) ← asConstMux a
    let (p', f', t') ← asConstMux s
    let nf ← countOf f'
    let nt ← countOf t'
    if C.one a && C.one s && p = p' then some (.mux p (.const (o.op f (m.amt nf))) (.const (o.op t (m.amt nt)))) else none)

/-- a constant shift count reduced by the modulo-shift of `m`, iropt.c:5927-5938 -/
def maskCount (m : IMode) (c : BitVec k.bits) : BitVec k.bits :=
  if m.modulo > 0 then c &&& BitVec.ofNat k.bits (m.modulo - 1) else c

/-- `transform_node_shift`, iropt.c:5900-5967 -/
def shiftShift (o : Sh) (e : Expr m) : Option (Expr m) := do
  let ⟨k, a, s⟩ ← o.view e
  let ⟨k2, x, s2⟩ ← o.view a
  let c1 ← asConst s
  let c2 ← asConst s2
  if h : k2 = k then
    let r := maskCount m c1 + maskCount m (h ▸ c2)
    if k.num r < k.num (BitVec.ofNat k.bits m.bits) then some (o.mk x (.const r))
    else if o = .shrs then some (.shrs x (.const (BitVec.ofNat k.bits (m.bits - 1))))
    else some (.const 0#m.bits)
  else none

/-- `get_modulo_tv_value`, iropt.c:6057-6062 -/
def moduloCount (m : IMode) (c : BitVec k.bits) : BitVec k.bits := modBV k c (BitVec.ofNat k.bits m.modulo)

/-- the new count of `transform_node_shift_modulo`, iropt.c:6089-6123 -/
def moduloOp (C : Ctx) (m : IMode) (s : Expr k) : Option (Expr k) :=
  (do
    let c ← asConst s
    if moduloCount m c ≠ c then some (.const (moduloCount m c)) else none) <|>
  (do
    let (l, r) ← addLike C s
    let c ← asConst r
    if moduloCount m c ≠ c then some (.add l (.const (moduloCount m c))) else none) <|>
  (do
    let (l, r) ← asSub s
    let c ← asConst l
    if moduloCount m c ≠ c then some (.sub (.const (moduloCount m c)) r) else none)

/-- `transform_node_shift_modulo`, iropt.c:6073-6131 -/
def shiftModulo (C : Ctx) (o : Sh) (e : Expr m) : Option (Expr m) := do
  let ⟨_, a, s⟩ ← o.view e
  if m.modulo ≠ 0 && isInt m then do
    let s' ← moduloOp C m s
    some (o.mk a s')
  else none

/-- the end of `transform_node_shl_shr`, iropt.c:6021-6054: `shl` and `shr` are the counts, in the same mode;
`one`: the left operand has only one user -/
def shlShrEnd (x : Expr m) (shl shr : BitVec k.bits) (mask : BitVec m.bits) (needShrs one : Bool) : Option (Expr m) :=
  if shl ≠ shr && !one then none
  else if k.num shl ≤ k.num shr then
    some (.and (if needShrs then .shrs x (.const (shr - shl)) else .shr x (.const (shr - shl))) (.const mask))
  else some (.and (.shl x (.const (shl - shr))) (.const mask))

/-- `transform_node_shl_shr`, iropt.c:5976-6055, for a left shift of a Shr -/
def shlOfShr (C : Ctx) (e : Expr m) : Option (Expr m) := do
  let (a, ⟨_, cl⟩) ← shlConstLike e
  let ⟨k, x, s⟩ ← asShr a
  let cr ← asConst s
  shlShrEnd x (convTo k cl) cr (BitVec.allOnes m.bits >>> m.amt cr.toNat <<< m.amt cl.toNat) false (C.one a)

/-- `transform_node_shl_shr`, iropt.c:5976-6055, for a left shift of a Shrs; counts of different modes are not comparable -/
def shlOfShrs (C : Ctx) (e : Expr m) : Option (Expr m) := do
  let (a, ⟨kl, cl⟩) ← shlConstLike e
  let ⟨k, x, s⟩ ← asShrs a
  let cr ← asConst s
  if h : kl = k then
    if k.num cr ≤ k.num (h ▸ cl) then
      shlShrEnd x (convTo k cl) cr ((BitVec.allOnes m.bits).sshiftRight (m.amt cr.toNat) <<< m.amt cl.toNat) true (C.one a)
    else none
  else none

/-- `transform_node_shl_shr`, iropt.c:5976-6055, for a Shr of a left shift -/
def shrOfShl (C : Ctx) (e : Expr m) : Option (Expr m) := do
  let ⟨k, a, s⟩ ← asShr e
  let cr ← asConst s
  let (x, ⟨_, cl⟩) ← shlConstLike a
  shlShrEnd x (convTo k cl) cr (BitVec.allOnes m.bits <<< m.amt cl.toNat >>> m.amt cr.toNat) false (C.one a)

/-- `transform_node_shl_shr`, iropt.c:5976-6055 -/
def shlShr (C : Ctx) (e : Expr m) : Option (Expr m) := shlOfShr C e <|> shlOfShrs C e <|> shrOfShl C e

/-- `transform_node_shift_bitop`, iropt.c:4253-4318, for one bitwise operation -/
def shiftBitop1 (o : Sh) (r : Root) (e : Expr m) : Option (Expr m) := do
  let ⟨_, a, s⟩ ← o.view e
  let c2 ← asConst s
  let (x, y) ← r.view a
  let c1 ← asConst y
  some (r.mk (o.mk x s) (.const (o.op c1 (m.amt c2.toNat))))

/-- `transform_node_shift_bitop`, iropt.c:4253-4318 -/
def shiftBitop (C : Ctx) (o : Sh) (e : Expr m) : Option (Expr m) :=
  if C.norm2 then none
  else shiftBitop1 o .and e <|> (if o = .shrs then none else shiftBitop1 o .or e <|> shiftBitop1 o .eor e)

/-- the number of bits of a number, `32 - nlz(n)` -/
def bitLen (n : Nat) : Nat := if n = 0 then 0 else Nat.log2 n + 1

/-- `has_all_bits_set`, iropt.c:6133-6141 -/
def hasAllBits (C : Ctx) (e : Expr k) (mask : BitVec k.bits) : Bool :=
  match C.bi e with
  | some b => b.o &&& mask = mask
  | none => false

/-- `transform_node_shift_and`, iropt.c:6148-6181 -/
def shiftAnd (C : Ctx) (o : Sh) (e : Expr m) : Option (Expr m) := do
  let ⟨k, a, s⟩ ← o.view e
  let (l, r) ← asAnd s
  let mask := BitVec.allOnes k.bits >>> k.amt (k.bits - bitLen (m.modulo - 1))
  if m.modulo ≠ 0 then
    if hasAllBits C r mask then some (o.mk a l) else if hasAllBits C l mask then some (o.mk a r) else none
  else none

/-- `if (is_X(n)) n = f(n);` -/
def stepOn (o : Sh) (f : Expr m → Option (Expr m)) (e : Expr m) : Expr m := if (o.view e).isSome then (f e).getD e else e

/-- the last part of `transform_node_Shr` and `transform_node_Shl`, iropt.c:6205-6214 and 6297-6306 -/
def shiftTail (C : Ctx) (o : Sh) (e : Expr m) : Expr m :=
  stepOn o (shiftAnd C o) (stepOn o (shiftBitop C o) (stepOn o (shlShr C) (stepOn o (shiftModulo C o) (stepOn o (shiftShift o) e))))

/-- "the node has not changed" is `none` -/
def changed (old e : Expr m) : Option (Expr m) := if e = old then none else some e

/-- `(a >>s b) >>u (n - 1) -> a >>u (n - 1)`, iropt.c:6193-6201 -/
def shrShrs (a : Expr m) (s : Expr k) : Option (Expr m) := do
  let ⟨_, x, _⟩ ← asShrs a
  if isSizeMinus1 s m then some (.shr x s) else none

/-- `transform_node_Shr`, iropt.c:6186-6217 -/
def transformShr (C : Ctx) (a : Expr m) (s : Expr k) : Option (Expr m) :=
  shrShrs a s <|> shiftMux C .shr a s <|> changed (.shr a s) (shiftTail C .shr (.shr a s))

/-- an oversize arithmetic shift, iropt.c:6229-6237; the new count is taken from the size of the mode of the count -/
def shrsOversize (a : Expr m) (s : Expr k) : Option (Expr m) :=
  if oversizeShift m s then some (.shrs a (.const (m := k) (BitVec.ofNat k.bits (k.bits - 1)))) else none

/-- use Shr when the sign bit is guaranteed to be cleared, iropt.c:6254-6266 -/
def shrsToShr' (C : Ctx) (a : Expr m) (s : Expr k) : Option (Expr m) := do
  let b ← C.bi (.shrs a s)
  if isInt m && b.z.getLsbD (m.bits - 1) = false then some (.shr a s) else none

/-- `transform_node_Shrs`, iropt.c:6222-6269 -/
def transformShrs (C : Ctx) (a : Expr m) (s : Expr k) : Option (Expr m) :=
  shrsOversize a s <|>
  shiftMux C .shrs a s <|>
  shiftShift .shrs (.shrs a s) <|>
  shiftModulo C .shrs (.shrs a s) <|>
  shiftBitop C .shrs (.shrs a s) <|>
  shiftAnd C .shrs (.shrs a s) <|>
  shrsToShr' C a s

/-- `x << c -> x * (1 << c)`, iropt.c:6283-6294 -/
def shlToMul (C : Ctx) (a : Expr m) (s : Expr k) : Option (Expr m) := do
  let c ← asConst s
  if C.archDep then none else some (.mul a (.const (1#m.bits <<< m.amt c.toNat)))

/-- `transform_node_Shl`, iropt.c:6274-6309 -/
def transformShl (C : Ctx) (a : Expr m) (s : Expr k) : Option (Expr m) :=
  shlToMul C a s <|> shiftMux C .shl a s <|> changed (.shl a s) (shiftTail C .shl (.shl a s))

/-! ## conversions -/

/-- `may_leave_out_middle_conv`, iropt.c:6354-6374, for integer modes -/
def leaveOutMiddle (m0 m1 m2 : IMode) : Bool :=
  if m1.bits < m2.bits && m0.bits ≥ m1.bits then false
  else if m1.bits ≥ m2.bits then true
  else !m0.signed || m1.signed

/-- two conversions, iropt.c:6385-6394 -/
def convConv (m : IMode) (a : Expr k) : Option (Expr m) := do
  let ⟨b, x⟩ ← asConv a
  if leaveOutMiddle b k m then some (.conv m x) else none

/-- `apply_conv_on_mux`, iropt.c:2069-2089 -/
def convMux (C : Ctx) (m : IMode) (a : Expr k) : Option (Expr m) := do
  let (s, f, t) ← asConstMux a
  if C.one a then some (.mux s (.const (convTo m f)) (.const (convTo m t))) else none

/-- `transform_node_Conv`, iropt.c:6379-6408 -/
def transformConv (C : Ctx) (m : IMode) (a : Expr k) : Option (Expr m) := convConv m a <|> convMux C m a

end Verif.Model.IrOpt
