import Verif.Model.IrOptBase
import Verif.Model.Relation
import Verif.Spec.DoubleWord
/-!
# Lowering of double word operations

ir/lower/lower_dw.c.  Nodes whose mode has twice as many bits as a machine word are replaced by two nodes, one for the low and one for the
high word.  Simplifications: the two blocks that the lowering of a shift makes, and the Phi nodes that join them, are a Mux here
(the effect is the same, as the operations in the blocks have no side effects); new nodes are not optimised by the constructors; operations
that become calls of library functions (Mul, Div, Mod, conversions from and to floating point) have no result here.
-/
namespace Verif.Model.LowerDw
open Verif.Spec Verif.Model.IrOpt

/-- `lwrdw_param_t`: the sizes of `word_unsigned` and `word_signed`, and the modulo-shift of both modes; `doubleword_size` is twice the size
(assertions in ir/lower/lower_dw.c:2451-2456) -/
structure Params where
  word : Nat
  modulo : Nat

/-- `env.p.word_unsigned` -/
abbrev Params.wu (P : Params) : IMode := ⟨false, P.word, P.modulo⟩

/-- `get_high_mode`, ir/lower/lower_dw.c:155-158 -/
abbrev Params.high (P : Params) (m : IMode) : IMode := ⟨m.signed, P.word, P.modulo⟩

/-- `needs_lowering`, ir/lower/lower_dw.c:121-125 -/
def Params.needs (P : Params) (m : IMode) : Bool := isInt m && m.bits == 2 * P.word

/-- what a node became: the same node with other operands, or the entry `lower64_entry_t` with two nodes -/
inductive Lowered (P : Params) (m : IMode)
  | one (e : Expr m)
  | two (low : Expr P.wu) (high : Expr (P.high m))

/-- the numbers of the nodes that stand for the leaves -/
structure Names where
  keep : IMode → Nat → Nat
  low : IMode → Nat → Nat
  high : IMode → Nat → Nat

variable (P : Params)

/-- `lower_Const`, ir/lower/lower_dw.c:331-345 -/
def lowerConst {m : IMode} (v : BitVec m.bits) : Lowered P m :=
  .two (.const (v.setWidth P.word)) (.const ((v.sshiftRight (m.amt P.word)).setWidth P.word))

/-- `create_conv`, ir/lower/lower_dw.c:723-728 -/
def createConv {k : IMode} (m : IMode) (e : Expr k) : Expr m :=
  if h : k = m then h ▸ e else .conv m e

/-- the shift count in mode `word_unsigned`, ir/lower/lower_dw.c:837-845, 945-953; absent: an assertion fails -/
def countOf {k : IMode} : Lowered P k → Option (Expr P.wu)
  | .two l _ => if k.signed then none else some l
  | .one e => if k.signed then none else some (createConv P.wu e)

/-- the panics of ir/lower/lower_dw.c:823-834, 931-943 do not happen for a value of mode `m` -/
def shiftOk (m : IMode) : Bool :=
  m.modulo == m.bits && (P.high m).modulo * 2 == m.modulo && decide (m.modulo &&& (m.modulo - 1) = 0) &&
    decide (P.modulo &&& (P.modulo - 1) = 0)

/-- the condition "not more than a word is shifted", ir/lower/lower_dw.c:851-856, 959-966 -/
def countSmall (c : Expr P.wu) : Expr bmode :=
  .cmp Rel.equal (.and c (.const (BitVec.ofNat P.word P.modulo))) (.const 0#P.word)

/-- `lower_shr_helper`, ir/lower/lower_dw.c:807-904; `arith` is for Shrs -/
def lowerShr (arith : Bool) {m : IMode} (l : Expr P.wu) (h : Expr (P.high m)) (c : Expr P.wu) : Lowered P m :=
  let shr : {m' : IMode} → Expr m' → Expr P.wu → Expr m' := fun a b => if arith then .shrs a b else .shr a b
  let tresHigh := shr h c
  let shiftLow : Expr P.wu := .shr l c
  let carry0 : Expr P.wu := .shl (createConv P.wu h) (.const 1#P.word : Expr P.wu)
  let carry1 : Expr P.wu := .shl carry0 (.not c)
  let tresLow : Expr P.wu := .or shiftLow carry1
  let fresLow := shr (createConv P.wu h) c
  let fresHigh : Expr (P.high m) :=
    if arith then .shrs h (.const (BitVec.ofNat P.word (P.modulo - 1)) : Expr P.wu) else .const 0#P.word
  .two (.mux (countSmall P c) fresLow tresLow) (.mux (countSmall P c) fresHigh tresHigh)

/-- `lower_Shl`, ir/lower/lower_dw.c:916-1000 -/
def lowerShl {m : IMode} (l : Expr P.wu) (h : Expr (P.high m)) (c : Expr P.wu) : Lowered P m :=
  let tresLow : Expr P.wu := .shl l c
  let shiftHigh : Expr (P.high m) := .shl h c
  let carry0 : Expr (P.high m) := .shr (createConv (P.high m) l) (.const 1#P.word : Expr P.wu)
  let carry1 : Expr (P.high m) := .shr carry0 (.not c)
  let tresHigh : Expr (P.high m) := .or shiftHigh carry1
  let fresLow : Expr P.wu := .const 0#P.word
  let fresHigh : Expr (P.high m) := .shl (createConv (P.high m) l) c
  .two (.mux (countSmall P c) fresLow tresLow) (.mux (countSmall P c) fresHigh tresHigh)

/-- `lower_Minus`, ir/lower/lower_dw.c:1008-1029 -/
def lowerMinus {m : IMode} (l : Expr P.wu) (h : Expr (P.high m)) : Lowered P m :=
  let resLow : Expr P.wu := .minus l
  let carry : Expr (P.high m) := .mux (.cmp Rel.greater resLow (.const 0#P.word)) (.const 0#P.word) (.const 1#P.word)
  .two resLow (.sub (.minus h) carry)

/-- `lower_binop_additive` for Add, ir/lower/lower_dw.c:1031-1056 -/
def lowerAdd {m : IMode} (l : Expr P.wu) (h : Expr (P.high m)) (l' : Expr P.wu) (h' : Expr (P.high m)) : Lowered P m :=
  let resLow : Expr P.wu := .add l l'
  let carry : Expr (P.high m) := .mux (.cmp Rel.less resLow l) (.const 0#P.word) (.const 1#P.word)
  .two resLow (.add (.add h h') carry)

/-- `lower_binop_additive` for Sub, ir/lower/lower_dw.c:1031-1051, 1058-1061 -/
def lowerSub {m : IMode} (l : Expr P.wu) (h : Expr (P.high m)) (l' : Expr P.wu) (h' : Expr (P.high m)) : Lowered P m :=
  let resLow : Expr P.wu := .sub l l'
  let carry : Expr (P.high m) := .mux (.cmp Rel.greater resLow l) (.const 0#P.word) (.const 1#P.word)
  .two resLow (.sub (.sub h h') carry)

/-- `is_equality_cmp`, ir/lower/lower_dw.c:1127-1144; `right` is the right operand of the Cmp -/
def isEqualityCmp {k : IMode} (r : Rel) (right : Expr k) : Bool :=
  if r = Rel.equal ∨ r = Rel.lessGreater then true
  else match asConst right with
    | some v => v = 0#k.bits && !k.signed && r = Rel.greater
    | none => false

/-- `lower_Cmp`, ir/lower/lower_dw.c:1391-1436; `eq` is the result of `is_equality_cmp` -/
def lowerCmp {k : IMode} (eq : Bool) (r : Rel) (l : Expr P.wu) (h : Expr (P.high k)) (l' : Expr P.wu) (h' : Expr (P.high k)) : Expr bmode :=
  if eq then
    .cmp r (.or (.eor (.conv P.wu l) (.conv P.wu l')) (.eor (.conv P.wu h) (.conv P.wu h'))) (.const 0#P.word : Expr P.wu)
  else
    .or (.cmp (r &&& ~~~Rel.equal) h h') (.and (.cmp r l l') (.cmp Rel.equal h h'))

/-- `lower_Cond` for a Cmp, ir/lower/lower_dw.c:1168-1287: whether control goes to the destination of the true Proj -/
def lowerCond {k : IMode} (env : Env) (eq : Bool) (r : Rel) (l : Expr P.wu) (h : Expr (P.high k)) (l' : Expr P.wu) (h' : Expr (P.high k)) : Bool :=
  let sel (e : Expr bmode) : Bool := e.eval env = 1#1
  if eq then
    sel (.cmp r (.or (.eor (.conv P.wu l) (.conv P.wu l')) (.eor (.conv P.wu h) (.conv P.wu h'))) (.const 0#P.word : Expr P.wu))
  else if sel (.cmp (r &&& ~~~Rel.equal) h h') then true  -- projHT
  else if sel (.cmp Rel.equal h h') then sel (.cmp r l l')  -- newbl_eq, newbl_l
  else false  -- projEqF

/-- `lower_Conv_to_Ll`, ir/lower/lower_dw.c:1292-1347; absent: a call -/
def lowerConvTo {k : IMode} (m : IMode) : Lowered P k → Option (Lowered P m)
  | .two l h => some (.two l (.conv (P.high m) h))
  | .one e =>
    if !isInt k then none
    else
      let op : Expr P.wu := createConv P.wu e
      some (.two op (if k.signed then .shrs (createConv (P.high m) op) (.const (BitVec.ofNat P.word (P.word - 1)) : Expr P.wu) else .const 0#P.word))

/-- `ir_default_lower_dw_Conv` with `lower_Conv_from_Ll`, ir/lower/lower_dw.c:1352-1386, 1438-1450 -/
def lowerConv {k : IMode} (m : IMode) (r : Lowered P k) : Option (Lowered P m) :=
  if P.needs m then lowerConvTo P m r
  else match r with
    | .one e => some (.one (.conv m e))
    | .two l _ => if isInt m then some (.one (.conv m l)) else none

/-- an operation on two operands -/
def lift2 {m m' : IMode} (f : Expr m → Expr m → Expr m') (g : Expr P.wu → Expr (P.high m) → Expr P.wu → Expr (P.high m) → Option (Lowered P m')) :
    Option (Lowered P m) → Option (Lowered P m) → Option (Lowered P m')
  | some (.one a), some (.one b) => some (.one (f a b))
  | some (.two l h), some (.two l' h') => g l h l' h'
  | _, _ => none

/-- a shift; absent also if a node that is not lowered has a count that is lowered -/
def liftShift {m k : IMode} (f : Expr m → Expr k → Expr m) (g : Expr P.wu → Expr (P.high m) → Expr P.wu → Lowered P m) :
    Option (Lowered P m) → Option (Lowered P k) → Option (Lowered P m)
  | some (.one a), some (.one s) => some (.one (f a s))
  | some (.two l h), some s => if shiftOk P m then (countOf P s).map (g l h) else none
  | _, _ => none

/-- `lower_node`, ir/lower/lower_dw.c:2329-2367, for data nodes: first the operands, then the function of the opcode
(ir/lower/lower_dw.c:2466-2495) -/
def lower (N : Names) : {m : IMode} → Expr m → Option (Lowered P m)
  | _, .leaf m i => some (if P.needs m then .two (.leaf P.wu (N.low m i)) (.leaf (P.high m) (N.high m i)) else .one (.leaf m (N.keep m i)))
  | m, .const v => some (if P.needs m then lowerConst P v else .one (.const v))
  | _, .minus a =>
    match lower N a with
    | some (.one a) => some (.one (.minus a))
    | some (.two l h) => some (lowerMinus P l h)
    | none => none
  | _, .not a =>
    match lower N a with
    | some (.one a) => some (.one (.not a))
    | some (.two l h) => some (.two (.not l) (.not h))
    | none => none
  | _, .add a b => lift2 P .add (fun l h l' h' => some (lowerAdd P l h l' h')) (lower N a) (lower N b)
  | _, .sub a b => lift2 P .sub (fun l h l' h' => some (lowerSub P l h l' h')) (lower N a) (lower N b)
  | _, .mul a b => lift2 P .mul (fun _ _ _ _ => none) (lower N a) (lower N b)
  | _, .div a b => lift2 P .div (fun _ _ _ _ => none) (lower N a) (lower N b)
  | _, .mod a b => lift2 P .mod (fun _ _ _ _ => none) (lower N a) (lower N b)
  | _, .and a b => lift2 P .and (fun l h l' h' => some (.two (.and l l') (.and h h'))) (lower N a) (lower N b)
  | _, .or a b => lift2 P .or (fun l h l' h' => some (.two (.or l l') (.or h h'))) (lower N a) (lower N b)
  | _, .eor a b => lift2 P .eor (fun l h l' h' => some (.two (.eor l l') (.eor h h'))) (lower N a) (lower N b)
  | _, .shl a s => liftShift P .shl (lowerShl P) (lower N a) (lower N s)
  | _, .shr a s => liftShift P .shr (lowerShr P false) (lower N a) (lower N s)
  | _, .shrs a s => liftShift P .shrs (lowerShr P true) (lower N a) (lower N s)
  | _, .conv m a =>
    match lower N a with
    | some r => lowerConv P m r
    | none => none
  | _, .cmp r a b =>
    lift2 P (.cmp r) (fun l h l' h' => some (.one (lowerCmp P (isEqualityCmp r b) r l h l' h'))) (lower N a) (lower N b)
  | _, .mux s f t =>
    match lower N s with
    | some (.one s) => lift2 P (.mux s) (fun l h l' h' => some (.two (.mux s l l') (.mux s h h'))) (lower N f) (lower N t)
    | _ => none
  | _, .confirm v r b => lift2 P (fun v b => .confirm v r b) (fun _ _ _ _ => none) (lower N v) (lower N b)

/-! ## Memory -/

/-- the addresses of the low and the high word, ir/lower/lower_dw.c:358-368, 421-432, 1481-1490; `bytes` is `env.tv_mode_bytes` -/
def wordAddrs {p : Nat} (bigEndian : Bool) (bytes : Nat) (a : BitVec p) : BitVec p × BitVec p :=
  if bigEndian then (a + BitVec.ofNat p bytes, a) else (a, a + BitVec.ofNat p bytes)

/-- `lower_Load`, ir/lower/lower_dw.c:350-407: the numbers the two Loads yield -/
def lowerLoad {p : Nat} (bigEndian : Bool) (bytes : Nat) (mem : Memory p) (a : BitVec p) : Nat × Nat :=
  let w := wordAddrs bigEndian bytes a
  (mem.load bigEndian w.1 bytes, mem.load bigEndian w.2 bytes)

/-! ## Builtins -/

/-- `lower_reduce_builtin` for `ir_bk_ffs`, ir/lower/lower_dw.c:2106-2127; `ffs` is the builtin for words -/
def lowerFfs {w : Nat} (ffs : BitVec w → Nat) (l h : BitVec w) : Nat :=
  let muxHigh := if h = 0#w then 0 else ffs h + w
  if l = 0#w then muxHigh else ffs l

/-- `ir_bk_clz`, ir/lower/lower_dw.c:2128-2143 -/
def lowerClz {w : Nat} (clz : BitVec w → Nat) (l h : BitVec w) : Nat := if h = 0#w then clz l + w else clz h

/-- `ir_bk_ctz`, ir/lower/lower_dw.c:2144-2159 -/
def lowerCtz {w : Nat} (ctz : BitVec w → Nat) (l h : BitVec w) : Nat := if l = 0#w then ctz h + w else ctz l

/-- `ir_bk_popcount`, ir/lower/lower_dw.c:2159-2167 -/
def lowerPopcount {w : Nat} (popcount : BitVec w → Nat) (l h : BitVec w) : Nat := popcount h + popcount l

/-- `ir_bk_parity`, ir/lower/lower_dw.c:2168-2173 -/
def lowerParity {w : Nat} (parity : BitVec w → Nat) (l h : BitVec w) : Nat := parity (h ^^^ l)

/-- `ir_bk_bswap` in `lower_arithmetic_builtin`, ir/lower/lower_dw.c:2208-2223: the low and the high word of the result -/
def lowerBswap {w : Nat} (bswap : BitVec w → BitVec w) (l h : BitVec w) : BitVec w × BitVec w := (bswap h, bswap l)

/-- `widen_builtin`, ir/lower/lower_builtins.c:70-103: the operand, of a mode with `w` bits, is converted to the signed mode of addresses with
`w'` bits; the builtin with more bits is used then and its result is taken as it is -/
def widenArg {w : Nat} (signed : Bool) (w' : Nat) (v : BitVec w) : BitVec w' := if signed then v.signExtend w' else v.setWidth w'

end Verif.Model.LowerDw
