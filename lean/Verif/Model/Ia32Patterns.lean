import Verif.Spec.X86Small
import Verif.Model.X86Cond
/-!
# Model: instruction patterns of the ia32 backend

Short sequences chosen in place of the plain translation: the constants of a `Mux` from a `setcc`
(`find_const_transform`), rotations and double shifts, the difference or zero, the saturating
increment, the 64-bit negation, minimum and maximum of floating point numbers, and the shorter
instructions of the peephole optimizations.
-/
namespace Verif.Model.Ia32Patterns
open Verif.Spec.X86Small Verif.Spec.X86 Verif.Model.X86Cond

/-! ### A choice between two constants -/

/-- `enum setcc_transform_insn` (ir/be/ia32/ia32_transform.c:3187-3197) -/
inductive Tr where
  | add | lea | leaxx | shl | neg | not | and | set | or
  deriving DecidableEq, Repr

/-- `setcc_step_t` (ir/be/ia32/ia32_transform.c:3199-3203) -/
structure SetStep where
  tr : Tr
  val : BitVec 32 := 0
  logScale : Nat := 0
  deriving DecidableEq, Repr

/-- The number of ones, `get_tarval_popcount` -/
def popcount (t : BitVec 32) : Nat := (List.range 32).countP fun i => t.getLsbD i

/-- `get_tarval_lowest_bit` (ir/tv/tv.c:1211-1223) -/
def lowestBit (t : BitVec 32) : Nat := ((List.range 32).find? fun i => t.getLsbD i).getD 0

/-- the step before is overwritten if it is an addition, keeping its value: `--step` in the cases of
the switch (ir/be/ia32/ia32_transform.c:3275-3316) -/
def mergeAdd (steps : List SetStep) (tr : BitVec 32 → Tr) (scale : Nat) : List SetStep :=
  match steps.getLast? with
  | some s =>
    if s.tr = .add then steps.dropLast ++ [⟨tr s.val, s.val, scale⟩]
    else steps ++ [⟨tr 0, 0, scale⟩]
  | none => steps ++ [⟨tr 0, 0, scale⟩]

/-- The rest of `find_const_transform`, where `f` is zero (ir/be/ia32/ia32_transform.c:3257-3338) -/
def constSteps (steps : List SetStep) (t : BitVec 32) : List SetStep :=
  if t = 1 then steps ++ [{ tr := .set }]
  else if t = BitVec.allOnes 32 then steps ++ [{ tr := .neg }, { tr := .set }]
  else
    let set := [{ tr := .set : SetStep }]
    if t = 9 then mergeAdd steps (fun _ => .leaxx) 3 ++ set
    else if t = 8 then mergeAdd steps (fun v => if v = 0 then .shl else .lea) 3 ++ set
    else if t = 5 then mergeAdd steps (fun _ => .leaxx) 2 ++ set
    else if t = 4 then mergeAdd steps (fun v => if v = 0 then .shl else .lea) 2 ++ set
    else if t = 3 then mergeAdd steps (fun _ => .leaxx) 1 ++ set
    else if t = 2 then mergeAdd steps (fun _ => .leaxx) 0 ++ set
    else if popcount t ≠ 1 then steps ++ [{ tr := .and, val := t }, { tr := .neg }] ++ set
    else steps ++ [{ tr := .shl, logScale := lowestBit t }] ++ set

/-- `find_const_transform` (ir/be/ia32/ia32_transform.c:3211-3340); the constants come converted to
unsigned numbers of 32 bits. -/
def findConst (cc : Cc) (t f : BitVec 32) : Cc × List SetStep :=
  let (cc, t, f) :=
    if t = 0 then (negate cc, f, t)
    else if t.ult f then (negate cc, f, t)
    else (cc, t, f)
  if f = 0 then (cc, constSteps [] t)
  else if t = BitVec.allOnes 32 then (cc, constSteps [{ tr := .or, val := f }] t)
  else (cc, constSteps [{ tr := .add, val := f }] (t - f))

/-- One instruction of the sequence (ir/be/ia32/ia32_transform.c:3492-3563); `set` is the register
after the `setcc`.  Before the first step the operand is the `Mux` itself, here `none`. -/
def execStep (set : BitVec 32) (x : Option (BitVec 32)) (s : SetStep) : Option (BitVec 32) :=
  match s.tr with
  | .set => some set
  | .add => x.map (· + s.val)
  | .lea => x.map fun (v : BitVec 32) => (v <<< s.logScale) + s.val
  | .leaxx => x.map fun (v : BitVec 32) => v + (v <<< s.logScale) + s.val
  | .shl => x.map fun (v : BitVec 32) => v <<< s.logScale
  | .neg => x.map (- ·)
  | .not => x.map (~~~ ·)
  | .and => x.map (· &&& s.val)
  | .or => x.map (· ||| s.val)

/-- The loop over the steps, the last first (ir/be/ia32/ia32_transform.c:3491) -/
def execSteps (set : BitVec 32) (steps : List SetStep) : Option (BitVec 32) :=
  steps.reverse.foldl (execStep set) none

/-- `create_set_32bit` (ir/be/ia32/ia32_transform.c:3082-3097): `setcc` writes 8 bits of a register with
contents `junk`, and `movzx` follows for modes of more than 8 bits. -/
def setReg (modeBits : Nat) (junk : BitVec 32) (c : Bool) : BitVec 32 :=
  let r := writeLow junk (BitVec.ofNat 8 c.toNat)
  if modeBits > 8 then (r.setWidth 8).setWidth 32 else r

/-- The register of `Mux(cc, t, f)` with constants -/
def muxConst (cc : Cc) (f : EFlags) (modeBits : Nat) (junk : BitVec 32) (t e : BitVec 32) :
    Option (BitVec 32) :=
  let (cc', steps) := findConst cc t e
  execSteps (setReg modeBits junk (ccMeans cc' f)) steps

/-! ### Rotations and double shifts -/

/-- The nodes the patterns look at; all of one integer mode.  Two nodes are the same node if they are
the same term. -/
inductive E where
  | val (n : Nat)
  | const (v : Int)
  | minus (a : E)
  | not (a : E)
  | sub (a b : E)
  | shl (a b : E)
  | shr (a b : E)
  | or (a b : E)
  | add (a b : E)
  deriving DecidableEq, Repr

/-- `ir_is_negated_value` (ir/opt/iropt.c:6472-6489) -/
def isNegated : E → E → Bool
  | .minus a, b => a == b || (match b with | .minus c => c == .minus a | _ => false)
  | a, .minus c => c == a
  | .sub a b, .sub c d => a == d && b == c
  | _, _ => false

/-- The operands of an `Add` or `Or` of a `Shl` and a `Shr`, in this order: the value shifted to the
left, its amount, the value shifted to the right, its amount. -/
def shlShr : E → Option (E × E × E × E)
  | .or (.shl a b) (.shr c d) | .or (.shr c d) (.shl a b)
  | .add (.shl a b) (.shr c d) | .add (.shr c d) (.shl a b) => some (a, b, c, d)
  | _ => none

/-- `be_pattern_is_rotl` (ir/be/betranshlp.c:483-539), for a mode of `bits` bits: the value and the
amount of the rotation -/
def rotl (bits : Nat) (e : E) : Option (E × E) := do
  let (x, c1, y, c2) ← shlShr e
  if x ≠ y then none
  else
    match c1, c2 with
    | .const v1, .const v2 => if v1 + v2 = bits then some (x, c1) else none
    | _, _ => if isNegated c1 c2 then some (x, c1) else none

/-- The double shifts -/
inductive Sh64 where
  | shld (high low count : E)
  | shrd (low high count : E)
  deriving DecidableEq, Repr

/-- `is_complementary_shifts` (ir/be/ia32/ia32_transform.c:1347-1355) -/
def complementary : E → E → Bool
  | .const v1, .const v2 => v2 == 32 - v1
  | _, _ => false

/-- `lower_dw` makes `Or(Shr(Shr(high, 1), Not(c)), Shl(low, c))`
(ir/be/ia32/ia32_transform.c:1380-1385) -/
def dwShl (shlLeft shlRight shrLeft shrRight : E) : Option Sh64 :=
  match shrLeft, shrRight with
  | .shr h (.const 1), .not c => if c = shlRight then some (.shld shlLeft h shlRight) else none
  | _, _ => none

/-- and `Or(Shl(Shl(high, 1), Not(c)), Shr(low, c))` (ir/be/ia32/ia32_transform.c:1388-1393) -/
def dwShr (shlLeft shlRight shrLeft shrRight : E) : Option Sh64 :=
  match shlLeft, shlRight with
  | .shl h (.const 1), .not c => if c = shrRight then some (.shrd shrLeft h shrRight) else none
  | _, _ => none

/-- `match_64bit_shift` (ir/be/ia32/ia32_transform.c:1357-1398) -/
def match64 (e : E) : Option Sh64 :=
  match shlShr e with
  | none => none
  | some (shlLeft, shlRight, shrLeft, shrRight) =>
    if complementary shlRight shrRight then some (.shld shlLeft shrLeft shlRight)
    else (dwShl shlLeft shlRight shrLeft shrRight).or (dwShr shlLeft shlRight shrLeft shrRight)

/-- `ia32_transform_ShlD_to_ShrD_imm` (ir/be/ia32/ia32_finish.c:162-182): `a = ShlD(b, a, c)` becomes
`a = ShrD(a, b, 32 - c)`; the machine instruction gets the count -/
def shldToShrd (hi lo : BitVec 32) (c : Nat) : BitVec 32 := shrd lo hi (32 - c)

/-! ### Arithmetic with borrow -/

/-- `create_doz` (ir/be/ia32/ia32_transform.c:3102-3126): `sub`, `sbb` of a register from itself,
`not`, `and` -/
def doz (a b : BitVec 32) : BitVec 32 :=
  let borrow := (subFlags a b).cf
  (a - b) &&& ~~~ (sbbValue 0 0 borrow)

/-- The test for `create_doz` in `gen_Mux` (ir/be/ia32/ia32_transform.c:3456-3479): `rel` is the
relation of the comparison of `l` with `r`, one value of the `Mux` is zero, on the side told by
`zeroOnTrue`, the other one is `l - r` or, if `reversed`, `r - l`.  The result says whether the
operands of the difference are exchanged. -/
def dozChoice (rel : BitVec 4) (zeroOnTrue reversed : Bool) : Option Bool :=
  let rel := if zeroOnTrue then ~~~ rel else rel
  if rel &&& ~~~ 1 = 4 ∧ reversed = false then some false
  else if rel &&& ~~~ 1 = 2 ∧ reversed = true then some true
  else none

/-- `gen_saturating_increment` (ir/be/ia32/ia32_transform.c:5106-5124): `add` of 1, `sbb` of 0 -/
def satInc (a : BitVec 32) : BitVec 32 :=
  sbbValue (a + 1) 0 (adcFlags a 1 false).cf

/-- what `normal_neg` emits (ir/be/ia32/ia32_emitter.c:1027-1032) -/
def normalNeg (outLo outHi : Nat) : List Instr := [.neg outHi, .neg outLo, .sbb0 outHi]

/-- what `zero_neg` emits (ir/be/ia32/ia32_emitter.c:1034-1037) -/
def zeroNeg (outLo outHi inHi : Nat) : List Instr := [.zero outHi, .neg outLo, .sbb inHi outHi]

/-- the cases without the first test, common to both emitters -/
def minus64Rest (inLo inHi outLo outHi : Nat) : List Instr :=
  if outLo = inHi then
    if outHi = inLo then .xchg inLo inHi :: normalNeg outLo outHi
    else .mov inHi outHi :: .mov inLo outLo :: normalNeg outLo outHi
  else if outHi = inLo then .mov inLo outLo :: zeroNeg outLo outHi inHi
  else if outHi = inHi then .mov inLo outLo :: normalNeg outLo outHi
  else .mov inLo outLo :: zeroNeg outLo outHi inHi

/-- `emit_ia32_Minus64` (ir/be/ia32/ia32_emitter.c:979-1038) -/
def emitMinus64 (inLo inHi outLo outHi : Nat) : List Instr :=
  if outLo = inLo then
    if outHi ≠ inHi then
      if inLo = inHi then [.neg outLo, .mov outLo outHi, .sbb0 outHi]
      else zeroNeg outLo outHi inHi
    else normalNeg outLo outHi
  else minus64Rest inLo inHi outLo outHi

/-- `enc_minus64` (ir/be/ia32/ia32_encode.c:707-758) -/
def encMinus64 (inLo inHi outLo outHi : Nat) : List Instr :=
  if outLo = inLo then
    if outHi ≠ inHi then zeroNeg outLo outHi inHi
    else normalNeg outLo outHi
  else minus64Rest inLo inHi outLo outHi

/-! ### Builtins -/

/-- `bsf` and `bsr`: the place of the lowest and the highest one; what is left in the register for
zero is given by `junk` -/
def bsf (junk x : BitVec 32) : BitVec 32 :=
  ((List.range 32).find? fun i => x.getLsbD i).elim junk (BitVec.ofNat 32)

def bsr (junk x : BitVec 32) : BitVec 32 :=
  ((List.range 32).reverse.find? fun i => x.getLsbD i).elim junk (BitVec.ofNat 32)

/-- `gen_ffs` (ir/be/ia32/ia32_transform.c:4919-4952): `bsf`, `sete`, `movzx`, `neg`, `or`, `lea` -/
def ffs (junk x : BitVec 32) : BitVec 32 :=
  let set := setReg 32 junk (decide (x = 0))
  (bsf junk x ||| -set) + 1

/-- `gen_clz` (ir/be/ia32/ia32_transform.c:4957-4968) -/
def clz (junk x : BitVec 32) : BitVec 32 := bsr junk x ^^^ 31

/-- `gen_parity` (ir/be/ia32/ia32_transform.c:4981-5011): `shr`, `xor`, `xor` of the two low bytes,
`setnp`, `movzx` -/
def parity (junk x : BitVec 32) : BitVec 32 :=
  let y := (x >>> 16) ^^^ x
  setReg 32 junk (!(logicFlags (y.setWidth 8 ^^^ high y)).pf)

/-- `gen_bswap` without the instruction (ir/be/ia32/ia32_transform.c:5042-5052) -/
def bswap (x : BitVec 32) : BitVec 32 :=
  let r1 := writeLow x ((x.setWidth 16).rotateLeft 8)
  let r2 := r1.rotateLeft 16
  writeLow r2 ((r2.setWidth 16).rotateLeft 8)

/-! ### Minimum and maximum of floating point numbers -/

/-- Which of the operands of the comparison. -/
inductive Side where
  | left | right
  deriving DecidableEq, Repr

inductive MinMax where
  | mins | maxs
  deriving DecidableEq, Repr

/-- `gen_Mux` for floating point modes (ir/be/ia32/ia32_transform.c:3386-3408): the relation, and the
operand of the comparison taken if it holds, the other one being taken if not -/
def floatMinMax (rel : BitVec 4) (onTrue : Side) : Option MinMax :=
  if rel = 2 ∨ rel = 3 then some (if onTrue = .left then .mins else .maxs)
  else if rel = 4 ∨ rel = 5 then some (if onTrue = .left then .maxs else .mins)
  else none

/-- `mux_is_float_min_max` (ir/be/ia32/ia32_bearch.c:1166-1213) -/
def minMaxAllowed (rel : BitVec 4) (onTrue : Side) : Bool :=
  if rel = 5 ∨ rel = 4 then onTrue == .left
  else if rel = 3 ∨ rel = 2 then onTrue == .left
  else if rel = 13 ∨ rel = 12 then onTrue == .right
  else if rel = 11 ∨ rel = 10 then onTrue == .right
  else false

/-! ### Shorter instructions -/

/-- what replaces a logical instruction with a constant -/
inductive Short where
  | xor16 | xor8 | xor8h
  | and8 (v : BitVec 8) | and8h (v : BitVec 8)
  | or8 (v : BitVec 8) | or8h (v : BitVec 8)
  | eor8 (v : BitVec 8) | eor8h (v : BitVec 8)
  | not16 | not8 | not8h
  deriving DecidableEq, Repr

/-- the effect of the short instructions on the register -/
def Short.exec (r : BitVec 32) : Short → BitVec 32
  | .xor16 => writeLow r (r.setWidth 16 ^^^ r.setWidth 16)
  | .xor8 => writeLow r (r.setWidth 8 ^^^ r.setWidth 8)
  | .xor8h => writeHigh r (high r ^^^ high r)
  | .and8 v => writeLow r (r.setWidth 8 &&& v)
  | .and8h v => writeHigh r (high r &&& v)
  | .or8 v => writeLow r (r.setWidth 8 ||| v)
  | .or8h v => writeHigh r (high r ||| v)
  | .eor8 v => writeLow r (r.setWidth 8 ^^^ v)
  | .eor8h v => writeHigh r (high r ^^^ v)
  | .not16 => writeLow r (~~~ r.setWidth 16)
  | .not8 => writeLow r (~~~ r.setWidth 8)
  | .not8h => writeHigh r (~~~ high r)

/-- `peephole_ia32_And` (ir/be/ia32/ia32_optimize.c:204-233); `hl` says that the register has names
for its two low bytes -/
def shortAnd (hl : Bool) (val : BitVec 32) : Option Short :=
  if val = 0xFFFF0000 then some .xor16
  else if hl then
    if val = 0xFFFFFF00 then some .xor8
    else if val = 0xFFFF00FF then some .xor8h
    else if val &&& 0xFFFFFF80 = 0xFFFFFF00 then some (.and8 ((val &&& 0xFF).setWidth 8))
    else if val &&& 0xFFFF00FF = 0xFFFF00FF then some (.and8h (((val >>> 8) &&& 0xFF).setWidth 8))
    else none
  else none

/-- `peephole_ia32_Or` (ir/be/ia32/ia32_optimize.c:240-261) -/
def shortOr (hl : Bool) (val : BitVec 32) : Option Short :=
  if hl then
    if val &&& 0xFFFFFF80 = 0x00000080 then some (.or8 (val.setWidth 8))
    else if val &&& 0xFFFF00FF = 0 then some (.or8h ((val >>> 8).setWidth 8))
    else none
  else none

/-- `peephole_ia32_Xor` (ir/be/ia32/ia32_optimize.c:291-320) -/
def shortXor (hl : Bool) (val : BitVec 32) : Option Short :=
  if val = 0x0000FFFF then some .not16
  else if hl then
    if val = 0x000000FF then some .not8
    else if val = 0x0000FF00 then some .not8h
    else if val &&& 0xFFFFFF80 = 0x00000080 then some (.eor8 (val.setWidth 8))
    else if val &&& 0xFFFF00FF = 0 then some (.eor8h ((val >>> 8).setWidth 8))
    else none
  else none

/-- the second half of `peephole_ia32_Test` (ir/be/ia32/ia32_optimize.c:456-502): the byte tested, and
the constant -/
def shortTest (mem hl : Bool) (offset : BitVec 32) : Option (Nat × BitVec 8) :=
  if mem then
    if offset &&& 0xFFFFFF80 = 0 then some (0, offset.setWidth 8)
    else if offset &&& 0xFFFF80FF = 0 then some (1, (offset >>> 8).setWidth 8)
    else if offset &&& 0xFF80FFFF = 0 then some (2, (offset >>> 16).setWidth 8)
    else if offset &&& 0x00FFFFFF = 0 then some (3, (offset >>> 24).setWidth 8)
    else none
  else if hl then
    if offset &&& 0xFFFFFF80 = 0 then some (0, offset.setWidth 8)
    else if offset &&& 0xFFFF80FF = 0 then some (1, (offset >>> 8).setWidth 8)
    else none
  else none

/-- `peephole_ia32_Lea` (ir/be/ia32/ia32_optimize.c:917-1019) for displacements that are numbers;
`flags` says that the flags are in use, `incdec` that `inc` and `dec` may be used -/
def shortLea (flags incdec : Bool) (b i : Option Nat) (sc : Nat) (d : BitVec 32) (o : Nat) : Instr :=
  let last : Instr :=
    match b, i with
    | none, some r => if sc = 1 then .lea (some r) (some r) 0 d o else .lea b i sc d o
    | _, _ => .lea b i sc d o
  if flags then last
  else if d = 0 then
    match b, i with
    | none, some r => if r = o then .shl sc r else last
    | some r, none => .mov r o
    | some r, some q =>
      if r = o ∧ sc = 0 then .add q r
      else if q = o ∧ sc = 0 then .add r q
      else last
    | none, none => last
  else
    match b, i with
    | some r, none =>
      if r = o then
        if incdec ∧ d = 1 then .inc r
        else if incdec ∧ d = -1 then .dec r
        else .addImm d r
      else last
    | _, _ => last

/-- `peephole_ia32_Rol` (ir/be/ia32/ia32_optimize.c:1064-1079): every 16-bit rotation in a register
with names for its bytes becomes an exchange of the bytes -/
def shortRol (hl : Bool) (r : BitVec 32) (count : Nat) : BitVec 32 :=
  if hl then writeHigh (writeLow r (high r)) (r.setWidth 8)
  else writeLow r ((r.setWidth 16).rotateLeft (count % 32))

end Verif.Model.Ia32Patterns
