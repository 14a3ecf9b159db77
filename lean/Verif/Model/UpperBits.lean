import Verif.Spec.NarrowIR
/-!
# Model: narrow integers in 32-bit registers of the ia32 backend

Values of 8 and 16 bits live in 32-bit registers whose upper bits are not kept.  Where an
instruction needs them, the backend extends the value, unless `be_upper_bits_clean` knows that they
are right already.  The question (ir/be/betranshlp.c) and the code made for integer nodes
(ir/be/ia32/ia32_transform.c) are modelled; a register is a bit vector of 32 bits.

Simplified: expressions are trees; whether a node has a single user is a parameter `many`, so a
theorem covers every sharing.  Operands in memory, `lea` and immediates are taken to compute what
the plain instruction computes.  `gen_Mux` is a choice between the two registers, except for the
`setcc` of two constants of 8 bits, which writes 8 bits.  The patterns for rotations and for 64-bit
shifts are not part of this model.
-/
namespace Verif.Model.UpperBits
open Verif.Spec.NarrowIR

/-- The value of a constant as the predicates read it, `is_Const` and `get_Const_long` -/
def constLong : Node → Option Int
  | .const _ v => some v
  | _ => none

/-- `const_upper_bits_clean` (ir/be/betranshlp.c:400-412); a `long` has 64 bits -/
def constClean (v : Int) (m : Mode) : Bool :=
  if m.signed then
    let shifted := v >>> (m.bits - 1)
    shifted == 0 || shifted == -1
  else
    (v % 2 ^ 64).toNat >>> (m.bits - 1) >>> 1 == 0

/-- `be_upper_bits_clean` (ir/be/betranshlp.c:348-355) with the functions registered in
ir/be/betranshlp.c:357-450, 470-479 and `ia32_mux_upper_bits_clean`
(ir/be/ia32/ia32_transform.c:2891-2903, 5387).  Nodes without a function are never clean. -/
def clean : Node → Mode → Bool
  | .const _ v, m => constClean v m
  | .load lm _, m => !(decide (lm.bits > m.bits)) && lm.signed == m.signed
  | .other _ _, _ => false
  | .fconv _ _, _ => true
  | .bin .and _ a b, m => if !m.signed then clean a m || clean b m else clean a m && clean b m
  | .bin .or _ a b, m => clean a m && clean b m
  | .bin .eor _ a b, m => clean a m && clean b m
  | .bin _ _ _ _, _ => false
  | .un _ _ _, _ => false
  | .shl _ _ _, _ => false
  | .shr _ a k, m =>
    if m.signed then false
    else
      match constLong k with
      | some v => decide (v ≥ 32 - (m.bits : Int)) || clean a m
      | none => clean a m
  | .shrs _ a _, m => clean a m
  | .mux mm _ a b _, m =>
    if (constLong a).isSome && (constLong b).isSome && mm.bits == 8 then false
    else clean a m && clean b m
  | .conv dest a, m =>
    if a.mode.bits ≥ dest.bits then clean a m
    else decide (a.mode.bits ≤ m.bits) && a.mode.signed == m.signed

/-- `be_skip_downconv` (ir/be/betranshlp.c:844-864) asking for single users -/
def skipDownconv (many : Node → Bool) : Node → Node
  | .conv dest a =>
    if many (.conv dest a) then .conv dest a
    else if dest.bits > a.mode.bits then .conv dest a
    else skipDownconv many a
  | n => n

/-- `be_skip_sameconv` (ir/be/betranshlp.c:866-885) -/
def skipSameconv (many : Node → Bool) : Node → Node
  | .conv dest a =>
    if many (.conv dest a) then .conv dest a
    else if dest.bits != a.mode.bits then .conv dest a
    else skipSameconv many a
  | n => n

/-- `create_I2I_Conv` (ir/be/ia32/ia32_transform.c:3764-3792): the register of `op` where its upper
bits are clean, and `movsx` or `movzx` of it otherwise.  `r` is the register of `op`; skipping
conversions does not change it (`reg_skipDownconv`). -/
def i2i (many : Node → Bool) (src : Mode) (op : Node) (r : BitVec 32) : BitVec 32 :=
  if clean (skipDownconv many op) src then r
  else if src.signed then (r.setWidth src.bits).signExtend 32 else (r.setWidth src.bits).setWidth 32

/-- The operand of a shift to the right, `transform_zext` and `transform_sext` in `gen_shift_binop`
(ir/be/ia32/ia32_transform.c:839-867, 1211-1249); 32-bit operands are taken as they are. -/
def shiftOperand (many : Node → Bool) (signed : Bool) (bits : Nat) (op : Node) (r : BitVec 32) :
    BitVec 32 :=
  if bits == 32 then r
  else i2i many ⟨signed, (skipSameconv many op).mode.bits⟩ (skipSameconv many op) r

/-- the source mode of the sign extension by two shifts, `gen_Shrs`
(ir/be/ia32/ia32_transform.c:1859-1888) -/
def sextShift (left k : Node) : Option (Mode × Node) :=
  match left with
  | .shl _ x k' =>
    match constLong k, constLong k' with
    | some v, some v' =>
      if v == v' && v == 24 then some (⟨true, 8⟩, x)
      else if v == v' && v == 16 then some (⟨true, 16⟩, x)
      else none
    | _, _ => none
  | _ => none

/-- What is computed for a node. -/
structure Regs where
  /-- the register the node is computed into -/
  reg : BitVec 32
  /-- the register of the left operand of the node, or of the node below conversions -/
  left : BitVec 32
  /-- likewise the register of the right operand -/
  right : BitVec 32

/-- The register of `And`, `gen_And` (ir/be/ia32/ia32_transform.c:1558-1578) -/
def genAnd (many : Node → Bool) (a b : Node) (ra rb : BitVec 32) : BitVec 32 :=
  match constLong b with
  | some v =>
    if v == 0xFF then i2i many ⟨false, 8⟩ a ra
    else if v == 0xFFFF then i2i many ⟨false, 16⟩ a ra
    else ra &&& rb
  | none => ra &&& rb

/-- The register of `Not`, `gen_Not` (ir/be/ia32/ia32_transform.c:1938-1968): `~(1 << x)` and
`~(0x80000000 >> x)` become rotations -/
def genNot (a : Node) (r : Regs) : BitVec 32 :=
  match a with
  | .shl _ one _ =>
    if constLong one == some 1 then (BitVec.ofInt 32 (-2)).rotateLeft (r.right.toNat % 32)
    else ~~~ r.reg
  | .shr _ top _ =>
    if constLong top == some 0x80000000 || constLong top == some (-0x80000000) then
      (BitVec.ofInt 32 0x7FFFFFFF).rotateRight (r.right.toNat % 32)
    else ~~~ r.reg
  | _ => ~~~ r.reg

/-- The register of `Shrs`, `gen_Shrs` (ir/be/ia32/ia32_transform.c:1842-1891) -/
def genShrs (many : Node → Bool) (m : Mode) (a k : Node) (ra : Regs) (rk : BitVec 32) : BitVec 32 :=
  if constLong k == some 31 && many (skipSameconv many a) then ra.reg.sshiftRight 31
  else
    match sextShift (skipSameconv many a) k with
    | some (src, x) => i2i many src x ra.left
    | none => (shiftOperand many true m.bits a ra.reg).sshiftRight (rk.toNat % 32)

/-- The register of `Mux`; the `setcc` of two constants writes 8 bits -/
def genMux (m : Mode) (c : Bool) (a b : Node) (junk ra rb : BitVec 32) : BitVec 32 :=
  if (constLong a).isSome && (constLong b).isSome && m.bits == 8 then
    (junk >>> 8 <<< 8) ||| ((if c then ra else rb).setWidth 8).setWidth 32
  else if c then ra else rb

/-- The registers of a node, `gen_*` of ir/be/ia32/ia32_transform.c: Const 309-403, Or 1585-1604,
Eor 1611-1618, Sub 1625-1653, Add 1414-1490, Mul 1496-1516, Shl 1807-1822, Shr 1829-1835, Minus
1899-1928, Conv 3799-3872, and the Load, which extends what it loads. -/
def regs (many : Node → Bool) : Node → Regs
  | .const _ v => ⟨BitVec.ofInt 32 v, 0, 0⟩
  | .load m x =>
    ⟨if m.bits < 32 then
      if m.signed then (x.setWidth m.bits).signExtend 32 else (x.setWidth m.bits).setWidth 32
    else x, 0, 0⟩
  | .other _ x => ⟨x, 0, 0⟩
  | .fconv _ x => ⟨x, 0, 0⟩
  | .bin o _ a b =>
    let ra := (regs many a).reg
    let rb := (regs many b).reg
    ⟨match o with
      | .and => genAnd many a b ra rb
      | .or => ra ||| rb
      | .eor => ra ^^^ rb
      | .add => ra + rb
      | .sub => ra - rb
      | .mul => ra * rb, ra, rb⟩
  | .un o _ a =>
    let ra := regs many a
    ⟨match o with
      | .minus => -ra.reg
      | .not => genNot a ra, ra.reg, 0⟩
  | .shl _ a k =>
    let ra := (regs many a).reg
    let rk := (regs many k).reg
    ⟨if constLong k == some 1 then ra + ra else ra <<< (rk.toNat % 32), ra, rk⟩
  | .shr m a k =>
    let ra := (regs many a).reg
    let rk := (regs many k).reg
    ⟨shiftOperand many false m.bits a ra >>> (rk.toNat % 32), ra, rk⟩
  | .shrs m a k =>
    let ra := regs many a
    let rk := (regs many k).reg
    ⟨genShrs many m a k ra rk, ra.reg, rk⟩
  | .mux m c a b junk =>
    let ra := (regs many a).reg
    let rb := (regs many b).reg
    ⟨genMux m c a b junk ra rb, ra, rb⟩
  | .conv dest a =>
    let ra := regs many a
    ⟨if a.mode.bits ≥ dest.bits then ra.reg else i2i many a.mode a ra.reg, ra.left, ra.right⟩

/-- The register a node is computed into. -/
def reg (many : Node → Bool) (n : Node) : BitVec 32 := (regs many n).reg

end Verif.Model.UpperBits
