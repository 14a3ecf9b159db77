import Verif.Model.Relation
/-!
# Model: condition codes of the x86 backends

The condition codes (`ir/be/ia32/x86_node.h`), the choice of a code for a comparison
(`ir/be/ia32/ia32_transform.c`), and the later changes of codes: in the emitter, where operands have
been exchanged (`ia32_emitter.c`), when another comparison is used (`ia32_bearch.c`), when a test is
replaced (`ia32_optimize.c`), and when a subtraction is replaced (`ia32_finish.c`).

Codes are eight bits.  A mode is represented by the three cases that are distinguished.  A panic is
`none`.
-/
namespace Verif.Model.X86Cond
open Verif.Model

/-- `x86_condition_code_t` (ir/be/ia32/x86_node.h:21-70) -/
abbrev Cc := BitVec 8

def negatedBit : Cc := 0x01
def overflow : Cc := 0x00
def below : Cc := 0x02
def equal : Cc := 0x04
def belowEqual : Cc := 0x06
def sign : Cc := 0x08
def parity : Cc := 0x0A
def less : Cc := 0x0C
def lessEqual : Cc := 0x0E
def aboveEqual : Cc := negatedBit ||| below
def notEqual : Cc := negatedBit ||| equal
def above : Cc := negatedBit ||| belowEqual
def notSign : Cc := negatedBit ||| sign
def notParity : Cc := negatedBit ||| parity
def greaterEqual : Cc := negatedBit ||| less
def greater : Cc := negatedBit ||| lessEqual
def floatEqual : Cc := 0x34
def floatBelow : Cc := 0x32
def floatBelowEqual : Cc := 0x36
def floatNotEqual : Cc := negatedBit ||| floatEqual
def floatUnorderedAboveEqual : Cc := negatedBit ||| floatBelow
def floatUnorderedAbove : Cc := negatedBit ||| floatBelowEqual
def floatUnorderedBelowEqual : Cc := 0x16
def floatUnorderedBelow : Cc := 0x12
def floatAbove : Cc := negatedBit ||| floatUnorderedBelowEqual
def floatAboveEqual : Cc := negatedBit ||| floatUnorderedBelow

/-- `x86_negate_condition_code` (ir/be/ia32/x86_node.h:109-113) -/
def negate (cc : Cc) : Cc := cc ^^^ negatedBit

/-- `x86_invert_condition_code` (ir/be/ia32/x86_node.h:115-138) -/
def invert (cc : Cc) : Cc :=
  if cc = below then above
  else if cc = belowEqual then aboveEqual
  else if cc = above then below
  else if cc = aboveEqual then belowEqual
  else if cc = less then greater
  else if cc = lessEqual then greaterEqual
  else if cc = greater then less
  else if cc = greaterEqual then lessEqual
  else if cc = floatBelow then floatAbove
  else if cc = floatBelowEqual then floatAboveEqual
  else if cc = floatAbove then floatBelow
  else if cc = floatAboveEqual then floatBelowEqual
  else if cc = floatUnorderedBelow then floatUnorderedAbove
  else if cc = floatUnorderedBelowEqual then floatUnorderedAboveEqual
  else if cc = floatUnorderedAbove then floatUnorderedBelow
  else if cc = floatUnorderedAboveEqual then floatUnorderedBelowEqual
  else cc

/-- What is asked about a mode: `mode_is_float`, `mode_is_signed`. -/
inductive Kind where
  | float | signed | unsigned
  deriving DecidableEq, Repr

/-- `ir_relation_to_x86_condition_code` (ir/be/ia32/ia32_transform.c:2017-2093) -/
def relationToCc (rel : Rel) (k : Kind) (overflowPossible : Bool) : Option Cc :=
  match k with
  | .float =>
      match rel.toNat with
      | 1 => some floatEqual
      | 2 => some floatBelow
      | 3 => some floatBelowEqual
      | 4 => some floatAbove
      | 5 => some floatAboveEqual
      | 6 => some notEqual
      | 7 => some notParity
      | 8 => some parity
      | 9 => some equal
      | 10 => some floatUnorderedBelow
      | 11 => some floatUnorderedBelowEqual
      | 12 => some floatUnorderedAbove
      | 13 => some floatUnorderedAboveEqual
      | 14 => some floatNotEqual
      | _ => none
  | .signed =>
      match rel.toNat with
      | 9 | 1 => some equal
      | 10 | 2 => some (if overflowPossible then less else sign)
      | 11 | 3 => some lessEqual
      | 12 | 4 => some greater
      | 13 | 5 => some (if overflowPossible then greaterEqual else notSign)
      | 14 | 6 => some notEqual
      | _ => none
  | .unsigned =>
      match rel.toNat with
      | 9 | 1 => some equal
      | 10 | 2 => some below
      | 11 | 3 => some belowEqual
      | 12 | 4 => some above
      | 13 | 5 => some aboveEqual
      | 14 | 6 => some notEqual
      | _ => none

/-- `is_bt_relation` (ir/be/ia32/ia32_transform.c:2096-2102) -/
def isBtRelation (rel : Rel) (k : Kind) : Bool :=
  if rel = Rel.equal then true
  else if k = .signed then rel == Rel.lessGreater
  else rel &&& Rel.greaterEqual == Rel.greater

/-- What `get_flags_node` asks about a `Cmp`: its relation and mode, whether it compares
`(1 << n) & x` with zero, whether its right operand is zero, and which relations are possible
between the operands (`ir_get_possible_cmp_relations`). -/
structure CmpNode where
  rel : Rel
  kind : Kind
  bitTest : Bool
  rightNull : Bool
  possible : Rel

/-- Where the flags come from: a `bt`, or the transformed comparison. -/
inductive Source where
  | bt | cmp
  deriving DecidableEq, Repr

/-- The relation after adding outcomes that are impossible
(ir/be/ia32/ia32_transform.c:2154-2162) -/
def widen (rel possible : Rel) : Rel :=
  if rel &&& Rel.equal = 0 ∧ rel &&& Rel.lessGreater ≠ 0 then
    rel ||| (possible.negated &&& Rel.lessGreater)
  else rel

/-- `get_flags_node` for a `Cmp` (ir/be/ia32/ia32_transform.c:2104-2171); the mode of a bit test is
an integer mode.  `rel`, `rightNull` and `possible` of the last part are read after the
transformation of the comparison, which may exchange its operands. -/
def flagsNode (useBt : Bool) (before after : CmpNode) : Option (Source × Cc) :=
  if useBt && isBtRelation before.rel before.kind && before.bitTest then
    some (.bt, if before.rel &&& Rel.equal ≠ 0 then aboveEqual else below)
  else
    (relationToCc (widen after.rel after.possible) before.kind (!after.rightNull)).map (.cmp, ·)

/-- `get_flags_node` for a constant: the flags are set by `stc`
(ir/be/ia32/ia32_transform.c:2106-2114) -/
def constCc (isNull : Bool) : Cc := if isNull then aboveEqual else below

/-- `gen_Cmp` when a subtraction of the operands is found (ir/be/ia32/ia32_transform.c:3020-3035):
the comparison is turned around if the subtraction has its operands in the other order. -/
def turnCmp (swap : Bool) (rel : Rel) : Rel := if swap then rel.inversed else rel

/-- `ia32_determine_final_cc` (ir/be/ia32/ia32_emitter.c:554-583).  `own` and `flags` are
`ins_permuted` of the node that reads the flags and of the one that sets them. -/
def finalCc (cc : Cc) (own isTest flags : Bool) : Cc :=
  let cc := if own then negate cc else cc
  if isTest then cc else if flags then invert cc else cc

/-- A `Sub` or `Cmp`: its two operands, its size, and whether the operands have been exchanged. -/
structure FlagsNode where
  left : Nat
  right : Nat
  bits : Nat
  permuted : Bool

/-- `ia32_try_replace_flags` (ir/be/ia32/ia32_bearch.c:527-561): the new codes of the consumers, which
now read the flags of `available`. -/
def tryReplaceFlags (consumers : List Cc) (flags available : FlagsNode) : Option (List Cc) :=
  if flags.left ≠ available.right then none
  else if available.left ≠ flags.right then none
  else some (consumers.map invert)

/-- The instructions that `check_produces_zero_sign` knows; shifts with the immediate they shift
by, if any. -/
inductive Producer where
  | arith                        -- Adc Add And Dec Inc Neg Or Popcnt Sbb Sub Xor
  | shift (count : Option Nat)   -- ShlD ShrD Sar Shl Shr
  | mul
  | other
  deriving DecidableEq, Repr

/-- `produces_flag_t` (ir/be/ia32/ia32_optimize.c:79-83) -/
inductive Produces where
  | none | zeroSign | zeroInCarry
  deriving DecidableEq, Repr

/-- `check_produces_zero_sign` (ir/be/ia32/ia32_optimize.c:93-137); `resHigh` and `res` say which
result of the node is used. -/
def producesZeroSign (p : Producer) (res resHigh : Bool) : Produces :=
  match p with
  | .arith => if res then .zeroSign else .none
  | .shift none => .none
  | .shift (some c) => if c % 32 = 0 then .none else if res then .zeroSign else .none
  | .mul => if resHigh then .zeroInCarry else .none
  | .other => .none

/-- The users of the flags that are left alone, `peephole_ia32_Test`
(ir/be/ia32/ia32_optimize.c:404-419) -/
def userAllowed (p : Produces) (cc : Cc) : Bool :=
  cc == equal || cc == notEqual || (p == .zeroSign && (cc == sign || cc == notSign))

/-- The part of `peephole_ia32_Test` that removes a test of a value with itself
(ir/be/ia32/ia32_optimize.c:370-452): the new codes of the users of the flags.  `same` says that
producer and test have the same size. -/
def removeTest (p : Produces) (same : Bool) (users : List Cc) : Option (List Cc) :=
  if p = .none then none
  else if !users.all (userAllowed p) then none
  else if !same then none
  else if p = .zeroInCarry then some (users.map fun cc => if cc = equal then aboveEqual else below)
  else some users

/-- `reads_carry` (ir/be/ia32/ia32_finish.c:24-31) -/
def readsCarry (cc : Cc) : Bool :=
  let c2 := cc &&& ~~~negatedBit
  c2 == below || c2 == belowEqual || c2 == floatBelow || c2 == floatBelowEqual ||
  c2 == floatUnorderedBelowEqual || c2 == floatUnorderedBelow

/-- What replaces `a - b` in the register of `b`: `neg` and `add`, or `not`, `stc` and `adc`, the
carry of which is complemented afterwards; for `sbb` the borrow is complemented, then `not` and
`adc`. -/
inductive SubBy where
  | negAdd | notStcAdc | notCmcAdc
  deriving DecidableEq, Repr

/-- `ia32_transform_sub_to_neg_add` for registers of the general purpose class
(ir/be/ia32/ia32_finish.c:37-155); `users` are the codes of the users of the flags. -/
def subBy (isSbb : Bool) (users : List Cc) : SubBy :=
  if isSbb then .notCmcAdc
  else if users.any readsCarry then .notStcAdc
  else .negAdd

end Verif.Model.X86Cond
