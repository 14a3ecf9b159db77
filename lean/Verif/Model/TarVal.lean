import Verif.Model.Mode
/-!
# Model of `ir/tv/tv.c`: integer, reference and boolean target values

Hash-consed `ir_tarval *` pointers are modelled by their contents (mode and
value buffer); `a == b` on pointers is structural equality.  `Props/HashCons`
(C09) proves that interning makes this exact.

`none` as a result of a `tarval*` function means an assertion failure or
`panic`.  Floating point modes are not covered here (see `Model/FltCalc`).
-/
namespace Verif.Model

/-- Global state of the tarval module: `max_value_size` (strcalc.c:31,
`calc_buffer_size = 2 * m`) and `wrap_on_overflow` (tv.c:52). -/
structure TvEnv where
  m : Nat
  wrap : Bool
  /-- `get_reference_offset_mode`, irmode.c:419-423 -/
  offsetMode : Mode → Mode := fun md => md

/-- the state set up by `init_tarval_1` (tv.c:1330-1345): `init_fltcalc(128)`
calls `init_strcalc(132)`, rounded up to 136 bits = 17 bytes. -/
def TvEnv.default : TvEnv := { m := 17, wrap := true }

/-- `ir_tarval` objects: `tarval_bad`, `tarval_unknown`, `tarval_b_false/true`
and interned integer values with their value buffer. -/
inductive TarVal
  | bad
  | unknown
  | bool (b : Bool)
  | int (mode : Mode) (buf : List Nat)
  deriving DecidableEq, Repr

/-- `get_tarval_mode`; the special objects get their modes in `init_tarval_2`,
tv.c:1347-1357. -/
def TarVal.mode : TarVal → Mode
  | .bad => modeBAD
  | .unknown => modeANY
  | .bool _ => modeB
  | .int md _ => md

/-- `get_int_tarval`, tv.c:88-103 (the mode arithmetic assertion is met by
all callers below). -/
def getIntTarval (v : List Nat) (md : Mode) : TarVal :=
  .int md (if md.signed then scSignExtend v md.bits else scZeroExtend v md.bits)

/-- `is_overflow`, tv.c:105-118. -/
def isOverflow (v : List Nat) (md : Mode) : Bool :=
  if scHighestSetBit v ≥ (md.bits : Int) - (if md.signed then 1 else 0) then
    !md.signed || decide (scHighestClearBit v ≥ (md.bits : Int) - 1)
  else false

/-- `get_int_tarval_overflow`, tv.c:121-128. -/
def getIntTarvalOverflow (E : TvEnv) (v : List Nat) (md : Mode) : TarVal :=
  if !E.wrap && isOverflow v md then .bad else getIntTarval v md

/-- `mode->null` as initialised by `init_mode_values`, tv.c:469-470. -/
def modeNull (E : TvEnv) (md : Mode) : TarVal := getIntTarval (scZero (2 * E.m)) md

/-- `sc_set_bit_at(buf, 0)` on a buffer, strcalc.h:236-240. -/
def scSetBit0 : List Nat → List Nat
  | [] => []
  | b :: bs => (b ||| 1) :: bs

/-- `mode->one`, tv.c:469-472. -/
def modeOne (E : TvEnv) (md : Mode) : TarVal := getIntTarval (scSetBit0 (scZero (2 * E.m))) md

/-- `mode->min`, tv.c:465-466. -/
def modeMin (E : TvEnv) (md : Mode) : TarVal := getIntTarval (scMinFromBits (2 * E.m) md.bits md.signed) md

/-- `mode->max`, tv.c:467-468. -/
def modeMax (E : TvEnv) (md : Mode) : TarVal := getIntTarval (scMaxFromBits (2 * E.m) md.bits md.signed) md

/-- `mode->all_one`, tv.c:462-463. -/
def modeAllOne (E : TvEnv) (md : Mode) : TarVal := getIntTarval (scMaxFromBits (2 * E.m) md.bits false) md

/-- `tarval_is_null`, tv.c:510-513, integer modes. -/
def tarvalIsNull (E : TvEnv) (t : TarVal) : Bool := decide (t = modeNull E t.mode ∧ t ≠ .bad)
/-- `tarval_is_one`, tv.c:515-518. -/
def tarvalIsOne (E : TvEnv) (t : TarVal) : Bool := decide (t = modeOne E t.mode ∧ t ≠ .bad)
/-- `tarval_is_all_one`, tv.c:520-523. -/
def tarvalIsAllOne (E : TvEnv) (t : TarVal) : Bool := decide (t = modeAllOne E t.mode ∧ t ≠ .bad)

/-- `tarval_is_negative`, tv.c:488-508; `none` = panic. -/
def tarvalIsNegative (E : TvEnv) : TarVal → Option Bool
  | .int md v =>
      if !md.signed then some false
      else match modeNull E md with
        | .int _ z => some (scComp v z == Rel.less)
        | _ => none
  | _ => none

/-- `tarval_cmp`, tv.c:540-571; `none` = panic. -/
def tarvalCmp (a b : TarVal) : Option Rel :=
  if a = .unknown ∨ b = .unknown then some Rel.true
  else if a = .bad ∨ b = .bad ∨ a.mode ≠ b.mode then some Rel.false
  else match a, b with
    | .int _ x, .int _ y => if a = b then some Rel.equal else some (scComp x y)
    | .bool x, .bool y =>
        if a = b then some Rel.equal else if x then some Rel.greater else some Rel.less
    | _, _ => none

/-- `tarval_convert_to`, tv.c:573-667, for non-float source and destination. -/
def tarvalConvertTo (E : TvEnv) (src : TarVal) (dst : Mode) : TarVal :=
  if src.mode = dst then src
  else match src with
    | .int md v =>
        if md.sort = .intNumber then
          if dst.sort = .reference ∨ dst.sort = .intNumber then getIntTarvalOverflow E v dst else .bad
        else if md.sort = .reference then
          if dst.twos then
            getIntTarvalOverflow E
              (if md.signed then scSignExtend v md.bits else scZeroExtend v md.bits) dst
          else .bad
        else .bad
    | _ => .bad

/-- `tarval_not`, tv.c:695-705. -/
def tarvalNot : TarVal → Option TarVal
  | .bool b => some (.bool (!b))
  | .int md v => if md.twos then some (getIntTarval (scNot v) md) else none
  | _ => none

/-- `tarval_neg`, tv.c:707-730. -/
def tarvalNeg (E : TvEnv) : TarVal → Option TarVal
  | .int md v => if md.twos then some (getIntTarvalOverflow E (scNeg v) md) else none
  | _ => none

/-- the switch common to `tarval_add`/`tarval_sub`/`tarval_mul` on operands of
equal mode, tv.c:808-834, 783-806, 813-833. -/
def tvArith (E : TvEnv) (op : List Nat → List Nat → List Nat) (a b : TarVal) (md : Mode) : Option TarVal :=
  match md.sort with
  | .reference | .intNumber =>
      match a, b with
      | .int _ x, .int _ y => some (getIntTarvalOverflow E (op x y) md)
      | _, _ => none
  | .floatNumber => none
  | _ => some .bad

/-- `tarval_add`, tv.c:732-765. -/
def tarvalAdd (E : TvEnv) (a b : TarVal) : Option TarVal :=
  let (a, b) :=
    if a.mode.sort = .reference ∧ a.mode ≠ b.mode then (a, tarvalConvertTo E b a.mode)
    else if b.mode.sort = .reference ∧ b.mode ≠ a.mode then (tarvalConvertTo E a b.mode, b)
    else (a, b)
  if a.mode ≠ b.mode then none else tvArith E scAdd a b a.mode

/-- `tarval_sub`, tv.c:759-807. -/
def tarvalSub (E : TvEnv) (a b : TarVal) : Option TarVal :=
  if a.mode.sort = .reference then
    if b.mode.sort = .reference then
      let dst := E.offsetMode a.mode
      if E.offsetMode b.mode ≠ dst then none
      else tvArith E scSub (tarvalConvertTo E a dst) (tarvalConvertTo E b dst) dst
    else tvArith E scSub a (tarvalConvertTo E b a.mode) a.mode
  else if a.mode ≠ b.mode then none
  else tvArith E scSub a b a.mode

/-- `tarval_mul`, tv.c:809-834. -/
def tarvalMul (E : TvEnv) (a b : TarVal) : Option TarVal :=
  if a.mode ≠ b.mode then none else tvArith E (scMul E.m) a b a.mode

/-- `tarval_divmod`, tv.c:881-897; returns `(quotient, remainder)`, for a zero
divisor `tarval_bad` and no remainder. -/
def tarvalDivmod (E : TvEnv) (a b : TarVal) : Option (TarVal × Option TarVal) :=
  if a.mode ≠ b.mode then none
  else match a, b with
    | .int md x, .int _ y =>
        if !md.twos then none
        else if b = modeNull E md then some (.bad, none)
        else (scDivmod x y).map fun r => (getIntTarval r.1 md, some (getIntTarval r.2.1 md))
    | _, _ => none

/-- `tarval_div`, tv.c:836-863 (`sc_div`, strcalc.c:794-798). -/
def tarvalDiv (E : TvEnv) (a b : TarVal) : Option TarVal :=
  if a.mode ≠ b.mode then none
  else match a, b with
    | .int md x, .int _ y =>
        if !md.twos then none
        else if b = modeNull E md then some .bad
        else (scDivmod x y).map fun r => getIntTarval r.1 md
    | _, _ => none

/-- `tarval_mod`, tv.c:867-879 (`sc_mod`, strcalc.c:800-804). -/
def tarvalMod (E : TvEnv) (a b : TarVal) : Option TarVal :=
  if a.mode ≠ b.mode then none
  else match a, b with
    | .int md x, .int _ y =>
        if !md.twos then none
        else if b = modeNull E md then some .bad
        else (scDivmod x y).map fun r => getIntTarval r.2.1 md
    | _, _ => none

/-- `tarval_abs`, tv.c:899-904. -/
def tarvalAbs (E : TvEnv) (a : TarVal) : Option TarVal :=
  match tarvalIsNegative E a with
  | none => none
  | some true => tarvalNeg E a
  | some false => some a

/-- the common shape of the bitwise operations, tv.c:907-974. -/
def tvBitwise (bop : Bool → Bool → Bool) (op : List Nat → List Nat → List Nat) (a b : TarVal) : Option TarVal :=
  if a.mode ≠ b.mode then none
  else match a, b with
    | .bool x, .bool y => some (.bool (bop x y))
    | .int md x, .int _ y => if md.twos then some (getIntTarval (op x y) md) else none
    | _, _ => none

/-- `tarval_and`, tv.c:906-917: `a == tarval_b_false ? a : b` on booleans. -/
def tarvalAnd : TarVal → TarVal → Option TarVal := tvBitwise (fun a b => if a = false then a else b) scAnd
/-- `tarval_andnot`, tv.c:919-930. -/
def tarvalAndNot : TarVal → TarVal → Option TarVal :=
  tvBitwise (fun a b => if a = true ∧ b = false then true else false) scAndNot
/-- `tarval_or`, tv.c:932-943. -/
def tarvalOr : TarVal → TarVal → Option TarVal := tvBitwise (fun a b => if a = true then a else b) scOr
/-- `tarval_ornot`, tv.c:945-956. -/
def tarvalOrNot : TarVal → TarVal → Option TarVal :=
  tvBitwise (fun a b => if a = true ∨ b = false then true else false) scOrNot
/-- `tarval_eor`, tv.c:958-969. -/
def tarvalEor : TarVal → TarVal → Option TarVal := tvBitwise (fun a b => if a = b then false else true) scXor

/-- the shift amount passed to `sc_shl`/`sc_shr`/`sc_shrs` by the tarval shift
functions, tv.c:971-990, 1007-1029, 1049-1068, followed by `sc_val_to_long`,
the assertion `shift_count >= 0` and the conversion of `long` to `unsigned`
(strcalc.c:837-839, 887-889, 949-951). -/
def tvShiftAmount (E : TvEnv) (md : Mode) (b : List Nat) : Option Nat :=
  let t := if md.modulo ≠ 0 then (scDivmod b (scFromUlong (2 * E.m) md.modulo)).map (·.2.1) else some b
  match t with
  | none => none
  | some t =>
      let c := scToLong t
      if c < 0 then none else some (c.toNat % 2 ^ 32)

/-- `tarval_shl`, tv.c:971-990. -/
def tarvalShl (E : TvEnv) (a b : TarVal) : Option TarVal :=
  match a, b with
  | .int md x, .int mb y =>
      if md.twos && mb.twos then
        (tvShiftAmount E md y).map fun c => getIntTarval (scShlI x c) md
      else none
  | _, _ => none

/-- `tarval_shl_unsigned`, tv.c:992-1005. -/
def tarvalShlUnsigned (a : TarVal) (b : Nat) : Option TarVal :=
  match a with
  | .int md x =>
      if md.twos then
        some (getIntTarval (scShlI x (if md.modulo ≠ 0 then b % md.modulo else b)) md)
      else none
  | _ => none

/-- `tarval_shr`, tv.c:1007-1029. -/
def tarvalShr (E : TvEnv) (a b : TarVal) : Option TarVal :=
  match a, b with
  | .int md x, .int mb y =>
      if md.twos && mb.twos then
        (tvShiftAmount E md y).map fun c => getIntTarval (scShrI (scZeroExtend x md.bits) c).1 md
      else none
  | _, _ => none

/-- `tarval_shr_unsigned`, tv.c:1031-1047. -/
def tarvalShrUnsigned (a : TarVal) (b : Nat) : Option TarVal :=
  match a with
  | .int md x =>
      if md.twos then
        some (getIntTarval (scShrI (scZeroExtend x md.bits) (if md.modulo ≠ 0 then b % md.modulo else b)).1 md)
      else none
  | _ => none

/-- `tarval_shrs`, tv.c:1049-1068. -/
def tarvalShrs (E : TvEnv) (a b : TarVal) : Option TarVal :=
  match a, b with
  | .int md x, .int mb y =>
      if md.twos && mb.twos then
        match tvShiftAmount E md y with
        | none => none
        | some c => (scShrsI x c md.bits).map fun r => getIntTarval r.1 md
      else none
  | _, _ => none

/-- `tarval_shrs_unsigned`, tv.c:1070-1083. -/
def tarvalShrsUnsigned (a : TarVal) (b : Nat) : Option TarVal :=
  match a with
  | .int md x =>
      if md.twos then
        (scShrsI x (if md.modulo ≠ 0 then b % md.modulo else b) md.bits).map fun r => getIntTarval r.1 md
      else none
  | _ => none

/-- `new_tarval_from_long`, tv.c:226-232. -/
def newTarvalFromLong (E : TvEnv) (l : Int) (md : Mode) : Option TarVal :=
  if md.twos then some (getIntTarval (scFromLong (2 * E.m) l) md) else none

/-- `tarval_is_long`, tv.c:291-313 (`sizeof(long) == 8`). -/
def tarvalIsLong (E : TvEnv) : TarVal → Bool
  | .int md v =>
      if !md.twos then false
      else if md.sizeBytes ≤ 8 then true
      else if scComp v (scMaxFromBits (2 * E.m) 64 md.signed) = Rel.greater then false
      else if md.signed ∧ scComp v (scSignExtend (scMinFromBits (2 * E.m) 64 true) 64) = Rel.less then false
      else true
  | _ => false

/-- `get_tarval_long`, tv.c:315-319; `none` = assertion failure. -/
def getTarvalLong (E : TvEnv) (t : TarVal) : Option Int :=
  if tarvalIsLong E t then
    match t with
    | .int _ v => some (scToLong v)
    | _ => none
  else none

/-- `tarval_is_uint64`, tv.c:321-333. -/
def tarvalIsUint64 (E : TvEnv) : TarVal → Bool
  | .int md v =>
      if !md.twos then false
      else if md.sizeBytes ≤ 8 then true
      else decide (scComp v (scMaxFromBits (2 * E.m) 64 false) &&& Rel.lessEqual ≠ 0#4)
  | _ => false

/-- `get_tarval_uint64`, tv.c:335-339. -/
def getTarvalUint64 (E : TvEnv) (t : TarVal) : Option Nat :=
  if tarvalIsUint64 E t then
    match t with
    | .int _ v => some (scToUint64 v)
    | _ => none
  else none

/-- `get_tarval_sub_bits`, tv.c:1191-1202, integer modes. -/
def getTarvalSubBits : TarVal → Nat → Option Nat
  | .int md v, ofs => if md.twos then some (scSubBits v md.bits ofs) else none
  | _, _ => none

/-- `get_tarval_popcount`, tv.c:1204-1209. -/
def getTarvalPopcount : TarVal → Option Nat
  | .int md v => if md.twos then some (scPopcount v md.bits) else none
  | _ => none

/-- loop of `get_tarval_lowest_bit`, tv.c:1215-1220; `fuel` iterations left at index `i`. -/
def lowestBitLoop (v : List Nat) (bits : Nat) : Nat → Nat → Int
  | 0, _ => -1
  | fuel + 1, i =>
      let x := scSubBits v bits i
      if x ≠ 0 then ((byteLow 8 x + i * 8 : Nat) : Int) else lowestBitLoop v bits fuel (i + 1)

/-- `get_tarval_lowest_bit`, tv.c:1211-1223.  For sizes that are not a
multiple of 8 the `int l` is `-1` and the loop does not run. -/
def getTarvalLowestBit : TarVal → Option Int
  | .int md v =>
      if md.twos then some (if md.bits % 8 ≠ 0 then -1 else lowestBitLoop v md.bits md.sizeBytes 0) else none
  | _ => none

/-- loop of `get_tarval_highest_bit`, tv.c:1229-1234, counting down. -/
def highestBitLoop (v : List Nat) (bits : Nat) : Nat → Int
  | 0 => -1
  | i + 1 =>
      let x := scSubBits v bits i
      if x ≠ 0 then ((byteHigh x + i * 8 : Nat) : Int) else highestBitLoop v bits i

/-- `get_tarval_highest_bit`, tv.c:1225-1237. -/
def getTarvalHighestBit : TarVal → Option Int
  | .int md v =>
      if md.twos then some (if md.bits % 8 ≠ 0 then -1 else highestBitLoop v md.bits md.sizeBytes) else none
  | _ => none

/-- loop of `get_tarval_magnitude`, tv.c:1246-1250; `nlz` of a 32-bit value,
`32 - nlz(x) = log2 x + 1` for `x ≠ 0`. -/
def magnitudeLoop (v : List Nat) (bits ext : Nat) : Nat → Nat
  | 0 => 1
  | i + 1 =>
      let x := scSubBits v bits i
      if x ≠ ext then i * 8 + (Nat.log2 (x ^^^ ext) + 1) + 1 else magnitudeLoop v bits ext i

/-- `get_tarval_magnitude`, tv.c:1239-1254, for sizes that are a multiple of 8
(otherwise the byte loop starts at `2^32 - 2`; not modelled: `none`). -/
def getTarvalMagnitude : TarVal → Option Nat
  | .int md v =>
      if md.twos && md.bits % 8 == 0 then
        some (magnitudeLoop v md.bits (if scGetBitAt v (md.bits - 1) then 255 else 0) md.sizeBytes)
      else none
  | _ => none

/-- `tarval_in_range`, tv.c:1365-1375; `none` = assertion failure. -/
def tarvalInRange (mn v mx : TarVal) : Option Bool :=
  match tarvalCmp mn mx with
  | none => none
  | some r =>
    if r &&& Rel.lessEqual = 0#4 then none
    else if v = mn then some true
    else if mn = mx then some false
    else match tarvalCmp mn v, tarvalCmp v mx with
      | some r1, some r2 => some (decide (r1 &&& Rel.lessEqual ≠ 0#4) && decide (r2 &&& Rel.lessEqual ≠ 0#4))
      | _, _ => none

/-- base selection by prefix in `new_tarval_from_str_int`, tv.c:172-190. -/
def strBase : List Nat → Nat × List Nat
  | c :: d :: ds =>
      if c = 48 then
        if d = 120 ∨ d = 88 then (16, ds)
        else if d = 98 ∨ d = 66 then (2, ds)
        else (8, d :: ds)
      else (10, c :: d :: ds)
  | s => (10, s)

/-- `new_tarval_from_str_int`, tv.c:158-200; `none` = assertion.
Characters are ASCII codes. -/
def newTarvalFromStrInt (E : TvEnv) (str : List Nat) (md : Mode) : Option TarVal :=
  match str with
  | [] => none
  | c :: cs =>
      let (neg, s) := if c = 45 then (true, cs) else if c = 43 then (false, cs) else (false, str)
      let (base, s) := strBase s
      if s = [] then none
      else match scFromStr E.m neg base s with
        | none => some .bad
        | some v => some (getIntTarvalOverflow E v md)

/-- `new_integer_tarval_from_str`, tv.c:146-156. -/
def newIntegerTarvalFromStr (E : TvEnv) (str : List Nat) (neg : Bool) (base : Nat) (md : Mode) : TarVal :=
  match scFromStr E.m neg base str with
  | none => .bad
  | some v => getIntTarvalOverflow E v md

end Verif.Model
