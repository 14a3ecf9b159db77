import Verif.Model.Relation
/-!
# Model of the soft floats (`ir/tv/fltcalc.c`)

The exponent and the mantissa of `fp_value` are buffers of `value_size` = 34 bytes (`init_fltcalc(128)`, ir/tv/tv.c:1336 and
ir/tv/fltcalc.c:1052-1083).  They are represented by integers: the exponent, which may become negative, by an `Int`, the mantissa by a `Nat`.
Every `sc_*` call is represented by the integer operation it computes (`scAdd_value`, `scMul_value`, `scShrI_value`, ... in
`Lemmas/StrCalc*.lean`); this presupposes that mantissas stay below `2^272`, i.e. `mantissa_size <= 112`, and exponents far below `2^34`.
`sc_is_zero(x, value_size)` tests only the low `value_size` = 34 *bits* of `x`, and is modelled so for mantissas.

`char` is taken to be signed (`normalize` stores negative numbers in a `char`).  Aliasing of result and operands is not modelled.
-/
namespace Verif.Model.Flt
open Verif.Model

/-- `value_size` of ir/tv/fltcalc.c:48, used as a number of bits in the calls of `sc_is_zero` -/
def valueSize : Nat := 34

/-- `value_class_t`, ir/tv/fltcalc.h:35-41 -/
inductive Cls
  | normal | zero | subnormal | inf | nan
  deriving DecidableEq, Repr

/-- `float_descriptor_t`, ir/ir/irmode_t.h:58-62: `exponent_size`, `mantissa_size`, `explicit_one` -/
structure Desc where
  expSize : Nat
  mantSize : Nat
  one : Bool
  deriving DecidableEq, Repr

/-- `desc->mantissa_size - desc->explicit_one`, e.g. ir/tv/fltcalc.c:96 -/
def Desc.em (d : Desc) : Nat := d.mantSize - (if d.one then 1 else 0)

/-- `(1 << (desc->exponent_size - 1)) - 1`, e.g. ir/tv/fltcalc.c:566 -/
def Desc.bias (d : Desc) : Nat := 2 ^ (d.expSize - 1) - 1

/-- `struct fp_value`, ir/tv/fltcalc.c:31-39; the mantissa includes the leading one and two rounding bits -/
structure Fp where
  desc : Desc
  clss : Cls
  sign : Bool
  exp : Int
  mant : Nat
  deriving DecidableEq, Repr

/-- `fc_rounding_mode_t`, ir/tv/fltcalc.h:25-30 -/
inductive Rnd
  | nearest | positive | negative | zero
  deriving DecidableEq, Repr

/-- `sc_get_highest_set_bit`, ir/tv/strcalc.c:496-504, on the value of the buffer: -1 for 0 -/
def highest (m : Nat) : Int := if m = 0 then -1 else (Nat.log2 m : Int)

/-- `fc_get_zero`, ir/tv/fltcalc.c:786-793 -/
def getZero (d : Desc) (sign : Bool) : Fp := ⟨d, .zero, sign, 0, 0⟩

/-- `fc_get_max`, ir/tv/fltcalc.c:795-804 -/
def getMax (d : Desc) (sign : Bool) : Fp := ⟨d, .normal, sign, 2 ^ d.expSize - 2, (2 ^ (d.em + 1) - 1) * 4⟩

/-- `fc_get_small`, ir/tv/fltcalc.c:806-815 -/
def getSmall (d : Desc) : Fp := ⟨d, .normal, false, 1, 2 ^ (d.em + 2)⟩

/-- `fc_get_epsilon`, ir/tv/fltcalc.c:817-828 -/
def getEpsilon (d : Desc) : Fp := ⟨d, .normal, false, (d.bias : Int) - d.em, 2 ^ (d.em + 2)⟩

/-- `fc_get_inf`, ir/tv/fltcalc.c:868-878 -/
def getInf (d : Desc) (sign : Bool) : Fp := ⟨d, .inf, sign, 2 ^ d.expSize - 1, 2 ^ (d.em + 2)⟩

/-- `fc_get_qnan`, ir/tv/fltcalc.c:282-285: `fc_get_nan` (830-866) without payload, not signaling -/
def getQNan (d : Desc) : Fp := ⟨d, .nan, false, 2 ^ d.expSize - 1, 2 ^ (d.em + 1)⟩

/-- the variables of `normalize` -/
structure NState where
  mant : Nat
  exp : Int
  sticky : Bool
  exact : Bool
  deriving DecidableEq, Repr

/-- ir/tv/fltcalc.c:97-130: move the leading one to bit `em + 2` -/
def alignStep (em : Nat) (s : NState) : NState :=
  let hsb : Int := 2 + (em : Int) - highest s.mant - 1
  if hsb = 2 + (em : Int) then { s with exp := 0 }
  else if hsb < -1 then
    let k := (-hsb - 1).toNat
    let carry := decide (s.mant % 2 ^ k ≠ 0)
    ⟨s.mant / 2 ^ k, s.exp + k, s.sticky || carry, s.exact && !carry⟩
  else
    let k := (hsb + 1).toNat
    ⟨s.mant * 2 ^ k, s.exp - k, s.sticky, s.exact⟩

/-- ir/tv/fltcalc.c:132-149: exponent underflow; the second component is the class -/
def underflowStep (s : NState) : NState × Cls :=
  if s.exp ≤ 0 then
    let k := (1 - s.exp).toNat
    let carry := decide (s.mant % 2 ^ k ≠ 0)
    (⟨s.mant / 2 ^ k, 0, s.sticky || carry, s.exact && !carry⟩, .subnormal)
  else (s, .normal)

/-- ir/tv/fltcalc.c:154: `sc_sub_bits(mant, em + 2, 0) & 7`; `sc_sub_bits` masks the byte when it takes it for the last one -/
def lastBits (em mant : Nat) : Nat :=
  if (em + 2) / 8 = 1 ∧ (em + 2) % 8 ≠ 0 then mant % 2 ^ ((em + 2) % 8) % 8 else mant % 8

/-- ir/tv/fltcalc.c:158-177: round up? -/
def roundUp (rm : Rnd) (sign sticky : Bool) (lsb : Nat) : Bool :=
  let guard := decide (lsb / 2 % 2 = 1)
  let round := decide (lsb % 2 = 1)
  match rm with
  | .nearest => guard && (sticky || round || decide (lsb / 4 ≠ 0))
  | .positive => !sign && (guard || round || sticky)
  | .negative => sign && (guard || round || sticky)
  | .zero => false

/-- ir/tv/fltcalc.c:179-184: what is added to the mantissa -/
def roundDelta (rm : Rnd) (sign sticky : Bool) (lsb : Nat) : Int :=
  let guard := lsb / 2 % 2
  let round := lsb % 2
  if roundUp rm sign sticky lsb then
    let guard' := (if round ≠ guard then 2 else 0)
    (if round ≠ 0 ∨ guard' ≠ 0 then 0 else 4) + (guard' : Nat) + (round : Nat)
  else -((2 * guard + round : Nat) : Int)

/-- ir/tv/fltcalc.c:151-191 -/
def roundStep (rm : Rnd) (em : Nat) (sign : Bool) (s : NState) : NState :=
  let delta := roundDelta rm sign s.sticky (lastBits em s.mant)
  { s with mant := ((s.mant : Int) + delta).toNat, exact := s.exact && decide (delta = 0) }

/-- ir/tv/fltcalc.c:193-213 -/
def adjustStep (em : Nat) (s : NState) (c : Cls) : NState × Cls :=
  let c := if s.mant % 2 ^ valueSize = 0 ∧ c = .subnormal then .zero else c
  let hsb : Int := 2 + (em : Int) - highest s.mant - 1
  if c ≠ .subnormal ∧ hsb < -1 then
    ({ s with mant := s.mant / 2, exp := s.exp + 1, exact := s.exact && decide (s.mant % 2 = 0) }, c)
  else if c = .subnormal ∧ hsb = -1 then ({ s with exp := s.exp + 1 }, .normal)
  else (s, c)

/-- `normalize`, ir/tv/fltcalc.c:93-249; returns the value and whether it is exact -/
def normalize (rm : Rnd) (d : Desc) (sign : Bool) (exp : Int) (mant : Nat) (sticky : Bool) : Fp × Bool :=
  let s0 := alignStep d.em ⟨mant, exp, sticky, true⟩
  let s1 := underflowStep s0
  let s2 := roundStep rm d.em sign s1.1
  let s3 := adjustStep d.em s2 s1.2
  if s3.1.exp < 2 ^ d.expSize - 1 then (⟨d, s3.2, sign, s3.1.exp, s3.1.mant⟩, s3.1.exact)
  else match rm with
    | .nearest | .positive => (getInf d sign, s3.1.exact)
    | .negative | .zero => (getMax d sign, s3.1.exact)

/-- `handle_NAN`, ir/tv/fltcalc.c:260-280 (`smaller_nan`, 251-254) -/
def handleNan (a b : Fp) : Option Fp :=
  if a.clss = .nan then
    if b.clss = .nan ∧ b.mant < a.mant then some b else some a
  else if b.clss = .nan then some b
  else none

/-- `_fadd`, ir/tv/fltcalc.c:290-390; `a` has the larger exponent; the second component is `fc_exact`, which is true before the call -/
def fadd (rm : Rnd) (a b : Fp) : Fp × Bool :=
  let sign := a.sign ^^ b.sign
  if sign ∧ a.clss = .inf ∧ b.clss = .inf then (getQNan a.desc, false)
  else
    let diff := a.exp - b.exp
    let resSign :=
      if sign ∧ diff = 0 then
        if b.mant < a.mant then a.sign
        else if a.mant = b.mant then decide (rm = .negative)
        else b.sign
      else a.sign
    if a.clss = .zero ∨ b.clss = .inf then ({ b with sign := resSign }, decide (b.clss = .normal))
    else if b.clss = .zero ∨ a.clss = .inf then ({ a with sign := resSign }, decide (a.clss = .normal))
    else
      let diff := if b.clss = .subnormal ∧ a.clss ≠ .subnormal then diff - 1 else diff
      let k := diff.toNat
      let sticky := decide (b.mant % 2 ^ k ≠ 0)
      let temp := b.mant / 2 ^ k
      let temp := if sticky && sign then temp + 1 else temp
      let m := if sign then (if a.mant < temp then temp - a.mant else a.mant - temp) else a.mant + temp
      let m := if a.clss = .subnormal ∧ b.clss = .subnormal then 2 * m else m
      let r := normalize rm a.desc resSign a.exp m sticky
      (r.1, !sticky && r.2)

/-- `fc_add`, ir/tv/fltcalc.c:1086-1097 -/
def fcAdd (rm : Rnd) (a b : Fp) : Fp × Bool :=
  match handleNan a b with
  | some r => (r, false)
  | none => if a.exp < b.exp then fadd rm b a else fadd rm a b

/-- `fc_neg`, ir/tv/fltcalc.c:1114-1119 -/
def fcNeg (a : Fp) : Fp := { a with sign := !a.sign }

/-- `fc_sub`, ir/tv/fltcalc.c:1099-1112 -/
def fcSub (rm : Rnd) (a b : Fp) : Fp × Bool :=
  match handleNan a b with
  | some r => (r, false)
  | none => if a.exp < b.exp then fadd rm (fcNeg b) a else fadd rm a (fcNeg b)

/-- `fc_mul`, ir/tv/fltcalc.c:392-467 -/
def fcMul (rm : Rnd) (a b : Fp) : Fp × Bool :=
  match handleNan a b with
  | some r => (r, false)
  | none =>
    let resSign := a.sign ^^ b.sign
    if a.clss = .zero then
      if b.clss = .inf then (getQNan a.desc, false) else ({ a with sign := resSign }, true)
    else if b.clss = .zero then
      if a.clss = .inf then (getQNan a.desc, false) else ({ b with sign := resSign }, true)
    else if a.clss = .inf then ({ a with sign := resSign }, false)
    else if b.clss = .inf then ({ b with sign := resSign }, false)
    else
      let exp := a.exp + b.exp - a.desc.bias
      let exp := if (decide (a.clss = .subnormal) ^^ decide (b.clss = .subnormal)) then exp + 1 else exp
      let k := a.desc.em + 2
      let sticky := decide (a.mant * b.mant % 2 ^ k ≠ 0)
      let r := normalize rm a.desc resSign exp (a.mant * b.mant / 2 ^ k) sticky
      (r.1, !sticky && r.2)

/-- `fc_div`, ir/tv/fltcalc.c:469-549 -/
def fcDiv (rm : Rnd) (a b : Fp) : Fp × Bool :=
  match handleNan a b with
  | some r => (r, false)
  | none =>
    let resSign := a.sign ^^ b.sign
    if a.clss = .zero then
      if b.clss = .zero then (getQNan a.desc, false) else ({ a with sign := resSign }, true)
    else if b.clss = .inf then
      if a.clss = .inf then (getQNan a.desc, false) else (getZero a.desc resSign, false)
    else if a.clss = .inf then ({ a with sign := resSign }, false)
    else if b.clss = .zero then (getInf a.desc resSign, false)
    else
      let exp := a.exp - b.exp + ((2 ^ (a.desc.expSize - 1) : Nat) : Int) - 2
      let exp := if (decide (a.clss = .subnormal) ^^ decide (b.clss = .subnormal)) then exp + 1 else exp
      let dividend := a.mant * 2 ^ (a.desc.em + 2)
      let divisor := b.mant / 2
      let sticky := decide (dividend % divisor ≠ 0)
      let r := normalize rm a.desc resSign exp (dividend / divisor) sticky
      (r.1, !sticky && r.2)

/-- `fc_int`, ir/tv/fltcalc.c:551-599 -/
def fcInt (a : Fp) : Fp :=
  let expVal := a.exp - a.desc.bias
  if expVal < 0 then getZero a.desc a.sign
  else if expVal > (a.desc.em : Int) then a
  else
    let e := expVal.toNat
    -- the mask is `(2^(1+e) - 1) << (em - e + 2)`
    { a with mant := a.mant &&& ((2 ^ (1 + e) - 1) * 2 ^ (a.desc.em - e + 2)) }

/-- `fc_val_from_bytes`, ir/tv/fltcalc.c:615-660, on the bit pattern of the buffer -/
def fromPattern (rm : Rnd) (d : Desc) (p : Nat) : Fp :=
  let frac := p % 2 ^ d.mantSize
  let exp := p / 2 ^ d.mantSize % 2 ^ d.expSize
  let sign := p.testBit (d.expSize + d.mantSize)
  let mant := frac * 4
  if exp = 0 then
    if mant % 2 ^ valueSize = 0 then ⟨d, .zero, sign, exp, mant⟩
    else (normalize rm d sign exp (mant * 2) false).1
  else if exp = 2 ^ d.expSize - 1 then
    if mant % 2 ^ (d.mantSize + 2 - (if d.one then 1 else 0)) = 0 then
      ⟨d, .inf, sign, exp, if d.one then mant else mant ||| 2 ^ (2 + d.mantSize)⟩
    else ⟨d, .nan, sign, exp, mant⟩
  else (normalize rm d sign exp (if d.one then mant else mant ||| 2 ^ (2 + d.mantSize)) false).1

/-- `pack`, ir/tv/fltcalc.c:57-86, for a non-negative exponent -/
def pack (v : Fp) : Nat :=
  let low := v.mant / 4 % 2 ^ v.desc.mantSize
  let both := (low ||| v.exp.toNat * 2 ^ v.desc.mantSize) % 2 ^ (v.desc.mantSize + v.desc.expSize)
  if v.sign then both ||| 2 ^ (v.desc.mantSize + v.desc.expSize) else both

/-- `fc_cast`, ir/tv/fltcalc.c:712-784 -/
def fcCast (rm : Rnd) (v : Fp) (dest : Desc) : Fp :=
  if v.desc = dest then v
  else match v.clss with
    | .nan =>
      let m := if dest.em < v.desc.em then v.mant / 2 ^ (v.desc.em - dest.em) else v.mant * 2 ^ (dest.em - v.desc.em)
      ⟨dest, .nan, v.sign, 2 ^ dest.expSize - 1, if dest.one then m ||| 2 ^ (dest.mantSize + 1) else m⟩
    | .inf => getInf dest v.sign
    | .zero => getZero dest v.sign
    | .subnormal | .normal =>
      let offset : Int := (dest.bias : Int) - v.desc.bias + ((dest.em : Int) - v.desc.em)
      (normalize rm dest v.sign (v.exp + offset) (if v.clss = .subnormal then v.mant * 2 else v.mant) false).1

/-- `fc_comp`, ir/tv/fltcalc.c:880-915; `same` is `val_a == val_b` (pointers) -/
def fcComp (same : Bool) (a b : Fp) : Rel :=
  if same then (if a.clss = .nan then Rel.unordered else Rel.equal)
  else if a.clss = .nan ∨ b.clss = .nan then Rel.unordered
  else if a.clss = .zero ∧ b.clss = .zero then Rel.equal
  else if a.sign ≠ b.sign then (if a.sign then Rel.less else Rel.greater)
  else
    let mul : Rel := if a.sign then Rel.lessGreater else Rel.false
    if a.clss = .inf then Rel.greater ^^^ mul
    else if b.clss = .inf then Rel.less ^^^ mul
    else
      let cmp (x y : Int) : Rel := if x < y then Rel.less else if x = y then Rel.equal else Rel.greater
      let rel := if cmp a.exp b.exp = Rel.equal then cmp a.mant b.mant else cmp a.exp b.exp
      if rel ≠ Rel.equal then rel ^^^ mul else rel

/-- `flt2int_result_t`, ir/tv/fltcalc.h -/
inductive Flt2Int
  | ok (v : Int) | negOverflow | posOverflow | bad
  deriving DecidableEq, Repr

/-- number of trailing zeros of a positive number -/
def trailing (m : Nat) : Nat := if m = 0 ∨ m % 2 = 1 then 0 else 1 + trailing (m / 2)
termination_by m
decreasing_by omega

/-- `sc_get_lowest_set_bit`, ir/tv/strcalc.c:516-525, on the value of the buffer: -1 for 0 -/
def lowest (m : Nat) : Int := if m = 0 then -1 else (trailing m : Int)

/-- `fc_flt2int`, ir/tv/fltcalc.c:1121-1172; `none` is the failing assertion of line 1139 -/
def flt2int (a : Fp) (bits : Nat) (signed : Bool) : Option Flt2Int :=
  match a.clss with
  | .zero => some (.ok 0)
  | .inf => some (if a.sign then .negOverflow else .posOverflow)
  | .nan => some .bad
  | .subnormal | .normal =>
    if a.sign ∧ !signed then some .negOverflow
    else
      let tgt := bits - (if signed then 1 else 0)
      let e := a.exp - a.desc.bias
      if e < 0 then none
      else if e > tgt ∨ (e = tgt ∧ (!signed ∨ !a.sign ∨ highest a.mant ≠ lowest a.mant)) then
        some (if a.sign then .negOverflow else .posOverflow)
      else
        let ms := a.desc.mantSize + 2
        let shift := e - (ms - (if a.desc.one then 1 else 0) : Nat)
        let tgt := if tgt < ms + 1 then ms + 1 else tgt + (if signed then 1 else 0)
        let r := if shift > 0 then a.mant * 2 ^ shift.toNat % 2 ^ tgt else a.mant / 2 ^ (-shift).toNat
        some (.ok (if a.sign then -(r : Int) else r))

end Verif.Model.Flt
