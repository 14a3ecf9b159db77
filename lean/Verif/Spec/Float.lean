/-!
# Specification: binary floating point numbers

A format has `E` exponent bits and `M` fraction bits; its smallest positive number is `2^(1-bias-M)` with `bias = 2^(E-1)-1`.  All finite
numbers are multiples of this number, so a magnitude is given as a natural number of such *quanta*.  Rationals are given as `N / D`.
-/
namespace Verif.Spec.Flt

/-- the exponent bias -/
def bias (E : Nat) : Nat := 2 ^ (E - 1) - 1

/-- a magnitude with at most `M + 1` significant bits -/
def Rep (M f : Nat) : Prop := ∃ s j, s < 2 ^ (M + 1) ∧ f = s * 2 ^ j

/-- the last place of the significand is zero; numbers below `2^M` quanta are subnormal, their last place is one quantum -/
def EvenSig (M f : Nat) : Prop := ∃ s j, s < 2 ^ (M + 1) ∧ (j = 0 ∨ 2 ^ M ≤ s) ∧ s % 2 = 0 ∧ f = s * 2 ^ j

/-- the distance of naturals -/
def dist (a b : Nat) : Nat := (a - b) + (b - a)

/-- `r` is `N / D` rounded to nearest, ties to even, without bound on the exponent -/
def Nearest (M N D r : Nat) : Prop :=
  Rep M r ∧ ∀ f, Rep M f → dist N (r * D) ≤ dist N (f * D) ∧ (f ≠ r → dist N (r * D) = dist N (f * D) → EvenSig M r)

/-- a datum of a format: the number of quanta of a finite one -/
inductive Num
  | nan
  | inf (neg : Bool)
  | fin (neg : Bool) (q : Nat)
  deriving DecidableEq, Repr

/-- the first magnitude beyond the largest finite number -/
def limit (E M : Nat) : Nat := 2 ^ (M + 2 ^ E - 2)

/-- a rounded magnitude, with overflow to infinity -/
def finish (E M : Nat) (neg : Bool) (r : Nat) : Num := if r < limit E M then .fin neg r else .inf neg

/-- the datum of a bit pattern; `one`: the leading bit of the significand is stored -/
def decode (E M : Nat) (one : Bool) (p : Nat) : Num :=
  let w := if one then M + 1 else M
  let frac := p % 2 ^ w
  let e := p / 2 ^ w % 2 ^ E
  let neg := p.testBit (E + w)
  if e = 2 ^ E - 1 then (if frac % 2 ^ M = 0 then .inf neg else .nan)
  else if e = 0 then .fin neg frac
  else .fin neg ((if one then frac else 2 ^ M + frac) * 2 ^ (e - 1))

/-- the signed number of quanta -/
def signed (neg : Bool) (q : Nat) : Int := if neg then -(q : Int) else q

/-- the sign of a sum: an exact zero is positive unless both operands are negative -/
def sumSign (na nb : Bool) (S : Int) : Bool := if S = 0 then na && nb else decide (S < 0)

/-- `N / D` quanta, correctly rounded to nearest, ties to even -/
def Rounds (E M : Nat) (neg : Bool) (N D : Nat) (r : Num) : Prop := ∃ m, Nearest M N D m ∧ r = finish E M neg m

/-- the IEEE 754 sum -/
def IsSum (E M : Nat) : Num → Num → Num → Prop
  | .nan, _, r => r = .nan
  | _, .nan, r => r = .nan
  | .inf s, .inf t, r => r = if s = t then .inf s else .nan
  | .inf s, .fin _ _, r => r = .inf s
  | .fin _ _, .inf t, r => r = .inf t
  | .fin s x, .fin t y, r => Rounds E M (sumSign s t (signed s x + signed t y)) (signed s x + signed t y).natAbs 1 r

/-- the negated datum -/
def Num.neg : Num → Num
  | .nan => .nan
  | .inf s => .inf !s
  | .fin s q => .fin (!s) q

/-- the IEEE 754 difference -/
def IsDiff (E M : Nat) (a b r : Num) : Prop := IsSum E M a b.neg r

/-- the IEEE 754 product; `1` is `2^(bias + M - 1)` quanta -/
def IsProd (E M : Nat) : Num → Num → Num → Prop
  | .nan, _, r => r = .nan
  | _, .nan, r => r = .nan
  | .inf s, .inf t, r => r = .inf (s ^^ t)
  | .inf s, .fin t y, r => r = if y = 0 then .nan else .inf (s ^^ t)
  | .fin s x, .inf t, r => r = if x = 0 then .nan else .inf (s ^^ t)
  | .fin s x, .fin t y, r => Rounds E M (s ^^ t) (x * y) (2 ^ (bias E + M - 1)) r

/-- the IEEE 754 quotient -/
def IsQuot (E M : Nat) : Num → Num → Num → Prop
  | .nan, _, r => r = .nan
  | _, .nan, r => r = .nan
  | .inf _, .inf _, r => r = .nan
  | .inf s, .fin t _, r => r = .inf (s ^^ t)
  | .fin s _, .inf t, r => r = .fin (s ^^ t) 0
  | .fin s x, .fin t y, r =>
    if y = 0 then r = (if x = 0 then .nan else .inf (s ^^ t))
    else Rounds E M (s ^^ t) (x * 2 ^ (bias E + M - 1)) y r

/-- the datum converted from the format `(E, M)` to the format `(E', M')` -/
def IsConv (E M E' M' : Nat) : Num → Num → Prop
  | .nan, r => r = .nan
  | .inf s, r => r = .inf s
  | .fin s x, r => Rounds E' M' s (x * 2 ^ (bias E' + M' - (bias E + M))) (2 ^ (bias E + M - (bias E' + M'))) r

/-- the numeric order; NaN is not ordered, the two zeros are equal -/
def Num.lt : Num → Num → Bool
  | .nan, _ => false
  | _, .nan => false
  | .inf s, .inf t => s && !t
  | .inf s, .fin _ _ => s
  | .fin _ _, .inf t => !t
  | .fin s x, .fin t y => decide (signed s x < signed t y)

/-- the integer part of a magnitude: `1` is `2^(bias + M - 1)` quanta -/
def truncate (E M q : Nat) : Nat := q / 2 ^ (bias E + M - 1)

end Verif.Spec.Flt
