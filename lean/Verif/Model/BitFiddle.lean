/-!
# Model of `ir/adt/bitfiddle.h`

`uint32_t`/`unsigned` values are naturals below `2^32`; each operation that can
leave that range is reduced explicitly.  Both preprocessor variants are
modelled: suffix `G` for `__GNUC__ >= 4`, suffix `P` for the portable code.  The
GNU builtins are taken by their documentation.  `none` = failed assertion.
-/
namespace Verif.Model

/-- `~x` on 32 bits. -/
def not32 (x : Nat) : Nat := 2 ^ 32 - 1 - x
/-- `x - y` on 32 bits, for `y ≤ 2^32`. -/
def sub32 (x y : Nat) : Nat := (x + 2 ^ 32 - y) % 2 ^ 32
/-- `x + y` on 32 bits. -/
def add32 (x y : Nat) : Nat := (x + y) % 2 ^ 32

/-- `popcount`, bitfiddle.h:26-38, portable code. -/
def popcountP (x : Nat) : Nat :=
  let x := sub32 x ((x >>> 1) &&& 0x55555555)
  let x := add32 (x &&& 0x33333333) ((x >>> 2) &&& 0x33333333)
  let x := add32 x (x >>> 4) &&& 0x0f0f0f0f
  let x := add32 x (x >>> 8)
  let x := add32 x (x >>> 16)
  x &&& 0x3f

/-- `nlz`, bitfiddle.h:45-62, portable code. -/
def nlzP (x : Nat) : Nat :=
  let n := 32
  let y := x >>> 16
  let (n, x) := if y ≠ 0 then (n - 16, y) else (n, x)
  let y := x >>> 8
  let (n, x) := if y ≠ 0 then (n - 8, y) else (n, x)
  let y := x >>> 4
  let (n, x) := if y ≠ 0 then (n - 4, y) else (n, x)
  let y := x >>> 2
  let (n, x) := if y ≠ 0 then (n - 2, y) else (n, x)
  let y := x >>> 1
  if y ≠ 0 then n - 2 else n - x

/-- `nlz`, bitfiddle.h:45-62, with `__builtin_clz`: the number of leading zero
bits of a non-zero 32 bit value. -/
def nlzG (x : Nat) : Nat := if x = 0 then 32 else 31 - x.log2

/-- `ntz`, bitfiddle.h:69-78, portable code. -/
def ntzP (x : Nat) : Nat := 32 - nlzP (not32 x &&& sub32 x 1)

/-- `log2_floor`, bitfiddle.h:86-89. -/
def log2Floor (x : Nat) : Nat := sub32 31 (nlzG x)

/-- `log2_ceil`, bitfiddle.h:97-100. -/
def log2Ceil (x : Nat) : Nat := sub32 32 (nlzG (sub32 x 1))

/-- `floor_po2`, bitfiddle.h:106-121, GNU. -/
def floorPo2G (x : Nat) : Nat := if x = 0 then 0 else 0x80000000 >>> nlzG x

/-- the statements `x |= x >> 1; ... x |= x >> 16`, bitfiddle.h:114-118. -/
def smear32 (x : Nat) : Nat :=
  let x := x ||| (x >>> 1)
  let x := x ||| (x >>> 2)
  let x := x ||| (x >>> 4)
  let x := x ||| (x >>> 8)
  x ||| (x >>> 16)

/-- `floor_po2`, bitfiddle.h:106-121, portable code. -/
def floorPo2P (x : Nat) : Nat := sub32 (smear32 x) (smear32 x >>> 1)

/-- `ceil_po2`, bitfiddle.h:128-146, GNU. -/
def ceilPo2G (x : Nat) : Option Nat :=
  if x = 0 then some 0
  else if x < 2 ^ 31 then some (0x80000000 >>> (nlzG (x - 1) - 1))
  else none

/-- `ceil_po2`, bitfiddle.h:128-146, portable code. -/
def ceilPo2P (x : Nat) : Option Nat :=
  if x = 0 then some 0
  else if x < 2 ^ 31 then some (add32 (smear32 (x - 1)) 1)
  else none

/-- `is_po2_or_zero`, bitfiddle.h:151-154. -/
def isPo2OrZero (x : Nat) : Bool := x &&& sub32 x 1 == 0

/-- `round_up2`, bitfiddle.h:162-168. -/
def roundUp2 (x po2 : Nat) : Option Nat :=
  if isPo2OrZero po2 && decide (po2 > 0) then some (add32 x (po2 - 1) &&& not32 (po2 - 1)) else none

end Verif.Model
