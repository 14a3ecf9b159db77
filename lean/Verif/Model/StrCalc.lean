import Verif.Model.Relation
/-!
# Model of `ir/tv/strcalc.c`

A value buffer (`sc_word *` of `calc_buffer_size` bytes) is a `List Nat` of
bytes, least significant first; `SC_BITS = 8`.  Where C stores into an
`sc_word` the model reduces modulo 256.  `calc_buffer_size` is the length of
the list; `max_value_size` is passed explicitly (`m`); `init_strcalc`
(768-781) makes `calc_buffer_size = 2 * max_value_size`.

Loops are written as list recursions in the order of increasing significance;
the index-by-index, possibly in-place, execution of the loops is modelled
separately in `Model/StrCalcInPlace.lean` and shown equal to these functions.
-/
namespace Verif.Model

/-- `sc_zero`, strcalc.c:33-36. -/
def scZero (n : Nat) : List Nat := List.replicate n 0

/-- `sex_digit`, strcalc.c:38-41. -/
def sexDigit (x : Nat) : Nat := (255 <<< (x + 1)) &&& 255

/-- `max_digit`, strcalc.c:43-46. (result truncated to `sc_word`) -/
def maxDigit (x : Nat) : Nat := ((1 <<< x) - 1) % 256

/-- `min_digit`, strcalc.c:48-51. -/
def minDigit (x : Nat) : Nat := 255 - maxDigit x

/-- `sc_not`, strcalc.c:53-57. -/
def scNot (v : List Nat) : List Nat := v.map (· ^^^ 255)

/-- `sc_or`, strcalc.c:59-63. -/
def scOr (a b : List Nat) : List Nat := List.zipWith (· ||| ·) a b

/-- `sc_ornot`, strcalc.c:65-69. -/
def scOrNot (a b : List Nat) : List Nat := List.zipWith (fun x y => x ||| (255 ^^^ y)) a b

/-- `sc_xor`, strcalc.c:71-75. -/
def scXor (a b : List Nat) : List Nat := List.zipWith (· ^^^ ·) a b

/-- `sc_and`, strcalc.c:77-81. -/
def scAnd (a b : List Nat) : List Nat := List.zipWith (· &&& ·) a b

/-- `sc_andnot`, strcalc.c:83-87. -/
def scAndNot (a b : List Nat) : List Nat := List.zipWith (fun x y => x &&& (255 ^^^ y)) a b

/-- `sc_inc`, strcalc.c:89-99. -/
def scInc : List Nat → List Nat
  | [] => []
  | v :: vs => if v < 255 then (v + 1) :: vs else 0 :: scInc vs

/-- `sc_neg`, strcalc.c:101-105. -/
def scNeg (v : List Nat) : List Nat := scInc (scNot v)

/-- loop of `sc_add`, strcalc.c:109-114; `c` is the carry. -/
def scAddLoop : List Nat → List Nat → Nat → List Nat
  | a :: as, b :: bs, c => (a + b + c) % 256 :: scAddLoop as bs ((a + b + c) / 256)
  | _, _, _ => []

/-- `sc_add`, strcalc.c:107-115. -/
def scAdd (a b : List Nat) : List Nat := scAddLoop a b 0

/-- `sc_sub`, strcalc.c:117-124. -/
def scSub (a b : List Nat) : List Nat := scAdd a (scNeg b)

/-- `sc_get_bit_at`, strcalc.h:248-252. Reads are in bounds at every call
site used here; out of bounds is never reached under the theorems' hypotheses. -/
def scGetBitAt (v : List Nat) (pos : Nat) : Bool := (v.getD (pos / 8) 0).testBit (pos % 8)

/-- `sc_is_negative`, strcalc.c:561-564. -/
def scIsNegative (v : List Nat) : Bool := scGetBitAt v (v.length * 8 - 1)

/-- inner loop of `sc_mul` for one digit `outer` of the second factor,
strcalc.c:150-181.  First list: `temp_buffer` from position `c_outer` on;
second list: the remaining digits of `val1`. -/
def scMulRow (outer : Nat) : List Nat → List Nat → Nat → List Nat
  | t :: ts, i :: is, carry =>
      (t + i * outer + carry) % 256 :: scMulRow outer ts is ((t + i * outer + carry) / 256)
  | _ :: ts, [], carry => carry % 256 :: ts
  | [], _, _ => []

/-- outer loop of `sc_mul`, strcalc.c:146-182.  `temp` is `temp_buffer` from
position `c_outer` on (lower positions are final). -/
def scMulOuter (v1 : List Nat) : List Nat → List Nat → List Nat
  | o :: os, temp =>
      match (if o = 0 then temp else scMulRow o temp v1 0) with
      | t :: ts => t :: scMulOuter v1 os ts
      | [] => []
  | [], temp => temp

/-- `sc_mul`, strcalc.c:126-188; `m` is `max_value_size`. -/
def scMul (m : Nat) (a b : List Nat) : List Nat :=
  let sign := scIsNegative a != scIsNegative b
  let a' := if scIsNegative a then scNeg a else a
  let b' := if scIsNegative b then scNeg b else b
  let temp := scMulOuter (a'.take m) (b'.take m) (scZero a.length)
  if sign then scNeg temp else temp

/-- `sc_push`, strcalc.c:193-199. -/
def scPush (digit : Nat) (buf : List Nat) : List Nat := digit :: buf.dropLast

/-- digit loop of `sc_comp`, strcalc.c:482-493, on most-significant-first lists. -/
def scCompLoop : List Nat → List Nat → Rel
  | a :: as, b :: bs => if a = b then scCompLoop as bs else if a > b then Rel.greater else Rel.less
  | _, _ => Rel.equal

/-- `sc_comp`, strcalc.c:471-494. -/
def scComp (a b : List Nat) : Rel :=
  if scIsNegative a ≠ scIsNegative b then
    (if scIsNegative a then Rel.less else Rel.greater)
  else scCompLoop a.reverse b.reverse

/-- full-word loop of `sc_is_zero`/`sc_is_all_one`, strcalc.c:542-545, 553-556. -/
def scWordsAre (d : Nat) (v : List Nat) (k : Nat) : Bool := (v.take k).all (· == d)

/-- `sc_is_zero`, strcalc.c:539-548. -/
def scIsZero (v : List Nat) (bits : Nat) : Bool :=
  if scWordsAre 0 v (bits / 8) then
    let mask := maxDigit (bits % 8)
    mask == 0 || (v.getD (bits / 8) 0 &&& mask) == 0
  else false

/-- `sc_is_all_one`, strcalc.c:550-559. -/
def scIsAllOne (v : List Nat) (bits : Nat) : Bool :=
  if scWordsAre 255 v (bits / 8) then
    let mask := maxDigit (bits % 8)
    mask == 0 || (v.getD (bits / 8) 0 &&& mask) == mask
  else false

/-- inner `while` of `sc_divmod`, strcalc.c:263-267.  Returns `(rem, quot)`;
`none` when the loop has not finished after `fuel` rounds. -/
def scDivSub (minusD : List Nat) : Nat → List Nat → List Nat → Option (List Nat × List Nat)
  | 0, _, _ => none
  | fuel + 1, rem, quot =>
      if scIsNegative rem then some (rem, quot)
      else scDivSub minusD fuel (scAdd rem minusD)
            (match quot with | [] => [] | q :: qs => (q + 1) % 256 :: qs)

/-- one round of the main loop of `sc_divmod`, strcalc.c:254-271. -/
def scDivStep (d minusD : List Nat) (digit : Nat) (rem quot : List Nat) :
    Option (List Nat × List Nat) :=
  let rem := scPush digit rem
  let quot := scPush 0 quot
  if scComp rem d ≠ Rel.less then
    match scDivSub minusD 300 (scAdd rem minusD) quot with
    | none => none
    | some (rem, quot) => some (scAdd rem d, quot)
  else some (rem, quot)

/-- main loop of `sc_divmod`, strcalc.c:253-272, digits most significant first. -/
def scDivLoop (d minusD : List Nat) : List Nat → List Nat → List Nat → Option (List Nat × List Nat)
  | [], rem, quot => some (rem, quot)
  | x :: xs, rem, quot =>
      match scDivStep d minusD x rem quot with
      | none => none
      | some (rem, quot) => scDivLoop d minusD xs rem quot

/-- `sc_divmod`, strcalc.c:201-283.  Returns `(quot, rem, carry_flag)`;
`none` = assertion failure (zero divisor) or non-terminating inner loop.
The `quot != dividend` aliasing assertions are a typing matter here. -/
def scDivmod (dividend divisor : List Nat) : Option (List Nat × List Nat × Bool) :=
  let n := dividend.length
  if scIsZero divisor (n * 8) then none
  else if scIsZero dividend (n * 8) then some (scZero n, scZero n, false)
  else
    let remSign := scIsNegative dividend
    let divSign := scIsNegative dividend != scIsNegative divisor
    let dividend' := if scIsNegative dividend then scNeg dividend else dividend
    let minusD := if scIsNegative divisor then divisor else scNeg divisor
    let d := if scIsNegative divisor then scNeg divisor else divisor
    let r :=
      let c := scComp dividend' d
      if c = Rel.equal then some (scZero n, 1 :: scZero (n - 1))
      else if c = Rel.less then some (dividend', scZero n)
      else scDivLoop d minusD dividend'.reverse (scZero n) (scZero n)
    match r with
    | none => none
    | some (rem, quot) =>
        let quot := if divSign then scNeg quot else quot
        let rem := if remSign then scNeg rem else rem
        some (quot, rem, !scIsZero rem (n * 8))

/-- `sc_zero_extend`, strcalc.c:290-300. -/
def scZeroExtend (v : List Nat) (fromBits : Nat) : List Nat :=
  let bit := fromBits % 8
  let word := fromBits / 8
  v.mapIdx fun i b =>
    if i < word then b
    else if bit > 0 ∧ i = word then b &&& maxDigit bit
    else 0

/-- `sc_sign_extend`, strcalc.c:302-316 (requires `fromBits > 0`). -/
def scSignExtend (v : List Nat) (fromBits : Nat) : List Nat :=
  let bits := fromBits - 1
  if scGetBitAt v bits then
    let word := bits / 8
    v.mapIdx fun i b =>
      if i < word then b
      else if i = word then b ||| sexDigit (bits % 8)
      else 255
  else scZeroExtend v fromBits

/-- digit of a character, strcalc.c:346-353. -/
def scDigit (c : Nat) : Option Nat :=
  if 48 ≤ c ∧ c ≤ 57 then some (c - 48)
  else if 65 ≤ c ∧ c ≤ 70 then some (c - 65 + 10)
  else if 97 ≤ c ∧ c ≤ 102 then some (c - 97 + 10)
  else none

/-- `sc_val_from_ulong`, strcalc.c:406-414. -/
def scFromUlong : Nat → Nat → List Nat
  | 0, _ => []
  | n + 1, v => v % 256 :: scFromUlong n (v / 256)

/-- loop of `sc_val_from_str`, strcalc.c:343-369. `none` = `return false`. -/
def scFromStrLoop (m : Nat) (base : Nat) : List Nat → List Nat → Option (List Nat)
  | [], buf => some buf
  | c :: cs, buf =>
      match scDigit c with
      | none => none
      | some v =>
          if v ≥ base then none
          else scFromStrLoop m base cs
            (scAdd (v :: scZero (buf.length - 1)) (scMul m (scFromUlong buf.length base) buf))

/-- `sc_val_from_str`, strcalc.c:327-375; characters as ASCII codes. -/
def scFromStr (m : Nat) (negative : Bool) (base : Nat) (str : List Nat) : Option (List Nat) :=
  (scFromStrLoop m base str (scZero (2 * m))).map fun b => if negative then scNeg b else b

/-- `LONG_MIN` on an LP64 host. -/
def longMin : Int := -2 ^ 63

/-- `sc_val_from_long`, strcalc.c:377-404; `value` a 64-bit `long`.  The digit
loop (392-396) stores the absolute value like `sc_val_from_ulong`. -/
def scFromLong (n : Nat) (value : Int) : List Nat :=
  let sign := value < 0
  let isMin := value = longMin
  let abs : Int := if sign then (if isMin then -(value + 1) else -value) else value
  let buf := scFromUlong n abs.toNat
  if sign then
    let buf := if isMin then scInc buf else buf
    scNeg buf
  else buf

/-- accumulation loops of `sc_val_to_long`/`sc_val_to_uint64`,
strcalc.c:420-423, 430-432, on most-significant-first digits, 64-bit wraparound. -/
def scAccum64 : List Nat → Nat → Nat
  | [], l => l
  | d :: ds, l => scAccum64 ds ((l * 256 + d) % 2 ^ 64)

/-- `sc_val_to_long`, strcalc.c:416-425 (the conversion of `unsigned long`
to `long` in the `return` is the usual two's complement one). -/
def scToLong (v : List Nat) : Int := ((scAccum64 (v.take 8).reverse 0 : Nat) : Int).bmod (2 ^ 64)

/-- `sc_val_to_uint64`, strcalc.c:427-434. -/
def scToUint64 (v : List Nat) : Nat := scAccum64 v.reverse 0

/-- `sc_min_from_bits`, strcalc.c:436-454; `n` = `calc_buffer_size`. -/
def scMinFromBits (n numBits : Nat) (sign : Bool) : List Nat :=
  if !sign then scZero n
  else
    let bits := numBits - 1
    (List.range n).map fun i =>
      if i < bits / 8 then 0 else if i = bits / 8 then minDigit (bits % 8) else 255

/-- `sc_max_from_bits`, strcalc.c:456-469. -/
def scMaxFromBits (n numBits : Nat) (sign : Bool) : List Nat :=
  let bits := numBits - (if sign then 1 else 0)
  (List.range n).map fun i =>
    if i < bits / 8 then 255 else if i = bits / 8 then maxDigit (bits % 8) else 0

/-- position of the highest one bit of a non-zero byte, `31 - nlz(word)` in
strcalc.c:501. -/
def byteHigh (w : Nat) : Nat := Nat.log2 w

/-- position of the lowest one bit of a non-zero byte, `ntz(word)` in
strcalc.c:522. -/
def byteLow : Nat → Nat → Nat
  | 0, _ => 0
  | fuel + 1, w => if w.testBit 0 then 0 else byteLow fuel (w / 2) + 1

/-- loop of `sc_get_highest_set_bit`, strcalc.c:498-503, most significant first. -/
def scHighestLoop : List Nat → Int
  | [] => -1
  | w :: ws => if w ≠ 0 then ((ws.length * 8 + byteHigh w : Nat) : Int) else scHighestLoop ws

/-- `sc_get_highest_set_bit`, strcalc.c:496-504. -/
def scHighestSetBit (v : List Nat) : Int := scHighestLoop v.reverse

/-- `sc_get_highest_clear_bit`, strcalc.c:506-514. -/
def scHighestClearBit (v : List Nat) : Int := scHighestLoop (v.map (· ^^^ 255)).reverse

/-- `sc_get_lowest_set_bit`, strcalc.c:516-525; `counter` is the word index. -/
def scLowestLoop : List Nat → Nat → Int
  | [], _ => -1
  | w :: ws, counter => if w ≠ 0 then ((counter * 8 + byteLow 8 w : Nat) : Int) else scLowestLoop ws (counter + 1)

/-- `sc_get_lowest_set_bit`, strcalc.c:516-525. -/
def scLowestSetBit (v : List Nat) : Int := scLowestLoop v 0

/-- `sc_sub_bits`, strcalc.c:566-580.  `len/SC_BITS - 1` is unsigned, so for
`len < 8` the comparison is never true (the value wraps to `UINT_MAX`). -/
def scSubBits (v : List Nat) (len byteOfs : Nat) : Nat :=
  if byteOfs * 8 ≥ len then 0
  else
    let val := v.getD byteOfs 0
    if byteOfs + 1 = len / 8 then
      let bit := len % 8
      if bit ≠ 0 then val &&& maxDigit bit else val
    else val

/-- number of one bits of a byte (`popcount` from bitfiddle.h on a byte). -/
def bytePop (w : Nat) : Nat := ((List.range 8).filter fun i => w.testBit i).length

/-- `sc_popcount`, strcalc.c:582-596. -/
def scPopcount (v : List Nat) (bits : Nat) : Nat :=
  let full := bits / 8
  let res := ((v.take full).map bytePop).sum
  let rem := bits % 8
  if rem ≠ 0 then res + bytePop (v.getD full 0 &&& maxDigit rem) else res

/-- `sc_shlI`, strcalc.c:806-833. -/
def scShlI (v : List Nat) (count : Nat) : List Nat :=
  let n := v.length
  if count ≥ n * 8 then scZero n
  else
    let sb := count % 8
    let sw := count / 8
    v.mapIdx fun i _ =>
      if i < sw then 0
      else if sb = 0 then v.getD (i - sw) 0
      else
        let val := v.getD (i - sw) 0
        let next := if i - sw = 0 then 0 else v.getD (i - sw - 1) 0
        (val <<< sb) % 256 ||| (next >>> (8 - sb)) % 256

/-- `sc_shrI`, strcalc.c:842-883. Returns the buffer and the carry flag. -/
def scShrI (v : List Nat) (count : Nat) : List Nat × Bool :=
  let n := v.length
  if count ≥ n * 8 then (scZero n, !scIsZero v (n * 8))
  else
    let sw := count / 8
    let sb := count % 8
    let carry := (v.take sw).any (· != 0)
    if sb = 0 then
      (v.mapIdx fun i _ => if i < n - sw then v.getD (i + sw) 0 else 0, carry)
    else
      (v.mapIdx fun i _ =>
        if i < n - sw then
          let val := v.getD (i + sw) 0
          let next := if i + sw + 1 < n then v.getD (i + sw + 1) 0 else 0
          (val >>> sb) % 256 ||| (next <<< (8 - sb)) % 256
        else 0,
       carry || (v.getD sw 0 &&& maxDigit sb) != 0)

/-- `sc_shrsI`, strcalc.c:892-944.  `none` = the assertion
`bitsize % SC_BITS == 0` (918) fails. -/
def scShrsI (v : List Nat) (count bitsize : Nat) : Option (List Nat × Bool) :=
  let n := v.length
  let sign := if scGetBitAt v (bitsize - 1) then 255 else 0
  if count ≥ bitsize then some (List.replicate n sign, !scIsZero v (n * 8))
  else if bitsize % 8 ≠ 0 then none
  else
    let sw := count / 8
    let sb := count % 8
    let limit := bitsize / 8
    let carry := (v.take sw).any (· != 0)
    if sb = 0 then
      some (v.mapIdx fun i _ => if i < limit - sw then v.getD (i + sw) 0 else sign, carry)
    else
      some (v.mapIdx fun i _ =>
        if i < limit - sw then
          let val := v.getD (i + sw) 0
          let next := if i + sw + 1 < limit then v.getD (i + sw + 1) 0 else sign
          (val >>> sb) % 256 ||| (next <<< (8 - sb)) % 256
        else sign,
       carry || (v.getD sw 0 &&& maxDigit sb) != 0)

end Verif.Model
