import Verif.Spec.IR
/-!
# Division by constants

Model of the strength reduction of Div and Mod nodes with a constant divisor,
`ir/ir/irarch.c:569-1053`.

Target values are represented by the integers they denote: a value of an unsigned
`W`-bit mode is a natural number below `2 ^ W`, and arithmetic on it is reduced modulo
`2 ^ W` (that `tarval_add`, … do this is C01–C05).  A node that is built is represented
by the value it has when the dividend has the value `x`; the operations of the nodes are
those of `Verif.Spec.IR`.
-/
namespace Verif.Model
open Verif.Spec

/-! ## Arithmetic of unsigned `W`-bit target values -/

/-- `ADD`, ir/ir/irarch.c:599 -/
def uAdd (W a b : Nat) : Nat := (a + b) % 2 ^ W
/-- `SUB`, ir/ir/irarch.c:600 (`b < 2 ^ W`) -/
def uSub (W a b : Nat) : Nat := (a + (2 ^ W - b)) % 2 ^ W
/-- `MUL`, ir/ir/irarch.c:601 -/
def uMul (W a b : Nat) : Nat := a * b % 2 ^ W
/-- `SHL(ONE, s)`, ir/ir/irarch.c:597 -/
def uShlOne (W s : Nat) : Nat := 2 ^ s % 2 ^ W
/-- `CNV(d, u_mode)`, ir/ir/irarch.c:605 -/
def toUnsigned (W : Nat) (d : Int) : Nat := (d % 2 ^ W).toNat

/-! ## Signed magic numbers -/

/-- `struct ms`, ir/ir/irarch.c:611-616 -/
structure Ms where
  M : Int
  s : Nat
  needAdd : Bool
  needSub : Bool
  deriving DecidableEq

/-- doubling of a quotient and remainder with respect to `a`: `q = ADD(q, q)`,
`r = ADD(r, r)`, and the correction if `r >= a`; ir/ir/irarch.c:652-658 and 660-666 -/
def magicDouble (W a : Nat) (qr : Nat × Nat) : Nat × Nat :=
  if a ≤ uAdd W qr.2 qr.2 then (uAdd W (uAdd W qr.1 qr.1) 1, uSub W (uAdd W qr.2 qr.2) a)
  else (uAdd W qr.1 qr.1, uAdd W qr.2 qr.2)

/-- the condition of the loop, ir/ir/irarch.c:669-671 -/
def magicContinue (W ad : Nat) (qr1 qr2 : Nat × Nat) : Bool :=
  qr1.1 < uSub W ad qr2.2 || (qr1.1 == uSub W ad qr2.2 && qr1.2 == 0)

/-- the loop of `magic`, ir/ir/irarch.c:650-671; the result is `p` and `q2`, `none` if the
fuel does not suffice -/
def magicLoop (W ad anc : Nat) : Nat → Nat → Nat × Nat → Nat × Nat → Option (Nat × Nat)
  | 0, _, _, _ => none
  | fuel + 1, p, qr1, qr2 =>
    if magicContinue W ad (magicDouble W anc qr1) (magicDouble W ad qr2) then
      magicLoop W ad anc fuel (p + 1) (magicDouble W anc qr1) (magicDouble W ad qr2)
    else some (p + 1, (magicDouble W ad qr2).1)

/-- `ad`, ir/ir/irarch.c:637: the absolute value is wrapped in the signed mode first -/
def magicAd (W : Nat) (d : Int) : Nat := toUnsigned W (Spec.wrap true W (if d < 0 then -d else d))

/-- `t`, ir/ir/irarch.c:638 -/
def magicT (W : Nat) (d : Int) : Nat := uAdd W (uShlOne W (W - 1)) (toUnsigned W d / 2 ^ (W - 1))

/-- `anc`, ir/ir/irarch.c:639 -/
def magicAnc (W : Nat) (d : Int) : Nat := uSub W (uSub W (magicT W d) 1) (magicT W d % magicAd W d)

/-- the initial quotient and remainder, ir/ir/irarch.c:641-644 -/
def magicInit (W a : Nat) : Nat × Nat :=
  (uShlOne W (W - 1) / a, uSub W (uShlOne W (W - 1)) (uMul W (uShlOne W (W - 1) / a) a))

/-- `mag.M`, ir/ir/irarch.c:676-679 -/
def magicM (W : Nat) (d : Int) (q2 : Nat) : Int :=
  if 0 ≤ d then Spec.wrap true W (Spec.wrap true W q2 + 1)
  else Spec.wrap true W (0 - Spec.wrap true W (Spec.wrap true W q2 + 1))

/-- ir/ir/irarch.c:673-688 -/
def magicResult (W : Nat) (d : Int) (pq : Nat × Nat) : Ms :=
  ⟨magicM W d pq.2, pq.1 - W, decide (0 < d) && decide (magicM W d pq.2 < 0),
    decide (d < 0) && decide (0 < magicM W d pq.2)⟩

/-- `magic`, ir/ir/irarch.c:625-689.  `none`: a division by zero, or the loop does not end
within `fuel` iterations -/
def magic (fuel W : Nat) (d : Int) : Option Ms :=
  if magicAd W d = 0 ∨ magicAnc W d = 0 then none
  else (magicLoop W (magicAd W d) (magicAnc W d) fuel (W - 1) (magicInit W (magicAnc W d)) (magicInit W (magicAd W d))).map
    (magicResult W d)

/-- the correction of the upper half of the product, ir/ir/irarch.c:838-841 -/
def mulhFix (m : IMode) (mag : Ms) (x q : Int) : Int :=
  if mag.needAdd then irAdd m q x else if mag.needSub then irSub m q x else q

/-- `if (mag.s > 0) q = Shrs(q, mag.s)`, ir/ir/irarch.c:844-847 -/
def shrsPos (m : IMode) (q : Int) (s : Nat) : Int := if 0 < s then irShrs m q s else q

/-- the final addition of the sign bit, ir/ir/irarch.c:850-852 -/
def addSign (m : IMode) (q : Int) : Int := irAdd m q (irShr m q (m.bits - 1))

/-- value of the nodes built by the signed branch of `replace_div_by_mulh`,
ir/ir/irarch.c:829-852, given the magic number -/
def signedMulhValue (m : IMode) (mag : Ms) (x : Int) : Int :=
  addSign m (shrsPos m (mulhFix m mag x (irMulh m x mag.M)) mag.s)

/-! ## Unsigned magic numbers -/

/-- `struct magicu_info`, ir/ir/irarch.c:698-705 -/
structure MagicuInfo where
  multiplier : Nat
  preShift : Nat
  postShift : Nat
  increment : Bool
  deriving DecidableEq

/-- the update of quotient and remainder, ir/ir/irarch.c:746-754 -/
def magicuDouble (W D : Nat) (qr : Nat × Nat) : Nat × Nat :=
  if uSub W D qr.2 ≤ qr.2 then (uAdd W (uMul W qr.1 2) 1, uSub W (uMul W qr.2 2) D)
  else (uMul W qr.1 2, uMul W qr.2 2)

/-- the round-up test, ir/ir/irarch.c:759-761 -/
def magicuDone (W D extra L e r : Nat) : Bool :=
  decide (L ≤ e + extra) || decide (uSub W D r ≤ uShlOne W (e + extra))

/-- the round-down candidate, ir/ir/irarch.c:766-772 -/
def magicuDown (W extra : Nat) (down : Option (Nat × Nat)) (e : Nat) (qr : Nat × Nat) : Option (Nat × Nat) :=
  if down.isNone ∧ qr.2 ≤ uShlOne W (e + extra) then some (qr.1, e) else down

/-- the loop, ir/ir/irarch.c:742-773: exponent, quotient and the round-down candidate -/
def magicuLoop (W D extra L : Nat) : Nat → Nat → Nat × Nat → Option (Nat × Nat) → Option (Nat × Nat × Option (Nat × Nat))
  | 0, _, _, _ => none
  | fuel + 1, e, qr, down =>
    if magicuDone W D extra L e (magicuDouble W D qr).2 then some (e, (magicuDouble W D qr).1, down)
    else magicuLoop W D extra L fuel (e + 1) (magicuDouble W D qr) (magicuDown W extra down e (magicuDouble W D qr))

/-- `ceil_log_2_D`: the number of right shifts until the value is zero, ir/ir/irarch.c:735-737 -/
def shiftsToZero : Nat → Nat → Nat
  | 0, _ => 0
  | fuel + 1, v => if 0 < v then 1 + shiftsToZero fuel (v / 2) else 0

/-- `pre_shift`: the number of right shifts until the value is odd, ir/ir/irarch.c:791-796 -/
def shiftsToOdd : Nat → Nat → Nat
  | 0, _ => 0
  | fuel + 1, v => if v % 2 = 0 then 1 + shiftsToOdd fuel (v / 2) else 0

/-- the magic_up and magic_down cases of the result, ir/ir/irarch.c:776-788; `none`: the
assertion `has_magic_down` fails, or the divisor is even -/
def magicuUpDown (W D L : Nat) (l : Nat × Nat × Option (Nat × Nat)) : Option MagicuInfo :=
  if l.1 < L then some ⟨uAdd W l.2.1 1, 0, l.1, false⟩
  else if 0 < D % 2 then l.2.2.map (fun d => ⟨d.1, 0, d.2, true⟩)
  else none

/-- the loop started, ir/ir/irarch.c:724-742 -/
def magicuSearch (W D extra : Nat) : Option (Nat × Nat × Option (Nat × Nat)) :=
  magicuLoop W D extra (shiftsToZero (W + 1) D) (W + 2) 0 (uShlOne W (W - 1) / D, uShlOne W (W - 1) % D) none

/-- the assertion `D & (D - 1) != 0`, ir/ir/irarch.c:713-715 -/
def notPow2Assert (D : Nat) : Bool := D &&& (D - 1) != 0

/-- the nested call of `compute_unsigned_magic_info` for the odd part, ir/ir/irarch.c:797-799: the
assertion demands that neither increment nor pre-shift are used -/
def magicuNested (W D extra : Nat) : Option MagicuInfo :=
  if notPow2Assert D = true then
    match magicuSearch W D extra with
    | none => none
    | some l =>
      match magicuUpDown W D (shiftsToZero (W + 1) D) l with
      | none => none
      | some i => if i.increment = false ∧ i.preShift = 0 then some i else none
  else none

/-- `result.pre_shift = pre_shift`, ir/ir/irarch.c:800 -/
def setPreShift (i : MagicuInfo) (s : Nat) : MagicuInfo := ⟨i.multiplier, s, i.postShift, i.increment⟩

/-- `get_magic_info` / `compute_unsigned_magic_info`, ir/ir/irarch.c:707-809 with
`num_bits = UINT_BITS`; the nested call has `num_bits = UINT_BITS - pre_shift`, so
`extra_shift = pre_shift`.  `none`: an assertion fails. -/
def getMagicInfo (W D : Nat) : Option MagicuInfo :=
  if notPow2Assert D = true then
    match magicuSearch W D 0 with
    | none => none
    | some l =>
      if shiftsToZero (W + 1) D ≤ l.1 ∧ D % 2 = 0 then
        (magicuNested W (D / 2 ^ shiftsToOdd W D) (shiftsToOdd W D)).map (fun i => setPreShift i (shiftsToOdd W D))
      else magicuUpDown W D (shiftsToZero (W + 1) D) l
  else none

/-- the saturating increment builtin, ir/ir/irarch.c:862-870 -/
def satInc (W : Nat) (x : Int) : Int := if x = 2 ^ W - 1 then x else x + 1

/-- ir/ir/irarch.c:857-870 -/
def unsignedPrepare (m : IMode) (i : MagicuInfo) (x : Int) : Int :=
  if i.increment then satInc m.bits (if 0 < i.preShift then irShr m x i.preShift else x)
  else (if 0 < i.preShift then irShr m x i.preShift else x)

/-- value of the nodes built by the unsigned branch of `replace_div_by_mulh`,
ir/ir/irarch.c:853-880, given the magic number: note the shift by the size of the mode -/
def unsignedMulhValue (m : IMode) (i : MagicuInfo) (x : Int) : Int :=
  if 0 < i.postShift then irShr m (irShr m (irMulh m (unsignedPrepare m i x) i.multiplier) m.bits) i.postShift
  else irShr m (irMulh m (unsignedPrepare m i x) i.multiplier) m.bits

/-- `replace_div_by_mulh`, ir/ir/irarch.c:816-882 -/
def replaceDivByMulh (m : IMode) (d x : Int) : Option Int :=
  if m.signed then (magic (m.bits + 1) m.bits d).map (fun mag => signedMulhValue m mag x)
  else (getMagicInfo m.bits d.toNat).map (fun i => unsignedMulhValue m i x)

/-! ## Powers of two -/

/-- one bit of `tv_ld2`, ir/ir/irarch.c:580-583 -/
def ld2Step (v : Nat) (s : Nat × Nat) (i : Nat) : Nat × Nat := if v.testBit i then (s.1 + 1, i) else s

/-- `tv_ld2(tv, bits)`, ir/ir/irarch.c:572-590; `v` is the bit pattern of the value and `N` the
number of bits of the bytes that are looked at.  `none` stands for -1. -/
def tvLd2 (N v : Nat) : Option Nat :=
  if ((List.range N).foldl (ld2Step v) (0, 0)).1 = 1 then some ((List.range N).foldl (ld2Step v) (0, 0)).2 else none

/-- `n = (bits + 7) / 8` bytes are looked at, ir/ir/irarch.c:913 and 999 -/
def ld2Bits (m : IMode) : Nat := 8 * ((m.bits + 7) / 8)

/-- `k` and `n_flag`, ir/ir/irarch.c:914-926 -/
def divK (m : IMode) (d : Int) : Option (Nat × Bool) :=
  match (if m.signed then tvLd2 (ld2Bits m) (toUnsigned m.bits (irNeg m d)) else none) with
  | some k => some (k, true)
  | none => (tvLd2 (ld2Bits m) (toUnsigned m.bits d)).map (fun k => (k, false))

/-- the correction for negative dividends, ir/ir/irarch.c:936-952 and 1023-1031 -/
def pow2Correct (m : IMode) (k : Nat) (x : Int) : Int :=
  irAdd m x (irShr m (if k = 1 then x else irShrs m x (k - 1)) (m.bits - k))

/-- signed division by `2^k` or `-2^k`, ir/ir/irarch.c:931-961; `noRem` is the flag
`get_Div_no_remainder` -/
def divPow2Signed (m : IMode) (noRem : Bool) (k : Nat) (neg : Bool) (x : Int) : Int :=
  if neg then irSub m 0 (irShrs m (if noRem then x else pow2Correct m k x) k)
  else irShrs m (if noRem then x else pow2Correct m k x) k

/-- `arch_dep_replace_div_by_const`, ir/ir/irarch.c:885-973: the value of the replacement.  The outer
`none` is "the node is not replaced" and the inner `none` a failed assertion.  `divK` of a non-zero
constant is used as is: the check for a zero divisor is the first test. -/
def replaceDiv (m : IMode) (allowMulh noRem : Bool) (d x : Int) : Option (Option Int) :=
  if d = 0 then none
  else match divK m d with
    | some (k, neg) =>
      if k = 0 then some (some x)
      else if m.signed then some (some (divPow2Signed m noRem k neg x))
      else some (some (irShr m x k))
    | none => if allowMulh then some (replaceDivByMulh m d x) else none

/-- the part of `transform_node_Div` for a constant divisor, ir/opt/iropt.c:3950-3961: division by -1 is
handled before `arch_dep_replace_div_by_const` is asked (the folding of constant dividends and of
Phis of constants, :3919-3948, is not modelled) -/
def transformDiv (m : IMode) (allowMulh noRem : Bool) (d x : Int) : Option (Option Int) :=
  if m.signed ∧ d = -1 then some (some (irNeg m x)) else replaceDiv m allowMulh noRem d x

/-- signed remainder by `±2^k`, ir/ir/irarch.c:1022-1037 -/
def modPow2Signed (m : IMode) (k : Nat) (x : Int) : Int := irSub m x (irAnd m (pow2Correct m k x) (irShl m (m.wrap (-1)) k))

/-- `arch_dep_replace_mod_by_const`, ir/ir/irarch.c:976-1053 -/
def replaceMod (m : IMode) (allowMulh : Bool) (d x : Int) : Option (Option Int) :=
  if d = 0 then none
  else match divK m d with
    | some (k, _) =>
      if k = 0 then some (some 0)
      else if m.signed then some (some (modPow2Signed m k x))
      else some (some (irAnd m x (irShr m (m.wrap (-1)) (m.bits - k))))
    | none =>
      if allowMulh then some ((replaceDivByMulh m d x).map (fun q => irSub m x (irMul m q d))) else none

end Verif.Model
