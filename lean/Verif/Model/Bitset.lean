import Verif.Model.BitFiddle
/-!
# Model of `ir/adt/raw_bitset.h` and `ir/adt/bitset.h`

A raw bit set is the list of its `unsigned` words (`BITS_PER_ELEM = 32`).
`none` = access outside of the array, or failed assertion.  `bitset_t` adds the
size, which is passed explicitly here.  In search results the inner `none` is
`(size_t)-1`.
-/
namespace Verif.Model

/-- `BITSET_SIZE_ELEMS`, raw_bitset.h:33 -/
def rbElems (size : Nat) : Nat := (size + 31) / 32

/-- `rbitset_malloc`, raw_bitset.h:44-47; `rbitset_clear_all` (168-172) writes the same words. -/
def rbNew (size : Nat) : List Nat := List.replicate (rbElems size) 0

/-- `rbitset_set`, raw_bitset.h:108-111 -/
def rbSet (bs : List Nat) (pos : Nat) : Option (List Nat) :=
  (bs[pos / 32]?).map fun w => bs.set (pos / 32) (w ||| (1 <<< (pos % 32)))

/-- `rbitset_flip`, raw_bitset.h:119-122 -/
def rbFlip (bs : List Nat) (pos : Nat) : Option (List Nat) :=
  (bs[pos / 32]?).map fun w => bs.set (pos / 32) (w ^^^ (1 <<< (pos % 32)))

/-- `rbitset_clear`, raw_bitset.h:157-160 -/
def rbClear (bs : List Nat) (pos : Nat) : Option (List Nat) :=
  (bs[pos / 32]?).map fun w => bs.set (pos / 32) (w &&& not32 (1 <<< (pos % 32)))

/-- `rbitset_is_set`, raw_bitset.h:199-202 -/
def rbIsSet (bs : List Nat) (pos : Nat) : Option Bool :=
  (bs[pos / 32]?).map fun w => (w &&& (1 <<< (pos % 32))) != 0

/-- `rbitset_last_mask_`, raw_bitset.h:126-130 -/
def rbLastMask (size : Nat) : Nat := if size % 32 = 0 then 2 ^ 32 - 1 else sub32 (1 <<< (size % 32)) 1

/-- loop writing `f mask word` for the first `n` words, where the mask is all ones
except for the last word: the common shape of `rbitset_set_all`, raw_bitset.h:138-149,
and `rbitset_flip_all`, raw_bitset.h:180-191. -/
def rbMaskLoop (f : Nat → Nat → Nat) (last : Nat) : Nat → List Nat → Option (List Nat)
  | 0, bs => some bs
  | 1, w :: bs => some (f last w :: bs)
  | n + 2, w :: bs => (rbMaskLoop f last (n + 1) bs).map (f (2 ^ 32 - 1) w :: ·)
  | _, [] => none

/-- `rbitset_set_all`, raw_bitset.h:138-149 -/
def rbSetAll (bs : List Nat) (size : Nat) : Option (List Nat) := rbMaskLoop (fun m _ => m) (rbLastMask size) (rbElems size) bs

/-- `rbitset_flip_all`, raw_bitset.h:180-191 -/
def rbFlipAll (bs : List Nat) (size : Nat) : Option (List Nat) := rbMaskLoop (fun m w => w ^^^ m) (rbLastMask size) (rbElems size) bs

/-- the word loops of raw_bitset.h:380-428 -/
def rbZip (f : Nat → Nat → Nat) : Nat → List Nat → List Nat → Option (List Nat)
  | 0, dst, _ => some dst
  | n + 1, d :: dst, s :: src => (rbZip f n dst src).map (f d s :: ·)
  | _, _, _ => none

/-- `rbitset_and`, raw_bitset.h:380-385 -/
def rbAnd (dst src : List Nat) (size : Nat) : Option (List Nat) := rbZip (fun d s => d &&& s) (rbElems size) dst src
/-- `rbitset_or`, raw_bitset.h:394-399 -/
def rbOr (dst src : List Nat) (size : Nat) : Option (List Nat) := rbZip (fun d s => d ||| s) (rbElems size) dst src
/-- `rbitset_andnot`, raw_bitset.h:408-414 -/
def rbAndNot (dst src : List Nat) (size : Nat) : Option (List Nat) := rbZip (fun d s => d &&& not32 s) (rbElems size) dst src
/-- `rbitset_xor`, raw_bitset.h:423-428 -/
def rbXor (dst src : List Nat) (size : Nat) : Option (List Nat) := rbZip (fun d s => d ^^^ s) (rbElems size) dst src
/-- `rbitset_copy`, raw_bitset.h:560-564 -/
def rbCopy (dst src : List Nat) (size : Nat) : Option (List Nat) := rbZip (fun _ s => s) (rbElems size) dst src

/-- `rbitset_is_empty`, raw_bitset.h:93-100 -/
def rbIsEmpty : Nat → List Nat → Option Bool
  | 0, _ => some true
  | n + 1, w :: bs => if w != 0 then some false else rbIsEmpty n bs
  | _, _ => none

/-- loop over the first `n` words with an accumulator -/
def rbFold (step : Nat → Nat → Nat) : Nat → List Nat → Nat → Option Nat
  | 0, _, res => some res
  | n + 1, w :: bs, res => rbFold step n bs (step res w)
  | _, _, _ => none

/-- `rbitset_popcount`, raw_bitset.h:210-217 -/
def rbPopcount (bs : List Nat) (size : Nat) : Option Nat := rbFold (fun res w => add32 res (popcountP w)) (rbElems size) bs 0

/-- `rbitsets_equal`, raw_bitset.h:492-497 -/
def rbEqual : Nat → List Nat → List Nat → Option Bool
  | 0, _, _ => some true
  | n + 1, a :: as, b :: bs => if a != b then some false else rbEqual n as bs
  | _, _, _ => none

/-- `rbitsets_have_common`, raw_bitset.h:506-514 -/
def rbHaveCommon : Nat → List Nat → List Nat → Option Bool
  | 0, _, _ => some false
  | n + 1, a :: as, b :: bs => if (a &&& b) != 0 then some true else rbHaveCommon n as bs
  | _, _, _ => none

/-- `rbitset_contains`, raw_bitset.h:523-531 -/
def rbContains : Nat → List Nat → List Nat → Option Bool
  | 0, _, _ => some true
  | n + 1, a :: as, b :: bs => if (a &&& b) != a then some false else rbContains n as bs
  | _, _, _ => none

/-- search loop of `rbitset_next`, raw_bitset.h:257-265 (no bound) and
`rbitset_next_max`, raw_bitset.h:308-316: words at `i`, `i+1`, ..., at most `fuel`. -/
def rbNextLoop (bs : List Nat) (mask : Nat) : Nat → Nat → Option (Option Nat)
  | 0, _ => some none
  | fuel + 1, i =>
      match bs[i]? with
      | none => none
      | some w =>
          let p := ntzP (w ^^^ mask)
          if p < 32 then some (some (i * 32 + p)) else rbNextLoop bs mask fuel (i + 1)

/-- `~((1u << bit) - 1u)` -/
def rbHighMask (bit : Nat) : Nat := not32 (sub32 (1 <<< bit) 1)

/-- `rbitset_next`, raw_bitset.h:232-266; the unbounded loop runs out of the array
at the latest after `bs.length` words. -/
def rbNext (bs : List Nat) (pos : Nat) (set : Bool) : Option Nat :=
  match bs[pos / 32]? with
  | none => none
  | some w =>
      let mask := if set then 0 else 2 ^ 32 - 1
      let p := ntzP ((w ^^^ mask) &&& rbHighMask (pos % 32))
      if p < 32 then some (pos / 32 * 32 + p)
      else (rbNextLoop bs mask (bs.length + 1) (pos / 32 + 1)).join

/-- `rbitset_next_max`, raw_bitset.h:279-322 -/
def rbNextMax (bs : List Nat) (pos last : Nat) (set : Bool) : Option (Option Nat) :=
  if last < pos then none
  else if pos = last then some none
  else
    match bs[pos / 32]? with
    | none => none
    | some w =>
        let mask := if set then 0 else 2 ^ 32 - 1
        let p := ntzP ((w ^^^ mask) &&& rbHighMask (pos % 32))
        let res := if p < 32 then some (some (pos / 32 * 32 + p))
          else rbNextLoop bs mask (rbElems last - (pos / 32 + 1)) (pos / 32 + 1)
        res.map fun r => match r with
          | some q => if q ≥ last then none else some q
          | none => none

/-- downward loop of `rbitset_prev`, raw_bitset.h:360-369 -/
def rbPrevLoop (bs : List Nat) (mask : Nat) : Nat → Option (Option Nat)
  | 0 => some none
  | i + 1 =>
      match bs[i]? with
      | none => none
      | some w =>
          let p := nlzP (w ^^^ mask)
          if p < 32 then some (some ((1 + i) * 32 - p - 1)) else rbPrevLoop bs mask i

/-- `rbitset_prev`, raw_bitset.h:336-371 -/
def rbPrev (bs : List Nat) (pos : Nat) (set : Bool) : Option (Option Nat) :=
  match bs[pos / 32]? with
  | none => none
  | some w =>
      let mask := if set then 0 else 2 ^ 32 - 1
      let p := nlzP ((w ^^^ mask) &&& not32 (rbHighMask (pos % 32)))
      if p < 32 then some (some ((1 + pos / 32) * 32 - p - 1))
      else rbPrevLoop bs mask (pos / 32)

/-- middle loop of `rbitset_set_range`, raw_bitset.h:468-469 and 478-479 -/
def rbFill (v : Nat) : Nat → Nat → List Nat → Option (List Nat)
  | 0, _, bs => some bs
  | n + 1, i, bs => if i < bs.length then rbFill v n (i + 1) (bs.set i v) else none

/-- read, modify and write the word at `i` -/
def rbUpd (bs : List Nat) (i : Nat) (f : Nat → Nat) : Option (List Nat) :=
  (bs[i]?).map fun w => bs.set i (f w)

/-- `rbitset_set_range`, raw_bitset.h:437-482 -/
def rbSetRange (bs : List Nat) (lo hi : Nat) (val : Bool) : Option (List Nat) :=
  let fromMask := rbHighMask (lo % 32)
  let toMask := sub32 (1 <<< (hi % 32)) 1
  if ¬ lo < hi then none
  else if lo / 32 = hi / 32 then
    rbUpd bs (lo / 32) fun w => if val then w ||| (fromMask &&& toMask) else w &&& not32 (fromMask &&& toMask)
  else do
    let bs ← rbUpd bs (lo / 32) fun w => if val then w ||| fromMask else w &&& not32 fromMask
    let bs ← rbUpd bs (hi / 32) fun w => if val then w ||| toMask else w &&& not32 toMask
    rbFill (if val then 2 ^ 32 - 1 else 0) (hi / 32 - (lo / 32 + 1)) (lo / 32 + 1) bs

/-- `bitset_mod_range`, bitset.h:309-325 -/
def bitsetModRange (bs : List Nat) (size lo hi : Nat) (val : Bool) : Option (List Nat) :=
  if lo = hi then some bs
  else
    let (lo, hi) := if hi < lo then (hi, lo) else (lo, hi)
    rbSetRange bs lo (if hi > size then size else hi) val

/-- loop of `rbitset_minus1`, raw_bitset.h:538-551; `last` is the mask of the last word. -/
def rbMinus1Loop (last : Nat) : Nat → List Nat → Option (List Nat)
  | 0, bs => some bs
  | n + 1, w :: bs =>
      let mask := if n = 0 then last else 2 ^ 32 - 1
      let val := w &&& mask
      let valMinus1 := sub32 val 1
      let w' := valMinus1 &&& mask
      if (val >>> 31) ^^^ (valMinus1 >>> 31) = 0 then some (w' :: bs)
      else (rbMinus1Loop last n bs).map (w' :: ·)
  | _, _ => none

/-- `rbitset_minus1`, raw_bitset.h:538-551 -/
def rbMinus1 (bs : List Nat) (size : Nat) : Option (List Nat) := rbMinus1Loop (rbLastMask size) (rbElems size) bs

end Verif.Model
