import Verif.Model.TarVal
/-!
# Model of the import, export and printing functions of `ir/tv/strcalc.c`

`n` is `calc_buffer_size` (in words).  `none` means an assertion failure or a
write outside the destination buffer, unless said otherwise.
-/
namespace Verif.Model

/-- `sc_val_from_bytes`, strcalc.c:598-607: contents of the value buffer
afterwards and the number of bytes written *behind* its end.  The `memset`
starts at `p+n_bytes` and clears `buffer+calc_buffer_size-p = n` bytes, as `p`
was not advanced.  `none` = failed assertion. -/
def scValFromBytes (n : Nat) (bytes : List Nat) : Option (List Nat × Nat) :=
  if bytes.length ≤ n then some (bytes ++ scZero (n - bytes.length), bytes.length + n - n) else none

/-- `sc_val_to_bytes`, strcalc.c:609-616. -/
def scValToBytes (buf : List Nat) (destLen : Nat) : Option (List Nat) :=
  if destLen ≤ buf.length then some (buf.take destLen) else none

/-- number of bytes of a mode, as computed in tv.c:254 and tv.c:278. -/
def modeBytes (md : Mode) : Nat := md.bits / 8 + (if md.bits % 8 ≠ 0 then 1 else 0)

/-- `new_tarval_from_bytes`, tv.c:248-258, two's complement branch; the second
component is the number of bytes written outside the buffer. `buf` holds the
bytes the function reads. -/
def newTarvalFromBytes (E : TvEnv) (buf : List Nat) (md : Mode) : Option (TarVal × Nat) :=
  (scValFromBytes (2 * E.m) (buf.take (modeBytes md))).map fun r => (getIntTarval r.1 md, r.2)

/-- `tarval_to_bytes`, tv.c:273-283, two's complement branch. -/
def tarvalToBytes (t : TarVal) : Option (List Nat) :=
  match t with
  | .int md buf => scValToBytes buf (modeBytes md)
  | _ => none

/-- middle loop of `sc_val_from_bits`, strcalc.c:649-653.  The words before `p`
are `out`, `*p` is `cur`; storing to `p` needs `p < n`. -/
def scFromBitsMid (n bit : Nat) : List Nat → List Nat → Nat → Option (List Nat × Nat)
  | [], out, cur => some (out, cur)
  | b :: bs, out, cur =>
      let mval := b <<< bit
      let out' := out ++ [cur ||| (mval % 256)]
      if out'.length < n then scFromBitsMid n bit bs out' ((mval >>> 8) % 256) else none

/-- `sc_val_from_bits`, strcalc.c:620-663. `uint32_t` arithmetic modulo `2^32`. -/
def scValFromBits (n : Nat) (bytes : List Nat) (frm to : Nat) : Option (List Nat) :=
  if ¬ (frm < to) then none
  else if ¬ ((to - frm) / 8 ≤ n) then none
  else
    let lowPos := frm / 8
    let highPos := (to - 1) / 8
    let lowBit := frm % 8
    let highBit := (to - 1) % 8 + 1
    let low := bytes.getD lowPos 0
    let high := bytes.getD highPos 0
    let finish (out : List Nat) : Option (List Nat) :=
      if out.length ≤ n then some (out ++ scZero (n - out.length)) else none
    if lowPos = highPos then
      let val := ((low <<< (32 - highBit)) % 2 ^ 32) >>> (32 - highBit + lowBit)
      finish [val % 256]
    else if n < 2 then none  -- the store to `*(p+1)`
    else
      let val := low >>> lowBit
      let bit := (8 - lowBit) % 8
      -- `p += (8 - lowBit)/8`: one word is complete iff the field starts at a byte boundary
      let (out, cur) := if (8 - lowBit) / 8 = 0 then (([] : List Nat), val % 256) else ([val % 256], 0)
      match scFromBitsMid n bit ((bytes.drop (lowPos + 1)).take (highPos - lowPos - 1)) out cur with
      | none => none
      | some (out, cur) =>
          let hval := ((high <<< (32 - highBit)) % 2 ^ 32) >>> (32 - highBit - bit)
          let out := out ++ [cur ||| (hval % 256)]
          let out := if hval >>> 8 ≠ 0 then out ++ [(hval >>> 8) % 256] else out
          finish out

/-- the `digits` table of `sc_print_buf`, strcalc.c:675. -/
def scDigits : List Nat := [48, 49, 50, 51, 52, 53, 54, 55, 56, 57, 65, 66, 67, 68, 69, 70]

/-- the words of `value` that take part in printing `bits` bits, the last one
masked: strcalc.c:688-703 (hexadecimal) and 732-742 (decimal). -/
def scPrintWords (value : List Nat) (bits : Nat) : List Nat :=
  value.take (bits / 8) ++ (if bits % 8 ≠ 0 then [value.getD (bits / 8) 0 &&& maxDigit (bits % 8)] else [])

/-- hexadecimal digit stores, strcalc.c:688-703; `acc` is the text behind `pos`. -/
def scHexPush : List Nat → List Nat → List Nat
  | [], acc => acc
  | x :: xs, acc => scHexPush xs (scDigits.getD ((x >>> 4) &&& 15) 0 :: scDigits.getD (x &&& 15) 0 :: acc)

/-- "now kill zeros", strcalc.c:705-710: the last character always stays. -/
def scKillZeros : List Nat → List Nat
  | [] => []
  | [c] => [c]
  | c :: d :: cs => if c = 48 then scKillZeros (d :: cs) else c :: d :: cs

/-- `sc_print_buf` with `SC_HEX`, strcalc.c:670-712; `none` = text does not fit
into `bufLen` characters including the terminating NUL. -/
def scPrintHex (bufLen : Nat) (value : List Nat) (bits : Nat) : Option (List Nat) :=
  let s := scHexPush (scPrintWords value bits) []
  if s.length + 1 ≤ bufLen then some (scKillZeros s) else none

/-- the division loop, strcalc.c:744-762; `room` is the number of characters
left in the buffer, running out of it is a write below `buf`. -/
def scDecLoop : Nat → List Nat → List Nat → Option (List Nat)
  | 0, _, _ => none
  | room + 1, mval, acc =>
      match scDivmod mval (10 :: scZero (mval.length - 1)) with
      | none => none
      | some (q, r, _) =>
          let acc := scDigits.getD (r.getD 0 0) 0 :: acc
          if q.all (· == 0) then some acc else scDecLoop room q acc

/-- `sc_print_buf` with `SC_DEC`, strcalc.c:713-768. -/
def scPrintDec (bufLen : Nat) (value : List Nat) (bits : Nat) (signed : Bool) : Option (List Nat) :=
  let sign := signed && scGetBitAt value (bits - 1)
  let p := if sign then scNeg value else value
  let w := scPrintWords p bits
  let div1 := w ++ scZero (value.length - w.length)
  match scDecLoop (bufLen - 1) div1 [] with
  | none => none
  | some s =>
      if sign then (if s.length + 2 ≤ bufLen then some (45 :: s) else none) else some s

/-- `ir_tarval_to_ascii`, tv.c:1127-1135, integer modes. -/
def tarvalToAscii (bufLen : Nat) (t : TarVal) : Option (List Nat) :=
  match t with
  | .int md buf => scPrintHex bufLen buf md.bits
  | _ => none

/-- `ir_tarval_from_ascii`, tv.c:1161-1168, integer modes. -/
def tarvalFromAscii (E : TvEnv) (s : List Nat) (md : Mode) : TarVal := newIntegerTarvalFromStr E s false 16 md

end Verif.Model
