import Verif.Model.StrCalc
/-!
# Index-by-index execution of the strcalc loops on named buffers

`Model/StrCalc.lean` describes the kernels as functions on lists.  Here the
same kernels are executed as in C: a state maps buffer names to contents, each
loop iteration reads from the state and stores one word.  The names passed for
inputs and output may coincide, which is the aliasing of the C callers (the
same pointer passed twice; partially overlapping buffers do not occur).
-/
namespace Verif.Model

/-- contents of all word buffers, by buffer name -/
abbrev Bufs := Nat → List Nat

/-- `b[i]` -/
def Bufs.rd (s : Bufs) (b i : Nat) : Nat := (s b).getD i 0

/-- `b[i] = v` -/
def Bufs.wr (s : Bufs) (b i v : Nat) : Bufs := fun x => if x = b then (s b).set i v else s x

/-- `memset(&b[i], v, k)` -/
def Bufs.fill (s : Bufs) (b : Nat) (v : Nat) : Nat → Nat → Bufs
  | 0, _ => s
  | k + 1, i => (s.wr b i v).fill b v k (i + 1)

/-- a `for (i = ..; ++i)` loop storing to `out[i]` in every iteration, with the
loop-carried scalar `c` (carry, previously read word); `k` iterations are left. -/
def fwdLoop {γ : Type} (out : Nat) (step : Nat → Bufs → γ → Nat × γ) : Nat → Nat → γ → Bufs → Bufs
  | 0, _, _, s => s
  | k + 1, i, c, s => fwdLoop out step k (i + 1) (step i s c).2 (s.wr out i (step i s c).1)

/-- a `for (counter = hi; counter-- > lo; )` loop storing to `out[counter]`;
`k = hi - lo` iterations are left. -/
def bwdLoop {γ : Type} (out : Nat) (step : Nat → Bufs → γ → Nat × γ) (lo : Nat) : Nat → γ → Bufs → Bufs
  | 0, _, s => s
  | k + 1, c, s => bwdLoop out step lo k (step (lo + k) s c).2 (s.wr out (lo + k) (step (lo + k) s c).1)

/-- `sc_not`, strcalc.c:53-57. -/
def ipNot (n val out : Nat) (s : Bufs) : Bufs :=
  fwdLoop out (fun i s (_ : Unit) => (s.rd val i ^^^ 255, ())) n 0 () s

/-- `sc_or`, strcalc.c:59-63; `sc_ornot` (65-69), `sc_xor` (71-75), `sc_and`
(77-81), `sc_andnot` (83-87) with the operation `f` of the loop body. -/
def ipZip (f : Nat → Nat → Nat) (n v1 v2 out : Nat) (s : Bufs) : Bufs :=
  fwdLoop out (fun i s (_ : Unit) => (f (s.rd v1 i) (s.rd v2 i), ())) n 0 () s

/-- `sc_inc`, strcalc.c:89-99.  After the `break` the model keeps storing the
word it read (`c = false`). -/
def ipInc (n buf : Nat) (s : Bufs) : Bufs :=
  fwdLoop buf (fun i s (c : Bool) =>
    let v := s.rd buf i
    if c then (if v < 255 then (v + 1, false) else (0, true)) else (v, false)) n 0 true s

/-- `sc_neg`, strcalc.c:101-105. -/
def ipNeg (n val out : Nat) (s : Bufs) : Bufs := ipInc n out (ipNot n val out s)

/-- `sc_add`, strcalc.c:107-115. -/
def ipAdd (n v1 v2 out : Nat) (s : Bufs) : Bufs :=
  fwdLoop out (fun i s (c : Nat) =>
    let sum := s.rd v1 i + s.rd v2 i + c
    (sum % 256, sum / 256)) n 0 0 s

/-- `sc_sub`, strcalc.c:117-124; `tmp` is the freshly allocated `temp_buffer`. -/
def ipSub (n v1 v2 out tmp : Nat) (s : Bufs) : Bufs := ipAdd n v1 tmp out (ipNeg n v2 tmp s)

/-- `sc_shlI`, strcalc.c:806-833. -/
def ipShl (n val count out : Nat) (s : Bufs) : Bufs :=
  if count ≥ n * 8 then s.fill out 0 n 0
  else
    let sb := count % 8
    let sw := count / 8
    let s :=
      if sb = 0 then
        bwdLoop out (fun i s (_ : Unit) => (s.rd val (i - sw), ())) sw (n - sw) () s
      else
        bwdLoop out (fun i s (v : Nat) =>
          -- `nextpos` is unsigned: for `i == sw` it wraps and the test `nextpos < n` fails
          let next := if i - sw = 0 then 0 else s.rd val (i - sw - 1)
          ((v <<< sb) % 256 ||| (next >>> (8 - sb)) % 256, next)) sw (n - sw) (s.rd val (n - sw - 1)) s
    s.fill out 0 sw 0

/-- `sc_shrI`, strcalc.c:842-883 (the carry flag is computed before the first store). -/
def ipShr (n val count out : Nat) (s : Bufs) : Bufs :=
  if count ≥ n * 8 then s.fill out 0 n 0
  else
    let sb := count % 8
    let sw := count / 8
    let s :=
      if sb = 0 then
        fwdLoop out (fun i s (_ : Unit) => (s.rd val (i + sw), ())) (n - sw) 0 () s
      else
        fwdLoop out (fun i s (v : Nat) =>
          let next := if i + sw + 1 < n then s.rd val (i + sw + 1) else 0
          ((v >>> sb) % 256 ||| (next <<< (8 - sb)) % 256, next)) (n - sw) 0 (s.rd val sw) s
    s.fill out 0 sw (n - sw)

/-- `sc_shrsI`, strcalc.c:892-944; `none` = assertion failure. -/
def ipShrs (n val count bitsize out : Nat) (s : Bufs) : Option Bufs :=
  let sign := if (s.rd val ((bitsize - 1) / 8)).testBit ((bitsize - 1) % 8) then 255 else 0
  if count ≥ bitsize then some (s.fill out sign n 0)
  else if bitsize % 8 ≠ 0 then none
  else
    let sw := count / 8
    let sb := count % 8
    let limit := bitsize / 8
    let s :=
      if sb = 0 then
        fwdLoop out (fun i s (_ : Unit) => (s.rd val (i + sw), ())) (limit - sw) 0 () s
      else
        fwdLoop out (fun i s (v : Nat) =>
          let next := if i + sw + 1 < limit then s.rd val (i + sw + 1) else sign
          ((v >>> sb) % 256 ||| (next <<< (8 - sb)) % 256, next)) (limit - sw) 0 (s.rd val sw) s
    some (s.fill out sign (n - (limit - sw)) (limit - sw))

end Verif.Model
