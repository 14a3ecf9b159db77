/-!
# Model of the tokens of the textual representation (`ir/ir/irio.c`)

Characters are byte values.  The input is a list of bytes; the head of the list is `env->c` (the empty list is `EOF`).  A parse error calls
`exit(1)` and is represented by `none`.  C strings are lists of non-zero bytes.  Not modelled: line counting, `parse_error` messages, obstacks.
-/
namespace Verif.Model.IrIo

/-! ## Writing -/

/-- the characters `fprintf` prints for a number in base 10 -/
def decimal (n : Nat) : List Nat := if _h : n < 10 then [48 + n] else decimal (n / 10) ++ [48 + n % 10]
  termination_by n
  decreasing_by omega

/-- `write_long`, `write_int`: ir/ir/irio.c:321-329 -/
def writeInt (v : Int) : List Nat := (if v < 0 then 45 :: decimal v.natAbs else decimal v.natAbs) ++ [32]

/-- `write_unsigned`, `write_size_t`: ir/ir/irio.c:331-339 -/
def writeNat (v : Nat) : List Nat := decimal v ++ [32]

/-- `write_symbol`, ir/ir/irio.c:341-345 -/
def writeSymbol (s : List Nat) : List Nat := s ++ [32]

/-- the loop of `write_string`, ir/ir/irio.c:370-384 -/
def escape : List Nat → List Nat
  | [] => []
  | c :: cs => (if c = 10 then [92, 110] else if c = 34 ∨ c = 92 then [92, c] else [c]) ++ escape cs

/-- `write_string`, ir/ir/irio.c:367-387 -/
def writeString (s : List Nat) : List Nat := 34 :: escape s ++ [34, 32]

/-- `write_ident_null`, ir/ir/irio.c:394-401 -/
def writeStringNull : Option (List Nat) → List Nat
  | none => [78, 85, 76, 76, 32]
  | some s => writeString s

/-! ## Reading -/

/-- the cases of `skip_ws`, ir/ir/irio.c:1122-1125 -/
def isWs (c : Nat) : Bool := c = 32 || c = 9 || c = 10 || c = 13

/-- `skip_ws`, ir/ir/irio.c:1118-1133 -/
def skipWs (inp : List Nat) : List Nat := inp.dropWhile isWs

/-- `isdigit` -/
def isDigit (c : Nat) : Bool := 48 ≤ c && c ≤ 57

/-- `read_word`, ir/ir/irio.c:1156-1181 -/
def readWord (inp : List Nat) : List Nat × List Nat :=
  let i := skipWs inp
  (i.takeWhile (fun c => !isWs c), i.dropWhile (fun c => !isWs c))

/-- the loop of `read_string`, ir/ir/irio.c:1193-1218 -/
def readStringBody : List Nat → Option (List Nat × List Nat)
  | [] => none
  | [c] => if c = 34 then some ([], []) else none
  | c :: d :: r =>
    if c = 34 then some ([], d :: r)
    else if c = 92 then
      if d = 110 then (readStringBody r).map (fun x => (10 :: x.1, x.2))
      else if d = 34 ∨ d = 92 then (readStringBody r).map (fun x => (d :: x.1, x.2))
      else none
    else (readStringBody (d :: r)).map (fun x => (c :: x.1, x.2))

/-- `read_string`, ir/ir/irio.c:1183-1222 -/
def readString (inp : List Nat) : Option (List Nat × List Nat) :=
  match skipWs inp with
  | [] => none
  | c :: r => if c = 34 then readStringBody r else none

/-- `read_string_null`, ir/ir/irio.c:1243-1258 (as used by `read_ident_null`, 1260-1269) -/
def readStringNull (inp : List Nat) : Option (Option (List Nat) × List Nat) :=
  match skipWs inp with
  | [] => none
  | c :: r =>
    if c = 78 then
      if (readWord (c :: r)).1 = [78, 85, 76, 76] then some (none, (readWord (c :: r)).2) else none
    else if c = 34 then (readString (c :: r)).map (fun x => (some x.1, x.2))
    else none

/-- value of a string of digits -/
def digitsValue (ds : List Nat) : Nat := ds.foldl (fun a c => a * 10 + (c - 48)) 0

/-- `atol` on an optional sign followed by digits; undefined when the number is not a (64-bit) long -/
def atol (s : List Nat) : Option Int :=
  let v : Int := match s with
    | 45 :: ds => -(digitsValue ds : Int)
    | ds => digitsValue ds
  if -2 ^ 63 ≤ v ∧ v < 2 ^ 63 then some v else none

/-- `read_long`, ir/ir/irio.c:1271-1291 -/
def readLong (inp : List Nat) : Option (Int × List Nat) :=
  match skipWs inp with
  | [] => none
  | c :: r =>
    if isDigit c || c = 45 then
      (atol (c :: r.takeWhile isDigit)).map (fun v => (v, r.dropWhile isDigit))
    else none

/-- `read_int`, ir/ir/irio.c:1293-1296: conversion to a 32-bit int -/
def readInt (inp : List Nat) : Option (Int × List Nat) := (readLong inp).map (fun x => (x.1.bmod (2 ^ 32), x.2))

/-- `read_unsigned`, ir/ir/irio.c:1298-1301: conversion to a 32-bit unsigned -/
def readUnsigned (inp : List Nat) : Option (Nat × List Nat) := (readLong inp).map (fun x => ((x.1 % 2 ^ 32).toNat, x.2))

/-- `read_size_t`, ir/ir/irio.c:1303-1307 -/
def readSizeT (inp : List Nat) : Option (Nat × List Nat) := readUnsigned inp

end Verif.Model.IrIo
