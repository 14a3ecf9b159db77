import Verif.Spec.StackCode
/-!
# Model: pushes and pops of the ia32 backend

`peephole_be_IncSP` (ir/be/ia32/ia32_optimize.c:828-869): stores after a growth of the stack become
pushes, loads before a shrinking become pops, two moves of the stack pointer become one, and small
moves become pushes and pops.

The schedule is a list of instructions.  The nodes after the `IncSP` (before it, for pops) are given
with what the code asks about them besides the instruction.
-/
namespace Verif.Model.Ia32Stack
open Verif.Spec.StackCode

/-- `MAXPUSH_OPTIMIZE` (ir/be/ia32/ia32_optimize.c:534) -/
def maxPush : Int := 48

/-! ### Stores to pushes -/

/-- A node after the `IncSP`: the instruction, whether it is an `ia32_Store`, whether its base is the
`IncSP`, and whether it has no memory operand. -/
structure After where
  instr : Instr
  isStore : Bool
  ourSp : Bool
  noMem : Bool
  deriving DecidableEq, Repr

/-- The walk of `peephole_IncSP_Store_to_push` (ir/be/ia32/ia32_optimize.c:558-600): every node with
the slot it is taken for; `seen` are the slots taken before. -/
def collectStores (inc : Int) : List Nat → List After → List (After × Option Nat)
  | _, [] => []
  | seen, x :: xs =>
    let stop := (x :: xs).map fun y => (y, none)
    if !x.isStore then stop
    else if !x.ourSp then (x, none) :: collectStores inc seen xs
    else if !x.noMem then (x, none) :: collectStores inc seen xs
    else
      match x.instr with
      | .store a _ _ =>
        if a.index.isSome then stop
        else if a.offset % 4 ≠ 0 then stop
        else if inc - 4 < a.offset ∨ a.offset ≥ maxPush * 4 then (x, none) :: collectStores inc seen xs
        else
          let slot := (a.offset / 4).toNat
          if slot ∈ seen then stop
          else (x, some slot) :: collectStores inc (slot :: seen) xs
      | _ => stop

/-- The number of slots taken without a gap from slot 0 on (ir/be/ia32/ia32_optimize.c:602-607);
`n` bounds the search -/
def countRun (slots : List Nat) : Nat → Nat → Nat
  | 0, i => i
  | n + 1, i => if i ∈ slots then countRun slots n (i + 1) else i

/-- the value stored into a slot -/
def slotVal (l : List (After × Option Nat)) (j : Nat) : Option Val :=
  l.findSome? fun p =>
    if p.2 = some j then
      match p.1.instr with
      | .store _ _ v => some v
      | _ => none
    else none

/-- `peephole_IncSP_Store_to_push` (ir/be/ia32/ia32_optimize.c:541-635): the code from the `IncSP` on.
The slot with the greatest number is pushed first. -/
def storeToPush (inc : Int) (l : List After) : List Instr :=
  if inc < 4 then .incSP inc :: l.map (·.instr)
  else
    let c := collectStores inc [] l
    let slots := c.filterMap (·.2)
    let k := countRun slots slots.length 0
    let pushes := ((List.range k).reverse.filterMap (slotVal c)).map Instr.push
    .incSP (inc - 4 * k) :: pushes ++
      (c.filter fun p => match p.2 with | some j => decide (k ≤ j) | none => true).map (·.1.instr)

/-! ### Loads to pops -/

/-- A node before the `IncSP`: an `ia32_Load` with its register and whether its base is the stack
pointer that the `IncSP` starts from; a copy of a general purpose register; another copy; or anything
else. -/
inductive Before where
  | load (d : Nat) (a : Addr) (ourSp : Bool)
  | copy (d s : Nat)
  | otherCopy
  | other (i : Instr)
  deriving DecidableEq, Repr

def Before.instr : Before → Instr
  | .load d a _ => .load d a
  | .copy d s => .copy d s
  | .otherCopy => .idle
  | .other i => i

/-- The walk of `peephole_Load_IncSP_to_pop` (ir/be/ia32/ia32_optimize.c:656-728), backwards: the list
is the schedule in reverse.  `mask` are the registers in `regmask`, `copied` those not in `copymask`.
-/
def collectLoads (inc : Int) : List Nat → List Nat → List Nat → List Before →
    List (Before × Option Nat)
  | _, _, _, [] => []
  | mask, copied, seen, x :: xs =>
    let stop := (x :: xs).map fun y => (y, none)
    match x with
    | .other _ => stop
    | .otherCopy => (x, none) :: collectLoads inc mask copied seen xs
    | .copy d s =>
      if s ∈ mask ∧ s ∉ copied then stop
      else if d ∈ mask ∧ d ∉ copied then stop
      else (x, none) :: collectLoads inc (d :: s :: mask) (d :: s :: copied) seen xs
    | .load d a ourSp =>
      if !ourSp then stop
      else if a.index.isSome then stop
      else if a.offset % 4 ≠ 0 then stop
      else if a.offset < 0 ∨ a.offset ≥ maxPush * 4 then
        (x, none) :: collectLoads inc mask copied seen xs
      else if a.offset > inc - 4 then (x, none) :: collectLoads inc mask copied seen xs
      else
        let slot := (a.offset / 4).toNat
        if slot ∈ seen then stop
        else if d ∈ mask then stop
        else (x, some slot) :: collectLoads inc (d :: mask) copied (slot :: seen) xs

/-- The search for the first slot of the run that ends with the greatest
(ir/be/ia32/ia32_optimize.c:733-740) -/
def firstOfRun (slots : List Nat) : Nat → Nat
  | 0 => if 0 ∈ slots then 0 else 1
  | m + 1 => if m + 1 ∈ slots then firstOfRun slots m else m + 2

def slotReg (l : List (Before × Option Nat)) (j : Nat) : Option Nat :=
  l.findSome? fun p =>
    if p.2 = some j then
      match p.1 with
      | .load d _ _ => some d
      | _ => none
    else none

/-- `peephole_Load_IncSP_to_pop` (ir/be/ia32/ia32_optimize.c:642-779); `inc` is the number of bytes
the stack shrinks by, `l` the schedule before the `IncSP`, in reverse. -/
def loadToPop (inc : Int) (l : List Before) : List Instr :=
  if inc < 4 then (l.map (·.instr)).reverse ++ [.incSP (-inc)]
  else
    let c := collectLoads inc [] [] [] l
    let slots := c.filterMap (·.2)
    match slots.max? with
    | none => (l.map (·.instr)).reverse ++ [.incSP (-inc)]
    | some m =>
      let first := firstOfRun slots m
      let rest :=
        (c.filter fun p => match p.2 with | some j => decide (j < first) | none => true).map (·.1.instr)
      let pre : List Instr := if first > 0 then [.incSP (-(4 * (first : Int)))] else []
      let pops := ((List.range' first (m + 1 - first)).filterMap (slotReg c)).map Instr.pop
      rest.reverse ++ pre ++ pops ++ [.incSP (-(inc - 4 * (m + 1)))]

/-! ### Moves of the stack pointer -/

/-- `be_peephole_IncSP_IncSP` (ir/be/bepeephole.c:389-406): the first move has no user but the second,
`l` stands between them. -/
def combine (a b : Int) (l : List Instr) : List Instr := .incSP (a + b) :: l

/-- The last part of `peephole_be_IncSP` (ir/be/ia32/ia32_optimize.c:840-868) for the offsets 4, 8,
-4, -8; `r` is a register that is free, `eax` the register pushed. -/
def smallMove (eax r : Nat) (n : Int) : List Instr :=
  if n = 4 then [.push (.reg eax)]
  else if n = 8 then [.push (.reg eax), .push (.reg eax)]
  else if n = -4 then [.pop r]
  else if n = -8 then [.pop r, .pop r]
  else [.incSP n]

end Verif.Model.Ia32Stack
