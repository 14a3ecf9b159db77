import Verif.Spec.BlockCopy
/-!
# Model: lowering of CopyB and of Alloc

ir/lower/lower_copyb.c, ir/lower/lower_alloc.c.  A Load and a Store of the same mode pass on the bytes, in whichever order the machine has them; addresses do not
wrap around.
-/
namespace Verif.Model.LowerCopyB

open Verif.Spec.BlockCopy

/-- `get_ir_mode`, ir/lower/lower_copyb.c:36-46: there are modes for these sizes; `panic` otherwise -/
def hasMode (modeBytes : Nat) : Bool := modeBytes = 1 || modeBytes = 2 || modeBytes = 4 || modeBytes = 8

/-- an access: offset and size -/
abbrev Access := Nat × Nat

/-- the inner loop, ir/lower/lower_copyb.c:70-88: the accesses, and the offset after them -/
def inner (modeBytes size offset : Nat) : List Access × Nat :=
  if 0 < modeBytes ∧ offset + modeBytes ≤ size then
    let p := inner modeBytes size (offset + modeBytes)
    ((offset, modeBytes) :: p.1, p.2)
  else ([], offset)
termination_by size - offset

/-- the outer loop, ir/lower/lower_copyb.c:68-91; `none`: panic -/
def accesses (modeBytes size offset : Nat) : Option (List Access) :=
  if offset < size then
    if h : hasMode modeBytes then
      let p := inner modeBytes size offset
      (accesses (modeBytes / 2) size p.2).map (p.1 ++ ·)
    else none
  else some []
termination_by modeBytes
decreasing_by
  unfold hasMode at h
  simp at h
  omega

/-- a Load and the Store after it -/
def access (src dst : Nat) (m : Mem) (x : Access) : Mem :=
  let value := (List.range x.2).map fun k => m (src + x.1 + k)
  fun a => if dst + x.1 ≤ a ∧ a < dst + x.1 + x.2 then value.getD (a - (dst + x.1)) 0 else m a

/-- `lower_small_copyb_node`, ir/lower/lower_copyb.c:51-94: what the Loads and Stores do -/
def smallCopy (allowMisalignments : Bool) (native alignment size src dst : Nat) (m : Mem) : Option Mem :=
  match accesses (if allowMisalignments then native else alignment) size 0 with
  | none => none
  | some l => some (l.foldl (access src dst) m)

/-- what happens to a CopyB -/
inductive Lowered
  | small | large | kept
  deriving DecidableEq, Repr

/-- `find_copyb_nodes` and `lower_copyb_node`, ir/lower/lower_copyb.c:142-175; `none`: panic -/
def decide' (maxSmall minLarge size : Nat) : Option Lowered :=
  if maxSmall < size && size < minLarge then some .kept
  else if size ≤ maxSmall then some .small
  else if minLarge ≤ size then some .large
  else none

/-- `adjust_alloc_size`, ir/lower/lower_alloc.c:29-45 -/
def adjustAllocSize {w : Nat} (po2 : Nat) (size : BitVec w) : BitVec w :=
  let shr := BitVec.allOnes w >>> po2
  let mask := shr <<< po2
  (size + ~~~mask) &&& mask

end Verif.Model.LowerCopyB
