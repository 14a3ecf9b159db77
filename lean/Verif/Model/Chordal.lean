import Verif.Model.Interfere
/-!
# Model of the coloring of ir/be/bechordal.c and the borders of ir/be/bechordal_common.c

The data of the program are those of `Interfere.Code`.  `cls` are the values that belong to the class of registers and are not ignored
(`arch_irn_consider_in_reg_alloc`); the operand and its requirement have the same class.  Each value needs one register.  The result `none` means that
an assertion fails or that there is no free register.  Not modelled: `handle_constraints`; registers that are fixed there are in the table of registers
from the beginning.
-/
namespace Verif.Model.Chordal
open Verif.Model.LiveChk Verif.Model.Interfere

/-- `border_t`, ir/be/bechordal_t.h:27-32 -/
structure Border where
  irn : Nat
  isDef : Bool
  isReal : Bool
deriving DecidableEq

/-- the set `live` and the list of borders in the order of creation -/
abbrev Scan := List Nat × List Border

/-- the values at the end of the block, ir/be/bechordal_common.c:74-78 -/
def scanEnd (s : Scan) (v : Nat) : Scan := (v :: s.1, s.2 ++ [⟨v, false, false⟩])

/-- a definition, ir/be/bechordal_common.c:87-94 -/
def scanDef (s : Scan) (d : Nat) : Scan := (s.1.filter (· ≠ d), s.2 ++ [⟨d, true, true⟩])

/-- an operand, ir/be/bechordal_common.c:98-107 -/
def scanUse (s : Scan) (u : Nat) : Scan := if s.1.contains u then s else (u :: s.1, s.2 ++ [⟨u, false, true⟩])

/-- an instruction, ir/be/bechordal_common.c:84-109 -/
def scanIns (c : Code) (cls : Nat → Bool) (s : Scan) (i : Nat) : Scan :=
  let s := ((c.values i).filter cls).foldl scanDef s
  if c.phi i then s else ((c.ops i).filter cls).foldl scanUse s

/-- `create_borders`, ir/be/bechordal_common.c:43-120.  `vs` are the values with an entry for the block, `iter` is the order in which the elements of a set are
visited. -/
def createBorders (c : Code) (cls : Nat → Bool) (vs : List Nat) (iter : List Nat → List Nat) (b : Nat) : Option (List Border) :=
  let s := (c.endOfBlock cls vs b).foldl scanEnd ([], [])
  let s := (c.sched b).reverse.foldl (scanIns c cls) s
  if (iter s.1).all fun v => (c.lv b v).inn then some (s.2 ++ (iter s.1).map fun v => ⟨v, true, false⟩) else none

/-- the registers that are available, and the register of each value -/
structure State where
  avail : Nat → Bool
  reg : Nat → Option Nat

/-- a bit is set or cleared -/
def State.setBit (s : State) (r : Nat) (x : Bool) : State := { s with avail := fun q => if q = r then x else s.avail q }

/-- `arch_set_irn_register_idx` -/
def State.setReg (s : State) (v r : Nat) : State := { s with reg := fun w => if w = v then some r else s.reg w }

/-- `get_next_free_reg`, ir/be/bechordal.c:32-35, for `n` registers -/
def nextFree (n : Nat) (avail : Nat → Bool) : Option Nat := (List.range n).find? avail

/-- the body of the loop of `assign`, ir/be/bechordal.c:339-369 -/
def assignBorder (n : Nat) (s : State) (b : Border) : Option State :=
  if !b.isDef then
    match s.reg b.irn with
    | none => none
    | some r => some (s.setBit r true)
  else
    match s.reg b.irn with
    | some r => if s.avail r then some (s.setBit r false) else none
    | none =>
      if !b.isReal then none
      else
        match nextFree n s.avail with
        | none => none
        | some r => some ((s.setReg b.irn r).setBit r false)

/-- the loop of `assign` -/
def assignLoop (n : Nat) : List Border → State → Option State
  | [], s => some s
  | b :: bs, s => (assignBorder n s b).bind (assignLoop n bs)

/-- `assign`, ir/be/bechordal.c:320-370: the borders are visited from the last to the first (`foreach_border_head`) -/
def assign (n : Nat) (alloc : Nat → Bool) (borders : List Border) (reg : Nat → Option Nat) : Option (Nat → Option Nat) :=
  (assignLoop n borders.reverse ⟨alloc, reg⟩).map (·.reg)

/-- `be_ra_chordal_color`, ir/be/bechordal.c:372-392, without the constraints; `order` is the order in which the blocks are visited -/
def color (c : Code) (cls : Nat → Bool) (vs : List Nat) (iter : List Nat → List Nat) (n : Nat) (alloc : Nat → Bool) :
    List Nat → (Nat → Option Nat) → Option (Nat → Option Nat)
  | [], reg => some reg
  | b :: bs, reg =>
    match createBorders c cls vs iter b with
    | none => none
    | some borders => (assign n alloc borders reg).bind (color c cls vs iter n alloc bs)

end Verif.Model.Chordal
