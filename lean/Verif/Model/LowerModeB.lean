import Verif.Spec.ModeB
/-!
# Model: lowering of boolean values to integers

ir/lower/lower_mode_b.c with `part_block_edges` of ir/ir/irgmod.c.  Old and new nodes are numbers in one table.  Left out: Tuple, Unknown and Bad nodes, the local
optimisation when nodes are created, constants (they are in the start block and never matter), Projs, and the new Cond, Proj, Jmp and Block nodes beside their
effect: the new Phi of 1 and 0 is `condSet`, and `preds` tells how a block is entered now.
`none` is a panic, or the fuel is used up.
-/
namespace Verif.Model.LowerModeB

open Verif.Spec.ModeB

structure St where
  node : Nat → Node
  cnt : Nat
  link : Nat → Option Nat
  preds : Nat → Entry
  nblk : Nat

def setBlk (g : Nat → Node) (n b : Nat) : Nat → Node := fun x => if x = n then { g x with blk := b } else g x

def isPhi : Op → Bool
  | .phi _ => true
  | .condSet => true
  | _ => false

/-- `move_edges`, ir/ir/irgmod.c:206-222 -/
def move (fr to : Nat) : Nat → Nat → (Nat → Node) → (Nat → Node)
  | 0, _, g => g
  | f + 1, n, g =>
    let g' := setBlk g n to
    if isPhi (g n).op then g'
    else (g n).ins.foldl (fun h p => if (h p).blk = fr then move fr to f p h else h) g'

/-- `part_block_edges`, ir/ir/irgmod.c:276-303: the old block is the lower one; the predecessors, the node with what it needs, and all Phis go to the new one -/
def partBlock (fuel : Nat) (c : Nat) (s : St) : St :=
  let old := (s.node c).blk
  let new := s.nblk
  let g := move old new fuel c s.node
  { s with
    node := fun x => if isPhi (g x).op ∧ (g x).blk = old then { g x with blk := new } else g x
    preds := fun b => if b = new then s.preds old else if b = old then .below new else s.preds b
    nblk := s.nblk + 1 }

/-- a new node -/
def push (op : Op) (ins : List Nat) (blk : Nat) (s : St) : Nat × St :=
  (s.cnt, { s with node := fun x => if x = s.cnt then ⟨op, ins, blk⟩ else s.node x, cnt := s.cnt + 1 })

/-- `set_irn_link` -/
def setLink (n r : Nat) (s : St) : St := { s with link := fun x => if x = n then some r else s.link x }

/-- `create_cond_set`, ir/lower/lower_mode_b.c:60-88 -/
def createCondSet (fuel : Nat) (c : Nat) (s : St) : Nat × St :=
  let lower := (s.node c).blk
  let s1 := partBlock fuel c s
  let upper := (s1.node c).blk
  let s2 := { s1 with link := fun x => if (s1.node x).blk = upper then none else s1.link x }
  push .condSet [c] lower s2

/-- `create_not`, ir/lower/lower_mode_b.c:38-46 -/
def createNot (n : Nat) (s : St) : Nat × St :=
  let blk := (s.node n).blk
  let p := push .one [] blk s
  push .eor [n, p.1] blk p.2

/-- And, Or and Eor, ir/lower/lower_mode_b.c:131-148 -/
def lowerBin (lower : Nat → St → Option (Nat × St)) (op : Op) (n a b blk : Nat) (s : St) : Option (Nat × St) :=
  match lower a s with
  | none => none
  | some (ra, s1) =>
    match lower b s1 with
    | none => none
    | some (rb, s2) =>
      let p := push op [ra, rb] blk s2
      some (p.1, setLink n p.1 p.2)

/-- the operands of a Phi, one after the other, ir/lower/lower_mode_b.c:122-125 -/
def lowerList (lower : Nat → St → Option (Nat × St)) : List Nat → St → Option (List Nat × St)
  | [], s => some ([], s)
  | n :: ns, s =>
    match lower n s with
    | none => none
    | some (r, s1) =>
      match lowerList lower ns s1 with
      | none => none
      | some (rs, s2) => some (r :: rs, s2)
/-- `lower_node`, ir/lower/lower_mode_b.c:90-202.  The operands of a new Phi are set when all are lowered (nothing reads them before). -/
def lower : Nat → Nat → St → Option (Nat × St)
  | 0, _, _ => none
  | f + 1, n, s =>
    match s.link n with
    | some r => some (r, s)
    | none =>
      let blk := (s.node n).blk
      match (s.node n).op, (s.node n).ins with
      | .phi k, ins =>
        let p := push (.phi k) [] blk s
        match lowerList (lower f) ins (setLink n p.1 p.2) with
        | none => none
        | some (rs, s2) => some (p.1, { s2 with node := fun x => if x = p.1 then { s2.node x with ins := rs } else s2.node x })
      | .and, [a, b] => lowerBin (lower f) .and n a b blk s
      | .or, [a, b] => lowerBin (lower f) .or n a b blk s
      | .eor, [a, b] => lowerBin (lower f) .eor n a b blk s
      | .not, [a] =>
        match lower f a s with
        | none => none
        | some (ra, s1) =>
          let p := createNot ra s1
          some (p.1, setLink n p.1 p.2)
      | .mux, [c, t, e] =>
        match lower f c s with
        | none => none
        | some (rc, s1) =>
          match lower f t s1 with
          | none => none
          | some (rt, s2) =>
            match lower f e s2 with
            | none => none
            | some (re, s3) =>
              let and0 := push .and [rc, rt] blk s3
              let notc := createNot rc and0.2
              let and1 := push .and [notc.1, re] blk notc.2
              let p := push .or [and0.1, and1.1] blk and1.2
              some (p.1, setLink n p.1 p.2)
      | .cmp, _ =>
        let p := createCondSet s.cnt n s
        some (p.1, setLink n p.1 p.2)
      | .const b, _ =>
        let p := push (if b then .one else .zero) [] blk s
        some (p.1, setLink n p.1 p.2)
      | _, _ => none

/-- the graph before: no links, every block has its own predecessors -/
def St.init (node : Nat → Node) (cnt nblk : Nat) : St := ⟨node, cnt, fun _ => none, .orig, nblk⟩

/-- a root: `ir_lower_mode_b`, ir/lower/lower_mode_b.c:256-267; the number of the new operand.  With `needsB` (selector of a Cond or Mux) a comparison with 0 is added
in the block of the lowered node, 48-55. -/
def root (fuel : Nat) (needsB : Bool) (user input : Nat) (s : St) : Option St :=
  match (s.node user).ins[input]? with
  | none => none
  | some n =>
    match lower fuel n s with
    | none => none
    | some (r, s1) =>
      let p := if needsB then push .other [r] (s1.node r).blk s1 else (r, s1)
      some { p.2 with node := fun x => if x = user then { p.2.node x with ins := (p.2.node x).ins.set input p.1 } else p.2.node x }

end Verif.Model.LowerModeB
