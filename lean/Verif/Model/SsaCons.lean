import Verif.Spec.SsaCons
/-!
# Model of the construction of SSA form (ir/ir/ircons.c)

Blocks, nodes and variables are numbers; the variable 0 is the store (`get_r_store`), its values have the mode `mode_M`.  The start block is the
block 0.  Every other number is a block made by `new_immBlock`: not matured and without predecessors.
-/
namespace Verif.Model.SsaCons

/-- the nodes: of the front end (in a block), Unknown, Bad, and Phi with its block, `attr.phi.u.pos` and its operands (none for a Phi0) -/
inductive Node
  | front (block : Nat)
  | unknown (var : Nat)
  | bad
  | phi (block var : Nat) (args : List Nat)
  deriving DecidableEq, Repr

/-- the graph.  `ids` are the Phi nodes that became Id nodes, with the node that replaced them, the first exchange in front.  `arr` is `graph_arr`,
`phis` the chain of Phi0 nodes of a block, `kept` the operands of End; a Phi of memory gets the flag `loop` when it is kept alive, so a Phi with this
flag is one in `kept`.  `failed`: the assertion in `exchange`, ir/ir/irgmod.c:45-56, failed. -/
structure St where
  node : Nat → Node
  used : Nat
  ids : List (Nat × Nat)
  preds : Nat → List (Option Nat)
  matured : Nat → Bool
  phis : Nat → List Nat
  arr : Nat → Nat → Option Nat
  kept : List Nat
  failed : Bool

/-- the start block is matured, it has no predecessors; `new_r_Block_noopt` in ir/ir/irgraph.c:128 -/
def St.init : St :=
  ⟨fun _ => .bad, 0, [], fun _ => [], fun b => b == 0, fun _ => [], fun _ _ => none, [], false⟩

/-- one Id node is skipped -/
def hop (x : Nat) (e : Nat × Nat) : Nat := if x = e.1 then e.2 else x

/-- `skip_Id`, ir/ir/irnode.c:764-796.  The node that replaces another one is no Id at that time, so the chain is in the order of the exchanges. -/
def St.skip (s : St) (x : Nat) : Nat := s.ids.foldl hop x

/-- `is_Phi` -/
def St.isPhi (s : St) (x : Nat) : Bool :=
  match s.node x with
  | .phi _ _ _ => s.skip x == x
  | _ => false

/-- a new node -/
def St.add (s : St) (n : Node) : St := { s with node := fun x => if x = s.used then n else s.node x, used := s.used + 1 }

/-- `block->attr.block.graph_arr[pos] = value` -/
def St.setArr (s : St) (b v x : Nat) : St := { s with arr := fun b' v' => if b' = b ∧ v' = v then some x else s.arr b' v' }

/-- `set_irn_in` of a Phi -/
def St.setIn (s : St) (phi b v : Nat) (args : List Nat) : St := { s with node := fun x => if x = phi then .phi b v args else s.node x }

/-- `exchange`, ir/ir/irgmod.c:38-89, without edges -/
def St.exchange (s : St) (old nw : Nat) : St :=
  { s with ids := s.ids ++ [(old, nw)],
           failed := s.failed || (s.kept.contains old && !(s.isPhi nw && s.kept.contains nw) && !decide (s.node nw = .bad)) }

/-- the loop of `try_remove_unnecessary_phi`, ir/ir/ircons.c:63-80: `have_self_loop` and `phi_value`; absent if there are two values -/
def scan (phi : Nat) : List Nat → Bool → Option Nat → Option (Bool × Option Nat)
  | [], self, val => some (self, val)
  | x :: xs, self, val =>
    if x = phi then scan phi xs true val
    else if val = some x then scan phi xs self val
    else if val = none then scan phi xs self (some x)
    else none

/-- `try_remove_unnecessary_phi`, ir/ir/ircons.c:58-98; the depth of the recursion is bounded by `fuel` -/
def tryRemove : Nat → Nat → St → St
  | 0, _, s => s
  | fuel + 1, phi, s =>
    match s.node phi with
    | .phi _ v args =>
      match scan phi (args.map s.skip) false none with
      | some (self, some w) =>
        if self && v == 0 then s
        else
          let s := s.exchange phi w
          if s.isPhi w then tryRemove fuel w s else s
      | _ => s
    | _ => s

/-- the loop of `set_phi_arguments`, ir/ir/ircons.c:115-128; `read` is `get_r_value_internal` -/
def readAll (read : Nat → St → Option (Nat × St)) : List (Option Nat) → St → Option (List Nat × St)
  | [], s => some ([], s)
  | none :: ps, s =>
    let x := s.used
    match readAll read ps (s.add .bad) with
    | none => none
    | some (xs, s) => some (x :: xs, s)
  | some p :: ps, s =>
    match read p s with
    | none => none
    | some (x, s) =>
      match readAll read ps s with
      | none => none
      | some (xs, s) => some (x :: xs, s)

/-- `set_phi_arguments`, ir/ir/ircons.c:106-146, for a Phi0 of block `b` and variable `v` -/
def setPhiArgs (read : Nat → St → Option (Nat × St)) (phi b v : Nat) (s : St) : Option St :=
  match readAll read (s.preds b) s with
  | none => none
  | some (args, s) =>
    let s := s.setIn phi b v args
    let s := tryRemove (s.used + 1) phi s
    some (if v = 0 ∧ s.skip phi = phi then { s with kept := s.kept ++ [phi] } else s)

/-- `get_r_value_internal`, ir/ir/ircons.c:158-207, without `default_initialize_local_variable`; the depth of the recursion is bounded by `fuel` -/
def getValue : Nat → Nat → Nat → St → Option (Nat × St)
  | 0, _, _, _ => none
  | fuel + 1, b, v, s =>
    match s.arr b v with
    | some x => some (x, s)
    | none =>
      if s.matured b then
        match s.preds b with
        | [] => if b = 0 then some (s.used, (s.add (.unknown v)).setArr b v s.used) else some (s.used, (s.add .bad).setArr b v s.used)
        | [none] => some (s.used, (s.add .bad).setArr b v s.used)
        | [some p] =>
          match getValue fuel p v s with
          | none => none
          | some (x, s) => some (x, s.setArr b v x)
        | _ =>
          let phi := s.used
          match setPhiArgs (fun p s => getValue fuel p v s) phi b v ((s.add (.phi b v [])).setArr b v phi) with
          | none => none
          | some s => some (phi, s.setArr b v phi)
      else
        let s' := (s.add (.phi b v [])).setArr b v s.used
        some (s.used, { s' with phis := fun b' => if b' = b then s.used :: s.phis b else s.phis b' })

/-- the variable of a Phi, `attr.phi.u.pos` -/
def St.pos (s : St) (phi : Nat) : Nat :=
  match s.node phi with
  | .phi _ v _ => v
  | _ => 0

/-- the loop of `mature_immBlock`, ir/ir/ircons.c:242-249; `set_phi_arguments` returns the Phi itself, so the assignment to `graph_arr` changes nothing -/
def maturePhis (fuel b : Nat) : List Nat → St → Option St
  | [], s => some s
  | phi :: phis, s =>
    match setPhiArgs (fun p t => getValue fuel p (s.pos phi) t) phi b (s.pos phi) s with
    | none => none
    | some s => maturePhis fuel b phis s

/-- `mature_immBlock`, ir/ir/ircons.c:209-262, without the local optimisation of the block -/
def mature (fuel b : Nat) (s : St) : Option St :=
  if s.matured b then some s
  else
    let s := { s with matured := fun b' => b' == b || s.matured b',
                      preds := fun b' => if b' = b ∧ s.preds b = [] then [none] else s.preds b' }
    maturePhis fuel b (s.phis b) s

/-- `add_immBlock_pred`, ir/ir/ircons.c:361-368, for a jump in block `p` or a Bad -/
def addPred (b : Nat) (p : Option Nat) (s : St) : St := { s with preds := fun b' => if b' = b then s.preds b ++ [p] else s.preds b' }

/-! ## The calls of a front end -/

/-- a further event of a block -/
def record (L : Nat → List Spec.Ssa.Event) (b : Nat) (e : Spec.Ssa.Event) : Nat → List Spec.Ssa.Event :=
  fun b' => if b' = b then L b ++ [e] else L b'

/-- the graphs a front end can build, with the events of the blocks.  A block gets no further assignments when it is the predecessor of a block:
it is finished by its jump then. `set_r_value`, ir/ir/ircons.c:457-465; `get_r_value`, ir/ir/ircons.c:396-402. -/
inductive Builds : St → (Nat → List Spec.Ssa.Event) → Prop
  | init : Builds St.init fun _ => []
  | define {s L} (b : Nat) : Builds s L → Builds (s.add (.front b)) (record L b (.define s.used))
  | set {s L b v n} : Builds s L → n < s.used → (∀ b', some b ∉ s.preds b') → Builds (s.setArr b v n) (record L b (.set v n))
  | get {s L fuel b v r s'} : Builds s L → getValue fuel b v s = some (r, s') → Builds s' (record L b (.get v r))
  | addPred {s L b p} : Builds s L → s.matured b = false → Builds (addPred b p s) L
  | mature {s L fuel b s'} : Builds s L → mature fuel b s = some s' → Builds s' L

/-- the program that was built -/
def St.code (s : St) (L : Nat → List Spec.Ssa.Event) : Spec.Ssa.Code where
  start := 0
  preds := s.preds
  events := L
  phi x :=
    match s.node x with
    | .phi b _ args => if s.skip x = x then some (b, args.map s.skip) else none
    | _ => none
  initial x :=
    match s.node x with
    | .unknown v => some v
    | _ => none
  final := s.skip

end Verif.Model.SsaCons
