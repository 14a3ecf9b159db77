import Verif.Model.LiveSets
/-!
# Model of the questions about liveness and interference of values, ir/be/belive.c and ir/be/besched.h

Instructions and values are numbers.  A value is an instruction or a Proj of one.
-/
namespace Verif.Model.Interfere
open Verif.Model.Dom Verif.Model.LiveChk

/-- What the functions read: the graph, the schedule of each block, the block and the time step of each instruction, whether it is a Phi, its operands,
`skip_Proj` of a value, the values of an instruction (`be_foreach_value`), the out edges of a value (user and position of the operand), and the flags of
`be_get_live_state`. -/
structure Code where
  g : Cfg
  sched : Nat → List Nat
  block : Nat → Nat
  ts : Nat → Nat
  phi : Nat → Bool
  ops : Nat → List Nat
  owner : Nat → Nat
  values : Nat → List Nat
  edges : Nat → List (Nat × Nat)
  lv : Nat → Nat → State

/-- `value_strictly_dominates`, ir/be/besched.h:163-175, for two instructions -/
def Code.strictlyDominates (c : Code) (a b : Nat) : Bool :=
  if c.block a ≠ c.block b then c.g.dominates (c.block a) (c.block b) else decide (c.ts a < c.ts b)

/-- `value_live_after`, ir/be/belive.c:401-427 -/
def Code.liveAfter (c : Code) (v after : Nat) : Bool :=
  let bb := c.block after
  (c.lv bb v).end_ || (c.edges v).any fun e => decide (c.block e.1 = bb) && !c.phi e.1 && decide (c.ts after < c.ts e.1)

/-- `be_value_live_after`, ir/be/belive.c:429-435 -/
def Code.valueLiveAfter (c : Code) (v after : Nat) : Bool := c.strictlyDominates (c.owner v) after && c.liveAfter v after

/-- `be_values_interfere`, ir/be/belive.c:437-446 -/
def Code.interfere (c : Code) (a b : Nat) : Bool :=
  if c.strictlyDominates (c.owner b) (c.owner a) then c.liveAfter b (c.owner a)
  else if c.strictlyDominates (c.owner a) (c.owner b) then c.liveAfter a (c.owner b)
  else false

/-- `be_liveness_transfer`, ir/be/belive.c:358-372, absent if the assertion fails; `cls` are the values that the class of registers considers.  A set is
a list. -/
def Code.transfer (c : Code) (cls : Nat → Bool) (node : Nat) (live : List Nat) : Option (List Nat) :=
  if c.phi node then none
  else
    let live := ((c.values node).filter cls).foldl (fun l v => l.filter (· ≠ v)) live
    some (((c.ops node).filter cls).foldl (fun l v => v :: l) live)

/-- `be_liveness_end_of_block`, ir/be/belive.c:374-381; `vs` are the values with an entry for the block -/
def Code.endOfBlock (c : Code) (cls : Nat → Bool) (vs : List Nat) (b : Nat) : List Nat := vs.filter fun v => (c.lv b v).end_ && cls v

/-- the loop of `be_liveness_nodes_live_before`, ir/be/belive.c:390-394, over the instructions from the end of the schedule -/
def Code.walk (c : Code) (cls : Nat → Bool) (pos : Nat) : List Nat → List Nat → Option (List Nat)
  | [], live => some live
  | i :: is, live =>
    match c.transfer cls i live with
    | none => none
    | some live => if i = pos then some live else c.walk cls pos is live

/-- `be_liveness_nodes_live_before`, ir/be/belive.c:383-395 -/
def Code.liveBefore (c : Code) (cls : Nat → Bool) (vs : List Nat) (pos : Nat) : Option (List Nat) :=
  let b := c.block pos
  c.walk cls pos (c.sched b).reverse (c.endOfBlock cls vs b)

/-- `live_at_user`, ir/be/belive.c:448-460; a Sync is a node that is a user and a value.  The depth of the recursion is bounded by `fuel`. -/
def Code.liveAtUser (c : Code) (sync : Nat → Bool) (node bb : Nat) : Nat → List (Nat × Nat) → Bool
  | _, [] => false
  | 0, _ :: _ => false
  | fuel + 1, e :: es =>
    if sync e.1 then c.liveAtUser sync node bb fuel (c.edges e.1)
    else if c.block e.1 = bb ∧ c.phi e.1 = false ∧ c.ts node < c.ts e.1 then true
    else c.liveAtUser sync node bb fuel es

/-- the loop of `get_highest_sync_op`, ir/be/belive.c:464-473, for the operands after the first one -/
def Code.highest (c : Code) (sync : Nat → Bool) (rec : Nat → Nat) : Nat → List Nat → Nat
  | best, [] => best
  | best, o :: os =>
    let other := if sync o then rec o else o
    c.highest sync rec (if c.strictlyDominates (c.owner other) (c.owner best) then other else best) os

/-- `get_highest_sync_op`, ir/be/belive.c:462-473; a Sync has an operand -/
def Code.highestSyncOp (c : Code) (sync : Nat → Bool) : Nat → Nat → Nat
  | 0, s => s
  | fuel + 1, s =>
    match c.ops s with
    | [] => s
    | o :: os => c.highest sync (c.highestSyncOp sync fuel) o os

/-- `be_memory_values_interfere`, ir/be/belive.c:475-511.  The code asks for the time step of `b` itself; here it is that of the instruction of `b`,
which is the same unless `b` is a Proj (then the C code fails an assertion). -/
def Code.memInterfere (c : Code) (sync : Nat → Bool) (fuel a b : Nat) : Bool :=
  let a := if sync a then c.highestSyncOp sync fuel a else a
  let b := if sync b then c.highestSyncOp sync fuel b else b
  if c.strictlyDominates (c.owner b) (c.owner a) then
    (c.lv (c.block (c.owner a)) b).end_ || c.liveAtUser sync (c.owner a) (c.block (c.owner a)) fuel (c.edges b)
  else if c.strictlyDominates (c.owner a) (c.owner b) then
    (c.lv (c.block (c.owner b)) a).end_ || c.liveAtUser sync (c.owner b) (c.block (c.owner b)) fuel (c.edges a)
  else false

/-- the users of a value as `liveness_for_node` sees them, ir/be/belive.c:213-238 -/
def Code.uses (c : Code) (v : Nat) : List Use :=
  (c.edges v).map fun e => ⟨c.phi e.1, if c.phi e.1 then (c.g.ins (c.block e.1)).getD e.2 none else some (c.block e.1)⟩

end Verif.Model.Interfere
