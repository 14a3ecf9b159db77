import Verif.Model.ConstBitsIter
/-!
# The order in which the known-bits analysis calculates the nodes

`get_bitinfo_recursive`, `calc_bitinfo`, `trigger`, `trigger_users` and `constbits_analyze` (ir/ana/constbits.c), together with the walk over
the graph (ir/ir/irgwalk.c).  Nodes without analysis information (nodes of mode T like Cond, Switch and Call, memory nodes) are left out; the
operands of such a node count as operands of the nodes that use it.  Every operation is a node of its own; the operands are the leaves of
its expression.
-/
namespace Verif.Model.ConstBits
open Verif.Spec Verif.Model.IrOpt

/-- a graph with the nodes it has -/
structure IrGraph where
  G : SsaGraph
  /-- the end block -/
  last : Nat
  /-- the nodes with analysis information; only used to find the users of a node -/
  nodes : List Key
  /-- operands that have no influence on the state of a node: the values a Return returns, the arguments of a call, … -/
  extra : Key → List Key
  /-- the End node -/
  root : Key

/-- the leaves of an expression from left to right -/
def leaves : {m : IMode} → Expr m → List Key
  | m, .leaf _ i => [.data m i]
  | _, .const _ => []
  | _, .minus a => leaves a
  | _, .not a => leaves a
  | _, .add a b => leaves a ++ leaves b
  | _, .sub a b => leaves a ++ leaves b
  | _, .mul a b => leaves a ++ leaves b
  | _, .div a b => leaves a ++ leaves b
  | _, .mod a b => leaves a ++ leaves b
  | _, .and a b => leaves a ++ leaves b
  | _, .or a b => leaves a ++ leaves b
  | _, .eor a b => leaves a ++ leaves b
  | _, .shl a s => leaves a ++ leaves s
  | _, .shr a s => leaves a ++ leaves s
  | _, .shrs a s => leaves a ++ leaves s
  | _, .conv _ a => leaves a
  | _, .cmp _ a b => leaves a ++ leaves b
  | _, .mux s f t => leaves s ++ leaves f ++ leaves t
  | _, .confirm v _ b => leaves v ++ leaves b

/-- the operands of a node -/
def IrGraph.ins (I : IrGraph) (k : Key) : List Key :=
  (match k with
   | .block b => (I.G.preds b).map Key.x
   | .data m n =>
     match I.G.node m n with
     | .phi args => args.map (Key.data m)
     | .op e => leaves e
     | .input => []
   | .x x =>
     match I.G.xdef x with
     | .cond sel _ => [Key.data bmode sel]
     | .switch k sel => [Key.data k sel]
     | _ => []) ++ I.extra k

/-- the nodes `transfer` may look at -/
def IrGraph.deps (I : IrGraph) : Key → List Key
  | .block b => (I.G.preds b).map Key.x
  | .data m n =>
    match I.G.node m n with
    | .phi args => (I.G.preds (I.G.blockOf m n)).map Key.x ++ args.map (Key.data m)
    | .op e => leaves e
    | .input => []
  | .x x => .block (I.G.xblock x) ::
    match I.G.xdef x with
    | .cond sel _ => [Key.data bmode sel]
    | .switch k sel => [Key.data k sel]
    | _ => []

/-- the block of a node -/
def IrGraph.block (I : IrGraph) : Key → Option Nat
  | .block _ => none
  | .data m n => some (I.G.blockOf m n)
  | .x x => some (I.G.xblock x)

/-- the nodes of the graph are closed under the dependencies -/
def Closed (I : IrGraph) : Prop := ∀ k ∈ I.nodes, ∀ j ∈ I.deps k, j ∈ I.nodes

/-- the nodes are closed under blocks and operands -/
structure WellFormed (I : IrGraph) : Prop where
  deps : Closed I
  ins : ∀ k ∈ I.nodes, ∀ j ∈ I.ins k, j ∈ I.nodes
  block : ∀ k ∈ I.nodes, ∀ b, I.block k = some b → Key.block b ∈ I.nodes
  root : I.root ∈ I.nodes

/-- is the node a Phi? -/
def IrGraph.isPhi (I : IrGraph) : Key → Bool
  | .data m n => match I.G.node m n with
    | .phi _ => true
    | _ => false
  | _ => false

/-- `bitinfo::state`, ir/ana/constbits.h:7-12 -/
inductive NState
  | invalid | inFlight | unstable | valid
  deriving DecidableEq

/-- the map of the analysis information: the state of a node and its bits; nodes that are not in `sts` have none -/
structure Mem where
  sts : List (Key × NState)
  s : State

/-- `ir_nodemap_get`; a missing entry is treated like an invalid one, ir/ana/constbits.c:182 -/
def lookupSt (k : Key) : List (Key × NState) → NState
  | [] => .invalid
  | p :: l => if p.1 = k then p.2 else lookupSt k l

/-- an assignment to `b->state` -/
def setSt (k : Key) (v : NState) : List (Key × NState) → List (Key × NState)
  | [] => [(k, v)]
  | p :: l => if p.1 = k then (k, v) :: l else p :: setSt k v l

/-- `trigger_users`, ir/ana/constbits.c:780-826: the nodes `trigger` is called for -/
def IrGraph.users (I : IrGraph) : Key → List Key
  | .block b => I.nodes.filter fun u => match u with
    | .x x => I.G.xblock x = b
    | _ => false
  | .x x => I.nodes.filter fun u => match u with
    | .block b => x ∈ I.G.preds b
    | .data m n => I.isPhi u && decide (x ∈ I.G.preds (I.G.blockOf m n))
    | .x _ => false
  | .data m n => I.nodes.filter fun u => Key.data m n ∈ I.ins u

/-- `trigger`, ir/ana/constbits.c:764-778; the recursion is at most as deep as there are nodes -/
def IrGraph.trigger (I : IrGraph) : Nat → List (Key × NState) → Key → List (Key × NState)
  | 0, sts, _ => sts
  | fuel + 1, sts, k =>
    if lookupSt k sts = .valid then (I.users k).foldl (I.trigger fuel) (setSt k .unstable sts) else sts

/-- `trigger_users`, ir/ana/constbits.c:780-826 -/
def IrGraph.triggerUsers (I : IrGraph) (sts : List (Key × NState)) (k : Key) : List (Key × NState) :=
  (I.users k).foldl (I.trigger (I.nodes.length + 1)) sts

section Transfer
variable (I : IrGraph) (get : Key → Mem → Option Mem)

/-- `transfer` for control flow nodes, ir/ana/constbits.c:220-273 -/
def transferXA (x : Nat) (mem : Mem) : Option (Mem × BitInfo 1) :=
  (get (.block (I.G.xblock x)) mem).bind fun mem =>
  if (mem.s.block (I.G.xblock x)).z = 0#1 then some (mem, unreachable)
  else match I.G.xdef x with
    | .bad => some (mem, unreachable)
    | .cond sel num =>
      (get (.data bmode sel) mem).bind fun mem =>
      some (mem,
        if (mem.s.data bmode sel).isUndefined then unreachable
        else if (mem.s.data bmode sel).z = (mem.s.data bmode sel).o then
          if decide ((mem.s.data bmode sel).z = 1#1) = num then ⟨1#1, 1#1⟩ else ⟨0#1, 0#1⟩
        else maybe)
    | .switch k sel =>
      (get (.data k sel) mem).bind fun mem => some (mem, if (mem.s.data k sel).isUndefined then unreachable else maybe)
    | .jmp => some (mem, maybe)
    | .other => some (mem, maybe)

/-- the loop over the operands of a block, ir/ana/constbits.c:277-284 -/
def blockLoop : List Nat → Bool → Mem → Option (Mem × Bool)
  | [], r, mem => some (mem, r)
  | x :: xs, r, mem => (get (.x x) mem).bind fun mem => blockLoop xs (r || decide ((mem.s.x x).z = 1#1)) mem

/-- `transfer` for blocks, ir/ana/constbits.c:274-301 -/
def transferBlockA (b : Nat) (mem : Mem) : Option (Mem × BitInfo 1) :=
  (blockLoop get (I.G.preds b) false mem).bind fun p =>
  some (p.1, if p.2 || b = I.G.start || b = I.last then maybe else unreachable)

/-- the first loop of a Phi, ir/ana/constbits.c:311-318 -/
def phiLoop (m : IMode) : List (Nat × Nat) → BitInfo m.bits → Mem → Option (Mem × BitInfo m.bits)
  | [], acc, mem => some (mem, acc)
  | (x, a) :: l, acc, mem =>
    (get (.x x) mem).bind fun mem =>
    if (mem.s.x x).z ≠ 0#1 then (get (.data m a) mem).bind fun mem => phiLoop m l (acc.join (mem.s.data m a)) mem
    else phiLoop m l acc mem

/-- the second loop of a Phi, ir/ana/constbits.c:321-329: is an operand unstable? -/
def phiCheck (m : IMode) : List (Nat × Nat) → Mem → Option (Mem × Bool)
  | [], mem => some (mem, false)
  | (x, a) :: l, mem =>
    (get (.x x) mem).bind fun mem =>
    if (mem.s.x x).z ≠ 0#1 && decide (lookupSt (.data m a) mem.sts = .unstable) then some (mem, true) else phiCheck m l mem

/-- `transfer` for Phi nodes, ir/ana/constbits.c:305-329 -/
def transferPhiA (m : IMode) (l : List (Nat × Nat)) : Nat → Mem → Option (Mem × BitInfo m.bits)
  | 0, _ => none
  | fuel + 1, mem =>
    (phiLoop get m l (BitInfo.undefined m.bits) mem).bind fun p =>
    (phiCheck get m l p.1).bind fun q => if q.2 then transferPhiA m l fuel q.1 else some (q.1, p.2)

/-- "Undefined if any input is undefined", ir/ana/constbits.c:332-336 -/
def anyUndefined : List Key → Mem → Option (Mem × Bool)
  | [], mem => some (mem, false)
  | k :: ks, mem => (get k mem).bind fun mem => if (mem.s.at k).isUndefined then some (mem, true) else anyUndefined ks mem

/-- the calls of `get_bitinfo_recursive` for the operands of an operation -/
def getAll : List Key → Mem → Option Mem
  | [], mem => some mem
  | k :: ks, mem => (get k mem).bind (getAll ks)

/-- `transfer` for data nodes, ir/ana/constbits.c:302-750 -/
def transferDataA (fuel : Nat) (m : IMode) (n : Nat) (mem : Mem) : Option (Mem × BitInfo m.bits) :=
  match I.G.node m n with
  | .phi args => transferPhiA get m ((I.G.preds (I.G.blockOf m n)).zip args) fuel mem
  | .op e =>
    (anyUndefined get (leaves e) mem).bind fun p =>
    if p.2 then some (p.1, BitInfo.undefined m.bits) else (getAll get (leaves e) p.1).bind fun mem => some (mem, bitsWith mem.s.data e)
  | .input => some (mem, BitInfo.unknown m.bits)

/-- `transfer` without `set_bitinfo`, ir/ana/constbits.c:212-752 -/
def transferA (fuel : Nat) (mem : Mem) : (k : Key) → Option (Mem × BitInfo k.w)
  | .data m n => transferDataA I get fuel m n mem
  | .block b => transferBlockA I get b mem
  | .x x => transferXA I get x mem

/-- `calc_bitinfo` and the part of `set_bitinfo` that stores the bits, ir/ana/constbits.c:828-837, :118-140; `fuel` bounds the number of
repetitions -/
def calcInfo (tfuel : Nat) : Nat → Key → Mem → Option Mem
  | 0, _, _ => none
  | fuel + 1, k, mem =>
    (transferA I get tfuel { mem with sts := setSt k .inFlight mem.sts } k).bind fun p =>
    let sts := setSt k .valid p.1.sts
    if p.2 = p.1.s.at k then some { p.1 with sts := sts }
    else
      let mem' : Mem := ⟨I.triggerUsers sts k, p.1.s.set k p.2⟩
      if lookupSt k mem'.sts = .valid then some mem' else calcInfo tfuel fuel k mem'

end Transfer

/-- `get_bitinfo_recursive`, ir/ana/constbits.c:177-204; `fuel` bounds the depth of the recursion and the number of repetitions -/
def IrGraph.get (I : IrGraph) : Nat → Key → Mem → Option Mem
  | 0, _, _ => none
  | fuel + 1, k, mem =>
    match lookupSt k mem.sts with
    | .invalid => calcInfo I (I.get fuel) fuel fuel k ⟨mem.sts, mem.s.set k (BitInfo.undefined k.w)⟩
    | .unstable => calcInfo I (I.get fuel) fuel fuel k mem
    | .inFlight => some mem
    | .valid => some mem

/-- `irg_walk_2_post`, ir/ir/irgwalk.c:55-73; the nodes that were visited and the nodes for which the callback was called, both the last one
first -/
def IrGraph.walk (I : IrGraph) : Nat → List Key × List Key → Key → List Key × List Key
  | 0, p, _ => p
  | fuel + 1, p, k =>
    if k ∈ p.1 then p
    else
      let p := (k :: p.1, p.2)
      let p := match I.block k with
        | some b => I.walk fuel p (.block b)
        | none => p
      let p := (I.ins k).reverse.foldl (I.walk fuel) p
      (p.1, k :: p.2)

/-- the order in which `irg_walk_graph` visits the nodes -/
def IrGraph.order (I : IrGraph) : List Key := (I.walk (I.nodes.length + 1) ([], []) I.root).2.reverse

/-- the calls of `calc_bitinfo_walker`, ir/ana/constbits.c:839-846 -/
def IrGraph.analyzeAll (I : IrGraph) (fuel : Nat) : List Key → Mem → Option Mem
  | [], mem => some mem
  | k :: ks, mem => (I.get fuel k mem).bind (I.analyzeAll fuel ks)

/-- `constbits_analyze`, ir/ana/constbits.c:880-897 -/
def IrGraph.analyze (I : IrGraph) (fuel : Nat) : Option Mem := I.analyzeAll fuel I.order ⟨[], State.bottom⟩

end Verif.Model.ConstBits
