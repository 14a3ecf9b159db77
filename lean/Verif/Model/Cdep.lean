import Verif.Model.Dom
/-! # Model of the computation of control dependence (ir/ana/cdep.c)

The map from blocks to lists of dependences is a function, empty lists stand for absent ones. -/
namespace Verif.Model.Dom

/-- `add_cdep`, ir/ana/cdep.c:58-84, on the list of a block: it is searched, and the block is added at its end -/
def addCdep (on : Nat) : List Nat → List Nat
  | [] => [on]
  | d :: ds => if d = on then d :: ds else d :: addCdep on ds

/-- the postdominator during the computation, ir/ana/cdep.c:131-146: the end block for the start block -/
def Cfg.cdepIpdom (g : Cfg) (b : Nat) : Option Nat := if b = g.start then some g.stop else g.ipostdom b

/-- the loop of `cdep_pre`, ir/ana/cdep.c:97-102: the blocks on the way up to the postdominator of the predecessor. No result if NULL is
read or the loop does not end within `fuel` steps. -/
def Cfg.climbTo (g : Cfg) (pdom : Option Nat) : Nat → Option Nat → Option (List Nat)
  | 0, _ => none
  | fuel + 1, dependee =>
    if dependee = pdom then some []
    else match dependee with
      | none => none
      | some x => (g.climbTo pdom fuel (g.cdepIpdom x)).map (x :: ·)

/-- one predecessor in `cdep_pre`, ir/ana/cdep.c:92-102 -/
def Cfg.cdepPred (g : Cfg) (node : Nat) (m : Nat → List Nat) (pred : Nat) : Option (Nat → List Nat) :=
  (g.climbTo (g.cdepIpdom pred) (g.n + 1) (some node)).map fun l =>
    l.foldl (fun m x => set m x (addCdep pred (m x))) m

/-- `cdep_pre`, ir/ana/cdep.c:89-104: from the last predecessor to the first -/
def Cfg.cdepPre (g : Cfg) (m : Nat → List Nat) (node : Nat) : Option (Nat → List Nat) :=
  (g.cfgPreds node).reverse.foldlM (g.cdepPred node) m

/-- the graph with the blocks that are kept alive in the order of `irg_block_walk` -/
def Cfg.forWalk (g : Cfg) : Cfg := { g with keep := g.keep.reverse }

/-- `irg_block_walk_graph`, ir/ir/irgwalk.c:307-357: the order of the pre walker is that of the search for postdominators, but the blocks that
are kept alive are visited from the first to the last -/
def Cfg.blockWalk (g : Cfg) : List Nat := (List.range g.forWalk.pdfs.used).map g.forWalk.pdfs.block

/-- `compute_cdep`, ir/ana/cdep.c:121-146 -/
def Cfg.computeCdep (g : Cfg) : Option (Nat → List Nat) := g.blockWalk.foldlM g.cdepPre fun _ => []

/-- `is_cdep_on`, ir/ana/cdep.c:159-167 -/
def isCdepOn (m : Nat → List Nat) (dependee candidate : Nat) : Bool := (m dependee).any (· == candidate)

/-- `get_unique_cdep`, ir/ana/cdep.c:169-173 -/
def uniqueCdep (m : Nat → List Nat) (block : Nat) : Option Nat :=
  match m block with
  | [d] => some d
  | _ => none

/-- `has_multiple_cdep`, ir/ana/cdep.c:175-179 -/
def hasMultipleCdep (m : Nat → List Nat) (block : Nat) : Bool :=
  match m block with
  | _ :: _ :: _ => true
  | _ => false

end Verif.Model.Dom
