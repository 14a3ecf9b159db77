import Verif.Model.ConstBitsExpr
import Verif.Spec.SsaGraph
/-!
# The known-bits analysis of graphs

The equations that `transfer` (ir/ana/constbits.c) sets up for the nodes of a graph with control flow and Phi nodes.  Blocks and control
flow nodes have a state with one bit: `z` is "may be reached", `o` is "is certainly taken".
-/
namespace Verif.Model.ConstBits
open Verif.Spec Verif.Model.IrOpt

/-- the states of all nodes (`irg->bitinfo.map`) -/
structure State where
  data : (m : IMode) → Nat → BitInfo m.bits
  block : Nat → BitInfo 1
  x : Nat → BitInfo 1

/-- `unreachable_X`, ir/ana/constbits.c:205-207; the state of an unreachable block, :281-282 -/
abbrev unreachable : BitInfo 1 := ⟨0#1, 1#1⟩
/-- `result_unknown_X`, ir/ana/constbits.c:250-252; the state of a reachable block, :278-279 -/
abbrev maybe : BitInfo 1 := ⟨1#1, 0#1⟩

/-- control flow nodes, ir/ana/constbits.c:200-254 -/
def transferX (G : SsaGraph) (s : State) (x : Nat) : BitInfo 1 :=
  if (s.block (G.xblock x)).z = 0#1 then unreachable
  else match G.xdef x with
    | .bad => unreachable
    | .cond sel num =>
      if (s.data bmode sel).isUndefined then unreachable
      else if (s.data bmode sel).z = (s.data bmode sel).o then
        if decide ((s.data bmode sel).z = 1#1) = num then ⟨1#1, 1#1⟩ else ⟨0#1, 0#1⟩
      else maybe
    | .switch k sel => if (s.data k sel).isUndefined then unreachable else maybe
    | .jmp => maybe
    | .other => maybe

/-- blocks, ir/ana/constbits.c:255-282; `last` is the end block of the graph -/
def transferBlock (G : SsaGraph) (last : Nat) (s : State) (b : Nat) : BitInfo 1 :=
  if (G.preds b).any (fun x => (s.x x).z = 1#1) || b = G.start || b = last then maybe else unreachable

/-- data nodes, ir/ana/constbits.c:283-750 -/
def transferData (G : SsaGraph) (s : State) (m : IMode) (n : Nat) : BitInfo m.bits :=
  match G.node m n with
  | .phi args => BitInfo.phi (((G.preds (G.blockOf m n)).zip args).map fun p => (decide ((s.x p.1).z ≠ 0#1), s.data m p.2))
  | .op e => bitsWith s.data e
  | .input => BitInfo.unknown m.bits

/-- a state that does not change any more: the condition `verify_constbits_walker`, ir/ana/constbits.c:846-859, tests for every node -/
structure Fixpoint (G : SsaGraph) (last : Nat) (s : State) : Prop where
  x : ∀ x, s.x x = transferX G s x
  block : ∀ b, s.block b = transferBlock G last s b
  data : ∀ m n, s.data m n = transferData G s m n

end Verif.Model.ConstBits
