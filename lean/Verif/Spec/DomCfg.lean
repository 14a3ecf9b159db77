import Verif.Model.Dom
import Verif.Spec.Dominance
/-!
# Specification: control flow between blocks
-/
namespace Verif.Model.Dom
open Verif.Spec

/-- the out edges are consistent with the predecessors and the blocks that are kept alive -/
structure Cfg.Ok (g : Cfg) : Prop where
  start : g.start < g.n
  stop : g.stop < g.n
  outsLt : ∀ b c, b < g.n → some c ∈ g.outs b → c < g.n
  insLt : ∀ b c, b < g.n → some c ∈ g.ins b → c < g.n
  keepLt : ∀ b ∈ g.keep, b < g.n
  edge : ∀ b c, b < g.n → c < g.n → (some c ∈ g.outs b ↔ some b ∈ g.ins c)
  keep : ∀ b, b < g.n → (none ∈ g.outs b ↔ b ∈ g.keep)

/-- control flow from block to block; from a block that is kept alive it is possible to get to the end block -/
def Cfg.Edge (g : Cfg) (b c : Nat) : Prop := some c ∈ g.outs b ∨ (c = g.stop ∧ b ≠ g.stop ∧ none ∈ g.outs b)

/-- the control flow without the blocks that are kept alive -/
def Cfg.Flow (g : Cfg) (b c : Nat) : Prop := some c ∈ g.outs b

/-- from a block to its control flow predecessors, and from the end block to the blocks that are kept alive and do not get there by control flow -/
def Cfg.BackEdge (g : Cfg) (b c : Nat) : Prop :=
  some c ∈ g.ins b ∨ (b = g.stop ∧ c ∈ g.keep ∧ ¬ Reachable (fun b c => some c ∈ g.ins b) g.stop c)

end Verif.Model.Dom
