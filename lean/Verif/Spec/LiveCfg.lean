import Verif.Spec.DomCfg
/-!
# Specification: graphs for the liveness check
-/
namespace Verif.Model.LiveChk
open Verif.Spec Verif.Model.Dom

/-- a graph in which the end block is reachable and the last one; `succ` are the blocks that follow in another order -/
structure LiveOk (succ : Nat → List Nat) (g : Cfg) : Prop where
  ok : g.Ok
  small : g.n ≤ 2 ^ 31
  succ : ∀ b c, c ∈ succ b ↔ g.Flow b c
  stopOut : ∀ c, ¬ g.Flow g.stop c
  stopReach : Reachable g.Edge g.start g.stop

end Verif.Model.LiveChk
