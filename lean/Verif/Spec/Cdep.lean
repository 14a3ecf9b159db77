import Verif.Spec.DomCfg
/-! # Specification: control dependence -/
namespace Verif.Model.Dom
open Verif.Spec

/-- backwards along the control flow, with an edge from the start block to the end block: the function need not be called -/
def Cfg.BackEdge' (g : Cfg) (b c : Nat) : Prop := g.BackEdge b c ∨ (b = g.stop ∧ c = g.start)

/-- `a` is on every path from `b` to the end -/
def Cfg.Postdom (g : Cfg) (a b : Nat) : Prop := Dominates g.BackEdge' g.stop a b

/-- `a` is control dependent on `b`: one way out of `b` always gets to `a`, but `b` alone does not decide for `a`, there is
another way (Ferrante, Ottenstein, Warren) -/
def Cfg.CDep (g : Cfg) (a b : Nat) : Prop :=
  b < g.n ∧ ∃ s, Reachable g.BackEdge g.stop s ∧ g.Flow b s ∧ g.Postdom a s ∧ ¬ (g.Postdom a b ∧ a ≠ b)

end Verif.Model.Dom
