import Verif.Spec.Dominance
/-!
# Specification: the definition that reaches a place, and the value that Phi nodes choose

Several nodes define one variable. Nothing here refers to the model.
-/
namespace Verif.Spec

/-- an execution: the blocks, the one that was entered last in front -/
inductive Trace (E : Nat → Nat → Prop) (r : Nat) : List Nat → Prop
  | start : Trace E r [r]
  | step {b c : Nat} {t : List Nat} : Trace E r (b :: t) → E b c → Trace E r (c :: b :: t)

/-- the nodes that are executed by the blocks of the list, in order -/
def executed (code : Nat → List Nat) (t : List Nat) : List Nat := t.reverse.flatMap code

/-- the last definition of the variable among nodes that are executed; `dv n` is the value of the variable that `n` defines, if it does -/
def lastDef (dv : Nat → Option Nat) (nodes : List Nat) : Option Nat := (nodes.filterMap dv).getLast?

/-- the iterated dominance frontier of the blocks `S` -/
inductive InIterFrontier (E E' : Nat → Nat → Prop) (r : Nat) (S : Nat → Prop) : Nat → Prop
  | base {z y : Nat} : S z → InFrontier E E' r z y → InIterFrontier E E' r S y
  | step {z y : Nat} : InIterFrontier E E' r S z → InFrontier E E' r z y → InIterFrontier E E' r S y

/-- the value of `defs` that a scheduled node defines: the node itself or a Proj of it -/
def definedBy (skip : Nat → Nat) (defs : List Nat) (n : Nat) : Option Nat := defs.find? fun d => skip d == n

/-- After the execution `t`, the node `x` has the value of the definition `d`. A definition has its own value. The Phi `x` of the block `home x` got
its value when this block was entered last: the one that the operand of the edge had at this time -/
inductive DenotesAlong (preds : Nat → List (Option Nat)) (home : Nat → Option Nat) (args : Nat → List Nat) : List Nat → Nat → Nat → Prop
  | defn {t : List Nat} {x : Nat} : home x = none → DenotesAlong preds home args t x x
  | phi {s t : List Nat} {b q x j y d : Nat} : home x = some b → b ∉ s → (preds b)[j]? = some (some q) → (args x)[j]? = some y →
      DenotesAlong preds home args (q :: t) y d → DenotesAlong preds home args (s ++ b :: q :: t) x d

end Verif.Spec
