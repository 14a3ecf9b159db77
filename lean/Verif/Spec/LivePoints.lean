import Verif.Spec.DomCfg
/-!
# Specification: the points of a program at which a value is live

A block with `k` instructions has the points `0` to `k`: the point `i` is before the instruction `i`, the point `k` is the end of the block.  A Phi uses an
operand at the end of the block the control flow comes from.
-/
namespace Verif.Spec.LivePoints
open Verif.Spec Verif.Model.Dom

/-- A scheduled program.  An instruction may have several results; `owner` is the instruction that yields a value.  `block` is the block of an
instruction. -/
structure Prog where
  g : Cfg
  sched : Nat → List Nat
  block : Nat → Nat
  phi : Nat → Bool
  ops : Nat → List Nat
  owner : Nat → Nat

/-- the instruction `i` of block `b` yields `v` -/
def Prog.DefAt (p : Prog) (v b i : Nat) : Prop := (p.sched b)[i]? = some (p.owner v)

/-- the instruction `i` of block `b` reads `v` -/
def Prog.UseAt (p : Prog) (v b i : Nat) : Prop := ∃ u, (p.sched b)[i]? = some u ∧ p.phi u = false ∧ v ∈ p.ops u

/-- a Phi reads `v` at the end of block `b` -/
def Prog.PhiUse (p : Prog) (v b : Nat) : Prop :=
  ∃ c j u : Nat, c < p.g.n ∧ (p.g.ins c)[j]? = some (some b) ∧ u ∈ p.sched c ∧ p.phi u = true ∧ (p.ops u)[j]? = some v

/-- from this point it is possible to get to an instruction that reads `v` before one that yields it -/
inductive Prog.LiveAt (p : Prog) (v : Nat) : Nat → Nat → Prop
  | use {b i : Nat} : p.UseAt v b i → LiveAt p v b i
  | step {b i : Nat} : i < (p.sched b).length → ¬ p.DefAt v b i → LiveAt p v b (i + 1) → LiveAt p v b i
  | phi {b : Nat} : p.PhiUse v b → LiveAt p v b (p.sched b).length
  | edge {b c : Nat} : p.g.Flow b c → LiveAt p v c 0 → LiveAt p v b (p.sched b).length

/-- a register is needed for `v` at a point: it is live or has just been computed -/
def Prog.Occupies (p : Prog) (v b i : Nat) : Prop := p.LiveAt v b i ∨ ∃ j, i = j + 1 ∧ p.DefAt v b j

/-- Strict SSA form: the definition of a value dominates each use.  In the same block it comes before the use. -/
structure Prog.Strict (p : Prog) (v : Nat) : Prop where
  use : ∀ b i, b < p.g.n → p.UseAt v b i → Reachable p.g.Flow p.g.start b ∧ Dominates p.g.Edge p.g.start (p.block (p.owner v)) b ∧
    (p.block (p.owner v) = b → ∃ j, j < i ∧ p.DefAt v b j)
  phi : ∀ b, b < p.g.n → p.PhiUse v b → Reachable p.g.Flow p.g.start b ∧ Dominates p.g.Edge p.g.start (p.block (p.owner v)) b

/-- the schedule belongs to the graph -/
structure Prog.Ok (p : Prog) : Prop where
  graph : p.g.Ok
  small : p.g.n ≤ 2 ^ 31
  reach : ∀ b, b < p.g.n → Reachable p.g.Edge p.g.start b
  stopOut : ∀ c, ¬ p.g.Flow p.g.stop c
  nodup : ∀ b, (p.sched b).Nodup
  block : ∀ b u, b < p.g.n → u ∈ p.sched b → p.block u = b

/-- the value is computed in the program -/
structure Prog.Value (p : Prog) (v : Nat) : Prop where
  block : p.block (p.owner v) < p.g.n
  sched : p.owner v ∈ p.sched (p.block (p.owner v))
  strict : p.Strict v

end Verif.Spec.LivePoints
