/-!
# Specification: moves between registers

A parallel copy reads all its sources before it writes.  Its implementation is a sequence of copies and exchanges.
-/
namespace Verif.Spec.Perm

inductive Instr
  | copy (src dst : Nat)
  | swap (a b : Nat)
deriving Repr, DecidableEq

/-- contents of registers after one instruction -/
def Instr.run (R : Nat → Nat) : Instr → Nat → Nat
  | .copy s d => fun r => if r = d then R s else R r
  | .swap a b => fun r => if r = a then R b else if r = b then R a else R r

/-- contents of registers after a sequence -/
def runAll (R : Nat → Nat) : List Instr → Nat → Nat
  | [] => R
  | i :: is => runAll (i.run R) is

/-- A parallel copy: pairs of source and destination.  Destinations are different, and a register that is read twice is not written. -/
structure Ok (moves : List (Nat × Nat)) (n : Nat) : Prop where
  src : ∀ m ∈ moves, m.1 < n
  dst : ∀ m ∈ moves, m.2 < n
  dstNodup : (moves.map (·.2)).Nodup
  srcOnce : moves.Pairwise fun m m' => m.1 = m'.1 → ∀ t ∈ moves, t.2 ≠ m.1

/-- the sequence does what the parallel copy says, and changes no other register except those in `scratch` -/
def Implements (code : List Instr) (moves : List (Nat × Nat)) (scratch : Nat → Prop) : Prop :=
  ∀ R : Nat → Nat, (∀ m ∈ moves, runAll R code m.2 = R m.1) ∧ ∀ r, (∀ m ∈ moves, m.2 ≠ r) → ¬ scratch r → runAll R code r = R r

end Verif.Spec.Perm
