import Verif.Model.Sched
/-!
# Specification: what a schedule is

A block stands at both ends of the list of its nodes.
-/
namespace Verif.Spec.Sched
open Verif.Model.Sched

/-- `next` and `prev` lead from each element of the list to its neighbour -/
inductive Chain (s : Sched) : List Nat → Prop
  | one (x : Nat) : Chain s [x]
  | cons {x y : Nat} {l : List Nat} : s.next x = some y → s.prev y = some x → Chain s (y :: l) → Chain s (x :: y :: l)

/-- the pointers form the ring of the block and the nodes `l`; other nodes are not scheduled -/
structure Ring (s : Sched) (block : Nat) (l : List Nat) : Prop where
  chain : Chain s (block :: (l ++ [block]))
  nodup : (block :: l).Nodup
  out : ∀ x, x ∉ block :: l → s.next x = none

/-- `a` stands before `b` in the list -/
def Before (l : List Nat) (a b : Nat) : Prop := ∃ l1 l2 l3, l = l1 ++ a :: l2 ++ b :: l3

/-- what clients do with the schedule of a block -/
inductive Op
  | addBefore (before irn : Nat)
  | addAfter (after irn : Nat)
  | remove (irn : Nat)
  | replace (old irn : Nat)

/-- insertion before the first occurrence -/
def insertBefore (x y : Nat) : List Nat → List Nat
  | [] => []
  | a :: l => if a = x then y :: a :: l else a :: insertBefore x y l

/-- insertion after the first occurrence -/
def insertAfter (x y : Nat) : List Nat → List Nat
  | [] => []
  | a :: l => if a = x then a :: y :: l else a :: insertAfter x y l

/-- what an operation does to the list of nodes -/
def Op.list (block : Nat) : Op → List Nat → List Nat
  | .addBefore b i, l => if b = block then l ++ [i] else insertBefore b i l
  | .addAfter a i, l => if a = block then i :: l else insertAfter a i l
  | .remove i, l => l.filter (· ≠ i)
  | .replace o i, l => l.map fun x => if x = o then i else x

/-- the operation is allowed: it adds a node that is not scheduled next to one that is, or removes a node that is scheduled -/
def Op.Ok (block : Nat) : Op → List Nat → Prop
  | .addBefore b i, l => b ∈ block :: l ∧ i ∉ block :: l
  | .addAfter a i, l => a ∈ block :: l ∧ i ∉ block :: l
  | .remove i, l => i ∈ l ∧ i ≠ block
  | .replace o i, l => o ∈ l ∧ o ≠ block ∧ i ∉ block :: l

end Verif.Spec.Sched
