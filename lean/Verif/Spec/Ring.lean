/-!
# Specification: doubly linked rings

The memory gives each node a successor and a predecessor; nodes are numbers, 0 is no node.  A list with the head `h` and the elements `xs` is a ring
through the head in which each node knows both neighbours.
-/
namespace Verif.Spec.Ring

structure Mem where
  next : Nat → Nat
  prev : Nat → Nat

/-- neighbours know each other -/
def Linked (m : Mem) : List Nat → Prop
  | [] => True
  | [_] => True
  | x :: y :: l => (m.next x = y ∧ m.prev y = x) ∧ Linked m (y :: l)

/-- the list with head `h` has the elements `xs` -/
def Holds (m : Mem) (h : Nat) (xs : List Nat) : Prop := Linked m (h :: xs ++ [h]) ∧ (h :: xs).Nodup

end Verif.Spec.Ring
