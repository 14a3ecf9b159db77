import Verif.Spec.Ring
/-!
# Model: lists of include/libfirm/adt/list.h

Each assignment of the code is one change of the memory, in the same order.
-/
namespace Verif.Model.ListHead

open Verif.Spec.Ring

def setNext (m : Mem) (a v : Nat) : Mem := { m with next := fun x => if x = a then v else m.next x }
def setPrev (m : Mem) (a v : Nat) : Mem := { m with prev := fun x => if x = a then v else m.prev x }

/-- `INIT_LIST_HEAD`, list.h:39-41 -/
def init (m : Mem) (h : Nat) : Mem := setPrev (setNext m h h) h h

/-- `__list_add`, list.h:58-66 -/
def rawAdd (m : Mem) (n p q : Nat) : Mem := setNext (setPrev (setNext (setPrev m q n) n q) n p) p n

/-- `list_add`, list.h:76-79 -/
def add (m : Mem) (n h : Nat) : Mem := rawAdd m n h (m.next h)

/-- `list_add_tail`, list.h:89-92 -/
def addTail (m : Mem) (n h : Nat) : Mem := rawAdd m n (m.prev h) h

/-- `__list_del`, list.h:101-105 -/
def rawDel (m : Mem) (p q : Nat) : Mem := setNext (setPrev m q p) p q

/-- `list_del`, list.h:115-120 -/
def del (m : Mem) (x : Nat) : Mem := setPrev (setNext (rawDel m (m.prev x) (m.next x)) x 0) x 0

/-- `list_del_init`, list.h:127-131 -/
def delInit (m : Mem) (x : Nat) : Mem := init (rawDel m (m.prev x) (m.next x)) x

/-- `list_move`, list.h:138-142 -/
def move (m : Mem) (x h : Nat) : Mem := add (rawDel m (m.prev x) (m.next x)) x h

/-- `list_move_tail`, list.h:149-154 -/
def moveTail (m : Mem) (x h : Nat) : Mem := addTail (rawDel m (m.prev x) (m.next x)) x h

/-- `list_empty`, list.h:160-163 -/
def empty (m : Mem) (h : Nat) : Bool := m.next h == h

/-- `__list_splice`, list.h:172-184; the three pointers are read before -/
def rawSplice (m : Mem) (first last at' h : Nat) : Mem := setPrev (setNext (setNext (setPrev m first h) h first) last at') at' last

/-- `list_splice`, list.h:191-195 -/
def splice (m : Mem) (l h : Nat) : Mem := if empty m l then m else rawSplice m (m.next l) (m.prev l) (m.next h) h

/-- `list_splice_init`, list.h:204-211 -/
def spliceInit (m : Mem) (l h : Nat) : Mem := if empty m l then m else init (rawSplice m (m.next l) (m.prev l) (m.next h) h) l

/-- the loops of `list_for_each` and `list_for_each_prev`, list.h:227-236, along `f`; `none`: the fuel is used up -/
def walk (f : Nat → Nat) (h : Nat) : Nat → Nat → Option (List Nat)
  | 0, _ => none
  | fuel + 1, pos => if pos = h then some [] else (walk f h fuel (f pos)).map (pos :: ·)

def forEach (m : Mem) (fuel h : Nat) : Option (List Nat) := walk m.next h fuel (m.next h)
def forEachPrev (m : Mem) (fuel h : Nat) : Option (List Nat) := walk m.prev h fuel (m.prev h)

end Verif.Model.ListHead
