/-!
# Model of `ir/adt/pqueue.c`

The queue is the list of its elements (data and priority).  The array is a
binary heap rooted at index 0 in which the children of `pos` are `2 * pos` and
`2 * pos + 1`; index 0 has the single child 1.  `none` = an index out of bounds,
the panic of an empty queue, or a loop that does not end within its fuel.
-/
namespace Verif.Model

variable {D : Type}

/-- exchanging `a = l[i]` and `b = l[j]`, pqueue.c:57-59. -/
def pqSwap (l : List (D × Int)) (i j : Nat) (a b : D × Int) : List (D × Int) := (l.set i b).set j a

/-- `pqueue_heapify`, pqueue.c:43-64. -/
def pqHeapify : Nat → List (D × Int) → Nat → Option (List (D × Int))
  | 0, _, _ => none
  | fuel + 1, l, pos =>
      if 2 * pos < l.length then do
        let a ← l[pos]?
        let b ← l[2 * pos]?
        let exchange := if a.2 < b.2 then 2 * pos else pos
        let e ← l[exchange]?
        let exchange ← if 2 * pos + 1 < l.length then do
            let c ← l[2 * pos + 1]?
            pure (if e.2 < c.2 then 2 * pos + 1 else exchange)
          else pure exchange
        if exchange = pos then pure l
        else do
          let x ← l[exchange]?
          pqHeapify fuel (pqSwap l pos exchange a x) exchange
      else some l

/-- `pqueue_sift_up`, pqueue.c:69-78. -/
def pqSiftUp : Nat → List (D × Int) → Nat → Option (List (D × Int))
  | 0, _, _ => none
  | fuel + 1, l, pos => do
      let a ← l[pos]?
      let b ← l[pos / 2]?
      if a.2 > b.2 then pqSiftUp fuel (pqSwap l pos (pos / 2) a b) (pos / 2)
      else some l

/-- `pqueue_put`, pqueue.c:93-102. -/
def pqPut (l : List (D × Int)) (d : D) (priority : Int) : Option (List (D × Int)) :=
  pqSiftUp (l.length + 1) (l ++ [(d, priority)]) l.length

/-- `pqueue_pop_front`, pqueue.c:104-122: the new queue and the data returned
(paired with its priority, which the C function does not return). -/
def pqPop (l : List (D × Int)) : Option (List (D × Int) × (D × Int)) :=
  match l with
  | [] => none
  | [x] => some ([], x)
  | x :: y :: rest => do
      let len := rest.length + 1
      let last ← (x :: y :: rest)[len]?
      let l' := ((x :: y :: rest).set 0 last).take len
      let l'' ← pqHeapify (len + 1) l' 0
      pure (l'', x)

end Verif.Model
