import Verif.Spec.Perm
/-!
# Model of `lower_perm_node`, ir/be/belower.c:147-321

A node is represented by the register it is in, so a Copy before the Perm is a copy between registers and a Perm of two values is an exchange.  Not
modelled: `exchange` of nodes in the graph, `push_through_perm`, the search for a free register (its result is a parameter).  `none`: a null pointer
is read, or a loop runs longer than `fuel`.
-/
namespace Verif.Model.Perm
open Verif.Spec.Perm

/-- the local variables: `oregmap` maps a register to the source of the pair that writes it, `inregs` is the set of registers that are read -/
structure State where
  oregmap : Nat → Option Nat
  inregs : Nat → Bool
  free : Option Nat
  code : List Instr

def State.emit (s : State) (i : Instr) : State := { s with code := s.code ++ [i] }
def State.setMap (s : State) (k : Nat) (v : Option Nat) : State := { s with oregmap := fun r => if r = k then v else s.oregmap r }
def State.setIn (s : State) (k : Nat) (v : Bool) : State := { s with inregs := fun r => if r = k then v else s.inregs r }

/-- the loop over the positions of the Perm, ir/be/belower.c:161-184; the list has source and destination of the positions with a result -/
def collect : List (Nat × Nat) → State → State
  | [], s => s
  | (i, o) :: ms, s => if i = o then collect ms s else collect ms ((s.setMap o (some i)).setIn i true)

/-- the inner loop for chains, ir/be/belower.c:197-220; `alloc` is the set of allocatable registers -/
def follow (alloc : Nat → Bool) : Nat → Nat → State → Option State
  | 0, _, _ => none
  | fuel + 1, k, s =>
    match s.oregmap k with
    | none => some s
    | some i =>
      let s := (s.setMap k none).emit (.copy i k)
      let s := if (s.oregmap i).isNone && s.free.isNone && alloc i then { s with free := some i } else s
      follow alloc fuel i (s.setIn i false)

/-- the outer loop for chains, ir/be/belower.c:193-221 -/
def chains (alloc : Nat → Bool) (fuel : Nat) : List Nat → State → Option State
  | [], s => some s
  | i :: is, s =>
    if s.inregs i then chains alloc fuel is s
    else
      match follow alloc fuel i s with
      | none => none
      | some s => chains alloc fuel is s

/-- the inner loop for a cycle with copies, ir/be/belower.c:241-248; `start` is the register that the first pair writes, `r` the one that `p` writes -/
def cycleCopy (start : Nat) : Nat → Nat → State → Option State
  | 0, _, _ => none
  | fuel + 1, r, s =>
    match s.oregmap r with
    | none => none
    | some i =>
      let s := (s.emit (.copy i r)).setIn i false
      if i = start then some s else cycleCopy start fuel i s

/-- the loop for cycles with copies, ir/be/belower.c:231-253 -/
def cyclesCopy (n free : Nat) : Nat → Nat → State → Option State
  | 0, _, _ => none
  | fuel + 1, i, s =>
    if i = n then some s
    else if s.inregs i = false then cyclesCopy n free fuel (i + 1) s
    else
      match s.oregmap i with
      | none => none
      | some si =>
        match cycleCopy i (n + 1) si (s.emit (.copy si free)) with
        | none => none
        | some s => cyclesCopy n free fuel i ((s.setIn si false).emit (.copy free i))

/-- one round of exchanges along a cycle, ir/be/belower.c:286-314; `p` is the register that the pair `p` writes -/
def round (start : Nat) : Nat → Nat → State → Option State
  | 0, _, _ => none
  | fuel + 1, p, s =>
    match s.oregmap p with
    | none => none
    | some q =>
      if q = start then some s
      else
        match s.oregmap q with
        | none => none
        | some qi =>
          let s := (((s.setIn q false).setMap p (some qi))).emit (.swap q qi)
          if qi = start then
            if s.oregmap start = some start then some (s.setIn qi false) else some s
          else round start fuel qi s

/-- the loop for cycles with exchanges, ir/be/belower.c:280-315 -/
def cyclesSwap (n : Nat) : Nat → Nat → State → Option State
  | 0, _, _ => none
  | fuel + 1, i, s =>
    if i = n then some s
    else if s.inregs i = false then cyclesSwap n fuel (i + 1) s
    else
      match round i (n + 1) i s with
      | none => none
      | some s => cyclesSwap n fuel i s

/-- `lower_perm_node`, ir/be/belower.c:147-321; `found` is what `get_free_register` would find.  A Perm with two operands that is an exchange stays as it
is, which is an exchange of its two source registers. -/
def lower (useCopies : Bool) (n : Nat) (alloc : Nat → Bool) (found : Option Nat) (arity : Nat) (moves : List (Nat × Nat)) : Option (List Instr) :=
  let s := collect moves ⟨fun _ => none, fun _ => false, none, []⟩
  match chains alloc (n + 1) (List.range n) s with
  | none => none
  | some s =>
    if (List.range n).all fun r => !s.inregs r then some s.code
    else
      let free := if useCopies && s.free.isNone then found else s.free
      match useCopies, free with
      | true, some free => (cyclesCopy n free (2 * n + 1) 0 s).map (·.code)
      | _, _ =>
        if arity = 2 then
          match moves with
          | [m, m'] => some (s.code ++ [.swap m.1 m'.1])
          | _ => none
        else (cyclesSwap n (2 * n + 1) 0 s).map (·.code)

end Verif.Model.Perm
