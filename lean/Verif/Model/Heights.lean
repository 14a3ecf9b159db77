import Verif.Spec.Heights
/-!
# Model of ir/ana/heights.c

`none` stands for reading through a null pointer and for a recursion deeper than `fuel`.  The counters are natural numbers; in C they are 32 bit.
-/
namespace Verif.Model.Heights
open Verif.Spec.Heights

/-- `irn_height_t`, ir/ana/heights.c:31-34 -/
structure Data where
  height : Nat
  visited : Nat
deriving Repr, DecidableEq

/-- `ir_heights_t`, ir/ana/heights.c:24-29 -/
structure State where
  data : Nat → Option Data
  visited : Nat

/-- a store to the data of a node -/
def State.put (h : State) (x : Nat) (d : Data) : State := { h with data := fun y => if y = x then some d else h.data y }

/-- `get_height_data`, ir/ana/heights.c:43-51 -/
def State.get (h : State) (x : Nat) : Data × State :=
  match h.data x with
  | some d => (d, h)
  | none => (⟨0, 0⟩, h.put x ⟨0, 0⟩)

/-- the loop over the operands in `search`, ir/ana/heights.c:92-95 -/
def searchAll (s : State → Nat → Option (Bool × State)) : State → List Nat → Option (Bool × State)
  | h, [] => some (false, h)
  | h, o :: os =>
    match s h o with
    | none => none
    | some (true, h) => some (true, h)
    | some (false, h) => searchAll s h os

/-- `search`, ir/ana/heights.c:68-98 -/
def search (g : Graph) (tgt : Nat) : Nat → State → Nat → Option (Bool × State)
  | 0, _, _ => none
  | fuel + 1, h, curr =>
    if curr = tgt then some (true, h)
    else if g.block curr ≠ g.block tgt then some (false, h)
    else if g.phi curr then some (false, h)
    else
      match h.data curr with
      | none => none
      | some hc =>
        if hc.visited ≥ h.visited then some (false, h)
        else
          match h.data tgt with
          | none => none
          | some ht =>
            if hc.height > ht.height then some (false, h)
            else searchAll (search g tgt fuel) (h.put curr { hc with visited := h.visited }) (g.ins curr)

/-- `heights_reachable_in_block`, ir/ana/heights.c:100-116 -/
def reachable (g : Graph) (fuel : Nat) (h : State) (n m : Nat) : Option (Bool × State) :=
  match h.data n, h.data m with
  | some hn, some hm =>
    if hn.height ≤ hm.height then search g m fuel { h with visited := h.visited + 1 } n
    else some (false, h)
  | _, _ => none

/-- the loop over the users in `compute_height`, ir/ana/heights.c:135-142; the height is kept in the data of the node -/
def heightAll (g : Graph) (bl x : Nat) (c : State → Nat → Option (Nat × State)) : State → List Nat → Option State
  | h, [] => some h
  | h, d :: ds =>
    if !g.isBlock d && !g.phi d && g.block d == bl then
      match c h d with
      | none => none
      | some (k, h) =>
        match h.data x with
        | none => none
        | some ih => heightAll g bl x c (h.put x { ih with height := max ih.height (k + 1) }) ds
    else heightAll g bl x c h ds

/-- `compute_height`, ir/ana/heights.c:124-145 -/
def computeHeight (g : Graph) (bl : Nat) : Nat → State → Nat → Option (Nat × State)
  | 0, _, _ => none
  | fuel + 1, h, x =>
    let (ih, h) := h.get x
    if ih.visited ≥ h.visited then some (ih.height, h)
    else
      match heightAll g bl x (computeHeight g bl fuel) (h.put x ⟨0, h.visited⟩) (g.users x) with
      | none => none
      | some h =>
        match h.data x with
        | none => none
        | some ih => some (ih.height, h)

/-- the loop of `compute_heights_in_block`, ir/ana/heights.c:152-157 -/
def computeAll (g : Graph) (bl fuel : Nat) : State → List Nat → Option State
  | h, [] => some h
  | h, x :: xs =>
    match computeHeight g bl fuel h x with
    | none => none
    | some (_, h) => computeAll g bl fuel h xs

/-- `compute_heights_in_block`, ir/ana/heights.c:147-160, without its result.  `nodes` are the users of the block: the nodes in it.  (The End node
is also a user of a block that is kept alive; it is left out here.) -/
def computeBlock (g : Graph) (fuel : Nat) (nodes : Nat → List Nat) (h : State) (bl : Nat) : Option State :=
  computeAll g bl fuel { h with visited := h.visited + 1 } (nodes bl)

/-- `irg_block_walk_graph` in `heights_new`, ir/ana/heights.c:201 -/
def computeBlocks (g : Graph) (fuel : Nat) (nodes : Nat → List Nat) : State → List Nat → Option State
  | h, [] => some h
  | h, b :: bs =>
    match computeBlock g fuel nodes h b with
    | none => none
    | some h => computeBlocks g fuel nodes h bs

/-- `heights_new`, ir/ana/heights.c:193-204 -/
def new (g : Graph) (fuel : Nat) (nodes : Nat → List Nat) (blocks : List Nat) : Option State := computeBlocks g fuel nodes ⟨fun _ => none, 0⟩ blocks

/-- `heights_recompute_block`, ir/ana/heights.c:175-191 -/
def recompute (g : Graph) (fuel : Nat) (nodes : Nat → List Nat) (h : State) (bl : Nat) : Option State :=
  computeBlock g fuel nodes { (nodes bl).foldl (fun h x => (h.get x).2.put x ⟨0, 0⟩) h with visited := 0 } bl

end Verif.Model.Heights
