import Verif.Model.LiveChk
/-!
# Model of the liveness sets of ir/be/belive.c

A value is a number that stands for the pointer to its node; 0 is the null pointer.  A block has an array of entries that is sorted by the pointer.
The result `none` of an operation means that it leaves the bounds of an array or follows a null pointer.
-/
namespace Verif.Model.LiveSets
open Verif.Model.Dom Verif.Model.LiveChk

/-- no bit, `be_lv_state_none` -/
abbrev State.none : State := ⟨false, false, false⟩

/-- `|=` on `be_lv_state_t` -/
def or (s t : State) : State := ⟨s.inn || t.inn, s.end_ || t.end_, s.out || t.out⟩

/-- `be_lv_info_node_t`, ir/be/belive.h:141-144 -/
structure Entry where
  node : Nat
  flags : State
  deriving DecidableEq

/-- `be_lv_info_t`, ir/be/belive.h:146-150: `n_size` is the length of `nodes` -/
structure Info where
  members : Nat
  nodes : List Entry
  deriving DecidableEq

/-- `LV_STD_SIZE`, ir/be/belive.c:31 -/
def stdSize : Nat := 63

/-- the zero bytes of `OALLOCFZ` and of `memset` -/
abbrev empty : Entry := ⟨0, State.none⟩

/-- the loop of `_be_liveness_bsearch`, ir/be/belive.c:42-56; the number of rounds is bounded by `fuel` -/
def search (l : List Entry) (x : Nat) : Nat → Nat → Nat → Option Nat
  | 0, _, _ => none
  | fuel + 1, lo, hi =>
    let md := lo + (hi - lo) / 2
    match l[md]? with
    | none => none
    | some e =>
      if e.node < x then (if md + 1 < hi then search l x fuel (md + 1) hi else some (md + 1))
      else if x < e.node then (if lo < md then search l x fuel lo md else some lo)
      else some md

/-- `_be_liveness_bsearch`, ir/be/belive.c:33-59 -/
def bsearch (a : Info) (x : Nat) : Option Nat := if a.members = 0 then some 0 else search a.nodes x a.members 0 a.members

/-- the loop that makes room, ir/be/belive.c:116-118: the entries `pos` to `n - 1` move up -/
def moveUp (pos : Nat) : Nat → List Entry → Option (List Entry)
  | 0, l => some l
  | i + 1, l =>
    if pos < i + 1 then
      match l[i]? with
      | none => none
      | some e => if i + 1 < l.length then moveUp pos i (l.set (i + 1) e) else none
    else some l

/-- `be_lv_get_or_set` for the array of a block, ir/be/belive.c:95-126: the array and the position of the entry -/
def getOrSet (a : Info) (x : Nat) : Option (Info × Nat) :=
  match bsearch a x with
  | none => none
  | some pos =>
    match a.nodes[pos]? with
    | none => none
    | some e =>
      if e.node = x then some (a, pos)
      else
        let nodes := if a.nodes.length ≤ a.members + 1 then a.nodes ++ List.replicate a.nodes.length empty else a.nodes
        match moveUp pos a.members nodes with
        | none => none
        | some nodes => if pos < nodes.length then some (⟨a.members + 1, nodes.set pos ⟨x, State.none⟩⟩, pos) else none

/-- the loop that closes the gap, ir/be/belive.c:152-153, from index `i` on -/
def moveDown (n : Nat) : Nat → Nat → List Entry → Option (List Entry)
  | 0, _, l => some l
  | fuel + 1, i, l =>
    if i < n then
      match l[i]? with
      | none => none
      | some e => moveDown n fuel (i + 1) (l.set (i - 1) e)
    else some l

/-- `lv_remove_irn_walker` for the array of a block, ir/be/belive.c:144-158 -/
def removeInfo (a : Info) (x : Nat) : Option Info :=
  match bsearch a x with
  | none => none
  | some pos =>
    match a.nodes[pos]? with
    | none => none
    | some e =>
      if e.node ≠ x then some a
      else
        match moveDown a.members a.members (pos + 1) a.nodes with
        | none => none
        | some nodes => if 0 < a.members ∧ a.members - 1 < nodes.length then some ⟨a.members - 1, nodes.set (a.members - 1) empty⟩ else none

/-- `li->map` -/
abbrev Map := Nat → Option Info

/-- `be_lv_get`, ir/be/belive.c:61-81: the flags, if there is an entry -/
def get (m : Map) (b x : Nat) : Option (Option State) :=
  match m b with
  | none => some none
  | some a =>
    match bsearch a x with
    | none => none
    | some pos =>
      match a.nodes[pos]? with
      | none => none
      | some e => some (if e.node = x then some e.flags else none)

/-- `be_get_live_state` for sets that are valid, ir/be/belive.h:155-163 -/
def liveState (m : Map) (b x : Nat) : Option State := (get m b x).map fun r => r.getD State.none

/-- `be_lv_get_or_set`, ir/be/belive.c:83-127, and `flags |= s` on the entry: the flags from before and the new map -/
def mark (m : Map) (b x : Nat) (s : State) : Option (State × Map) :=
  let a := match m b with
    | some a => a
    | none => ⟨0, List.replicate stdSize empty⟩
  match getOrSet a x with
  | none => none
  | some (a, pos) =>
    match a.nodes[pos]? with
    | none => none
    | some e => some (e.flags, set m b (some { a with nodes := a.nodes.set pos { e with flags := or e.flags s } }))

/-- a call for each element -/
def each {α β : Type} (f : α → β → Option β) : List α → β → Option β
  | [], m => some m
  | p :: ps, m =>
    match f p m with
    | none => none
    | some m => each f ps m

/-- `live_end_at_block`, ir/be/belive.c:175-201, for the value `x` that is defined in `d`; `ins` are the control flow predecessors.  The depth of the
recursion is bounded by `fuel`. -/
def liveEndAt (ins : Nat → List (Option Nat)) (x d : Nat) : Nat → Option Nat → Bool → Map → Option Map
  | 0, _, _, _ => none
  | _ + 1, none, _, _ => none
  | fuel + 1, some b, out, m =>
    match mark m b x ⟨false, true, out⟩ with
    | none => none
    | some (before, m) =>
      if before ≠ State.none then some m
      else if d = b then some m
      else
        match mark m b x ⟨true, false, false⟩ with
        | none => none
        | some (_, m) => each (fun p m => liveEndAt ins x d fuel p true m) (ins b).reverse m

/-- a user that is a liveness node, ir/be/belive.c:216-247: for a Phi the block of the control flow predecessor at the position of the operand -/
def liveUse (ins : Nat → List (Option Nat)) (x d fuel : Nat) (u : Use) (m : Map) : Option Map :=
  if u.phi then liveEndAt ins x d fuel u.block false m
  else
    match u.block with
    | none => none
    | some b =>
      if d ≠ b then
        match mark m b x ⟨true, false, false⟩ with
        | none => none
        | some (_, m) => each (fun p m => liveEndAt ins x d fuel p true m) (ins b).reverse m
      else some m

/-- a value: the node, its block and its users -/
structure Value where
  node : Nat
  block : Nat
  users : List Use

/-- `liveness_for_node`, ir/be/belive.c:208-248 -/
def forNode (ins : Nat → List (Option Nat)) (fuel : Nat) (v : Value) (m : Map) : Option Map :=
  each (liveUse ins v.node v.block fuel) v.users m

/-- `be_liveness_compute_sets`, ir/be/belive.c:261-289, for the liveness nodes of the graph -/
def computeSets (ins : Nat → List (Option Nat)) (fuel : Nat) (vs : List Value) : Option Map := each (forNode ins fuel) vs fun _ => none

/-- `lv_remove_irn_walker`, ir/be/belive.c:137-160 -/
def removeAt (x : Nat) (b : Nat) (m : Map) : Option Map :=
  match m b with
  | none => some m
  | some a => (removeInfo a x).map fun a => set m b (some a)

/-- `be_liveness_remove`, ir/be/belive.c:331-340.  `dom_tree_walk` visits the blocks that the block of the value dominates; here in the order of their
numbers. -/
def remove (g : Cfg) (v : Value) (m : Map) : Option Map := each (removeAt v.node) ((List.range g.n).filter (g.dominates v.block)) m

/-- `be_liveness_update`, ir/be/belive.c:352-356 -/
def update (g : Cfg) (fuel : Nat) (v : Value) (m : Map) : Option Map := (remove g v m).bind (forNode g.ins fuel v)

end Verif.Model.LiveSets
