import Verif.Spec.Garbage
/-!
# Model: removal of unused entities

ir/opt/garbage_collect.c with `irg_walk_2_pre` of ir/ir/irgwalk.c.  The visited marks of entities and nodes are one list; the counters that make old marks void
are left out.  An initializer is the list of its constants in the order of `visit_initializer`, ir/opt/garbage_collect.c:42-62.  `none`: the fuel is used up.
-/
namespace Verif.Model.Garbage

open Verif.Spec.Garbage

/-- `visit_entity`, ir/opt/garbage_collect.c:64-94: what is visited next -/
def entityNext (p : Prog) (e : Nat) : List Item :=
  match p.kind e with
  | .normal consts => consts.map .node
  | .method none => []
  | .method (some n) => [.node n]
  | .aliasOf t => [.ent t]
  | .other => []

/-- the order of `irg_walk_2_pre`, ir/ir/irgwalk.c:32-50: the block (the first of `ins`), then the operands from the last -/
def order : List Nat → List Nat
  | [] => []
  | b :: l => b :: l.reverse

/-- `visit_node`, ir/opt/garbage_collect.c:25-31, and `irg_walk_2_pre`: the entity, then the operands -/
def nodeNext (p : Prog) (n : Nat) : List Item := (p.attr n).toList.map .ent ++ (order (p.ins n)).map .node

def next (p : Prog) : Item → List Item
  | .ent e => entityNext p e
  | .node n => nodeNext p n

/-- one after the other -/
def each (f : Item → List Item → Option (List Item)) : List Item → List Item → Option (List Item)
  | [], v => some v
  | i :: l, v =>
    match f i v with
    | none => none
    | some v => each f l v

/-- `visit_entity`, and `irg_walk_2` with `visit_node`: nothing if there is a mark, else a mark and all that follows -/
def visit (p : Prog) : Nat → Item → List Item → Option (List Item)
  | 0, _, _ => none
  | fuel + 1, i, v => if i ∈ v then some v else each (visit p fuel) (next p i) (i :: v)

/-- `visit_segment`, ir/opt/garbage_collect.c:96-106 -/
def segmentRoots (p : Prog) (s : List Nat) : List Item := (s.filter p.root).map .ent

/-- the marks, ir/opt/garbage_collect.c:130-135 -/
def mark (p : Prog) (fuel : Nat) : Option (List Item) := each (visit p fuel) (p.segments.flatMap (segmentRoots p)) []

/-- `garbage_collect_entities`, ir/opt/garbage_collect.c:121-156: graphs without a mark are freed, then entities of all segments (108-119) -/
def collect (fuel : Nat) (p : Prog) : Option Prog :=
  match mark p fuel with
  | none => none
  | some v => some { p with
      graphs := p.graphs.filter fun e => decide (.ent e ∈ v)
      segments := p.segments.map fun s => s.filter fun e => decide (.ent e ∈ v) }

end Verif.Model.Garbage
