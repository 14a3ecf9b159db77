import Verif.Spec.Setsort
/-!
# Model: the multi operations of the reassociation

do_Setsort, ir/opt/reassoc.c: trees of one operation are collected in sets with a coefficient for every operand, sets are merged, and the sets that
changed are built anew.  The model looks at the sets of one operation; nodes of other operations are atoms that may be the root of another set
(`multi`).  A set is named by its base node.  Nodes are visited users first, by decreasing numbers; the second visit of nodes in cycles
(`second_walk`) and pointers are left out.  When sets are merged is not modelled either: the theorems hold for any merges.
-/
namespace Verif.Model.Setsort

open Verif.Spec.Setsort

variable {R : Type} [CommSemiring R] [DecidableEq R]

/-- a graph: the nodes; whether a node has a user that is no multi operation; whether an atom is the root of another set -/
structure Graph (R : Type) where
  node : Nat → Node R
  extern : Nat → Bool
  multi : Nat → Bool
  size : Nat

/-- the sets: the set of a node (`set_map`), `edge_value`, and the coefficient of an operand in a set: `multiplier`, or 1 for an element of `operands` and
`multi_operands` -/
structure Sets (R : Type) where
  setOf : Nat → Option Nat
  ev : Nat → R
  coef : Nat → Nat → R
  changed : Nat → Bool

def Sets.init : Sets R := ⟨fun _ => none, fun _ => 0, fun _ _ => 0, fun _ => false⟩

/-- the factor of an edge: `if (is_Sub(src) && get_Sub_right(src) == node) t = tarval_neg(t)`, ir/opt/reassoc.c:1134-1136, 1172-1174, 1188-1190, 1295-1297 -/
def factor (u : Node R) (n : Nat) : R :=
  match u with
  | .atom => 0
  | .bin ca _ cb b => if b = n then cb else ca
  | .mulc _ _ => 1

/-- the edges from a user, summed up -/
def edges (u : Node R) (n : Nat) : R := ((u.ins.filter (· = n)).map fun _ => factor u n).sum

/-- the values of all edges from the set `t` to `n`, `foreach_out_edge`: ir/opt/reassoc.c:1129-1138, 1164-1177 for a node that is added to the set;
1086-1112, 1183-1205, 1234-1315 for operands: coefficients add up, an element of an Eor set is taken out the second time, one of And and Or sets stays -/
def contrib (g : Graph R) (s : Sets R) (t n : Nat) : R :=
  ∑ u ∈ Finset.range g.size, if s.setOf u = some t then s.ev u * edges (g.node u) n else 0

/-- the users of a node -/
def users (g : Graph R) (n : Nat) : List Nat := (List.range g.size).filter fun u => (g.node u).ins.contains n

/-- the set of all users, if there is one, ir/opt/reassoc.c:1431-1448 -/
def target (g : Graph R) (s : Sets R) (n : Nat) : Option Nat :=
  match users g n with
  | [] => none
  | u :: us =>
    match s.setOf u with
    | none => none
    | some t => if !g.extern n && us.all (fun v => s.setOf v == some t) then some t else none

/-- the constant of a product, 1 otherwise -/
def own : Node R → R
  | .mulc c _ => c
  | _ => 1

/-- an operand with more than one edge from a set marks the set: ir/opt/reassoc.c:1197-1200, 1238-1244, 1259-1262, 1303-1309; a plain operand of
an Eor set, and of an And or Or set, does not, 1093-1097, 1110 -/
def twice (g : Graph R) (s : Sets R) (t n : Nat) : Bool :=
  decide (2 ≤ (((List.range g.size).filter fun u => s.setOf u == some t).map fun u => (g.node u).ins.count n).sum)

/-- `walk_sets`, ir/opt/reassoc.c:1420-1485; `exact`: the operation is Add, and nodes that are added to a set get the sum of the edges as value.  In the other
sets there are no edge values. -/
def visit (exact : Bool) (g : Graph R) (s : Sets R) (n : Nat) : Sets R :=
  match g.node n with
  | .atom =>
    { s with
      coef := fun t m => if m = n then contrib g s t n else s.coef t m
      changed := fun t => s.changed t || ((exact || g.multi n) && twice g s t n) }
  | nd =>
    match target g s n with
    | some t =>
      { s with
        setOf := fun m => if m = n then some t else s.setOf m
        ev := fun m => if m = n then (if exact then contrib g s t n else 1) * own nd else s.ev m }
    | none =>
      { setOf := fun m => if m = n then some n else s.setOf m
        ev := fun m => if m = n then own nd else s.ev m
        coef := fun t m => if m = n then contrib g s t n else s.coef t m
        changed := fun t => s.changed t || twice g s t n }

/-- the walk: the nodes `size - 1` to `k` have been visited after `size - k` steps -/
def walk (exact : Bool) (g : Graph R) : Nat → Sets R
  | 0 => Sets.init
  | j + 1 => visit exact g (walk exact g j) (g.size - 1 - j)

/-- `merge`, ir/opt/reassoc.c:1490-1554: the operands of the set `o` are added to those of the set `b`, times the coefficient of `o` (which is 1 in sets
of And, Or and Eor) -/
def merge (c : Nat → Nat → R) (o b : Nat) : Nat → Nat → R := fun t n =>
  if t = b then (if n = o then 0 else c b n) + c b o * c o n else c t n

/-- `merge_trivial_multi_op`, ir/opt/reassoc.c:1597-1639: `o` is a set of another operation with the single operand `x` -/
def mergeTrivial (c : Nat → Nat → R) (o x b : Nat) : Nat → Nat → R := fun t n =>
  if t = b then (if n = o then 0 else if n = x then c b x + c b o else c b n) else c t n

/-- a step of the analysis, ir/opt/reassoc.c:1922-1938 -/
inductive Step
  | merge (o b : Nat)
  | trivial (o x b : Nat)

/-- any steps, one after the other -/
def steps (c : Nat → Nat → R) : List Step → Nat → Nat → R
  | [] => c
  | .merge o b :: l => steps (merge c o b) l
  | .trivial o x b :: l => steps (mergeTrivial c o x b) l

/-- `rebuild` of sets of And, Or and Eor, ir/opt/reassoc.c:1870-1886, `rebuild_node` 1669-1687: the operands in some order; `null` is the constant 0 -/
def rebuild (null : R) : List R → R
  | [] => null
  | x :: l => l.foldl (fun curr v => v + curr) x

/-- the nodes of a set of sums by their coefficients, `dic`: the values of the nodes, in some order, ir/opt/reassoc.c:1709-1757; no pointers.  Coefficients 0 are
left out, 1726, 1747 -/
abbrev Dic (w : Nat) := List (BitVec w × List (BitVec w))

/-- `pmap_get` -/
def Dic.get {w : Nat} (d : Dic w) (k : BitVec w) : Option (List (BitVec w)) :=
  match d.find? (fun e => e.1 == k) with
  | some e => some e.2
  | none => none

/-- the state of the loop: `curr`, `done`, `negatives` -/
structure PolySt (w : Nat) where
  curr : Option (BitVec w)
  done : List (BitVec w)
  negs : List (BitVec w)

/-- the sum of the nodes, starting from `inner` if there is one, ir/opt/reassoc.c:1794-1804 -/
def addAll {w : Nat} (inner : Option (BitVec w)) (l : List (BitVec w)) : Option (BitVec w) :=
  l.foldl (fun i v => match i with | none => some v | some x => some (x + v)) inner

/-- `tarval_is_negative` -/
def isNeg {w : Nat} (signed : Bool) (v : BitVec w) : Bool := signed && v.msb

/-- one coefficient, ir/opt/reassoc.c:1763-1832; `none`: an assertion fails -/
def polyStep {w : Nat} (signed : Bool) (d : Dic w) (s : PolySt w) (key : BitVec w) : Option (PolySt w) :=
  if key ∈ s.done then some s
  else if -key = key || (d.get (-key)).isSome || !isNeg signed key then
    let pos := if -key = key || !isNeg signed key then key else -key
    let neg := if -key = key || !isNeg signed key then -key else key
    let negSet := if -key ≠ key ∧ signed then d.get neg else none
    match d.get pos with
    | none => none
    | some ps =>
      match addAll (if pos = 1 then s.curr else none) ps with
      | none => none
      | some inner =>
        let inner := (negSet.getD []).foldl (· - ·) inner
        let inner := if pos = 1 then inner else pos * inner
        let curr := match s.curr with
          | none => inner
          | some c => if pos = 1 then inner else c + inner
        some ⟨some curr, (if negSet.isSome then [pos, neg] else [pos]) ++ s.done, s.negs⟩
  else some { s with negs := s.negs ++ [key] }

/-- one of the negative coefficients, ir/opt/reassoc.c:1834-1861 -/
def polyNeg {w : Nat} (d : Dic w) (curr : Option (BitVec w)) (key : BitVec w) : Option (Option (BitVec w)) :=
  match d.get key with
  | none => none
  | some l =>
    match addAll none l with
    | none => none
    | some inner =>
      let inner := if -key = 1 then inner else -key * inner
      some (some (match curr with | none => -inner | some c => c - inner))

/-- `rebuild` of a set of sums, ir/opt/reassoc.c:1708-1869, 1881-1886 -/
def rebuildPoly {w : Nat} (signed : Bool) (d : Dic w) : Option (BitVec w) :=
  match (d.map (·.1)).foldlM (polyStep signed d) ⟨none, [], []⟩ with
  | none => none
  | some s =>
    match s.negs.foldlM (polyNeg d) s.curr with
    | none => none
    | some curr => some (curr.getD 0)

/-- the number of edges to a node -/
def edgeCount (g : Graph R) (n : Nat) : Nat := ∑ u ∈ Finset.range g.size, (g.node u).ins.count n

/-- a step that may be done: the merged set is one, a trivial one has the value of its operand -/
def StepOk (N : Nat) (isSet : Nat → Prop) (val : Nat → R) : Step → Prop
  | .merge o _ => o < N ∧ isSet o
  | .trivial o x _ => o < N ∧ x < N ∧ x ≠ o ∧ val o = val x

end Verif.Model.Setsort
