import Mathlib.Logic.Relation
/-!
# Specification: which entities of a program are in use

Entities and nodes are numbers.
-/
namespace Verif.Spec.Garbage

/-- what an entity has: constants in its initializer (nodes), a graph (its End node), an entity it is an alias of -/
inductive Kind
  | normal (consts : List Nat)
  | method (endNode : Option Nat)
  | aliasOf (target : Nat)
  | other

structure Prog where
  kind : Nat → Kind
  /-- the operands of a node, the block among them -/
  ins : Nat → List Nat
  /-- the entity of an Address, Block, Member or Offset node -/
  attr : Nat → Option Nat
  /-- the global entities, segment by segment -/
  segments : List (List Nat)
  /-- the entities of the graphs -/
  graphs : List Nat
  /-- seen from outside, or defined elsewhere -/
  root : Nat → Bool

inductive Item
  | ent (e : Nat)
  | node (n : Nat)
deriving DecidableEq

/-- `a` mentions `b` -/
inductive Mentions (p : Prog) : Item → Item → Prop
  | const {e l n} : p.kind e = .normal l → n ∈ l → Mentions p (.ent e) (.node n)
  | graph {e n} : p.kind e = .method (some n) → Mentions p (.ent e) (.node n)
  | aliased {e t} : p.kind e = .aliasOf t → Mentions p (.ent e) (.ent t)
  | operand {n m} : m ∈ p.ins n → Mentions p (.node n) (.node m)
  | entity {n e} : p.attr n = some e → Mentions p (.node n) (.ent e)

/-- an entity is in use if a root mentions it, through any number of entities and nodes -/
def InUse (p : Prog) (i : Item) : Prop := ∃ s ∈ p.segments, ∃ r ∈ s, p.root r = true ∧ Relation.ReflTransGen (Mentions p) (.ent r) i

end Verif.Spec.Garbage
