import Verif.Spec.FlagCode
/-!
# Model: flags in the schedule

`be_sched_fix_flags` (ir/be/beflags.c): between a node that tests flags and the node that produces them
there must be none that destroys them.  The producer is moved, or the tests use the flags at hand, or
the producer is computed again.

The walk goes backwards over the schedule of one block.  Nodes behind the current one are final code.
Simplified: operands are named by the node they belong to, `Proj` nodes are left out; a copy of a node
keeps its name, since it has the same operands, and the redirection of operands to it (`set_irn_n`,
`move_other_uses`) is left out.  `turnBack` is the rematerialization of the ia32 backend, which loads a
memory operand in front of the node; otherwise it is `exact_copy`.  The load of a node that is moved
afterwards is taken to use all operands of the node.
-/
namespace Verif.Model.BeFlags
open Verif.Spec.FlagCode

variable {C : Type}

/-- A node in front of the current one: as it was, with its memory operand loaded in front of it, or
only this load, the node itself having been moved. -/
inductive Mark where
  | plain
  | turned
  | stub
  deriving DecidableEq, Repr

structure Env (C : Type) where
  /-- the nodes of other blocks -/
  outer : Nat → Node C
  /-- `flags_remat` (ir/be/ia32/ia32_bearch.c:497-521) in place of `default_remat`
  (ir/be/beflags.c:46-53) -/
  turnBack : Bool
  /-- `try_replace`: can the tests of the first use the flags of the second? -/
  repl : Nat → Nat → Bool
  /-- how they test them then -/
  inv : C → C

abbrev Todo (C : Type) := List (Node C × Mark)

def lookup (F : Nat) (todo : Todo C) : Option (Node C × Mark) :=
  todo.find? fun p => p.1.id == F && p.2 != .stub

/-- `can_move` (ir/be/beflags.c:72-95): no use at or before the current node -/
def canMove (F : Nat) (node : Node C) (todo : Todo C) : Bool :=
  (node :: todo.map (·.1)).all fun x => !x.uses.contains F && x.flag != some F

/-- `sched_remove` of a node; the load of its memory operand stays. -/
def takeOut (F : Nat) : Todo C → Todo C
  | [] => []
  | (n, k) :: r =>
    if n.id = F ∧ k ≠ .stub then (if k = .turned then (n, .stub) :: r else r)
    else (n, k) :: takeOut F r

/-- The memory operand of a node is loaded in front of it. -/
def turn (F : Nat) (todo : Todo C) : Todo C :=
  todo.map fun p => if p.1.id = F ∧ p.2 = .plain ∧ p.1.reads then (p.1, .turned) else p

/-- The tests of the consumers are changed. -/
def invert (inv : C → C) (consumers : List Nat) (done : List (Item C)) : List (Item C) :=
  done.map fun
    | .run n t => if n.flag.isSome ∧ n.id ∈ consumers then .run { n with cond := inv n.cond } t else .run n t
    | i => i

/-- `rematerialize_or_move` (ir/be/beflags.c:137-175): the nodes in front of `node`, the code behind it,
and whether the consumers use the available flags. -/
def rematerializeOrMove (env : Env C) (F : Nat) (node : Node C) (consumers : List Nat)
    (available : Option Nat) (todo : Todo C) (done : List (Item C)) :
    Todo C × List (Item C) × Bool :=
  let move :=
    match lookup F todo with
    | some (n, k) => if canMove F node todo then some (n, k) else none
    | none => none
  match move with
  | some (n, k) => (takeOut F todo, .run n (k == .turned) :: done, false)
  | none =>
    if (match available with | some a => env.repl F a | none => false) then
      (todo, invert env.inv consumers done, true)
    else
      let n := match lookup F todo with | some (n, _) => n | none => env.outer F
      if env.turnBack then (turn F todo, .run n n.reads :: done, false)
      else (todo, .run n false :: done, false)

/-- The node in the schedule again, behind the load of its memory operand. -/
def emit (node : Node C) (k : Mark) (done : List (Item C)) : List (Item C) :=
  match k with
  | .plain => .run node false :: done
  | .turned => .load node.id :: .run node true :: done
  | .stub => .load node.id :: done

/-- `be_move_after_schedule_first` (ir/be/besched.c:167-175) and `sched_add_after` -/
def insertFirst (i : Item C) : List (Item C) → List (Item C)
  | .run n t :: l => if n.first then .run n t :: insertFirst i l else i :: .run n t :: l
  | l => i :: l

/-- the end of `fix_flags_walker` (ir/be/beflags.c:246-255) -/
def finish (env : Env C) (done : List (Item C)) (needed : Option Nat) : List (Item C) :=
  match needed with
  | none => done
  | some F => insertFirst (.run (env.outer F) (env.turnBack && (env.outer F).reads)) done

/-- is the node in front of a `Keep`, or the node itself, one that writes the flags? -/
def destroys (node : Node C) (todo : Todo C) : Option Nat :=
  if node.keep then
    match todo with
    | (t, k) :: _ => if k ≠ .stub ∧ t.modifies then some t.id else none
    | [] => none
  else if node.modifies then some node.id else none

/-- `fix_flags_walker` (ir/be/beflags.c:184-256), backwards: `todo` is the schedule in front in reverse,
`done` the code behind.  The number bounds the length of `todo`. -/
def walk (env : Env C) : Nat → Todo C → List (Item C) → Option Nat → List Nat → List (Item C)
  | 0, _, done, needed, _ => finish env done needed
  | _ + 1, [], done, needed, _ => finish env done needed
  | fuel + 1, (node, k) :: todo, done, needed, consumers =>
    if k = .stub then walk env fuel todo (emit node k done) needed consumers
    else
      let (needed, consumers) := if needed = some node.id then (none, []) else (needed, consumers)
      -- does it destroy the flags?
      let (todo, done, needed, consumers) :=
        match needed, destroys node todo with
        | some F, some t =>
          let (todo', done', _) := rematerializeOrMove env F node consumers (some t) todo done
          (todo', done', none, [])
        | _, _ => (todo, done, needed, consumers)
      -- does it need flags?
      match node.flag with
      | none => walk env fuel todo (emit node k done) needed consumers
      | some G =>
        if needed = some G then walk env fuel todo (emit node k done) needed (node.id :: consumers)
        else
          match needed with
          | some F =>
            let (todo', done', new) := rematerializeOrMove env F node consumers (some G) todo done
            walk env fuel todo' (emit node k done') (some G)
              (node.id :: if new then consumers else [])
          | none => walk env fuel todo (emit node k done) (some G) (node.id :: consumers)

/-- The new code of a block. -/
def fixFlags (env : Env C) (l : List (Node C)) : List (Item C) :=
  walk env l.length (l.reverse.map fun n => (n, .plain)) [] none []

end Verif.Model.BeFlags
