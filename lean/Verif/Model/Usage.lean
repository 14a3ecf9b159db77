import Verif.Spec.Usage

/-
Model of the analysis of the usage of variables, ir/ana/irmemory.c:519-850.

Simplifications: the graphs of all functions are one `Graph`; the users of a
node are computed from the operands; the flag ir_usage_reinterpret_cast is left
out; the recursion over users takes at most `g.n + 1` steps. `none` stands for a
failed assertion or a recursion that does not end.
-/

namespace Verif.Model.Usage

open Spec.Usage

/-- ir_entity_usage, include/libfirm/typerep.h:432-443 -/
structure Flags where
  taken : Bool := false
  write : Bool := false
  read : Bool := false
deriving DecidableEq, Repr

/-- ir_usage_unknown, include/libfirm/typerep.h:440-442 -/
def Flags.unknown : Flags := ⟨true, true, true⟩

def Flags.or (a b : Flags) : Flags := ⟨a.taken || b.taken, a.write || b.write, a.read || b.read⟩

/-- The users of a node with the position of the operand (get_irn_out_ex). -/
def outs (g : Graph) (n : Nat) : List (Nat × Nat) :=
  (List.range g.n).flatMap fun m =>
    ((List.range (g.ins m).length).filter fun k => (g.ins m)[k]? == some n).map fun k => (m, k)

/-- The disjunction of the flags of all elements. -/
def orAll {α : Type} (f : α → Option Flags) : List α → Option Flags
  | [] => some {}
  | x :: xs =>
    match f x, orAll f xs with
    | some a, some b => some (a.or b)
    | _, _ => none

/-- determine_entity_usage, ir/ana/irmemory.c:524-631 -/
def determine (g : Graph) : Nat → Nat → Option Flags
  | 0, _ => none
  | fuel + 1, n =>
    orAll (fun (mk : Nat × Nat) =>
      match g.kind mk.1 with
      | .load => some { read := true }
      | .store =>
        if mk.2 = 2 then some .unknown
        else if mk.2 = 1 then some { write := true }
        else some {}
      | .copyB =>
        if mk.2 = 1 then some { write := true }
        else if mk.2 = 2 then some { read := true }
        else none
      | .sel | .add | .sub | .id | .member => determine g fuel mk.1
      | .call agg =>
        if mk.2 = 1 then some { read := true }
        else if mk.2 = 0 then none
        else match agg[mk.2 - 2]? with
          | some true => some { read := true }
          | some false => some .unknown
          | none => none
      | .mayAlias => some {}
      | .builtin | .other | .address _ => some .unknown) (outs g n)

/-- init_entity_usage and check_initializers for one variable,
ir/ana/irmemory.c:680-775; for variables in the frame `visible` is the flag
IR_LINKAGE_HIDDEN_USER, ir/ana/irmemory.c:641-651. -/
def initial (g : Graph) (e : Nat) : Flags :=
  if g.visible e || g.inits.contains e then .unknown else {}

/-- The flags of a variable after analyse_irp_globals_entity_usage and
analyse_irg_entity_usage, ir/ana/irmemory.c:636-667 and 808-850 -/
def usage (g : Graph) (e : Nat) : Option Flags :=
  match orAll (fun n => if g.kind n = .address e then determine g (g.n + 1) n else some {})
      (List.range g.n) with
  | some f => some ((initial g e).or f)
  | none => none

end Verif.Model.Usage
