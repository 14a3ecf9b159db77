/-!
# Model: schedule of a block (ir/be/besched.c, ir/be/besched.h)

The schedule is a doubly linked circular list of nodes through the block; every node has a time step.  Nodes are numbers; a
Proj stands for the node it belongs to (`skip_Proj_const`, ir/be/besched.h:17-20).  An operation that follows a missing pointer
or whose assertion fails gives `none`.
-/
namespace Verif.Model.Sched

/-- `SCHED_INITIAL_GRANULARITY` (ir/be/besched.c:25) -/
def granularity : Nat := 2 ^ 14

/-- number of values of `sched_timestep_t` (ir/be/be_types.h:18) -/
def limit : Nat := 2 ^ 32

/-- `sched_info_t` of all nodes (ir/be/beinfo.h:23-27) -/
structure Sched where
  next : Nat → Option Nat
  prev : Nat → Option Nat
  ts : Nat → Nat

/-- change of a table at one place -/
def upd {α : Type} (f : Nat → α) (x : Nat) (a : α) : Nat → α := fun y => if y = x then a else f y

/-- `sched_init_block` (ir/be/besched.h:118-124); all other nodes are not scheduled -/
def initBlock (block : Nat) : Sched := ⟨upd (fun _ => none) block (some block), upd (fun _ => none) block (some block), fun _ => 0⟩

/-- the loop of `sched_renumber` (ir/be/besched.c:31-35): `irn` is the node the loop came from.  The bound is only there to
make the function total. -/
def renumberLoop (block : Nat) : Nat → Nat → Nat → Sched → Option Sched
  | 0, _, _, _ => none
  | fuel + 1, irn, step, s =>
    match s.next irn with
    | none => none
    | some nx =>
      if nx = block then some s
      else renumberLoop block fuel nx ((step + granularity) % limit) { s with ts := upd s.ts nx step }

/-- `sched_renumber` (ir/be/besched.c:27-36) -/
def renumber (fuel block : Nat) (s : Sched) : Option Sched := renumberLoop block fuel block granularity s

/-- `sched_set_time_stamp` (ir/be/besched.c:38-69) -/
def setTimeStamp (fuel block irn : Nat) (s : Sched) : Option Sched :=
  match s.prev irn, s.next irn with
  | some p, some x =>
    let before := s.ts p
    let after := s.ts x
    if before ≥ after then
      let t := (before + granularity) % limit
      let s' := { s with ts := upd s.ts irn t }
      if t ≤ before then renumber fuel block s' else some s'
    else
      let t := ((before + after) % limit) / 2
      if t = before ∨ t = after then renumber fuel block s
      else some { s with ts := upd s.ts irn t }
  | _, _ => none

/-- `sched_add_before` (ir/be/besched.c:71-89) -/
def addBefore (fuel block before irn : Nat) (s : Sched) : Option Sched :=
  if s.next irn ≠ none then none
  else match s.next before, s.prev before with
    | some _, some p =>
      let s1 := { s with prev := upd s.prev irn (some p), next := upd s.next irn (some before) }
      let s2 := { s1 with next := upd s1.next p (some irn) }
      let s3 := { s2 with prev := upd s2.prev before (some irn) }
      setTimeStamp fuel block irn s3
    | _, _ => none

/-- `sched_add_after` (ir/be/besched.c:91-109) -/
def addAfter (fuel block after irn : Nat) (s : Sched) : Option Sched :=
  if s.next irn ≠ none then none
  else match s.next after with
    | some x =>
      let s1 := { s with prev := upd s.prev irn (some after), next := upd s.next irn (some x) }
      let s2 := { s1 with next := upd s1.next after (some irn) }
      let s3 := { s2 with prev := upd s2.prev x (some irn) }
      setTimeStamp fuel block irn s3
    | none => none

/-- `sched_remove` (ir/be/besched.c:111-124) -/
def remove (irn : Nat) (s : Sched) : Option Sched :=
  match s.prev irn, s.next irn with
  | some p, some x =>
    let s1 := { s with next := upd s.next p (some x) }
    let s2 := { s1 with prev := upd s1.prev x (some p) }
    some { s2 with next := upd s2.next irn none, prev := upd s2.prev irn none }
  | _, _ => none

/-- `sched_replace` (ir/be/besched.c:126-143) -/
def replace (old irn : Nat) (s : Sched) : Option Sched :=
  if s.next irn ≠ none then none
  else match s.prev old, s.next old with
    | some p, some x =>
      let s1 : Sched := ⟨upd s.next irn (some x), upd s.prev irn (some p), upd s.ts irn (s.ts old)⟩
      let s2 := { s1 with next := upd s1.next old none, prev := upd s1.prev old none }
      let s3 := { s2 with next := upd s2.next p (some irn) }
      some { s3 with prev := upd s3.prev x (some irn) }
    | _, _ => none

/-- `sched_comes_before` (ir/be/besched.h:148-154) -/
def comesBefore (s : Sched) (a b : Nat) : Bool := s.ts a < s.ts b

end Verif.Model.Sched
