/-
What happens to the addresses of variables while a program runs: which values
may hold the address of a variable, and which variables are read and written.
Written without looking at the analysis in ir/ana/irmemory.c.
-/

namespace Verif.Spec.Usage

/-- Kinds of nodes. `address e` is the address of the variable `e`, a global or
one in the frame. A call carries for each parameter of its type whether the
parameter has an aggregate type. -/
inductive Kind where
  | address (e : Nat)
  | sel | member | add | sub | id
  | load | store | copyB
  | call (aggregate : List Bool)
  | mayAlias
  | builtin
  | other
deriving DecidableEq, Repr

/-- All nodes of all functions. The operands of Load are memory and address, of
Store memory, address and value, of CopyB memory, target and source, of Call
memory, function and arguments. -/
structure Graph where
  n : Nat
  kind : Nat → Kind
  ins : Nat → List Nat
  /-- the variable is visible outside -/
  visible : Nat → Bool
  /-- variables whose address is part of the initial value of a variable -/
  inits : List Nat

/-- Arithmetic with addresses. -/
def Kind.arith : Kind → Bool
  | .sel | .member | .add | .sub | .id => true
  | _ => false

abbrev Vars := Nat → Prop

/-- For each node the variables into which its value may point, and the
variables whose addresses are in memory or known outside. -/
structure State where
  prov : Nat → Vars
  pool : Vars

def State.set (s : State) (n : Nat) (v : Vars) : State :=
  { s with prov := fun m => if m = n then v else s.prov m }

/-- One node is evaluated; `r` and `w` are the variables that are read and
written. -/
inductive Step (g : Graph) : State → Vars → Vars → State → Prop
  | address {s n e} : n < g.n → g.kind n = .address e →
      Step g s (fun _ => False) (fun _ => False) (s.set n (· = e))
  | arith {s n v} : n < g.n → (g.kind n).arith = true →
      (∀ e, v e → ∃ m, m ∈ g.ins n ∧ s.prov m e) →
      Step g s (fun _ => False) (fun _ => False) (s.set n v)
  | load {s n mem ptr v} : n < g.n → g.kind n = .load → g.ins n = [mem, ptr] →
      (∀ e, v e → s.pool e) →
      Step g s (s.prov ptr) (fun _ => False) (s.set n v)
  | store {s n mem ptr val} : n < g.n → g.kind n = .store → g.ins n = [mem, ptr, val] →
      Step g s (fun _ => False) (s.prov ptr)
        { s.set n (fun _ => False) with pool := fun e => s.pool e ∨ s.prov val e }
  | copyB {s n mem dst src} : n < g.n → g.kind n = .copyB → g.ins n = [mem, dst, src] →
      Step g s (s.prov src) (s.prov dst) (s.set n (fun _ => False))
  /-- The called function learns the addresses that are passed in parameters
  of atomic type; parameters of aggregate type are copied. It reads and writes
  what it can reach. -/
  | call {s n mem ptr args agg v r w pool} : n < g.n → g.kind n = .call agg →
      g.ins n = mem :: ptr :: args →
      (∀ e, pool e → s.pool e ∨ ∃ (k : Nat) (a : Nat), args[k]? = some a ∧ agg[k]? ≠ some true ∧ s.prov a e) →
      (∀ e, s.pool e → pool e) → (∀ e, v e → pool e) →
      (∀ e, r e → pool e ∨ s.prov ptr e ∨ ∃ a, a ∈ args ∧ s.prov a e) → (∀ e, w e → pool e) →
      Step g s r w { s.set n v with pool := pool }
  | mayAlias {s n} : n < g.n → g.kind n = .mayAlias →
      Step g s (fun _ => False) (fun _ => False) (s.set n (fun _ => False))
  /-- any other node may do everything with its operands -/
  | other {s n v r w pool} : n < g.n → g.kind n = .other ∨ g.kind n = .builtin →
      (∀ e, pool e → s.pool e ∨ ∃ m, m ∈ g.ins n ∧ s.prov m e) → (∀ e, s.pool e → pool e) →
      (∀ e, v e ∨ r e ∨ w e → s.pool e ∨ ∃ m, m ∈ g.ins n ∧ s.prov m e) →
      Step g s r w { s.set n v with pool := pool }

/-- States of a run. In the beginning the addresses of visible variables and
those in initial values are known. -/
inductive Reach (g : Graph) : State → Prop
  | init : Reach g ⟨fun _ _ => False, fun e => g.visible e = true ∨ e ∈ g.inits⟩
  | step {s r w s'} : Reach g s → Step g s r w s' → Reach g s'

end Verif.Spec.Usage
