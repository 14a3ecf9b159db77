/-!
# Specification: recursive functions whose last action is a call

What a function does is a tree: it returns, or calls itself and goes on, or calls itself as the last
action on memory and then returns values computed from the results of this call.
-/
namespace Verif.Spec.TailRec

/-- Arithmetic of a mode. -/
structure Ops (α : Type) where
  zero : α
  one : α
  add : α → α → α
  sub : α → α → α
  mul : α → α → α
  neg : α → α
  /-- every other operation, by number -/
  other : Nat → α → α → α

/-- A value returned behind the call.  `inB`: the node is in the block of the call.  Values from other
blocks, parameters and so on are numbered. -/
inductive Expr where
  | call
  | leaf (inB : Bool) (v : Nat)
  | add (inB : Bool) (a b : Expr)
  | sub (inB : Bool) (a b : Expr)
  | mul (inB : Bool) (a b : Expr)
  | neg (inB : Bool) (a : Expr)
  | other (inB : Bool) (n : Nat) (a b : Expr)
  deriving DecidableEq, Repr

def Expr.inBlock : Expr → Bool
  | .call => true
  | .leaf i _ => i
  | .add i _ _ => i
  | .sub i _ _ => i
  | .mul i _ _ => i
  | .neg i _ => i
  | .other i _ _ _ => i

/-- The value, given the numbered values and the result of the call. -/
def Expr.eval {α : Type} (O : Ops α) (env : Nat → α) (r : α) : Expr → α
  | .call => r
  | .leaf _ v => env v
  | .add _ a b => O.add (a.eval O env r) (b.eval O env r)
  | .sub _ a b => O.sub (a.eval O env r) (b.eval O env r)
  | .mul _ a b => O.mul (a.eval O env r) (b.eval O env r)
  | .neg _ a => O.neg (a.eval O env r)
  | .other _ n a b => O.other n (a.eval O env r) (b.eval O env r)

/-- How often the result of the call is used. -/
def Expr.uses : Expr → Nat
  | .call => 1
  | .leaf _ _ => 0
  | .add _ a b => a.uses + b.uses
  | .sub _ a b => a.uses + b.uses
  | .mul _ a b => a.uses + b.uses
  | .neg _ a => a.uses
  | .other _ _ a b => a.uses + b.uses

/-- A node in another block is computed before the call. -/
def Expr.Placed : Expr → Prop
  | .call => True
  | .leaf _ _ => True
  | .add i a b => (i = false → (Expr.add i a b).uses = 0) ∧ a.Placed ∧ b.Placed
  | .sub i a b => (i = false → (Expr.sub i a b).uses = 0) ∧ a.Placed ∧ b.Placed
  | .mul i a b => (i = false → (Expr.mul i a b).uses = 0) ∧ a.Placed ∧ b.Placed
  | .neg i a => (i = false → (Expr.neg i a).uses = 0) ∧ a.Placed
  | .other i n a b => (i = false → (Expr.other i n a b).uses = 0) ∧ a.Placed ∧ b.Placed

/-- The result of the call, perhaps with something subtracted. -/
def Expr.Bare : Expr → Bool
  | .call => true
  | .sub _ a _ => a.Bare
  | _ => false

/-- Nothing is subtracted from the bare result of the call, but in an operand of an addition. -/
def Expr.Clean : Expr → Bool
  | .call => true
  | .leaf _ _ => true
  | .add _ a b => (a.Bare || a.Clean) && (b.Bare || b.Clean)
  | .sub _ a b => !a.Bare && a.Clean && b.Clean
  | .mul _ a b => a.Clean && b.Clean
  | .neg _ a => a.Clean
  | .other _ _ _ _ => true

/-- What remains to be done: `ret` returns, `tail` calls the function itself with memory `m` and returns
the values of Return number `i`, `rcall` calls the function itself and goes on. -/
inductive Code (α P M : Type) (n : Nat) where
  | ret (vs : Fin n → α) (m : M)
  | tail (i : Nat) (args : P) (env : Nat → α) (m : M)
  | rcall (args : P) (m : M) (k : (Fin n → α) → M → Code α P M n)

/-- A function with `n` results: its body, and the values of the Returns behind a call. -/
structure Func (α P M : Type) (n : Nat) where
  body : P → M → Code α P M n
  exprs : Nat → Fin n → Expr

/-- The results and the memory at the end. -/
inductive Run {α P M : Type} {n : Nat} (O : Ops α) (f : Func α P M n) : Code α P M n → (Fin n → α) → M → Prop
  | ret (vs : Fin n → α) (m : M) : Run O f (.ret vs m) vs m
  | tail {i : Nat} {args : P} {env : Nat → α} {m m' : M} {rs : Fin n → α} :
      Run O f (f.body args m) rs m' →
      Run O f (.tail i args env m) (fun j => (f.exprs i j).eval O env (rs j)) m'
  | rcall {args : P} {m m' m'' : M} {k : (Fin n → α) → M → Code α P M n} {rs vs : Fin n → α} :
      Run O f (f.body args m) rs m' → Run O f (k rs m') vs m'' → Run O f (.rcall args m k) vs m''

/-- integers of a width, with any other operations -/
def intOps (w : Nat) (other : Nat → BitVec w → BitVec w → BitVec w) : Ops (BitVec w) where
  zero := 0
  one := 1
  add := (· + ·)
  sub := (· - ·)
  mul := (· * ·)
  neg := (- ·)
  other := other

end Verif.Spec.TailRec
