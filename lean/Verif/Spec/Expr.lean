import Verif.Spec.KnownBits
/-!
# Specification: the value of an expression of integer nodes

Data nodes of the intermediate language with integer modes and with the internal boolean mode, as typed
terms.  A value is a bit vector with the number of bits of its mode; the operations are the standard ones
of two's complement arithmetic.  Nothing here refers to the model.
-/
namespace Verif.Spec

/-- the mode of comparisons: one bit -/
abbrev bmode : IMode := ⟨false, 1, 0⟩

/-- The integer a bit pattern stands for in a mode. -/
def IMode.num (m : IMode) (v : BitVec m.bits) : Int := if m.signed then v.toInt else v.toNat

/-- A comparison outcome between integers is one of "equal" (bit 0), "less" (bit 1), "greater" (bit 2);
a relation is the set of outcomes for which the comparison is true. -/
def relHolds (r : BitVec 4) (x y : Int) : Bool :=
  (r.getLsbD 0 && decide (x = y)) || (r.getLsbD 1 && decide (x < y)) || (r.getLsbD 2 && decide (y < x))

/-- expressions; `leaf` stands for any node whose operands are not looked at -/
inductive Expr : IMode → Type
  | leaf (m : IMode) (id : Nat) : Expr m
  | const {m : IMode} (v : BitVec m.bits) : Expr m
  | minus {m : IMode} (a : Expr m) : Expr m
  | not {m : IMode} (a : Expr m) : Expr m
  | add {m : IMode} (a b : Expr m) : Expr m
  | sub {m : IMode} (a b : Expr m) : Expr m
  | mul {m : IMode} (a b : Expr m) : Expr m
  | div {m : IMode} (a b : Expr m) : Expr m
  | mod {m : IMode} (a b : Expr m) : Expr m
  | and {m : IMode} (a b : Expr m) : Expr m
  | or {m : IMode} (a b : Expr m) : Expr m
  | eor {m : IMode} (a b : Expr m) : Expr m
  | shl {m k : IMode} (a : Expr m) (s : Expr k) : Expr m
  | shr {m k : IMode} (a : Expr m) (s : Expr k) : Expr m
  | shrs {m k : IMode} (a : Expr m) (s : Expr k) : Expr m
  | conv {k : IMode} (m : IMode) (a : Expr k) : Expr m
  | cmp {k : IMode} (r : BitVec 4) (a b : Expr k) : Expr bmode
  | mux {m : IMode} (sel : Expr bmode) (f t : Expr m) : Expr m
  | confirm {m : IMode} (v : Expr m) (r : BitVec 4) (bound : Expr m) : Expr m
  deriving DecidableEq

/-- values of the leaves -/
abbrev Env := (m : IMode) → Nat → BitVec m.bits

/-- truncated division -/
def divBV (m : IMode) (x y : BitVec m.bits) : BitVec m.bits := if m.signed then x.sdiv y else x.udiv y
/-- remainder of the truncated division -/
def modBV (m : IMode) (x y : BitVec m.bits) : BitVec m.bits := if m.signed then x.srem y else x.umod y

/-- the value of an expression; shift counts are read as unsigned numbers and reduced by the modulo-shift of
the mode of the result -/
def Expr.eval (env : Env) : {m : IMode} → Expr m → BitVec m.bits
  | _, .leaf m i => env m i
  | _, .const v => v
  | _, .minus a => -(a.eval env)
  | _, .not a => ~~~(a.eval env)
  | _, .add a b => a.eval env + b.eval env
  | _, .sub a b => a.eval env - b.eval env
  | _, .mul a b => a.eval env * b.eval env
  | m, .div a b => divBV m (a.eval env) (b.eval env)
  | m, .mod a b => modBV m (a.eval env) (b.eval env)
  | _, .and a b => a.eval env &&& b.eval env
  | _, .or a b => a.eval env ||| b.eval env
  | _, .eor a b => a.eval env ^^^ b.eval env
  | m, .shl a s => a.eval env <<< m.amt (s.eval env).toNat
  | m, .shr a s => a.eval env >>> m.amt (s.eval env).toNat
  | m, .shrs a s => (a.eval env).sshiftRight (m.amt (s.eval env).toNat)
  | _, .conv (k := k) m a => BitVec.ofInt m.bits (k.num (a.eval env))
  | _, .cmp (k := k) r a b => BitVec.ofBool (relHolds r (k.num (a.eval env)) (k.num (b.eval env)))
  | _, .mux s f t => if s.eval env = 1#1 then t.eval env else f.eval env
  | _, .confirm v _ _ => v.eval env

/-- the modes a graph may use: at least one bit; the modulo-shift is absent or a power of two, at least two, that is not
smaller than the number of bits (`register_mode` sees to it); sizes fit into an `int` -/
def IMode.Valid (m : IMode) : Prop :=
  0 < m.bits ∧ m.bits < 2 ^ 31 ∧ m.modulo < 2 ^ 31 ∧ (m.modulo = 0 ∨ (m.bits ≤ m.modulo ∧ 1 < m.modulo ∧ ∃ k, m.modulo = 2 ^ k))

/-- `k` can hold the shift counts that occur for values of mode `m` -/
def IMode.Counts (k m : IMode) : Prop := m.bits < 2 ^ (k.bits - 1) ∧ m.modulo < 2 ^ (k.bits - 1)

/-- a constant shift count is not negative -/
def Expr.CountNonneg {k : IMode} (s : Expr k) : Prop := ∀ c, s = .const c → 0 ≤ k.num c

/-- the expression is well-formed and has no undefined behaviour: modes are valid, constant shift counts are not negative, every
division is by a nonzero value, and every fact recorded by a Confirm node holds -/
def Expr.Ok (env : Env) : {m : IMode} → Expr m → Prop
  | _, .leaf m _ => m.Valid
  | m, .const _ => m.Valid
  | _, .minus a => a.Ok env
  | _, .not a => a.Ok env
  | _, .add a b => a.Ok env ∧ b.Ok env
  | _, .sub a b => a.Ok env ∧ b.Ok env
  | _, .mul a b => a.Ok env ∧ b.Ok env
  | _, .div (m := m) a b => a.Ok env ∧ b.Ok env ∧ b.eval env ≠ 0#m.bits
  | _, .mod (m := m) a b => a.Ok env ∧ b.Ok env ∧ b.eval env ≠ 0#m.bits
  | _, .and a b => a.Ok env ∧ b.Ok env
  | _, .or a b => a.Ok env ∧ b.Ok env
  | _, .eor a b => a.Ok env ∧ b.Ok env
  | _, .shl (m := m) (k := k) a s => a.Ok env ∧ s.Ok env ∧ k.Counts m ∧ s.CountNonneg
  | _, .shr (m := m) (k := k) a s => a.Ok env ∧ s.Ok env ∧ k.Counts m ∧ s.CountNonneg
  | _, .shrs (m := m) (k := k) a s => a.Ok env ∧ s.Ok env ∧ k.Counts m ∧ s.CountNonneg
  | _, .conv m a => a.Ok env ∧ m.Valid
  | _, .cmp _ a b => a.Ok env ∧ b.Ok env
  | _, .mux s f t => s.Ok env ∧ f.Ok env ∧ t.Ok env
  | _, .confirm (m := m) v r b =>
    v.Ok env ∧ b.Ok env ∧ relHolds r (m.num (v.eval env)) (m.num (b.eval env)) = true

/-- the part of `Expr.Ok` that does not depend on the values: modes are valid, and the modes of shift counts hold the counts -/
def Expr.WellFormed : {m : IMode} → Expr m → Prop
  | _, .leaf m _ => m.Valid
  | m, .const _ => m.Valid
  | _, .minus a => a.WellFormed
  | _, .not a => a.WellFormed
  | _, .add a b => a.WellFormed ∧ b.WellFormed
  | _, .sub a b => a.WellFormed ∧ b.WellFormed
  | _, .mul a b => a.WellFormed ∧ b.WellFormed
  | _, .div a b => a.WellFormed ∧ b.WellFormed
  | _, .mod a b => a.WellFormed ∧ b.WellFormed
  | _, .and a b => a.WellFormed ∧ b.WellFormed
  | _, .or a b => a.WellFormed ∧ b.WellFormed
  | _, .eor a b => a.WellFormed ∧ b.WellFormed
  | _, .shl (m := m) (k := k) a s => a.WellFormed ∧ s.WellFormed ∧ k.Counts m
  | _, .shr (m := m) (k := k) a s => a.WellFormed ∧ s.WellFormed ∧ k.Counts m
  | _, .shrs (m := m) (k := k) a s => a.WellFormed ∧ s.WellFormed ∧ k.Counts m
  | _, .conv m a => a.WellFormed ∧ m.Valid
  | _, .cmp _ a b => a.WellFormed ∧ b.WellFormed
  | _, .mux s f t => s.WellFormed ∧ f.WellFormed ∧ t.WellFormed
  | _, .confirm v _ b => v.WellFormed ∧ b.WellFormed

/-- the node `i` of mode `k` is a leaf of the expression -/
def Expr.Uses (k : IMode) (i : Nat) : {m : IMode} → Expr m → Prop
  | _, .leaf m j => m = k ∧ j = i
  | _, .const _ => False
  | _, .minus a => a.Uses k i
  | _, .not a => a.Uses k i
  | _, .add a b => a.Uses k i ∨ b.Uses k i
  | _, .sub a b => a.Uses k i ∨ b.Uses k i
  | _, .mul a b => a.Uses k i ∨ b.Uses k i
  | _, .div a b => a.Uses k i ∨ b.Uses k i
  | _, .mod a b => a.Uses k i ∨ b.Uses k i
  | _, .and a b => a.Uses k i ∨ b.Uses k i
  | _, .or a b => a.Uses k i ∨ b.Uses k i
  | _, .eor a b => a.Uses k i ∨ b.Uses k i
  | _, .shl a s => a.Uses k i ∨ s.Uses k i
  | _, .shr a s => a.Uses k i ∨ s.Uses k i
  | _, .shrs a s => a.Uses k i ∨ s.Uses k i
  | _, .conv _ a => a.Uses k i
  | _, .cmp _ a b => a.Uses k i ∨ b.Uses k i
  | _, .mux s f t => s.Uses k i ∨ f.Uses k i ∨ t.Uses k i
  | _, .confirm v _ b => v.Uses k i ∨ b.Uses k i

/-- not a comparison of a node with itself -/
def Expr.NotSelfCmp : {m : IMode} → Expr m → Prop
  | _, .cmp _ a b => a ≠ b
  | _, _ => True

/-- the constant count of a shift, and of the shifts its left operand is made of, is smaller than the modulo-shift, if there is one -/
def Expr.CountsReduced : {m : IMode} → Expr m → Prop
  | m, .shl (k := k) a s => (∀ c : BitVec k.bits, s = .const c → m.modulo = 0 ∨ c.toNat < m.modulo) ∧ a.CountsReduced
  | m, .shr (k := k) a s => (∀ c : BitVec k.bits, s = .const c → m.modulo = 0 ∨ c.toNat < m.modulo) ∧ a.CountsReduced
  | m, .shrs (k := k) a s => (∀ c : BitVec k.bits, s = .const c → m.modulo = 0 ∨ c.toNat < m.modulo) ∧ a.CountsReduced
  | _, _ => True

/-- the operands of a masked shift count are not negative constants -/
def Expr.MaskNonneg {k : IMode} (s : Expr k) : Prop := ∀ l r, s = .and l r → l.CountNonneg ∧ r.CountNonneg

/-- `e'` may be used instead of `e`: whenever `e` has no undefined behaviour, neither has `e'`, and it has the
same value -/
def Replaces (env : Env) {m : IMode} (e' e : Expr m) : Prop :=
  e.Ok env → e'.eval env = e.eval env ∧ e'.Ok env

end Verif.Spec
