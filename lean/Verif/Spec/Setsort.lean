import Mathlib.Algebra.Ring.Defs
import Mathlib.Algebra.BigOperators.Group.Finset.Basic
/-!
# Specification: graphs of one associative operation

The nodes of a graph are numbers; an operand has a smaller number than its users.  Of the operations one is looked at: sums of integers (with
differences and products with a constant), or one bit of And, of Or, or of Eor.  All other nodes are atoms.  Each of the four is the addition of a
commutative semiring: integers modulo `2^w` (`BitVec w`), and three structures on truth values.
-/
namespace Verif.Spec.Setsort

/-- one bit under Eor -/
inductive XorBit
  | f | t
  deriving DecidableEq, Repr

/-- one bit under Or -/
inductive OrBit
  | f | t
  deriving DecidableEq, Repr

/-- one bit under And; `false` absorbs, so it is the neutral element of the other operation, Or -/
inductive AndBit
  | f | t
  deriving DecidableEq, Repr

def XorBit.toBool : XorBit → Bool | .f => false | .t => true
def OrBit.toBool : OrBit → Bool | .f => false | .t => true
def AndBit.toBool : AndBit → Bool | .f => false | .t => true
def XorBit.ofBool : Bool → XorBit | false => .f | true => .t
def OrBit.ofBool : Bool → OrBit | false => .f | true => .t
def AndBit.ofBool : Bool → AndBit | false => .f | true => .t

instance : Zero XorBit := ⟨.f⟩
instance : One XorBit := ⟨.t⟩
instance : Add XorBit := ⟨fun a b => .ofBool (a.toBool ^^ b.toBool)⟩
instance : Mul XorBit := ⟨fun a b => .ofBool (a.toBool && b.toBool)⟩

instance : CommSemiring XorBit where
  nsmul := nsmulRec
  add_assoc := by intro a b c; cases a <;> cases b <;> cases c <;> rfl
  zero_add := by intro a; cases a <;> rfl
  add_zero := by intro a; cases a <;> rfl
  add_comm := by intro a b; cases a <;> cases b <;> rfl
  mul_assoc := by intro a b c; cases a <;> cases b <;> cases c <;> rfl
  one_mul := by intro a; cases a <;> rfl
  mul_one := by intro a; cases a <;> rfl
  mul_comm := by intro a b; cases a <;> cases b <;> rfl
  zero_mul := by intro a; cases a <;> rfl
  mul_zero := by intro a; cases a <;> rfl
  left_distrib := by intro a b c; cases a <;> cases b <;> cases c <;> rfl
  right_distrib := by intro a b c; cases a <;> cases b <;> cases c <;> rfl

instance : Zero OrBit := ⟨.f⟩
instance : One OrBit := ⟨.t⟩
instance : Add OrBit := ⟨fun a b => .ofBool (a.toBool || b.toBool)⟩
instance : Mul OrBit := ⟨fun a b => .ofBool (a.toBool && b.toBool)⟩

instance : CommSemiring OrBit where
  nsmul := nsmulRec
  add_assoc := by intro a b c; cases a <;> cases b <;> cases c <;> rfl
  zero_add := by intro a; cases a <;> rfl
  add_zero := by intro a; cases a <;> rfl
  add_comm := by intro a b; cases a <;> cases b <;> rfl
  mul_assoc := by intro a b c; cases a <;> cases b <;> cases c <;> rfl
  one_mul := by intro a; cases a <;> rfl
  mul_one := by intro a; cases a <;> rfl
  mul_comm := by intro a b; cases a <;> cases b <;> rfl
  zero_mul := by intro a; cases a <;> rfl
  mul_zero := by intro a; cases a <;> rfl
  left_distrib := by intro a b c; cases a <;> cases b <;> cases c <;> rfl
  right_distrib := by intro a b c; cases a <;> cases b <;> cases c <;> rfl

instance : Zero AndBit := ⟨.t⟩
instance : One AndBit := ⟨.f⟩
instance : Add AndBit := ⟨fun a b => .ofBool (a.toBool && b.toBool)⟩
instance : Mul AndBit := ⟨fun a b => .ofBool (a.toBool || b.toBool)⟩

instance : CommSemiring AndBit where
  nsmul := nsmulRec
  add_assoc := by intro a b c; cases a <;> cases b <;> cases c <;> rfl
  zero_add := by intro a; cases a <;> rfl
  add_zero := by intro a; cases a <;> rfl
  add_comm := by intro a b; cases a <;> cases b <;> rfl
  mul_assoc := by intro a b c; cases a <;> cases b <;> cases c <;> rfl
  one_mul := by intro a; cases a <;> rfl
  mul_one := by intro a; cases a <;> rfl
  mul_comm := by intro a b; cases a <;> cases b <;> rfl
  zero_mul := by intro a; cases a <;> rfl
  mul_zero := by intro a; cases a <;> rfl
  left_distrib := by intro a b c; cases a <;> cases b <;> cases c <;> rfl
  right_distrib := by intro a b c; cases a <;> cases b <;> cases c <;> rfl

/-- a node: an atom; `ca * a + cb * b` (Add, And, Or, Eor with 1 and 1, Sub with 1 and -1); a product with a constant -/
inductive Node (R : Type)
  | atom
  | bin (ca : R) (a : Nat) (cb : R) (b : Nat)
  | mulc (c : R) (a : Nat)

variable {R : Type} [CommSemiring R]

/-- the numbers of the operands -/
def Node.ins : Node R → List Nat
  | .atom => []
  | .bin _ a _ b => [a, b]
  | .mulc _ a => [a]

/-- operands have smaller numbers -/
def Acyclic (g : Nat → Node R) : Prop := ∀ n, ∀ m ∈ (g n).ins, m < n

/-- `val` is what the nodes below `N` compute, for some values of the atoms -/
def Computes (g : Nat → Node R) (N : Nat) (val : Nat → R) : Prop :=
  ∀ n, n < N → match g n with
    | .atom => True
    | .bin ca a cb b => val n = ca * val a + cb * val b
    | .mulc c a => val n = c * val a

/-- no node has both operands the same with different signs -/
def NoSame (g : Nat → Node R) : Prop := ∀ n ca a cb b, g n = .bin ca a cb b → a = b → ca = cb

/-- And, Or and Eor: all factors are 1 -/
def Plain (g : Nat → Node R) : Prop := ∀ n, g n = .atom ∨ ∃ a b, g n = .bin 1 a 1 b

end Verif.Spec.Setsort
