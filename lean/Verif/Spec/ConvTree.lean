import Verif.Spec.IR
import Verif.Spec.Float
/-!
# Specification: data flow trees over integer modes, and conversions between all modes

The part of a graph a conversion is moved through is a tree: a node with more than one user is never entered.  A node has a mode, a mark whether
it has more than one user, and operands.  A Phi takes the value its operand had when the block of the Phi was entered last: the operands are
evaluated at an earlier time.  Times are states of an arbitrary world.
-/
namespace Verif.Spec.ConvTree

open Verif.Spec

inductive UnOp
  | neg | not
  deriving DecidableEq, Repr

inductive BinOp
  | add | sub | mul | and | or | eor
  deriving DecidableEq, Repr

inductive ShOp
  | shl | shr | shrs
  deriving DecidableEq, Repr

/-- nodes: a constant, a value computed by something else (a load, a call, a division, ...), the operators, Phi with `n + 1` operands, Conv -/
inductive Tree
  | const (m : IMode) (v : Int)
  | leaf (m : IMode) (shared : Bool) (id : Nat)
  | un (op : UnOp) (m : IMode) (shared : Bool) (a : Tree)
  | bin (op : BinOp) (m : IMode) (shared : Bool) (a b : Tree)
  | shift (op : ShOp) (m : IMode) (shared : Bool) (a count : Tree)
  | phi (m : IMode) (shared : Bool) (k n : Nat) (ops : Fin (n + 1) → Tree)
  | conv (m : IMode) (shared : Bool) (a : Tree)

def Tree.mode : Tree → IMode
  | .const m _ => m
  | .leaf m _ _ => m
  | .un _ m _ _ => m
  | .bin _ m _ _ _ => m
  | .shift _ m _ _ _ => m
  | .phi m _ _ _ _ => m
  | .conv m _ _ => m

def UnOp.eval : UnOp → IMode → Int → Int
  | .neg => irNeg
  | .not => irNot

def BinOp.eval : BinOp → IMode → Int → Int → Int
  | .add => irAdd
  | .sub => irSub
  | .mul => irMul
  | .and => irAnd
  | .or => irOr
  | .eor => irEor

def ShOp.eval : ShOp → IMode → Int → Nat → Int
  | .shl => irShl
  | .shr => irShr
  | .shrs => irShrs

/-- what the other nodes compute at a time, which way the block of a Phi was entered, and the time before that -/
structure World (σ : Type) where
  leaf : σ → Nat → Int
  pick : σ → Nat → (n : Nat) → Fin (n + 1)
  step : σ → Nat → σ

/-- the value of a tree -/
def eval {σ : Type} (W : World σ) (s : σ) : Tree → Int
  | .const _ v => v
  | .leaf m _ id => m.wrap (W.leaf s id)
  | .un op m _ a => op.eval m (eval W s a)
  | .bin op m _ a b => op.eval m (eval W s a) (eval W s b)
  | .shift op m _ a c => op.eval m (eval W s a) (c.mode.pattern (eval W s c))
  | .phi _ _ k n ops => eval W (W.step s k) (ops (W.pick s k n))
  | .conv m _ a => m.wrap (eval W s a)

/-- operands have the mode of the node (shift counts and the operand of Conv have any), and no mode is empty -/
def WF : Tree → Prop
  | .const m v => 0 < m.bits ∧ m.In v
  | .leaf m _ _ => 0 < m.bits
  | .un _ m _ a => 0 < m.bits ∧ a.mode = m ∧ WF a
  | .bin _ m _ a b => 0 < m.bits ∧ a.mode = m ∧ b.mode = m ∧ WF a ∧ WF b
  | .shift _ m _ a c => 0 < m.bits ∧ a.mode = m ∧ WF a ∧ WF c
  | .phi m _ _ _ ops => 0 < m.bits ∧ ∀ i, (ops i).mode = m ∧ WF (ops i)
  | .conv m _ a => 0 < m.bits ∧ WF a

/-- the number of conversions -/
def convs : Tree → Nat
  | .const _ _ => 0
  | .leaf _ _ _ => 0
  | .un _ _ _ a => convs a
  | .bin _ _ _ a b => convs a + convs b
  | .shift _ _ _ a c => convs a + convs c
  | .phi _ _ _ n ops => ((List.finRange (n + 1)).map fun i => convs (ops i)).sum
  | .conv _ _ a => convs a + 1

/-! ## conversions between all modes -/

/-- a mode: an integer mode, or floating point numbers with `E` bits of exponent and `M` of fraction -/
inductive CMode
  | int (m : IMode)
  | flt (E M : Nat)

inductive Val
  | int (x : Int)
  | flt (n : Flt.Num)
  deriving DecidableEq, Repr

/-- the data of a format: a finite number has at most `M + 1` significant bits and is below the limit -/
def Datum (E M : Nat) : Flt.Num → Prop
  | .fin _ q => Flt.Rep M q ∧ q < Flt.limit E M
  | _ => True

/-- `r` is the value `a` of the mode `m` converted to `m'`: integers modulo the size of the mode, numbers rounded to nearest, towards zero in
conversions to integers; there the conversion of a number that does not fit has no defined result -/
def ConvTo : CMode → CMode → Val → Val → Prop
  | .int m, .int m', .int x, .int y => m.In x ∧ y = m'.wrap x
  | .int m, .flt E M, .int x, .flt r => m.In x ∧ Flt.Rounds E M (decide (x < 0)) (x.natAbs * 2 ^ (Flt.bias E + M - 1)) 1 r
  | .flt E M, .int m', .flt (.fin s q), .int y => Datum E M (.fin s q) ∧ y = Flt.signed s (Flt.truncate E M q) ∧ m'.In y
  | .flt E M, .flt E' M', .flt a, .flt r => Datum E M a ∧ Flt.IsConv E M E' M' a r
  | _, _, _, _ => False

/-- whatever the detour over `m1` gives, the direct conversion gives, too -/
def Superfluous (m0 m1 m2 : CMode) : Prop := ∀ a b c, ConvTo m0 m1 a b → ConvTo m1 m2 b c → ConvTo m0 m2 a c

end Verif.Spec.ConvTree
