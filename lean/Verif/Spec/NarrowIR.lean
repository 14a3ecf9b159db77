/-!
# Specification: the values of integer expressions of 8, 16 and 32 bits

The syntax of the expressions the ia32 backend turns into code, and the number each of them stands
for.  A value is written as the 32-bit pattern which extends it, by its sign or by zeros according
to the mode; nothing here knows about registers.  Independent of the model.
-/
namespace Verif.Spec.NarrowIR

/-- An integer mode. -/
structure Mode where
  signed : Bool
  bits : Nat
  deriving DecidableEq, Repr

/-- Arithmetic where the low bits of the result depend on the low bits of the operands only. -/
inductive BinOp where
  | add | sub | mul | and | or | eor
  deriving DecidableEq, Repr

inductive UnOp where
  | minus | not
  deriving DecidableEq, Repr

/-- Expressions. -/
inductive Node where
  /-- a constant -/
  | const (m : Mode) (v : Int)
  /-- the result of a Load; `x` is what the memory holds -/
  | load (m : Mode) (x : BitVec 32)
  /-- a node of another kind; `x` is what the register holds, the upper bits are left to chance -/
  | other (m : Mode) (x : BitVec 32)
  /-- a conversion from a floating point number, `x` its integral part -/
  | fconv (m : Mode) (x : BitVec 32)
  | bin (o : BinOp) (m : Mode) (a b : Node)
  | un (o : UnOp) (m : Mode) (a : Node)
  | shl (m : Mode) (a k : Node)
  | shr (m : Mode) (a k : Node)
  | shrs (m : Mode) (a k : Node)
  /-- a choice; `junk` is what the register held before -/
  | mux (m : Mode) (c : Bool) (a b : Node) (junk : BitVec 32)
  | conv (m : Mode) (a : Node)
  deriving DecidableEq, Repr

/-- The mode of a node. -/
def Node.mode : Node → Mode
  | .const m _ | .load m _ | .other m _ | .fconv m _ | .bin _ m _ _ | .un _ m _ | .shl m _ _
  | .shr m _ _ | .shrs m _ _ | .mux m _ _ _ _ | .conv m _ => m

/-- The low bits of a pattern, extended as the mode says. -/
def ext (m : Mode) (x : BitVec 32) : BitVec 32 :=
  if m.signed then (x.setWidth m.bits).signExtend 32 else (x.setWidth m.bits).setWidth 32

/-- The meaning of an operation on 32-bit patterns. -/
def BinOp.on : BinOp → BitVec 32 → BitVec 32 → BitVec 32
  | .add, x, y => x + y
  | .sub, x, y => x - y
  | .mul, x, y => x * y
  | .and, x, y => x &&& y
  | .or, x, y => x ||| y
  | .eor, x, y => x ^^^ y

def UnOp.on : UnOp → BitVec 32 → BitVec 32
  | .minus, x => -x
  | .not, x => ~~~x

/-- The value of an expression.  Shift amounts count modulo 32. -/
def eval : Node → BitVec 32
  | .const m v => ext m (BitVec.ofInt 32 v)
  | .load m x | .other m x | .fconv m x => ext m x
  | .bin o m a b => ext m (o.on (eval a) (eval b))
  | .un o m a => ext m (o.on (eval a))
  | .shl m a k => ext m (eval a <<< ((eval k).toNat % 32))
  | .shr m a k => ext m (ext ⟨false, m.bits⟩ (eval a) >>> ((eval k).toNat % 32))
  | .shrs m a k => ext m ((ext ⟨true, m.bits⟩ (eval a)).sshiftRight ((eval k).toNat % 32))
  | .mux _ c a b _ => if c then eval a else eval b
  | .conv m a => ext m (eval a)

/-- The widths there are. -/
def Mode.ok (m : Mode) : Bool := m.bits == 8 || m.bits == 16 || m.bits == 32

/-- A number of the mode. -/
def Mode.has (m : Mode) (v : Int) : Bool :=
  if m.signed then decide (-2 ^ (m.bits - 1) ≤ v ∧ v < 2 ^ (m.bits - 1))
  else decide (0 ≤ v ∧ v < 2 ^ m.bits)

/-- Well-formed expressions: operands have the width of the operation, both ways of a choice have
its mode, and constants are numbers of their mode. -/
def wf : Node → Bool
  | .const m v => m.ok && m.has v
  | .load m _ | .other m _ | .fconv m _ => m.ok
  | .bin _ m a b => m.ok && wf a && wf b && a.mode.bits == m.bits && b.mode.bits == m.bits
  | .un _ m a => m.ok && wf a && a.mode.bits == m.bits
  | .shl m a k | .shr m a k | .shrs m a k => m.ok && wf a && wf k && a.mode.bits == m.bits
  | .mux m _ a b _ => m.ok && wf a && wf b && a.mode == m && b.mode == m
  | .conv m a => m.ok && wf a

/-- The constant amount of a shift, if it is one, is below `n`. -/
def amountBelow (n : Nat) : Node → Bool
  | .const _ v => decide (v < n)
  | _ => true

/-- Whether the upper bits of a node, seen as a number of mode `m`, may be asked for: a number
converted from floating point fits the mode, constant amounts of logical shifts are below 32, and
an arithmetic shift is not asked for an unsigned number of its own width. -/
def askable : Node → Mode → Bool
  | .const _ _, _ | .load _ _, _ | .other _ _, _ => true
  | .fconv _ x, m => x == ext m x
  | .bin _ _ a b, m => askable a m && askable b m
  | .un _ _ _, _ => true
  | .shl _ _ _, _ => true
  | .shr _ a k, m => (m.signed || amountBelow 32 k) && askable a m
  | .shrs n a _, m => (m.signed || decide (m.bits < n.bits) || m.bits == 32) && askable a m
  | .mux _ _ a b _, m => askable a m && askable b m
  | .conv dest a, m => decide (a.mode.bits < dest.bits) || askable a m

/-- What a node, which is a shift to the left below conversions, shifts. -/
def shifted : Node → Option Node
  | .shl _ x _ => some x
  | .conv _ a => shifted a
  | _ => none

/-- Every extension in the expression is of a number which may be asked for, and arithmetic shifts
of narrow numbers by a constant are by less than the width. -/
def good : Node → Bool
  | .const _ _ | .load _ _ | .other _ _ | .fconv _ _ => true
  | .bin _ _ a b =>
    good a && good b && (b != .const b.mode 0xFF || askable a ⟨false, 8⟩)
      && (b != .const b.mode 0xFFFF || askable a ⟨false, 16⟩)
  | .un _ _ a => good a
  | .shl _ a k => good a && good k
  | .shr m a k => good a && good k && (m.bits == 32 || askable a ⟨false, m.bits⟩)
  | .shrs m a k =>
    good a && good k
      && (m.bits == 32 || (askable a ⟨true, m.bits⟩ && amountBelow m.bits k))
      && (match shifted a with | some x => askable x ⟨true, 8⟩ && askable x ⟨true, 16⟩ | none => true)
  | .mux _ _ a b _ => good a && good b
  | .conv dest a => good a && (decide (dest.bits ≤ a.mode.bits) || askable a a.mode)

end Verif.Spec.NarrowIR
