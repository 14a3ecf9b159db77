/-!
# Specification: values made of two words, values in memory, counting bits

Nothing here refers to the model.
-/
namespace Verif.Spec

/-- the value `v` consists of the words `h` and `l` -/
def Splits {n w : Nat} (v : BitVec n) (l h : BitVec w) : Prop := v.toNat = h.toNat * 2 ^ w + l.toNat

/-- bytes at addresses with `p` bits -/
abbrev Memory (p : Nat) := BitVec p → BitVec 8

/-- the number in the `n` bytes from address `a` on, lowest byte first -/
def Memory.little {p : Nat} (mem : Memory p) (a : BitVec p) : Nat → Nat
  | 0 => 0
  | n + 1 => (mem a).toNat + 256 * mem.little (a + 1#p) n

/-- the number in the `n` bytes from address `a` on, highest byte first -/
def Memory.big {p : Nat} (mem : Memory p) (a : BitVec p) : Nat → Nat
  | 0 => 0
  | n + 1 => (mem a).toNat * 256 ^ n + mem.big (a + 1#p) n

/-- the number in `n` bytes of memory, for a target with the given order of bytes -/
def Memory.load {p : Nat} (bigEndian : Bool) (mem : Memory p) (a : BitVec p) (n : Nat) : Nat :=
  if bigEndian then mem.big a n else mem.little a n

/-- `mem'` is `mem` after the number `v` was stored in the `n` bytes from address `a` on -/
def Memory.Stored {p : Nat} (bigEndian : Bool) (mem mem' : Memory p) (a : BitVec p) (n : Nat) (v : Nat) : Prop :=
  mem'.load bigEndian a n = v % 256 ^ n ∧ ∀ b : BitVec p, n ≤ (b - a).toNat → mem' b = mem b

/-- the lowest bit of `v` that is set is bit `n` -/
def LowestBit {w : Nat} (v : BitVec w) (n : Nat) : Prop := v.getLsbD n = true ∧ ∀ j < n, v.getLsbD j = false

/-- above the highest bit of `v` that is set there are `n` bits -/
def LeadingZeros {w : Nat} (v : BitVec w) (n : Nat) : Prop :=
  n < w ∧ v.getLsbD (w - 1 - n) = true ∧ ∀ j, w - 1 - n < j → v.getLsbD j = false

/-- one plus the position of the lowest bit that is set, zero if there is none -/
def FirstSet {w : Nat} (v : BitVec w) (n : Nat) : Prop :=
  (v = 0#w ∧ n = 0) ∨ ∃ k, n = k + 1 ∧ LowestBit v k

/-- the number of bits that are set -/
def bitCount {w : Nat} (v : BitVec w) : Nat := (List.range w).countP fun i => v.getLsbD i

/-- the bytes of `r` are those of `v` in reverse order; both have `n` bytes -/
def BytesReversed (n : Nat) {w : Nat} (v r : BitVec w) : Prop :=
  ∀ i < n, ∀ j < 8, r.getLsbD (8 * i + j) = v.getLsbD (8 * (n - 1 - i) + j)

end Verif.Spec
