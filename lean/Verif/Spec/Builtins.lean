/-!
# Specification: builtins that count bits

What a builtin of GCC returns, as a relation; no result is named where it is undefined (`clz` and `ctz` of 0).
-/
namespace Verif.Spec.Builtins

inductive Kind where
  | ffs | clz | ctz | popcount | parity | bswap
  deriving DecidableEq

/-- the number of ones -/
def ones {w : Nat} (x : BitVec w) : Nat := (List.range w).countP fun i => x.getLsbD i

/-- the lowest one is at `n` -/
def Lowest {w : Nat} (x : BitVec w) (n : Nat) : Prop :=
  n < w ∧ x.getLsbD n = true ∧ ∀ i, i < n → x.getLsbD i = false

def Result {w : Nat} (k : Kind) (x : BitVec w) (n : Nat) : Prop :=
  match k with
  | .ffs => (n = 0 ∧ ∀ i, i < w → x.getLsbD i = false) ∨ ∃ m, Lowest x m ∧ n = m + 1
  | .ctz => Lowest x n
  | .clz => n < w ∧ x.getLsbD (w - 1 - n) = true ∧ ∀ i, i < n → x.getLsbD (w - 1 - i) = false
  | .popcount => n = ones x
  | .parity => n = ones x % 2
  | .bswap => ∃ y : BitVec w, n = y.toNat ∧ ∀ i, i < w → y.getLsbD i = x.getLsbD (8 * (w / 8 - 1 - i / 8) + i % 8)

end Verif.Spec.Builtins
