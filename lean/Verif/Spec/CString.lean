/-!
# Specification: functions of the C library on bytes
-/
namespace Verif.Spec.CString

abbrev Bytes := List (BitVec 8)

/-- `n` bytes before the first zero -/
def IsStrlen (s : Bytes) (n : Nat) : Prop := s[n]? = some 0 ∧ ∀ i, i < n → ∃ b, s[i]? = some b ∧ b ≠ 0

/-- the strings agree before the bytes `x` and `y`, which differ or are the end; the sign of the result is that of the difference **as unsigned char** (C11 7.24.4) -/
def IsStrcmp (a b : Bytes) (r : Int) : Prop :=
  ∃ (n : Nat) (x y : BitVec 8), a[n]? = some x ∧ b[n]? = some y ∧ (∀ i, i < n → ∃ c, a[i]? = some c ∧ b[i]? = some c ∧ c ≠ 0) ∧ (x ≠ y ∨ x = 0) ∧
    (r < 0 ↔ x.toNat < y.toNat) ∧ (0 < r ↔ y.toNat < x.toNat)

/-- the same for `len` bytes of memory -/
def IsMemcmp (m : Nat → BitVec 8) (a b len : Nat) (r : Int) : Prop :=
  ((∀ i, i < len → m (a + i) = m (b + i)) ∧ r = 0) ∨
    ∃ n, n < len ∧ (∀ i, i < n → m (a + i) = m (b + i)) ∧ m (a + n) ≠ m (b + n) ∧ (r < 0 ↔ (m (a + n)).toNat < (m (b + n)).toNat) ∧
      (0 < r ↔ (m (b + n)).toNat < (m (a + n)).toNat)

end Verif.Spec.CString
