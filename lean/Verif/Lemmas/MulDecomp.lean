import Verif.Model.MulDecomp
import Verif.Lemmas.Bits
import Mathlib.Data.Int.ModEq
import Mathlib.Tactic.Ring
import Mathlib.Tactic.Linarith
/-!
# Lemmas on condensed representations
-/
namespace Verif.Model
open Verif.Spec

/-- the number a condensed representation stands for -/
def condVal : List Nat → Nat
  | [] => 0
  | a :: l => 2 ^ a * (1 + condVal l)

theorem condVal_append (a b : List Nat) : condVal (a ++ b) = condVal a + 2 ^ a.sum * condVal b := by
  induction a with
  | nil => simp [condVal]
  | cons x a ih => rw [List.cons_append, condVal, ih, condVal, List.sum_cons, Nat.pow_add]; ring

theorem condVal_pos {R : List Nat} (h : R ≠ []) : 0 < condVal R := by
  cases R with
  | nil => exact absurd rfl h
  | cons a l => rw [condVal]; positivity

theorem condVal_lt : ∀ (R : List Nat), (∀ x ∈ R.tail, 1 ≤ x) → condVal R < 2 ^ (R.sum + 1) := by
  intro R
  induction R with
  | nil => intro _; simp [condVal]
  | cons a l ih =>
    intro h
    rw [List.tail_cons] at h
    rw [condVal, List.sum_cons]
    have h1 : condVal l + 1 ≤ 2 ^ l.sum * 2 := by
      have := ih (fun x hx => h x (List.mem_of_mem_tail hx))
      rw [Nat.pow_succ] at this; omega
    cases l with
    | nil => simp [condVal, Nat.pow_succ]
    | cons b l' =>
      have hb : 1 ≤ b := h b (by simp)
      have h2 : condVal (b :: l') + 1 < 2 ^ (b :: l').sum * 2 := by
        have hev : condVal (b :: l') % 2 = 0 := by
          rw [condVal]
          obtain ⟨c, rfl⟩ : ∃ c, b = c + 1 := ⟨b - 1, by omega⟩
          rw [Nat.pow_succ, Nat.mul_assoc, Nat.mul_left_comm]; omega
        omega
      have : 2 ^ (a + (b :: l').sum + 1) = 2 ^ a * (2 ^ (b :: l').sum * 2) := by
        rw [Nat.pow_succ, Nat.pow_add]; ring
      rw [this]
      exact Nat.mul_lt_mul_of_pos_left (by omega) (by positivity)

/-- the sum of the bits `i, …, i+k-1` -/
def bitSum (bit : Nat → Bool) : Nat → Nat → Nat
  | 0, _ => 0
  | k + 1, i => (if bit i then 2 ^ i else 0) + bitSum bit k (i + 1)

theorem u8_of_lt {n : Nat} (h : n < 256) : u8 n = n := Nat.mod_eq_of_lt h

theorem condense_val (bit : Nat → Bool) : ∀ (k i l : Nat), l ≤ i → i + k ≤ 256 →
    2 ^ l * condVal (condense bit k i l) = bitSum bit k i := by
  intro k
  induction k with
  | zero => intro i l _ _; rw [condense, bitSum, condVal, Nat.mul_zero]
  | succ k ih =>
    intro i l hl hk
    rw [condense, bitSum]
    cases hb : bit i with
    | false => simp only [Bool.false_eq_true, if_false, Nat.zero_add]; exact ih (i + 1) l (by omega) (by omega)
    | true =>
      simp only [if_true]
      rw [condVal, u8_of_lt (by omega), ← Nat.mul_assoc, ← Nat.pow_add, show l + (i - l) = i by omega, Nat.mul_add, Nat.mul_one,
        ih (i + 1) i (by omega) (by omega)]

theorem condense_ge_one (bit : Nat → Bool) : ∀ (k i l : Nat), l < i → i + k ≤ 256 → ∀ x ∈ condense bit k i l, 1 ≤ x := by
  intro k
  induction k with
  | zero => intro i l _ _ x hx; rw [condense] at hx; simp at hx
  | succ k ih =>
    intro i l hl hk x hx
    rw [condense] at hx
    split at hx
    · rcases List.mem_cons.1 hx with rfl | hx
      · rw [u8_of_lt (by omega)]; omega
      · exact ih (i + 1) i (by omega) (by omega) x hx
    · exact ih (i + 1) l (by omega) (by omega) x hx

theorem condense_tail (bit : Nat → Bool) : ∀ (k i l : Nat), l ≤ i → i + k ≤ 256 → ∀ x ∈ (condense bit k i l).tail, 1 ≤ x := by
  intro k
  induction k with
  | zero => intro i l _ _ x hx; rw [condense] at hx; simp at hx
  | succ k ih =>
    intro i l hl hk x hx
    rw [condense] at hx
    split at hx
    · exact condense_ge_one bit k (i + 1) i (by omega) (by omega) x hx
    · exact ih (i + 1) l (by omega) (by omega) x hx

theorem condense_sum (bit : Nat → Bool) : ∀ (k i l : Nat), l ≤ i → i + k ≤ 256 → condense bit k i l ≠ [] →
    l + (condense bit k i l).sum < i + k := by
  intro k
  induction k with
  | zero => intro i l _ _ h; rw [condense] at h; exact absurd rfl h
  | succ k ih =>
    intro i l hl hk h
    rw [condense] at h ⊢
    split at h
    · rename_i hb
      rw [if_pos hb, List.sum_cons, u8_of_lt (by omega)]
      by_cases hn : condense bit k (i + 1) i = []
      · rw [hn]; simp; omega
      · have := ih (i + 1) i (by omega) (by omega) hn; omega
    · rename_i hb
      rw [if_neg hb]
      have := ih (i + 1) l (by omega) (by omega) h; omega

theorem condense_length (bit : Nat → Bool) : ∀ (k i l : Nat), (condense bit k i l).length ≤ k := by
  intro k
  induction k with
  | zero => intro i l; simp [condense]
  | succ k ih =>
    intro i l
    rw [condense]
    split
    · rw [List.length_cons]; have := ih (i + 1) i; omega
    · have := ih (i + 1) l; omega

theorem emod_two_mul (y M : Int) (hM : 0 < M) : y % (2 * M) = y % 2 + 2 * (y / 2 % M) := by
  have h1 := Int.mul_ediv_add_emod y 2
  have h2 := Int.mul_ediv_add_emod (y / 2) M
  have h3 := Int.emod_nonneg (y / 2) (show M ≠ 0 by omega)
  have h4 := Int.emod_lt_of_pos (y / 2) hM
  have h5 := Int.emod_two_eq y
  have : y = (y % 2 + 2 * (y / 2 % M)) + (2 * M) * (y / 2 / M) := by
    have : 2 * M * (y / 2 / M) = 2 * (M * (y / 2 / M)) := by ring
    rw [this]; omega
  conv_lhs => rw [this]
  rw [Int.add_mul_emod_self_left, Int.emod_eq_of_lt] <;> omega

theorem bitSum_ibit (x : Int) : ∀ (k i : Nat), (bitSum (ibit x) k i : Int) = x / 2 ^ i % 2 ^ k * 2 ^ i := by
  intro k
  induction k with
  | zero => intro i; rw [bitSum, pow_zero, Int.emod_one]; simp
  | succ k ih =>
    intro i
    rw [bitSum, Int.natCast_add, ih, pow_succ' 2 k, emod_two_mul _ _ (by positivity)]
    have hd : x / 2 ^ (i + 1) = x / 2 ^ i / 2 := by
      rw [pow_succ, Int.ediv_ediv_of_nonneg (by positivity)]
    rw [hd]
    have h2 := Int.emod_two_eq (x / 2 ^ i)
    have hb : ((if ibit x i = true then 2 ^ i else 0 : Nat) : Int) = x / 2 ^ i % 2 * 2 ^ i := by
      unfold ibit
      rcases h2 with h | h <;> rw [h] <;> simp
    rw [hb, pow_succ]; ring

theorem valueToCondensed_val {bits : Nat} (hb : bits ≤ 255) (x : Int) : (condVal (valueToCondensed bits x) : Int) = x % 2 ^ bits := by
  have := condense_val (ibit x) bits 0 0 (by omega) (by omega)
  rw [Nat.pow_zero, Nat.one_mul] at this
  unfold valueToCondensed
  rw [this, bitSum_ibit]; simp

/-! ## The instructions -/

/-- `inst` multiplies by `c` modulo `2^bits` -/
def Computes (m : IMode) (inst : Insn) (c : Int) : Prop := ∀ x, inst.eval m x ≡ c * x [ZMOD 2 ^ m.bits]

/-- the shift counts below the size are not reduced -/
def AmtOk (m : IMode) : Prop := m.modulo = 0 ∨ m.bits ≤ m.modulo

theorem amt_eq {m : IMode} (h : AmtOk m) {s : Nat} (hs : s < m.bits) : m.amt s = s := by
  unfold IMode.amt
  rcases h with h | h
  · rw [if_pos h]
  · by_cases h0 : m.modulo = 0
    · rw [if_pos h0]
    · rw [if_neg h0, Nat.mod_eq_of_lt (by omega)]

theorem wrap_modEq (m : IMode) (x : Int) : m.wrap x ≡ x [ZMOD 2 ^ m.bits] := wrap_emod m.signed m.bits x

theorem computes_root (m : IMode) : Computes m .root 1 := by
  intro x; show x ≡ 1 * x [ZMOD _]; rw [Int.one_mul]

theorem Computes.congr {m : IMode} {i : Insn} {c d : Int} (h : Computes m i c) (e : c = d) : Computes m i d := e ▸ h

theorem computes_add {m : IMode} {a b : Insn} {c d : Int} (ha : Computes m a c) (hb : Computes m b d) : Computes m (.add a b) (c + d) := by
  intro x
  show irAdd m _ _ ≡ _ [ZMOD _]
  refine (wrap_modEq m _).trans ?_
  rw [Int.add_mul]
  exact (ha x).add (hb x)

theorem computes_sub {m : IMode} {a b : Insn} {c d : Int} (ha : Computes m a c) (hb : Computes m b d) : Computes m (.sub a b) (c - d) := by
  intro x
  show irSub m _ _ ≡ _ [ZMOD _]
  refine (wrap_modEq m _).trans ?_
  rw [Int.sub_mul]
  exact (ha x).sub (hb x)

theorem computes_lea {m : IMode} (hm : AmtOk m) {a b : Insn} {c d : Int} {s : Nat} (hs : s < m.bits) (ha : Computes m a c) (hb : Computes m b d) :
    Computes m (emitLea a b s) (c + d * 2 ^ s) := by
  unfold emitLea
  split
  · intro x
    show irAdd m _ (irShl m _ _) ≡ _ [ZMOD _]
    refine (wrap_modEq m _).trans ?_
    rw [Int.add_mul]
    refine (ha x).add ((wrap_modEq m _).trans ?_)
    rw [amt_eq hm hs, Int.mul_right_comm]
    exact (hb x).mul_right _
  · have : s = 0 := by omega
    subst this
    rw [pow_zero, Int.mul_one]; exact computes_add ha hb

theorem computes_shift {m : IMode} (hm : AmtOk m) {a : Insn} {c : Int} {s : Nat} (hs : s ≤ m.bits) (ha : Computes m a c) :
    Computes m (emitShift m.bits a s) (c * 2 ^ s) := by
  unfold emitShift
  by_cases h1 : s = m.bits
  · rw [if_pos h1]
    intro x
    show (0 : Int) ≡ _ [ZMOD _]
    rw [h1, Int.mul_right_comm]
    exact (Int.modEq_zero_iff_dvd.2 (Dvd.intro_left _ rfl)).symm
  · rw [if_neg h1]
    by_cases h2 : s ≠ 1
    · rw [if_pos h2]
      intro x
      show irShl m _ _ ≡ _ [ZMOD _]
      refine (wrap_modEq m _).trans ?_
      rw [amt_eq hm (by omega), Int.mul_right_comm]
      exact (ha x).mul_right _
    · rw [if_neg h2]
      rw [not_not] at h2
      rw [h2]
      exact (computes_add ha ha).congr (by ring)

end Verif.Model
