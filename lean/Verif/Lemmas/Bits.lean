import Verif.Spec.Bits
import Mathlib.Tactic.Ring
import Mathlib.Tactic.Linarith
import Mathlib.Tactic.Positivity
/-! Helper lemmas about `Spec.ibit` and `Spec.wrap`. -/
namespace Verif.Spec

theorem two_pow_cast (k : Nat) : ((2:Int) ^ k) = ((2 ^ k : Nat) : Int) := by push_cast; rfl

theorem ibit_natCast (n i : Nat) : ibit (n : Int) i = n.testBit i := by
  unfold ibit
  rw [two_pow_cast, ← Int.natCast_ediv, Nat.testBit_eq_decide_div_mod_eq]
  have : ((n / 2 ^ i : Nat) : Int) % 2 = ((n / 2 ^ i % 2 : Nat) : Int) := by push_cast; rfl
  rw [this]
  have h := Nat.mod_two_eq_zero_or_one (n / 2 ^ i)
  rcases h with h | h <;> rw [h] <;> rfl

theorem ibit_add_mul_pow {x y : Int} {i k : Nat} (h : i < k) : ibit (x + 2 ^ k * y) i = ibit x i := by
  unfold ibit
  have : (2:Int) ^ k * y = 2 ^ i * (2 * (2 ^ (k - i - 1) * y)) := by
    rw [← mul_assoc, ← mul_assoc, ← pow_succ, ← pow_add]; congr 2; omega
  rw [this, Int.add_mul_ediv_left _ _ (by positivity), Int.add_mul_emod_self_left]

theorem ibit_emod {x : Int} {i k : Nat} (h : i < k) : ibit (x % 2 ^ k) i = ibit x i := by
  conv_rhs => rw [← Int.emod_add_mul_ediv x (2 ^ k), ibit_add_mul_pow h]

theorem ibit_congr {x y : Int} {i k : Nat} (h : i < k) (hxy : x % 2 ^ k = y % 2 ^ k) : ibit x i = ibit y i := by
  rw [← ibit_emod h, hxy, ibit_emod h]

theorem ibit_ge_nonneg {x : Int} {i : Nat} (h0 : 0 ≤ x) (h : x < 2 ^ i) : ibit x i = false := by
  unfold ibit; rw [Int.ediv_eq_zero_of_lt h0 h]; rfl

theorem ibit_ge_neg {x : Int} {i : Nat} (h0 : x < 0) (h : -2 ^ i ≤ x) : ibit x i = true := by
  unfold ibit
  have : x / 2 ^ i = -1 := by
    have hp : (0:Int) < 2 ^ i := by positivity
    apply le_antisymm
    · have := Int.ediv_lt_of_lt_mul hp (a := x) (b := 0) (by simpa using h0)
      omega
    · rw [Int.le_ediv_iff_mul_le hp]; omega
  rw [this]; rfl

theorem ibit_emod_ge {x : Int} {i k : Nat} (h : k ≤ i) : ibit (x % 2 ^ k) i = false := by
  apply ibit_ge_nonneg
  · exact Int.emod_nonneg _ (by positivity)
  · exact lt_of_lt_of_le (Int.emod_lt_of_pos _ (by positivity)) (pow_le_pow_right₀ (by decide) h)

theorem ibit_ext {x y : Int} (h : ∀ i, ibit x i = ibit y i) : x = y := by
  obtain ⟨k, hx, hy⟩ : ∃ k : Nat, (x.natAbs < 2 ^ k) ∧ (y.natAbs < 2 ^ k) :=
    ⟨x.natAbs + y.natAbs, lt_of_lt_of_le Nat.lt_two_pow_self (Nat.pow_le_pow_right (by decide) (by omega)),
      lt_of_lt_of_le Nat.lt_two_pow_self (Nat.pow_le_pow_right (by decide) (by omega))⟩
  have e : x % 2 ^ k = y % 2 ^ k := by
    have hx0 : 0 ≤ x % 2 ^ k := Int.emod_nonneg _ (by positivity)
    have hy0 : 0 ≤ y % 2 ^ k := Int.emod_nonneg _ (by positivity)
    have : (x % 2 ^ k).toNat = (y % 2 ^ k).toNat := by
      apply Nat.eq_of_testBit_eq
      intro i
      rw [← ibit_natCast, ← ibit_natCast, Int.toNat_of_nonneg hx0, Int.toNat_of_nonneg hy0]
      by_cases hi : i < k
      · rw [ibit_emod hi, ibit_emod hi, h]
      · rw [ibit_emod_ge (by omega), ibit_emod_ge (by omega)]
    omega
  have hs := h k
  rw [two_pow_cast] at e
  have sgn : ∀ z : Int, z.natAbs < 2 ^ k → ibit z k = decide (z < 0) := by
    intro z hz
    by_cases h0 : z < 0
    · rw [ibit_ge_neg h0 (by rw [two_pow_cast]; omega)]; simp [h0]
    · rw [ibit_ge_nonneg (by omega) (by rw [two_pow_cast]; omega)]; simp [h0]
  rw [sgn x hx, sgn y hy] at hs
  have hs' : x < 0 ↔ y < 0 := by simpa using hs
  generalize 2 ^ k = p at *
  by_cases h0 : x < 0
  · have h1 := hs'.1 h0
    rw [← Int.add_emod_right (x), ← Int.add_emod_right y,
      Int.emod_eq_of_lt (by omega) (by omega), Int.emod_eq_of_lt (by omega) (by omega)] at e
    omega
  · have h1 : ¬ y < 0 := fun hc => h0 (hs'.2 hc)
    rw [Int.emod_eq_of_lt (by omega) (by omega), Int.emod_eq_of_lt (by omega) (by omega)] at e
    omega

/-! ### wrap -/
theorem half_pow {b : Nat} (hb : 0 < b) : 2 ^ b = 2 * 2 ^ (b - 1) := by
  rw [← Nat.pow_succ', Nat.succ_eq_add_one, Nat.sub_add_cancel hb]

theorem wrap_inRange (s : Bool) {b : Nat} (hb : 0 < b) (x : Int) : InRange s b (wrap s b x) := by
  unfold InRange wrap
  cases s with
  | true =>
    simp only [if_true]
    rw [two_pow_cast, half_pow hb]
    generalize hp : 2 ^ (b - 1) = p
    have h0 : 0 < 2 * p := by rw [← hp]; positivity
    have h1 := Int.le_bmod (x := x) h0
    have h2 := Int.bmod_lt (x := x) h0
    constructor <;> omega
  | false =>
    exact ⟨Int.emod_nonneg _ (by positivity), Int.emod_lt_of_pos _ (by positivity)⟩

theorem wrap_emod (s : Bool) (b : Nat) (x : Int) : wrap s b x % 2 ^ b = x % 2 ^ b := by
  unfold wrap
  cases s with
  | true => simp only [if_true]; rw [two_pow_cast]; exact Int.bmod_emod
  | false => simp

theorem wrap_congr (s : Bool) (b : Nat) (x : Int) : ∃ k, wrap s b x = x + 2 ^ b * k := by
  have h := wrap_emod s b x
  have := Int.emod_emod_of_dvd
  have hd := (Int.emod_eq_emod_iff_emod_sub_eq_zero).1 h
  obtain ⟨k, hk⟩ := Int.dvd_of_emod_eq_zero hd
  exact ⟨k, by omega⟩

theorem wrap_of_inRange {s : Bool} {b : Nat} (hb : 0 < b) {x : Int} (h : InRange s b x) : wrap s b x = x := by
  unfold InRange at h; unfold wrap
  cases s with
  | true =>
    simp only [if_true] at h ⊢
    rw [two_pow_cast] at h
    rw [half_pow hb]
    generalize 2 ^ (b - 1) = p at *
    apply Int.bmod_eq_of_le <;> omega
  | false => exact Int.emod_eq_of_lt h.1 h.2

theorem wrap_of_emod_eq {s : Bool} {b : Nat} {x y : Int} (h : x % 2 ^ b = y % 2 ^ b) : wrap s b x = wrap s b y := by
  unfold wrap
  cases s with
  | true =>
    simp only [if_true]
    rw [two_pow_cast] at h
    rw [← Int.emod_bmod, h, Int.emod_bmod]
  | false => exact h

theorem wrap_unique {s : Bool} {b : Nat} (hb : 0 < b) {x y : Int} (hr : InRange s b y)
    (hc : y % 2 ^ b = x % 2 ^ b) : wrap s b x = y := by
  rw [← wrap_of_emod_eq hc, wrap_of_inRange hb hr]

theorem inRange_inj {s : Bool} {b : Nat} (hb : 0 < b) {x y : Int} (hx : InRange s b x) (hy : InRange s b y)
    (hc : x % 2 ^ b = y % 2 ^ b) : x = y := by
  rw [← wrap_of_inRange hb hx, ← wrap_of_inRange hb hy, wrap_of_emod_eq hc]

theorem wrap_wrap_of_le {s t : Bool} {b c : Nat} (h : b ≤ c) (x : Int) : wrap s b (wrap t c x) = wrap s b x := by
  apply wrap_of_emod_eq
  have e := wrap_emod t c x
  have hd : (2:Int) ^ b ∣ 2 ^ c := pow_dvd_pow 2 h
  rw [← Int.emod_emod_of_dvd _ hd, e, Int.emod_emod_of_dvd _ hd]

theorem ibit_wrap_lt {s : Bool} {b i : Nat} {x : Int} (h : i < b) : ibit (wrap s b x) i = ibit x i :=
  ibit_congr h (wrap_emod s b x)

end Verif.Spec
