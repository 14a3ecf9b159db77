import Verif.Model.BitFiddle
import Mathlib.Tactic.Ring
import Mathlib.Tactic.Linarith
import Mathlib.Tactic.Positivity
/-!
# C43: the bit-twiddling helpers

The specifications are stated with powers of two, divisibility and the number of
one bits.
-/
namespace Verif.Props
open Verif.Model

/-- number of one bits among the lowest `n` -/
def oneBits (n x : Nat) : Nat := ((List.range n).filter fun i => x.testBit i).length

/-- `r` is the number of leading zeros of the 32 bit value `x` -/
def IsNlz (x r : Nat) : Prop := r ≤ 32 ∧ x < 2 ^ (32 - r) ∧ (r < 32 → 2 ^ (31 - r) ≤ x)

/-- `r` is the number of trailing zeros of the 32 bit value `x` -/
def IsNtz (x r : Nat) : Prop := (x = 0 ∧ r = 32) ∨ (x ≠ 0 ∧ 2 ^ r ∣ x ∧ ¬ 2 ^ (r + 1) ∣ x)

/-! ## popcount -/

theorem testBit_split {a B : Nat} (ha : a < 256) (i : Nat) :
    (a + 256 * B).testBit i = if i < 8 then a.testBit i else B.testBit (i - 8) := by
  rw [Nat.add_comm, show 256 = 2 ^ 8 from rfl, Nat.testBit_two_pow_mul_add _ (by omega)]

theorem and_split {a B m M : Nat} (s : Nat) (ha : a < 256) (hs : s ≤ 8) (hm : m < 2 ^ (8 - s)) :
    ((a + 256 * B) >>> s) &&& (m + 256 * M) = ((a >>> s) &&& m) + 256 * ((B >>> s) &&& M) := by
  have hm8 : m < 256 := lt_of_lt_of_le hm (by
    calc 2 ^ (8 - s) ≤ 2 ^ 8 := Nat.pow_le_pow_right (by decide) (by omega)
      _ = 256 := rfl)
  have hx : ((a >>> s) &&& m) < 256 := lt_of_le_of_lt Nat.and_le_right hm8
  apply Nat.eq_of_testBit_eq
  intro i
  rw [Nat.testBit_and, Nat.testBit_shiftRight, testBit_split ha, testBit_split hm8, testBit_split hx, Nat.testBit_and,
    Nat.testBit_and, Nat.testBit_shiftRight, Nat.testBit_shiftRight]
  by_cases h1 : i < 8
  · simp only [h1, if_true]
    by_cases h2 : s + i < 8
    · simp only [h2, if_true]
    · have : m.testBit i = false := Nat.testBit_lt_two_pow (lt_of_lt_of_le hm (Nat.pow_le_pow_right (by decide) (by omega)))
      rw [this]; simp
  · simp only [h1, if_false, show ¬ (s + i < 8) by omega]
    rw [show s + i - 8 = s + (i - 8) by omega]

theorem and_split4 (s : Nat) {a b c d m : Nat} (ha : a < 256) (hb : b < 256) (hc : c < 256) (hs : s ≤ 8) (hm : m < 2 ^ (8 - s)) :
    ((a + 256 * (b + 256 * (c + 256 * d))) >>> s) &&& (m + 256 * (m + 256 * (m + 256 * m))) =
      ((a >>> s) &&& m) + 256 * (((b >>> s) &&& m) + 256 * (((c >>> s) &&& m) + 256 * ((d >>> s) &&& m))) := by
  rw [and_split s ha hs hm, and_split s hb hs hm, and_split s hc hs hm]

/-- the three SWAR steps on one byte, with the number of one bits -/
theorem swar_byte : ∀ b < 256, (b >>> 1) &&& 0x55 ≤ b ∧
    (let y := b - ((b >>> 1) &&& 0x55)
     y < 256 ∧ (let z := (y &&& 0x33) + ((y >>> 2) &&& 0x33)
       z < 256 ∧ z % 16 ≤ 4 ∧ z / 16 ≤ 4 ∧ z % 16 + z / 16 = oneBits 8 b)) := by
  decide +kernel

theorem oneBits_le (n x : Nat) : oneBits n x ≤ n := by
  unfold oneBits
  exact le_trans (List.length_filter_le _ _) (by simp)

theorem oneBits_add (m n x : Nat) : oneBits (m + n) x = oneBits m x + oneBits n (x >>> m) := by
  unfold oneBits
  rw [List.range_add, List.filter_append, List.length_append]
  congr 1
  rw [List.filter_map, List.length_map]
  congr 2
  funext i
  simp [Nat.testBit_shiftRight]

theorem oneBits_low {n a B : Nat} (ha : a < 256) (hn : n ≤ 8) : oneBits n (a + 256 * B) = oneBits n a := by
  unfold oneBits
  congr 1
  apply List.filter_congr
  intro i hi
  rw [List.mem_range] at hi
  rw [testBit_split ha, if_pos (by omega)]

theorem oneBits_split {a b c d : Nat} (ha : a < 256) (hb : b < 256) (hc : c < 256) (hd : d < 256) :
    oneBits 32 (a + 256 * (b + 256 * (c + 256 * d))) = oneBits 8 a + (oneBits 8 b + (oneBits 8 c + oneBits 8 d)) := by
  have h8 : ∀ {x B : Nat}, x < 256 → (x + 256 * B) >>> 8 = B := by
    intro x B hx; rw [Nat.shiftRight_eq_div_pow]; omega
  rw [show 32 = 8 + (8 + (8 + 8)) from rfl, oneBits_add, oneBits_low ha (by omega), h8 ha, oneBits_add, oneBits_low hb (by omega),
    h8 hb, oneBits_add, oneBits_low hc (by omega), h8 hc]

/-- C43: the portable `popcount` counts the one bits. -/
theorem popcount_portable {x : Nat} (hx : x < 2 ^ 32) : popcountP x = oneBits 32 x := by
  obtain ⟨a, b, c, d, ha, hb, hc, hd, rfl⟩ : ∃ a b c d, a < 256 ∧ b < 256 ∧ c < 256 ∧ d < 256 ∧
      x = a + 256 * (b + 256 * (c + 256 * d)) :=
    ⟨x % 256, x / 256 % 256, x / 65536 % 256, x / 16777216 % 256, by omega, by omega, by omega, by omega, by omega⟩
  obtain ⟨a1, a2, a3, a4, a5, a6⟩ := swar_byte a ha
  obtain ⟨b1, b2, b3, b4, b5, b6⟩ := swar_byte b hb
  obtain ⟨c1, c2, c3, c4, c5, c6⟩ := swar_byte c hc
  obtain ⟨d1, d2, d3, d4, d5, d6⟩ := swar_byte d hd
  have la := oneBits_le 8 a
  have lb := oneBits_le 8 b
  have lc := oneBits_le 8 c
  have ld := oneBits_le 8 d
  rw [oneBits_split ha hb hc hd]
  unfold popcountP
  rw [show 0x55555555 = 0x55 + 256 * (0x55 + 256 * (0x55 + 256 * 0x55)) from rfl,
    show 0x33333333 = 0x33 + 256 * (0x33 + 256 * (0x33 + 256 * 0x33)) from rfl,
    show 0x0f0f0f0f = 0x0f + 256 * (0x0f + 256 * (0x0f + 256 * 0x0f)) from rfl]
  simp only
  rw [and_split4 1 ha hb hc (by omega) (by omega)]
  have e1 : sub32 (a + 256 * (b + 256 * (c + 256 * d)))
      ((a >>> 1 &&& 85) + 256 * ((b >>> 1 &&& 85) + 256 * ((c >>> 1 &&& 85) + 256 * (d >>> 1 &&& 85)))) =
      (a - (a >>> 1 &&& 85)) + 256 * ((b - (b >>> 1 &&& 85)) + 256 * ((c - (c >>> 1 &&& 85)) + 256 * (d - (d >>> 1 &&& 85)))) := by
    unfold sub32; omega
  rw [e1]
  generalize a - (a >>> 1 &&& 85) = a' at *
  generalize b - (b >>> 1 &&& 85) = b' at *
  generalize c - (c >>> 1 &&& 85) = c' at *
  generalize d - (d >>> 1 &&& 85) = d' at *
  have z0 := and_split4 (m := 0x33) 0 (d := d') a2 b2 c2 (by omega) (by omega)
  simp only [Nat.shiftRight_zero] at z0
  rw [z0, and_split4 (m := 0x33) 2 (d := d') a2 b2 c2 (by omega) (by omega)]
  have e2 : add32 ((a' &&& 51) + 256 * ((b' &&& 51) + 256 * ((c' &&& 51) + 256 * (d' &&& 51))))
      ((a' >>> 2 &&& 51) + 256 * ((b' >>> 2 &&& 51) + 256 * ((c' >>> 2 &&& 51) + 256 * (d' >>> 2 &&& 51)))) =
      ((a' &&& 51) + (a' >>> 2 &&& 51)) + 256 * (((b' &&& 51) + (b' >>> 2 &&& 51)) +
        256 * (((c' &&& 51) + (c' >>> 2 &&& 51)) + 256 * ((d' &&& 51) + (d' >>> 2 &&& 51)))) := by
    unfold add32; omega
  rw [e2]
  generalize (a' &&& 51) + (a' >>> 2 &&& 51) = a'' at *
  generalize (b' &&& 51) + (b' >>> 2 &&& 51) = b'' at *
  generalize (c' &&& 51) + (c' >>> 2 &&& 51) = c'' at *
  generalize (d' &&& 51) + (d' >>> 2 &&& 51) = d'' at *
  have e3 : add32 (a'' + 256 * (b'' + 256 * (c'' + 256 * d''))) ((a'' + 256 * (b'' + 256 * (c'' + 256 * d''))) >>> 4) =
      (a'' + a'' / 16 + 16 * (b'' % 16)) + 256 * ((b'' + b'' / 16 + 16 * (c'' % 16)) +
        256 * ((c'' + c'' / 16 + 16 * (d'' % 16)) + 256 * (d'' + d'' / 16))) := by
    unfold add32; rw [Nat.shiftRight_eq_div_pow]; omega
  have z1 := and_split4 (m := 0x0f) 0 (a := a'' + a'' / 16 + 16 * (b'' % 16)) (b := b'' + b'' / 16 + 16 * (c'' % 16))
    (c := c'' + c'' / 16 + 16 * (d'' % 16)) (d := d'' + d'' / 16) (by omega) (by omega) (by omega) (by omega) (by omega)
  simp only [Nat.shiftRight_zero] at z1
  rw [e3, z1]
  have m15 : ∀ n : Nat, n &&& 15 = n % 16 := fun n => Nat.and_two_pow_sub_one_eq_mod n 4
  rw [m15, m15, m15, m15]
  rw [show (a'' + a'' / 16 + 16 * (b'' % 16)) % 16 = oneBits 8 a by omega,
    show (b'' + b'' / 16 + 16 * (c'' % 16)) % 16 = oneBits 8 b by omega,
    show (c'' + c'' / 16 + 16 * (d'' % 16)) % 16 = oneBits 8 c by omega,
    show (d'' + d'' / 16) % 16 = oneBits 8 d by omega]
  generalize oneBits 8 a = p at *
  generalize oneBits 8 b = q at *
  generalize oneBits 8 c = r at *
  generalize oneBits 8 d = s at *
  clear e1 e2 e3 z0 z1 a1 a2 a3 a4 a5 a6 b1 b2 b3 b4 b5 b6 c1 c2 c3 c4 c5 c6 d1 d2 d3 d4 d5 d6 m15
  rw [show (0x3f : Nat) = 2 ^ 6 - 1 from rfl, Nat.and_two_pow_sub_one_eq_mod]
  have e4 : add32 (p + 256 * (q + 256 * (r + 256 * s))) ((p + 256 * (q + 256 * (r + 256 * s))) >>> 8) =
      (p + q) + 256 * ((q + r) + 256 * ((r + s) + 256 * s)) := by
    unfold add32; rw [Nat.shiftRight_eq_div_pow]; omega
  rw [e4]
  have e5 : add32 ((p + q) + 256 * ((q + r) + 256 * ((r + s) + 256 * s))) (((p + q) + 256 * ((q + r) + 256 * ((r + s) + 256 * s))) >>> 16) =
      (p + q + (r + s)) + 256 * ((q + r + s) + 256 * ((r + s) + 256 * s)) := by
    have hdiv : ((p + q) + 256 * ((q + r) + 256 * ((r + s) + 256 * s))) / 2 ^ 16 = (r + s) + 256 * s := by omega
    unfold add32; rw [Nat.shiftRight_eq_div_pow, hdiv, Nat.mod_eq_of_lt (by omega)]; omega
  rw [e5]
  omega

/-! ## leading and trailing zeros -/

theorem isNlz_unique {x r s : Nat} (h1 : IsNlz x r) (h2 : IsNlz x s) : r = s := by
  have key : ∀ {r s}, IsNlz x r → IsNlz x s → ¬ r < s := by
    intro r s ⟨a1, a2, a3⟩ ⟨b1, b2, b3⟩ hlt
    have := a3 (by omega)
    have : 2 ^ (32 - s) ≤ 2 ^ (31 - r) := Nat.pow_le_pow_right (by decide) (by omega)
    omega
  have := key h1 h2
  have := key h2 h1
  omega

/-- one halving step of `nlz`: `w` is the number of bits still to be looked at -/
theorem nlz_step {X x n k : Nat} (hn : k ≤ n) (hn32 : n ≤ 32) (hX : X / 2 ^ (32 - n) = x) :
    let y := x >>> k
    let p := if y ≠ 0 then (n - k, y) else (n, x)
    p.1 ≤ 32 ∧ X / 2 ^ (32 - p.1) = p.2 ∧ (p = (n - k, x >>> k) ∧ 2 ^ k ≤ x ∨ p = (n, x) ∧ x < 2 ^ k) := by
  intro y p
  by_cases hy : y = 0
  · have hp : p = (n, x) := if_neg (not_not.2 hy)
    rw [hp]
    refine ⟨hn32, hX, Or.inr ⟨rfl, ?_⟩⟩
    have : x / 2 ^ k = 0 := by rw [← Nat.shiftRight_eq_div_pow]; exact hy
    exact (Nat.div_eq_zero_iff_lt (by positivity)).1 this
  · have hp : p = (n - k, y) := if_pos hy
    rw [hp]
    refine ⟨by simp only; omega, ?_, Or.inl ⟨rfl, ?_⟩⟩
    · simp only
      show X / _ = x >>> k
      rw [Nat.shiftRight_eq_div_pow, ← hX, Nat.div_div_eq_div_mul, ← Nat.pow_add]
      congr 2; omega
    · by_contra hlt
      apply hy
      show x >>> k = 0
      rw [Nat.shiftRight_eq_div_pow]
      exact Nat.div_eq_of_lt (by omega)

/-- C43: the portable `nlz` -/
theorem nlz_portable {x : Nat} (hx : x < 2 ^ 32) : IsNlz x (nlzP x) := by
  have h1 := nlz_step (X := x) (x := x) (n := 32) (k := 16) (by omega) (by omega) (by simp)
  unfold nlzP
  simp only at h1 ⊢
  generalize (if x >>> 16 ≠ 0 then (32 - 16, x >>> 16) else (32, x)) = p1 at *
  obtain ⟨n1, x1⟩ := p1
  obtain ⟨a1, b1, c1⟩ := h1
  simp only [Prod.mk.injEq, Nat.shiftRight_eq_div_pow] at a1 b1 c1
  have hx1 : x1 < 2 ^ 16 ∧ 16 ≤ n1 ∧ (x1 = 0 → n1 = 32) := by omega
  have h2 := nlz_step (X := x) (x := x1) (n := n1) (k := 8) (by omega) (by omega) b1
  simp only at h2 ⊢
  generalize (if x1 >>> 8 ≠ 0 then (n1 - 8, x1 >>> 8) else (n1, x1)) = p2 at *
  obtain ⟨n2, x2⟩ := p2
  obtain ⟨a2, b2, c2⟩ := h2
  simp only [Prod.mk.injEq, Nat.shiftRight_eq_div_pow] at a2 b2 c2
  have hx2 : x2 < 2 ^ 8 ∧ 8 ≤ n2 ∧ (x2 = 0 → n2 = 32) := by omega
  have h3 := nlz_step (X := x) (x := x2) (n := n2) (k := 4) (by omega) (by omega) b2
  simp only at h3 ⊢
  generalize (if x2 >>> 4 ≠ 0 then (n2 - 4, x2 >>> 4) else (n2, x2)) = p3 at *
  obtain ⟨n3, x3⟩ := p3
  obtain ⟨a3, b3, c3⟩ := h3
  simp only [Prod.mk.injEq, Nat.shiftRight_eq_div_pow] at a3 b3 c3
  have hx3 : x3 < 2 ^ 4 ∧ 4 ≤ n3 ∧ (x3 = 0 → n3 = 32) := by omega
  have h4 := nlz_step (X := x) (x := x3) (n := n3) (k := 2) (by omega) (by omega) b3
  simp only at h4 ⊢
  generalize (if x3 >>> 2 ≠ 0 then (n3 - 2, x3 >>> 2) else (n3, x3)) = p4 at *
  obtain ⟨n4, x4⟩ := p4
  obtain ⟨a4, b4, c4⟩ := h4
  simp only [Prod.mk.injEq, Nat.shiftRight_eq_div_pow] at a4 b4 c4
  have hx4 : x4 < 4 ∧ 2 ≤ n4 ∧ (x4 = 0 → n4 = 32) := by omega
  clear c1 c2 c3 c4 b1 b2 b3 a1 a2 a3 hx1 hx2 hx3
  simp only [Nat.shiftRight_eq_div_pow]
  -- `x / 2^(32 - n4) = x4`
  have hq := Nat.div_add_mod x (2 ^ (32 - n4))
  have hr := Nat.mod_lt x (show 0 < 2 ^ (32 - n4) by positivity)
  rw [b4] at hq
  unfold IsNlz
  by_cases hy : x4 / 2 ^ 1 ≠ 0
  · rw [if_pos hy]
    have e1 : 2 ^ (32 - (n4 - 2)) = 2 ^ (32 - n4) * 4 := by
      rw [show 32 - (n4 - 2) = (32 - n4) + 2 by omega, Nat.pow_add]
    have e2 : 2 ^ (31 - (n4 - 2)) = 2 ^ (32 - n4) * 2 := by
      rw [show 31 - (n4 - 2) = (32 - n4) + 1 by omega, Nat.pow_add]
    rw [e1, e2]
    generalize 2 ^ (32 - n4) = P at *
    have h5 : x4 = 2 ∨ x4 = 3 := by omega
    rcases h5 with h | h <;> rw [h] at hq <;> refine ⟨by omega, by omega, fun _ => by omega⟩
  · rw [if_neg hy]
    have h5 : x4 = 0 ∨ x4 = 1 := by omega
    rcases h5 with h | h <;> rw [h] at hq ⊢
    · refine ⟨by omega, by rw [Nat.sub_zero, ← hq]; simpa using hr, ?_⟩
      intro hlt
      have := hx4.2.2 h
      omega
    · have e1 : 2 ^ (32 - (n4 - 1)) = 2 ^ (32 - n4) * 2 := by
        rw [show 32 - (n4 - 1) = (32 - n4) + 1 by omega, Nat.pow_add]
      rw [e1, show 31 - (n4 - 1) = 32 - n4 by omega]
      exact ⟨by omega, by omega, fun _ => by omega⟩

/-- C43: `nlz` with the GNU builtin -/
theorem nlz_gnu {x : Nat} (hx : x < 2 ^ 32) : IsNlz x (nlzG x) := by
  unfold nlzG IsNlz
  by_cases h0 : x = 0
  · rw [if_pos h0, h0]; simp
  · rw [if_neg h0]
    have h1 := Nat.log2_self_le h0
    have h2 := Nat.lt_log2_self (n := x)
    have h3 : x.log2 < 32 := (Nat.log2_lt h0).2 hx
    rw [show 32 - (31 - x.log2) = x.log2 + 1 by omega, show 31 - (31 - x.log2) = x.log2 by omega]
    exact ⟨by omega, h2, fun _ => h1⟩

/-- both variants of `nlz` agree -/
theorem nlz_variants {x : Nat} (hx : x < 2 ^ 32) : nlzP x = nlzG x := isNlz_unique (nlz_portable hx) (nlz_gnu hx)

theorem not32_testBit {x : Nat} (hx : x < 2 ^ 32) (i : Nat) : (not32 x).testBit i = (decide (i < 32) && !x.testBit i) := by
  unfold not32
  rw [Nat.sub_right_comm]
  have := Nat.testBit_two_pow_sub_succ hx i
  rw [← this]
  congr 1

/-- a non-zero number is an odd number times a power of two -/
theorem odd_part {x : Nat} (h : x ≠ 0) : ∃ k m, x = 2 ^ k * (2 * m + 1) := by
  induction x using Nat.strong_induction_on with
  | _ x ih =>
    by_cases hp : x % 2 = 0
    · obtain ⟨k, m, hk⟩ := ih (x / 2) (by omega) (by omega)
      refine ⟨k + 1, m, ?_⟩
      rw [Nat.pow_succ, Nat.mul_right_comm, ← hk]; omega
    · exact ⟨0, x / 2, by rw [Nat.pow_zero]; omega⟩

/-- the bits of `2^k * (2m+1)` and of its predecessor -/
theorem odd_part_bits (k m i : Nat) :
    (2 ^ k * (2 * m + 1)).testBit i = (decide (i = k) || (decide (k < i) && m.testBit (i - k - 1))) ∧
    (2 ^ k * (2 * m + 1) - 1).testBit i = (decide (i < k) || (decide (k < i) && m.testBit (i - k - 1))) := by
  have hpos : 0 < 2 ^ k := by positivity
  have e2 : 2 ^ k * (2 * m + 1) - 1 = 2 ^ k * (2 * m) + (2 ^ k - 1) := by
    rw [Nat.mul_add, Nat.mul_one]; omega
  rw [e2]
  constructor
  · rw [Nat.testBit_two_pow_mul]
    by_cases h1 : i < k
    · simp [h1, show ¬ (k ≤ i) by omega, show ¬ (i = k) by omega, show ¬ (k < i) by omega]
    · by_cases h2 : i = k
      · subst h2; simp
      · have : k < i := by omega
        obtain ⟨j, rfl⟩ : ∃ j, i = k + 1 + j := ⟨i - k - 1, by omega⟩
        simp only [show k ≤ k + 1 + j by omega, decide_true, Bool.true_and, show ¬ (k + 1 + j = k) by omega, decide_false,
          Bool.false_or, show k < k + 1 + j by omega]
        rw [show k + 1 + j - k = j + 1 by omega, show j + 1 - 1 = j by omega, Nat.testBit_succ]
        congr 1; omega
  · rw [Nat.testBit_two_pow_mul_add _ (by omega)]
    by_cases h1 : i < k
    · simp [h1, Nat.testBit_two_pow_sub_one]
    · by_cases h2 : i = k
      · subst h2; simp
      · obtain ⟨j, rfl⟩ : ∃ j, i = k + 1 + j := ⟨i - k - 1, by omega⟩
        simp only [show ¬ (k + 1 + j < k) by omega, if_false, decide_false, Bool.false_or, show k < k + 1 + j by omega,
          decide_true, Bool.true_and]
        rw [show k + 1 + j - k = j + 1 by omega, show j + 1 - 1 = j by omega, Nat.testBit_succ]
        congr 1; omega

/-- C43: `ntz` -/
theorem ntz_portable {x : Nat} (hx : x < 2 ^ 32) : IsNtz x (ntzP x) := by
  unfold ntzP
  by_cases h0 : x = 0
  · left; subst h0; exact ⟨rfl, by decide⟩
  · right
    refine ⟨h0, ?_⟩
    obtain ⟨k, m, hk⟩ := odd_part h0
    have hk32 : k < 32 := by
      by_contra hge
      have h1 : 2 ^ 32 ≤ 2 ^ k := Nat.pow_le_pow_right (by decide) (by omega)
      have h2 : 2 ^ k * 1 ≤ 2 ^ k * (2 * m + 1) := Nat.mul_le_mul_left _ (by omega)
      omega
    have hs : sub32 x 1 = x - 1 := by unfold sub32; omega
    have hand : not32 x &&& sub32 x 1 = 2 ^ k - 1 := by
      apply Nat.eq_of_testBit_eq
      intro i
      rw [Nat.testBit_and, not32_testBit hx, hs, Nat.testBit_two_pow_sub_one]
      rw [hk, (odd_part_bits k m i).1, (odd_part_bits k m i).2]
      by_cases h1 : i < k
      · simp [h1, show ¬ (i = k) by omega, show ¬ (k < i) by omega]; omega
      · by_cases h2 : i = k
        · subst h2; simp
        · simp [h1, h2, show k < i by omega]
    have hlt : 2 ^ k - 1 < 2 ^ 32 := by
      have : 2 ^ k ≤ 2 ^ 32 := Nat.pow_le_pow_right (by decide) (by omega)
      omega
    have hn : nlzP (not32 x &&& sub32 x 1) = 32 - k := by
      rw [hand]
      apply isNlz_unique (nlz_portable hlt)
      refine ⟨by omega, ?_, ?_⟩
      · rw [show 32 - (32 - k) = k by omega]
        have : 0 < 2 ^ k := by positivity
        omega
      · intro h
        rw [show 31 - (32 - k) = k - 1 by omega]
        obtain ⟨j, rfl⟩ : ∃ j, k = j + 1 := ⟨k - 1, by omega⟩
        rw [Nat.add_sub_cancel, Nat.pow_succ]
        have : 0 < 2 ^ j := by positivity
        omega
    rw [hn, show 32 - (32 - k) = k by omega]
    refine ⟨⟨2 * m + 1, hk⟩, ?_⟩
    rintro ⟨c, hc⟩
    rw [hk, Nat.pow_succ, Nat.mul_assoc] at hc
    have := Nat.eq_of_mul_eq_mul_left (show 0 < 2 ^ k by positivity) hc
    omega

/-! ## powers of two -/

theorem nlzG_pos {x : Nat} (h0 : x ≠ 0) (hx : x < 2 ^ 32) : nlzG x = 31 - x.log2 ∧ x.log2 < 32 := by
  refine ⟨?_, (Nat.log2_lt h0).2 hx⟩
  unfold nlzG; rw [if_neg h0]

/-- C43: `log2_floor` of a non-zero value -/
theorem log2_floor_spec {x : Nat} (h0 : x ≠ 0) (hx : x < 2 ^ 32) : 2 ^ log2Floor x ≤ x ∧ x < 2 ^ (log2Floor x + 1) := by
  obtain ⟨e, hlt⟩ := nlzG_pos h0 hx
  have : log2Floor x = x.log2 := by unfold log2Floor sub32; rw [e]; omega
  rw [this]
  exact ⟨Nat.log2_self_le h0, Nat.lt_log2_self⟩

/-- C43: `log2_ceil` of a non-zero value: the least exponent whose power reaches `x` -/
theorem log2_ceil_spec {x : Nat} (h0 : x ≠ 0) (hx : x < 2 ^ 32) : x ≤ 2 ^ log2Ceil x ∧ ∀ k, x ≤ 2 ^ k → log2Ceil x ≤ k := by
  have hs : sub32 x 1 = x - 1 := by unfold sub32; omega
  unfold log2Ceil
  rw [hs]
  obtain ⟨h1, h2, h3⟩ := nlz_gnu (x := x - 1) (by omega)
  have e : sub32 32 (nlzG (x - 1)) = 32 - nlzG (x - 1) := by unfold sub32; omega
  rw [e]
  refine ⟨by omega, ?_⟩
  intro k hk
  by_contra hlt
  have h4 := h3 (by omega)
  have : 2 ^ k ≤ 2 ^ (31 - nlzG (x - 1)) := Nat.pow_le_pow_right (by decide) (by omega)
  omega

/-- `r` is the largest power of two not above `x` (0 for 0) -/
def IsFloorPo2 (x r : Nat) : Prop := (x = 0 ∧ r = 0) ∨ ∃ k, r = 2 ^ k ∧ 2 ^ k ≤ x ∧ x < 2 ^ (k + 1)

/-- `r` is the smallest power of two not below `x` (0 for 0) -/
def IsCeilPo2 (x r : Nat) : Prop := (x = 0 ∧ r = 0) ∨ (x ≠ 0 ∧ ∃ k, r = 2 ^ k ∧ x ≤ 2 ^ k ∧ ∀ j, x ≤ 2 ^ j → k ≤ j)

theorem shift_top {k : Nat} (hk : k ≤ 31) : 0x80000000 >>> (31 - k) = 2 ^ k := by
  rw [Nat.shiftRight_eq_div_pow, show 0x80000000 = 2 ^ k * 2 ^ (31 - k) by rw [← Nat.pow_add, Nat.add_sub_cancel' hk]]
  exact Nat.mul_div_cancel _ (by positivity)

/-- C43: `floor_po2`, GNU code -/
theorem floor_po2_gnu {x : Nat} (hx : x < 2 ^ 32) : IsFloorPo2 x (floorPo2G x) := by
  unfold floorPo2G
  by_cases h0 : x = 0
  · rw [if_pos h0]; exact Or.inl ⟨h0, rfl⟩
  · rw [if_neg h0]
    obtain ⟨e, hlt⟩ := nlzG_pos h0 hx
    rw [e, shift_top (by omega)]
    exact Or.inr ⟨x.log2, rfl, Nat.log2_self_le h0, Nat.lt_log2_self⟩

/-- bit `i` of the smeared value tells whether one of `w` bits from `i` on is set -/
theorem smear_step {x y w : Nat} (h : ∀ i, y.testBit i = true ↔ ∃ d < w, x.testBit (i + d) = true) (i : Nat) :
    (y ||| (y >>> w)).testBit i = true ↔ ∃ d < 2 * w, x.testBit (i + d) = true := by
  rw [Nat.testBit_or, Nat.testBit_shiftRight, Bool.or_eq_true, h, h]
  constructor
  · rintro (⟨d, hd, e⟩ | ⟨d, hd, e⟩)
    · exact ⟨d, by omega, e⟩
    · exact ⟨w + d, by omega, by rw [← e]; congr 1; omega⟩
  · rintro ⟨d, hd, e⟩
    by_cases h1 : d < w
    · exact Or.inl ⟨d, h1, e⟩
    · exact Or.inr ⟨d - w, by omega, by rw [← e]; congr 1; omega⟩

theorem smear32_spec {x : Nat} (hx : x < 2 ^ 32) : smear32 x = if x = 0 then 0 else 2 ^ (x.log2 + 1) - 1 := by
  have h1 : ∀ i, x.testBit i = true ↔ ∃ d < 1, x.testBit (i + d) = true := by
    intro i
    constructor
    · intro h; exact ⟨0, by omega, h⟩
    · rintro ⟨d, hd, e⟩; rw [show d = 0 by omega] at e; exact e
  have h32 := smear_step (smear_step (smear_step (smear_step (smear_step h1))))
  change ∀ i, (smear32 x).testBit i = true ↔ ∃ d < 32, x.testBit (i + d) = true at h32
  apply Nat.eq_of_testBit_eq
  intro i
  rw [Bool.eq_iff_iff, h32]
  by_cases h0 : x = 0
  · rw [if_pos h0, h0]; simp
  · rw [if_neg h0, Nat.testBit_two_pow_sub_one, decide_eq_true_eq]
    constructor
    · rintro ⟨d, hd, e⟩
      by_contra hge
      have : x < 2 ^ (i + d) := lt_of_lt_of_le Nat.lt_log2_self (Nat.pow_le_pow_right (by decide) (by omega))
      rw [Nat.testBit_lt_two_pow this] at e; cases e
    · intro hi
      have := (Nat.log2_lt h0).2 hx
      refine ⟨x.log2 - i, by omega, ?_⟩
      rw [Nat.add_sub_cancel' (by omega)]
      exact Nat.testBit_log2 h0

/-- C43: `floor_po2`, portable code -/
theorem floor_po2_portable {x : Nat} (hx : x < 2 ^ 32) : IsFloorPo2 x (floorPo2P x) := by
  unfold floorPo2P
  rw [smear32_spec hx]
  by_cases h0 : x = 0
  · rw [if_pos h0]; exact Or.inl ⟨h0, rfl⟩
  · rw [if_neg h0]
    right
    refine ⟨x.log2, ?_, Nat.log2_self_le h0, Nat.lt_log2_self⟩
    have hlt := (Nat.log2_lt h0).2 hx
    have : 2 ^ x.log2 ≤ 2 ^ 31 := Nat.pow_le_pow_right (by decide) (by omega)
    have hp : 0 < 2 ^ x.log2 := by positivity
    rw [Nat.shiftRight_eq_div_pow, Nat.pow_succ]
    unfold sub32
    omega

theorem ceil_aux {x k : Nat} (h0 : x ≠ 0) (h1 : x ≤ 2 ^ k) (h2 : k = 0 ∨ 2 ^ (k - 1) < x) : IsCeilPo2 x (2 ^ k) := by
  right
  refine ⟨h0, k, rfl, h1, ?_⟩
  intro j hj
  by_contra hlt
  rcases h2 with h2 | h2
  · omega
  · have : 2 ^ j ≤ 2 ^ (k - 1) := Nat.pow_le_pow_right (by decide) (by omega)
    omega

/-- C43: `ceil_po2` is defined below `2^31` and is the smallest power of two not below. -/
theorem ceil_po2_gnu {x : Nat} : if x < 2 ^ 31 then ∃ r, ceilPo2G x = some r ∧ IsCeilPo2 x r else ceilPo2G x = none := by
  split
  · next hx =>
    unfold ceilPo2G
    by_cases h0 : x = 0
    · rw [if_pos h0]; exact ⟨0, rfl, Or.inl ⟨h0, rfl⟩⟩
    · rw [if_neg h0, if_pos hx]
      refine ⟨_, rfl, ?_⟩
      by_cases h1 : x - 1 = 0
      · rw [h1]
        have : x = 1 := by omega
        rw [this]
        exact ceil_aux (k := 0) (by omega) (by decide) (Or.inl rfl)
      · obtain ⟨e, hlt⟩ := nlzG_pos h1 (by omega)
        have h3 := Nat.log2_self_le h1
        have h4 := Nat.lt_log2_self (n := x - 1)
        have h5 : (x - 1).log2 < 31 := (Nat.log2_lt h1).2 (by omega)
        rw [e, show 31 - (x - 1).log2 - 1 = 31 - ((x - 1).log2 + 1) by omega, shift_top (by omega)]
        exact ceil_aux h0 (by omega) (Or.inr (by rw [Nat.add_sub_cancel]; omega))
  · next hx =>
    unfold ceilPo2G
    rw [if_neg (by omega), if_neg hx]

theorem ceil_po2_portable {x : Nat} : if x < 2 ^ 31 then ∃ r, ceilPo2P x = some r ∧ IsCeilPo2 x r else ceilPo2P x = none := by
  split
  · next hx =>
    unfold ceilPo2P
    by_cases h0 : x = 0
    · rw [if_pos h0]; exact ⟨0, rfl, Or.inl ⟨h0, rfl⟩⟩
    · rw [if_neg h0, if_pos hx]
      refine ⟨_, rfl, ?_⟩
      rw [smear32_spec (by omega)]
      by_cases h1 : x - 1 = 0
      · rw [if_pos h1]
        have : x = 1 := by omega
        rw [this]
        exact ceil_aux (k := 0) (by omega) (by decide) (Or.inl rfl)
      · rw [if_neg h1]
        have h3 := Nat.log2_self_le h1
        have h4 := Nat.lt_log2_self (n := x - 1)
        have h5 : (x - 1).log2 < 31 := (Nat.log2_lt h1).2 (by omega)
        have h6 : 2 ^ ((x - 1).log2 + 1) ≤ 2 ^ 31 := Nat.pow_le_pow_right (by decide) (by omega)
        have e : add32 (2 ^ ((x - 1).log2 + 1) - 1) 1 = 2 ^ ((x - 1).log2 + 1) := by
          unfold add32
          have : 0 < 2 ^ ((x - 1).log2 + 1) := by positivity
          omega
        rw [e]
        exact ceil_aux h0 (by omega) (Or.inr (by rw [Nat.add_sub_cancel]; omega))
  · next hx =>
    unfold ceilPo2P
    rw [if_neg (by omega), if_neg hx]

/-- C43: `is_po2_or_zero` -/
theorem is_po2_or_zero_spec {x : Nat} (hx : x < 2 ^ 32) : isPo2OrZero x = true ↔ x = 0 ∨ ∃ k, x = 2 ^ k := by
  unfold isPo2OrZero
  rw [beq_iff_eq]
  by_cases h0 : x = 0
  · subst h0; simp
  · have hs : sub32 x 1 = x - 1 := by unfold sub32; omega
    rw [hs]
    obtain ⟨k, m, hk⟩ := odd_part h0
    constructor
    · intro hand
      right
      refine ⟨k, ?_⟩
      have hm : m = 0 := by
        apply Nat.eq_of_testBit_eq
        intro i
        have := congrArg (Nat.testBit · (k + 1 + i)) hand
        simp only [Nat.testBit_and, Nat.zero_testBit] at this
        rw [hk, (odd_part_bits k m _).1, (odd_part_bits k m _).2] at this
        simp only [show ¬ (k + 1 + i = k) by omega, show ¬ (k + 1 + i < k) by omega, show k < k + 1 + i by omega,
          show k + 1 + i - k - 1 = i by omega, decide_true, decide_false, Bool.false_or, Bool.true_and, Bool.and_self] at this
        rw [this]; simp
      rw [hk, hm]; simp
    · rintro (h | ⟨j, hj⟩)
      · exact absurd h h0
      · apply Nat.eq_of_testBit_eq
        intro i
        rw [Nat.testBit_and, Nat.zero_testBit, hj]
        have h1 := (odd_part_bits j 0 i).1
        have h2 := (odd_part_bits j 0 i).2
        simp only [Nat.mul_zero, Nat.zero_add, Nat.mul_one, Nat.zero_testBit, Bool.and_false, Bool.or_false] at h1 h2
        rw [h1, h2]
        by_cases hc : i = j
        · subst hc; simp
        · simp [hc]

/-- C43: `round_up2`: the smallest multiple of the power of two not below `x`,
unless the sum leaves the 32 bit range. -/
theorem round_up2_spec {x k : Nat} (hk : k < 32) (hx : x + 2 ^ k ≤ 2 ^ 32) :
    ∃ r, roundUp2 x (2 ^ k) = some r ∧ 2 ^ k ∣ r ∧ x ≤ r ∧ r < x + 2 ^ k := by
  have hp : 0 < 2 ^ k := by positivity
  have hlt : 2 ^ k < 2 ^ 32 := Nat.pow_lt_pow_right (by decide) hk
  have hpo : isPo2OrZero (2 ^ k) = true := (is_po2_or_zero_spec hlt).2 (Or.inr ⟨k, rfl⟩)
  unfold roundUp2
  simp only [hpo, hp, decide_true, Bool.and_self, if_true]
  refine ⟨_, rfl, ?_⟩
  have e1 : add32 x (2 ^ k - 1) = x + (2 ^ k - 1) := by unfold add32; omega
  rw [e1]
  have hs : x + (2 ^ k - 1) < 2 ^ 32 := by omega
  have e2 : (x + (2 ^ k - 1)) &&& not32 (2 ^ k - 1) = 2 ^ k * ((x + (2 ^ k - 1)) / 2 ^ k) := by
    apply Nat.eq_of_testBit_eq
    intro i
    rw [Nat.testBit_and, not32_testBit (by omega), Nat.testBit_two_pow_sub_one, Nat.testBit_two_pow_mul, Nat.testBit_div_two_pow]
    by_cases h1 : k ≤ i
    · rw [show i - k + k = i by omega]
      by_cases h2 : i < 32
      · simp [h1, h2, show ¬ (i < k) by omega]
      · rw [Nat.testBit_lt_two_pow (lt_of_lt_of_le hs (Nat.pow_le_pow_right (by decide) (by omega)))]
        simp
    · simp [h1, show i < k by omega]
  rw [e2]
  have h1 := Nat.div_add_mod (x + (2 ^ k - 1)) (2 ^ k)
  have h2 := Nat.mod_lt (x + (2 ^ k - 1)) hp
  exact ⟨⟨_, rfl⟩, by omega, by omega⟩

/-- without the range condition the result wraps around -/
theorem round_up2_wraps : roundUp2 0xFFFFFFFF 16 = some 0 := by decide

/-- non-vacuity -/
example : popcountP 0xF0F00001 = 9 ∧ nlzP 0x00012345 = 15 ∧ ntzP 0x00012340 = 6 ∧ floorPo2P 1000 = 512 ∧
    ceilPo2P 1000 = some 1024 ∧ log2Ceil 1000 = 10 ∧ roundUp2 1000 16 = some 1008 := by decide

end Verif.Props
