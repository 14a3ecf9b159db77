import Verif.Props.FltArith
import Verif.Spec.Bits
/-!
# C50: conversion of floating point values to integers truncates
-/
namespace Verif.Props.Flt
open Verif.Model Verif.Model.Flt Verif.Spec.Flt Verif.Spec

/-- the two calls of ir/tv/tv.c:594-598: `fc_int`, then `fc_flt2int` -/
def floatToInt (a : Fp) (bits : Nat) (signed : Bool) : Option Flt2Int := flt2int (fcInt a) bits signed

/-- what the conversion of a datum to an integer type has to report -/
def isInt (E M : Nat) (bits : Nat) (sgn : Bool) : Num → Flt2Int
  | .nan => .bad
  | .inf s => if s then .negOverflow else .posOverflow
  | .fin s q =>
    if InRange sgn bits (signed s (truncate E M q)) then .ok (signed s (truncate E M q))
    else if s then .negOverflow else .posOverflow

/-- the mask of `fc_int` clears the low bits -/
theorem and_mask {m e k : Nat} (h : m < 2 ^ (1 + e + k)) : m &&& ((2 ^ (1 + e) - 1) * 2 ^ k) = m / 2 ^ k * 2 ^ k := by
  apply Nat.eq_of_testBit_eq
  intro i
  rw [Nat.testBit_and, ← Nat.shiftLeft_eq, Nat.testBit_shiftLeft, Nat.testBit_two_pow_sub_one, ← Nat.shiftLeft_eq, Nat.testBit_shiftLeft,
    ← Nat.shiftRight_eq_div_pow, Nat.testBit_shiftRight]
  by_cases hi : k ≤ i
  · simp only [ge_iff_le, hi, decide_true, Bool.true_and]
    rw [show k + (i - k) = i by omega]
    by_cases h2 : i - k < 1 + e
    · simp [h2]
    · rw [Nat.testBit_lt_two_pow (Nat.lt_of_lt_of_le h (Nat.pow_le_pow_right (by omega) (by omega)))]
      simp
  · simp [hi]

theorem trailing_dvd (m : Nat) : 2 ^ trailing m ∣ m := by
  induction m using trailing.induct with
  | case1 m h => unfold trailing; rw [if_pos h]; simp
  | case2 m h ih =>
    unfold trailing
    rw [if_neg h, Nat.pow_add]
    have : m = 2 * (m / 2) := by omega
    obtain ⟨c, hc⟩ := ih
    exact ⟨c, by rw [Nat.pow_one, Nat.mul_assoc, ← hc]; exact this⟩

theorem trailing_pow (k : Nat) : trailing (2 ^ k) = k := by
  induction k with
  | zero => unfold trailing; simp
  | succ k ih =>
    unfold trailing
    have hp := Nat.two_pow_pos k
    have : 2 ^ (k + 1) = 2 * 2 ^ k := Nat.pow_succ'
    rw [if_neg (by omega), this, Nat.mul_div_cancel_left _ (by omega), ih]; omega

/-- lowest and highest set bit coincide for powers of two only -/
theorem highest_eq_lowest {m k : Nat} (h1 : 2 ^ k ≤ m) (h2 : m < 2 ^ (k + 1)) : highest m = lowest m ↔ m = 2 ^ k := by
  have hh : highest m = k := by
    have a1 := highest_ge.mpr h1
    have a2 := highest_lt.mpr h2
    omega
  have hm : m ≠ 0 := by have := Nat.two_pow_pos k; omega
  rw [hh]
  unfold lowest
  rw [if_neg hm]
  constructor
  · intro h
    have ht : trailing m = k := by omega
    obtain ⟨c, hc⟩ := trailing_dvd m
    rw [ht] at hc
    have hp := Nat.two_pow_pos k
    have : c < 2 := by
      apply Nat.lt_of_mul_lt_mul_left (a := 2 ^ k)
      rw [← hc, ← Nat.pow_succ]; exact h2
    have : c ≠ 0 := by rintro rfl; simp at hc; exact hm hc
    rw [hc, show c = 1 by omega, Nat.mul_one]
  · intro h
    rw [h, trailing_pow]

/-- C50 (values): the result is the number truncated towards zero if that is in the range of the type, an overflow with the sign of the value
otherwise; infinities overflow, NaN has no result; the assertion of `fc_flt2int` does not fail -/
theorem floatToInt_spec {d : Desc} (hd : Fmt d) {a : Fp} (ha : Wf d a) {bits : Nat} (hb : 1 ≤ bits) (sgn : Bool) :
    floatToInt a bits sgn = some (isInt d.expSize d.em bits sgn a.num) := by
  have hB : 1 ≤ d.bias := by
    unfold Desc.bias
    have : 2 ^ 1 ≤ 2 ^ (d.expSize - 1) := Nat.pow_le_pow_right (by omega) (by have := hd.exp; omega)
    omega
  have hpe : ((2 ^ d.expSize : Nat) : Int) = 2 * (d.bias + 1) := by
    unfold Desc.bias
    have := Nat.two_pow_pos (d.expSize - 1)
    have h2 : 2 ^ d.expSize = 2 * 2 ^ (d.expSize - 1) := by rw [← Nat.pow_succ']; congr 1; have := hd.exp; omega
    omega
  have hcast : ((2 ^ d.expSize : Nat) : Int) = 2 ^ d.expSize := by push_cast; rfl
  have hbias : bias d.expSize = d.bias := rfl
  unfold floatToInt
  have hzero : ∀ s, flt2int (getZero d s) bits sgn = some (.ok 0) := by intro s; rfl
  have hin0 : InRange sgn bits 0 := by
    unfold InRange
    have h1 : (0 : Int) < 2 ^ bits := by positivity
    have h2 : (0 : Int) < 2 ^ (bits - 1) := by positivity
    split <;> omega
  have hexpv : ∀ v : Fp, v.clss = .inf ∨ v.clss = .nan → v.exp = 2 ^ d.expSize - 1 → v.desc = d → (fcInt v).clss = v.clss ∧ (fcInt v).sign = v.sign := by
    intro v h1 h2 h3
    unfold fcInt
    simp only
    rw [h3, if_neg (by omega)]
    split
    · exact ⟨rfl, rfl⟩
    · exact ⟨rfl, rfl⟩
  rcases wf_cases hd ha with ⟨ca, na⟩ | ⟨ca, na, ea⟩ | ⟨ca, ca', ⟨qa, na, za⟩, ea⟩
  · have he : a.exp = 2 ^ d.expSize - 1 := by have := ha.2; rw [ca] at this; exact this.1
    obtain ⟨h1, h2⟩ := hexpv a (Or.inr ca) he ha.1
    unfold flt2int
    rw [h1, ca, na]; rfl
  · obtain ⟨h1, h2⟩ := hexpv a (Or.inl ca) ea ha.1
    unfold flt2int
    rw [h1, ca, na, h2]; rfl
  · have hmag := finite_cases ha na
    have small : a.exp < d.bias → truncate d.expSize d.em qa = 0 → flt2int (fcInt a) bits sgn = some (isInt d.expSize d.em bits sgn a.num) := by
      intro h1 h2
      have : fcInt a = getZero d a.sign := by
        unfold fcInt; simp only [ha.1]; rw [if_pos (by omega)]
      rw [this, hzero, na]
      simp only [isInt, h2]
      have hs0 : signed a.sign 0 = 0 := by cases a.sign <;> rfl
      rw [hs0, if_pos hin0]
    rcases hmag.2 with ⟨h1, h2, h3, h4, h5⟩ | ⟨t, e, hf, hq⟩
    · apply small (by omega)
      unfold truncate; rw [h2]; simp
    · have hlt := hf.lt
      by_cases hsmall : a.exp < d.bias
      · apply small hsmall
        unfold truncate
        apply Nat.div_eq_of_lt
        rw [hq, hbias]
        have c1 : t * 2 ^ (e - 1) < 2 ^ (d.em + 1) * 2 ^ (e - 1) := Nat.mul_lt_mul_of_pos_right hlt (Nat.two_pow_pos _)
        rw [← Nat.pow_add] at c1
        rcases hf.kind with ⟨k1, k2, _⟩ | ⟨k1, k2, k3, k4⟩
        · have he := hf.one_le
          have hle : d.em + 1 + (e - 1) ≤ d.bias + d.em - 1 := by omega
          exact Nat.lt_of_lt_of_le c1 (Nat.pow_le_pow_right (by omega) hle)
        · subst k3
          simp only [Nat.sub_self, Nat.pow_zero, Nat.mul_one]
          apply Nat.lt_of_lt_of_le k4
          exact Nat.pow_le_pow_right (by omega) (by omega)
      · rcases hf.kind with ⟨k1, k2, k3, k4, k5⟩ | ⟨k1, k2, k3, k4⟩
        swap
        · omega
        -- a normal number with value at least one
        obtain ⟨x, hx⟩ : ∃ x : Nat, e = d.bias + x := ⟨e - d.bias, by omega⟩
        have hexp : a.exp - (a.desc.bias : Int) = x := by rw [ha.1]; omega
        have p1 : 2 ^ (d.em + 1) = 2 * 2 ^ d.em := by rw [Nat.pow_add]; ring
        have p2 : 2 ^ (d.em + 2) = 4 * 2 ^ d.em := by rw [Nat.pow_add]; ring
        have p3 : 2 ^ (d.em + 3) = 8 * 2 ^ d.em := by rw [Nat.pow_add]; ring
        generalize hI : truncate d.expSize d.em qa = I
        -- the truncated value
        have htr : I = if x ≤ d.em then t / 2 ^ (d.em - x) else t * 2 ^ (x - d.em) := by
          rw [← hI]
          unfold truncate
          rw [hq, hbias, hx]
          split
          · rename_i hle
            rw [show d.bias + d.em - 1 = (d.em - x) + (d.bias + x - 1) by omega, Nat.pow_add, Nat.mul_div_mul_right _ _ (Nat.two_pow_pos _)]
          · rename_i hle
            rw [show d.bias + x - 1 = (x - d.em) + (d.bias + d.em - 1) by omega, Nat.pow_add, ← Nat.mul_assoc, Nat.mul_div_cancel _ (Nat.two_pow_pos _)]
        -- the value after `fc_int`
        obtain ⟨m', hm', hm1, hm2, hm3⟩ : ∃ m', fcInt a = { a with mant := m' } ∧ I * 2 ^ (d.em + 2) = m' * 2 ^ x ∧ 2 ^ (d.em + 2) ≤ m' ∧ m' < 2 ^ (d.em + 3) := by
          unfold fcInt
          simp only [hexp]
          rw [if_neg (by omega)]
          split
          · rename_i hgt
            rw [ha.1] at hgt
            refine ⟨a.mant, rfl, ?_, by rw [hf.mant]; omega, by rw [hf.mant]; omega⟩
            rw [htr, if_neg (by omega), hf.mant]
            have : 2 ^ (x - d.em) * 2 ^ (d.em + 2) = 4 * 2 ^ x := by
              rw [show (4 : Nat) = 2 ^ 2 from rfl, ← Nat.pow_add, ← Nat.pow_add]; congr 1; omega
            rw [Nat.mul_assoc, this]; ring
          · rename_i hle
            rw [ha.1] at hle
            refine ⟨_, rfl, ?_, ?_⟩
            · simp only [Int.toNat_natCast, ha.1]
              rw [and_mask (by rw [show 1 + x + (d.em - x + 2) = d.em + 3 by omega, hf.mant]; omega)]
              rw [htr, if_pos (by omega), hf.mant, Nat.pow_add 2 (d.em - x) 2, ← Nat.div_div_eq_div_mul, Nat.mul_comm 4, ]
              have e1 : t * 4 / 2 ^ (d.em - x) / 2 ^ 2 = t / 2 ^ (d.em - x) := by
                rw [Nat.div_div_eq_div_mul, show (4 : Nat) = 2 ^ 2 from rfl, Nat.mul_div_mul_right _ _ (by decide)]
              rw [e1]
              have e2 : 2 ^ (d.em - x) * 2 ^ 2 * 2 ^ x = 2 ^ (d.em + 2) := by
                rw [← Nat.pow_add, ← Nat.pow_add]; congr 1; omega
              rw [Nat.mul_assoc, e2]
            · simp only [Int.toNat_natCast, ha.1]
              rw [and_mask (by rw [show 1 + x + (d.em - x + 2) = d.em + 3 by omega, hf.mant]; omega)]
              have hk : 2 ^ (d.em + 2) = 2 ^ x * 2 ^ (d.em - x + 2) := by rw [← Nat.pow_add]; congr 1; omega
              constructor
              · rw [hk]
                apply Nat.mul_le_mul_right
                rw [Nat.le_div_iff_mul_le (Nat.two_pow_pos _), ← hk, hf.mant]; omega
              · apply Nat.lt_of_le_of_lt (Nat.div_mul_le_self _ _)
                rw [hf.mant]; omega
        have hIlo : 2 ^ x ≤ I := by
          apply Nat.le_of_mul_le_mul_right (c := 2 ^ (d.em + 2)) _ (Nat.two_pow_pos _)
          rw [hm1, Nat.mul_comm]; exact Nat.mul_le_mul_right _ hm2
        have hIhi : I < 2 ^ (x + 1) := by
          apply Nat.lt_of_mul_lt_mul_right (a := 2 ^ (d.em + 2))
          rw [hm1]
          have : m' * 2 ^ x < 2 ^ (d.em + 3) * 2 ^ x := Nat.mul_lt_mul_of_pos_right hm3 (Nat.two_pow_pos _)
          have e1 : 2 ^ (d.em + 3) * 2 ^ x = 2 ^ (x + 1) * 2 ^ (d.em + 2) := by
            rw [← Nat.pow_add, ← Nat.pow_add]; congr 1; omega
          omega
        have hpow : highest m' = lowest m' ↔ I = 2 ^ x := by
          rw [highest_eq_lowest hm2 hm3]
          constructor
          · intro h
            rw [h] at hm1
            apply Nat.eq_of_mul_eq_mul_right (Nat.two_pow_pos (d.em + 2))
            rw [hm1, Nat.mul_comm]
          · intro h
            rw [h] at hm1
            apply Nat.eq_of_mul_eq_mul_right (Nat.two_pow_pos x)
            rw [← hm1, Nat.mul_comm]
        rw [hm', na]
        unfold flt2int
        simp only [k1, hexp, isInt, hI]
        obtain ⟨T, hT⟩ : ∃ T, bits - (if sgn then 1 else 0) = T := ⟨_, rfl⟩
        simp only [hT]
        have hms : d.mantSize + 2 - (if d.one then 1 else 0) = d.em + 2 := by
          unfold Desc.em
          have := hd.size
          cases ho : d.one with
          | true => have := hd.size ho; simp; omega
          | false => simp
        -- the range
        have hT2 : ((2 ^ T : Nat) : Int) = 2 ^ T := by push_cast; rfl
        have hrange : InRange sgn bits (signed a.sign I) ↔ ((a.sign = true → sgn = true) ∧ (I < 2 ^ T ∨ (I = 2 ^ T ∧ sgn = true ∧ a.sign = true))) := by
          unfold InRange signed
          have hI0 := Nat.two_pow_pos x
          cases sgn with
          | false =>
            have hTb : bits = T := by rw [← hT]; simp
            rw [hTb]
            cases a.sign <;> simp <;> omega
          | true =>
            have hTb : bits - 1 = T := by rw [← hT]; simp
            rw [hTb]
            cases a.sign <;> simp <;> omega
        by_cases hneg : a.sign = true ∧ sgn = false
        · rw [if_pos (by simp [hneg]), if_neg (by rw [hrange]; simp [hneg]), if_pos hneg.1]
        · rw [if_neg (by simpa using hneg), if_neg (show ¬ (x : Int) < 0 by omega)]
          have hsg : a.sign = true → sgn = true := by
            intro h; cases hs : sgn with
            | true => rfl
            | false => exact absurd ⟨h, hs⟩ hneg
          by_cases hov : I < 2 ^ T ∨ (I = 2 ^ T ∧ sgn = true ∧ a.sign = true)
          · rw [if_pos (hrange.mpr ⟨hsg, hov⟩)]
            have hxT : x < T ∨ (x = T ∧ I = 2 ^ T ∧ sgn = true ∧ a.sign = true) := by
              rcases hov with h | ⟨h, h'⟩
              · left; exact (Nat.pow_lt_pow_iff_right (a := 2) (by omega)).mp (Nat.lt_of_le_of_lt hIlo h)
              · have h1 := (Nat.pow_le_pow_iff_right (a := 2) (by omega)).mp (h ▸ hIlo)
                rcases Nat.lt_or_ge x T with h2 | h2
                · exact Or.inl h2
                · exact Or.inr ⟨by omega, h, h'⟩
            rw [if_neg]
            swap
            · rintro (h | ⟨h1, h2⟩)
              · rcases hxT with h' | ⟨h', _⟩ <;> omega
              · rcases hxT with h' | ⟨h', h3, h4, h5⟩
                · omega
                · simp only [h4, h5, Bool.not_true, Bool.false_eq_true, false_or] at h2
                  exact h2 (hpow.mpr (by rw [h', h3]))
            have hxI : I < 2 ^ (T + (if sgn then 1 else 0)) := by
              rcases hov with h | ⟨h, h1, _⟩
              · exact Nat.lt_of_lt_of_le h (Nat.pow_le_pow_right (by omega) (by omega))
              · rw [h1, h]; exact Nat.pow_lt_pow_right (by omega) (by simp)
            have hr : (if (x : Int) - ((d.mantSize + 2 - (if d.one then 1 else 0) : Nat) : Int) > 0
                then m' * 2 ^ ((x : Int) - ((d.mantSize + 2 - (if d.one then 1 else 0) : Nat) : Int)).toNat %
                  2 ^ (if T < d.mantSize + 2 + 1 then d.mantSize + 2 + 1 else T + (if sgn then 1 else 0))
                else m' / 2 ^ (-((x : Int) - ((d.mantSize + 2 - (if d.one then 1 else 0) : Nat) : Int))).toNat) = I := by
              rw [hms]
              split
              · rename_i hpos
                have hxe : ((x : Int) - ((d.em + 2 : Nat) : Int)).toNat = x - (d.em + 2) := by omega
                rw [hxe]
                have hv : m' * 2 ^ (x - (d.em + 2)) = I := by
                  apply Nat.eq_of_mul_eq_mul_right (Nat.two_pow_pos (d.em + 2))
                  rw [hm1, Nat.mul_assoc, ← Nat.pow_add]; congr 2; omega
                rw [hv]
                apply Nat.mod_eq_of_lt
                split
                · apply Nat.lt_of_lt_of_le hIhi
                  apply Nat.pow_le_pow_right (by omega)
                  rcases hxT with h | ⟨h, _⟩ <;> omega
                · exact hxI
              · rename_i hpos
                have hxe : (-((x : Int) - ((d.em + 2 : Nat) : Int))).toNat = d.em + 2 - x := by omega
                rw [hxe]
                apply Nat.div_eq_of_eq_mul_left (Nat.two_pow_pos _)
                apply Nat.eq_of_mul_eq_mul_right (Nat.two_pow_pos x)
                rw [← hm1, Nat.mul_assoc, ← Nat.pow_add]; congr 2; omega
            rw [ha.1, hr]
            rfl
          · rw [if_neg (show ¬ InRange sgn bits (signed a.sign I) from fun h => hov (hrange.mp h).2)]
            rw [if_pos]
            have hTI : 2 ^ T ≤ I := by
              by_contra hc; exact hov (Or.inl (by omega))
            have hTx : T ≤ x := by
              have := (Nat.pow_lt_pow_iff_right (a := 2) (by omega)).mp (Nat.lt_of_le_of_lt hTI hIhi)
              omega
            rcases Nat.lt_or_ge T x with h | h
            · left; omega
            · right
              have hTe : x = T := by omega
              refine ⟨by omega, ?_⟩
              by_cases h1 : sgn = true
              · by_cases h2 : a.sign = true
                · right; right
                  intro h3
                  exact hov (Or.inr ⟨by rw [hpow.mp h3, hTe], h1, h2⟩)
                · right; left; simp [h2]
              · left; simp [h1]

/-- C50 on bit patterns, in full: also the patterns wrongly taken for zero truncate to zero -/
theorem floatToInt_pattern {d : Desc} (hd : Fmt d) {p : Nat} (hp : Canonical d p) {bits : Nat} (hb : 1 ≤ bits) (sgn : Bool) :
    floatToInt (fromPattern .nearest d p) bits sgn = some (isInt d.expSize d.em bits sgn (decode d.expSize d.em d.one p)) := by
  by_cases hp' : TakenForZero d p
  · obtain ⟨h1, h2, h3⟩ := hp'
    obtain ⟨f1, f2⟩ := frac_lt d hd.size p
    have hE4 : 4 ≤ 2 ^ d.expSize := Nat.pow_le_pow_right (n := 2) (by omega) hd.exp
    have hB : 1 ≤ d.bias := by
      unfold Desc.bias
      have : 2 ^ 1 ≤ 2 ^ (d.expSize - 1) := Nat.pow_le_pow_right (by omega) (by have := hd.exp; omega)
      omega
    have hf : fracOf d p < 2 ^ d.em := by
      cases ho : d.one with
      | false => exact f2 ho
      | true => have := hp ho; omega
    have hdec : decode d.expSize d.em d.one p = .fin (signOf d p) (fracOf d p) := by
      have h1' := h1
      unfold expOf at h1'
      unfold decode
      simp only [← em_eq d hd.size, h1']
      rw [if_neg (by omega)]
      rfl
    have hv : fromPattern .nearest d p = ⟨d, .zero, signOf d p, 0, 4 * fracOf d p⟩ := by
      rw [fromPattern_small .nearest d hd.exp hd.size p hp h1, if_pos (by unfold valueSize; omega)]
    have ht : truncate d.expSize d.em (fracOf d p) = 0 := by
      unfold truncate
      apply Nat.div_eq_of_lt
      apply Nat.lt_of_lt_of_le hf
      exact Nat.pow_le_pow_right (by omega) (by have : bias d.expSize = d.bias := rfl; omega)
    have hi : fcInt (fromPattern .nearest d p) = getZero d (signOf d p) := by
      rw [hv]; unfold fcInt; simp only; rw [if_pos (by omega)]
    unfold floatToInt
    rw [hi, hdec]
    simp only [isInt, ht]
    have hs0 : signed (signOf d p) 0 = 0 := by cases signOf d p <;> rfl
    have hin0 : InRange sgn bits 0 := by
      unfold InRange
      have h1 : (0 : Int) < 2 ^ bits := by positivity
      have h2 : (0 : Int) < 2 ^ (bits - 1) := by positivity
      split <;> omega
    rw [hs0, if_pos hin0]; rfl
  · obtain ⟨w, n⟩ := fromPattern_num_partial .nearest hd hp hp'
    rw [floatToInt_spec hd w hb, n]

example : floatToInt (fromPattern .nearest double 0xc02e8f5c28f5c28f) 8 true = some (.ok (-15)) := by decide +kernel
example : floatToInt (fromPattern .nearest single 0xcf000000) 32 true = some (.ok (-2147483648)) ∧
    floatToInt (fromPattern .nearest single 0x4f000000) 32 true = some .posOverflow := by decide +kernel

/-- `float_int_conversion_overflow_style_t`, include/libfirm/irmode.h -/
inductive Overflow
  | indefinite | minMax
  deriving DecidableEq

/-- `tarval_convert_to` for a floating point source and an integer mode, ir/tv/tv.c:591-617: the integer, or `none` for `tarval_bad` -/
def convert (o : Overflow) (a : Fp) (bits : Nat) (sgn : Bool) : Option Int :=
  let min : Int := if sgn then -2 ^ (bits - 1) else 0
  let max : Int := if sgn then 2 ^ (bits - 1) - 1 else 2 ^ bits - 1
  match floatToInt a bits sgn with
  | some .posOverflow => some (match o with | .indefinite => min | .minMax => max)
  | some .negOverflow => some min
  | some .bad => none
  | some (.ok v) => some v
  | none => none

/-- C50: with saturating overflow the conversion gives the nearest integer of the mode to the truncated value -/
theorem convert_saturates {d : Desc} (hd : Fmt d) {p : Nat} (hp : Canonical d p) {bits : Nat} (hb : 1 ≤ bits) (sgn : Bool) {s : Bool} {q : Nat}
    (hn : decode d.expSize d.em d.one p = .fin s q) :
    ∃ v, convert .minMax (fromPattern .nearest d p) bits sgn = some v ∧ InRange sgn bits v ∧
      ∀ w, InRange sgn bits w → (v - signed s (truncate d.expSize d.em q)).natAbs ≤ (w - signed s (truncate d.expSize d.em q)).natAbs := by
  unfold convert
  rw [floatToInt_pattern hd hp hb, hn]
  simp only [isInt]
  generalize hI : truncate d.expSize d.em q = I
  have h1 : (0 : Int) < 2 ^ bits := by positivity
  have h2 : (0 : Int) < 2 ^ (bits - 1) := by positivity
  by_cases hr : InRange sgn bits (signed s I)
  · rw [if_pos hr]
    exact ⟨_, rfl, hr, by intro w _; omega⟩
  · rw [if_neg hr]
    have hI0 : (0 : Int) ≤ I := by omega
    cases s with
    | true =>
      simp only [if_true]
      refine ⟨_, rfl, ?_, ?_⟩
      · unfold InRange; cases sgn <;> simp <;> omega
      · intro w hw
        unfold InRange signed at *
        cases sgn <;> simp at * <;> omega
    | false =>
      simp only [Bool.false_eq_true, if_false]
      refine ⟨_, rfl, ?_, ?_⟩
      · unfold InRange; cases sgn <;> simp <;> omega
      · intro w hw
        unfold InRange signed at *
        cases sgn <;> simp at * <;> omega

end Verif.Props.Flt
