import Verif.Lemmas.FltCalc
/-!
# Lemmas about bit patterns of soft floats
-/
namespace Verif.Model.Flt
open Verif.Spec.Flt

/-- the width of the stored significand -/
theorem em_eq (d : Desc) (h1 : d.one = true → 1 ≤ d.mantSize) : d.mantSize = if d.one then d.em + 1 else d.em := by
  unfold Desc.em
  cases h : d.one
  · simp
  · have := h1 h; simp; omega

/-- the fields of a pattern -/
def fracOf (d : Desc) (p : Nat) : Nat := p % 2 ^ d.mantSize
def expOf (d : Desc) (p : Nat) : Nat := p / 2 ^ d.mantSize % 2 ^ d.expSize
def signOf (d : Desc) (p : Nat) : Bool := p.testBit (d.expSize + d.mantSize)

/-- a stored leading bit is one exactly if the exponent is not zero -/
def Canonical (d : Desc) (p : Nat) : Prop := d.one = true → (2 ^ d.em ≤ fracOf d p ↔ expOf d p ≠ 0)

/-- the significand including a hidden bit -/
def sigOf (d : Desc) (p : Nat) : Nat := if d.one then fracOf d p else if expOf d p = 0 then fracOf d p else 2 ^ d.em + fracOf d p

theorem or_bit {f M : Nat} (h : f < 2 ^ M) : f * 4 ||| 2 ^ (2 + M) = 4 * (2 ^ M + f) := by
  have := Nat.two_pow_add_eq_or_of_lt (b := f * 4) (i := 2 + M) (by rw [Nat.pow_add]; omega) 1
  rw [Nat.mul_one] at this
  rw [Nat.or_comm, ← this, Nat.pow_add]; ring

theorem frac_lt (d : Desc) (h1 : d.one = true → 1 ≤ d.mantSize) (p : Nat) : fracOf d p < 2 ^ (d.em + 1) ∧ (d.one = false → fracOf d p < 2 ^ d.em) := by
  have h := Nat.mod_lt p (Nat.two_pow_pos d.mantSize)
  unfold fracOf
  rw [em_eq d h1] at *
  have p1 : 2 ^ (d.em + 1) = 2 * 2 ^ d.em := by rw [Nat.pow_add]; ring
  cases h : d.one <;> simp [h] at * <;> omega

theorem expOf_lt (d : Desc) (p : Nat) : expOf d p < 2 ^ d.expSize := Nat.mod_lt _ (Nat.two_pow_pos _)

theorem fromPattern_small (rm : Rnd) (d : Desc) (hE : 2 ≤ d.expSize) (h1 : d.one = true → 1 ≤ d.mantSize) (p : Nat) (hc : Canonical d p)
    (he : expOf d p = 0) :
    fromPattern rm d p = if 4 * fracOf d p % 2 ^ valueSize = 0 then ⟨d, .zero, signOf d p, 0, 4 * fracOf d p⟩
      else ⟨d, .subnormal, signOf d p, 0, 4 * fracOf d p⟩ := by
  obtain ⟨f1, f2⟩ := frac_lt d h1 p
  have hf : fracOf d p < 2 ^ d.em := by
    cases h : d.one with
    | false => exact f2 h
    | true =>
      have := hc h
      omega
  have hE4 : 4 ≤ 2 ^ d.expSize := Nat.pow_le_pow_right (n := 2) (by omega) hE
  unfold fromPattern
  simp only [show p % 2 ^ d.mantSize = fracOf d p from rfl, show p / 2 ^ d.mantSize % 2 ^ d.expSize = expOf d p from rfl,
    show p.testBit (d.expSize + d.mantSize) = signOf d p from rfl, he, if_true]
  rw [Nat.mul_comm]
  split
  · rfl
  · rename_i h
    have := normalize_exact rm d (signOf d p) (t := fracOf d p) (e := 1) (Nat.le_refl _) (by omega) f1 (Or.inl rfl) 1
    rw [Nat.pow_one, if_neg (by omega), if_neg h] at this
    rw [show ((0 : Nat) : Int) = ((1 : Nat) : Int) - ((1 : Nat) : Int) from rfl, this]

theorem fromPattern_normal (rm : Rnd) (d : Desc) (h1 : d.one = true → 1 ≤ d.mantSize) (p : Nat) (hc : Canonical d p)
    (he : expOf d p ≠ 0) (he2 : expOf d p ≠ 2 ^ d.expSize - 1) :
    fromPattern rm d p = ⟨d, .normal, signOf d p, expOf d p, 4 * sigOf d p⟩ ∧ 2 ^ d.em ≤ sigOf d p ∧ sigOf d p < 2 ^ (d.em + 1) := by
  obtain ⟨f1, f2⟩ := frac_lt d h1 p
  have p1 : 2 ^ (d.em + 1) = 2 * 2 ^ d.em := by rw [Nat.pow_add]; ring
  have hs : 2 ^ d.em ≤ sigOf d p ∧ sigOf d p < 2 ^ (d.em + 1) := by
    unfold sigOf
    cases h : d.one with
    | false => have := f2 h; simp only [Bool.false_eq_true, if_false, he]; omega
    | true => have := hc h; simp only [if_true]; omega
  have hlt := expOf_lt d p
  refine ⟨?_, hs⟩
  unfold fromPattern
  simp only [show p % 2 ^ d.mantSize = fracOf d p from rfl, show p / 2 ^ d.mantSize % 2 ^ d.expSize = expOf d p from rfl,
    show p.testBit (d.expSize + d.mantSize) = signOf d p from rfl, he, he2, if_false]
  have hm : (if d.one = true then fracOf d p * 4 else fracOf d p * 4 ||| 2 ^ (2 + d.mantSize)) = 4 * sigOf d p := by
    unfold sigOf
    cases h : d.one with
    | false =>
      have e1 : d.mantSize = d.em := by rw [em_eq d h1, h]; rfl
      simp only [Bool.false_eq_true, if_false, he, e1]
      exact or_bit (f2 h)
    | true => simp only [if_true]; ring
  rw [hm]
  have := normalize_exact rm d (signOf d p) (t := sigOf d p) (e := expOf d p) (by omega) (by omega) hs.2 (Or.inr hs.1) 0
  rw [Nat.pow_zero, Nat.mul_one, if_pos hs.1] at this
  rw [show (expOf d p : Int) - ((0 : Nat) : Int) = (expOf d p : Int) by omega] at this
  rw [this]

theorem fromPattern_special (rm : Rnd) (d : Desc) (hE : 2 ≤ d.expSize) (h1 : d.one = true → 1 ≤ d.mantSize) (p : Nat)
    (he : expOf d p = 2 ^ d.expSize - 1) :
    fromPattern rm d p =
      if fracOf d p % 2 ^ d.em = 0 then ⟨d, .inf, signOf d p, expOf d p, if d.one then 4 * fracOf d p else 2 ^ (d.em + 2)⟩
      else ⟨d, .nan, signOf d p, expOf d p, 4 * fracOf d p⟩ := by
  obtain ⟨f1, f2⟩ := frac_lt d h1 p
  have hE4 : 4 ≤ 2 ^ d.expSize := Nat.pow_le_pow_right (n := 2) (by omega) hE
  have hsz : d.mantSize + 2 - (if d.one then 1 else 0) = 2 + d.em := by
    have := em_eq d h1
    cases h : d.one <;> simp [h] at this ⊢ <;> omega
  unfold fromPattern
  simp only [show p % 2 ^ d.mantSize = fracOf d p from rfl, show p / 2 ^ d.mantSize % 2 ^ d.expSize = expOf d p from rfl,
    show p.testBit (d.expSize + d.mantSize) = signOf d p from rfl, hsz]
  rw [if_neg (by omega), if_pos he, Nat.pow_add, Nat.mul_comm (fracOf d p) 4, Nat.mul_mod_mul_left]
  have hiff : 4 * (fracOf d p % 2 ^ d.em) = 0 ↔ fracOf d p % 2 ^ d.em = 0 := by omega
  simp only [hiff]
  split
  · rename_i h0
    congr 1
    cases h : d.one with
    | false =>
      have hlt := f2 h
      rw [Nat.mod_eq_of_lt hlt] at h0
      have e1 : d.mantSize = d.em := by rw [em_eq d h1, h]; rfl
      simp [h0, e1, Nat.add_comm]
    | true => simp
  · rfl

theorem pack_eq {v : Fp} {e f : Nat} (he : v.exp = e) (hlt : e < 2 ^ v.desc.expSize) (hf : v.mant / 4 % 2 ^ v.desc.mantSize = f) :
    pack v = f + e * 2 ^ v.desc.mantSize + (if v.sign then 2 ^ (v.desc.mantSize + v.desc.expSize) else 0) := by
  have hfl : f < 2 ^ v.desc.mantSize := by rw [← hf]; exact Nat.mod_lt _ (Nat.two_pow_pos _)
  unfold pack
  simp only [he, hf, Int.toNat_natCast]
  have h1 := Nat.two_pow_add_eq_or_of_lt hfl e
  rw [Nat.or_comm f, Nat.mul_comm e, ← h1]
  have hb : 2 ^ v.desc.mantSize * e + f < 2 ^ (v.desc.mantSize + v.desc.expSize) := by
    have : 2 ^ v.desc.mantSize * (e + 1) ≤ 2 ^ v.desc.mantSize * 2 ^ v.desc.expSize := Nat.mul_le_mul_left _ hlt
    rw [← Nat.pow_add, Nat.mul_add] at this
    omega
  rw [Nat.mod_eq_of_lt hb]
  split
  · have h2 := Nat.two_pow_add_eq_or_of_lt hb 1
    rw [Nat.mul_one] at h2
    rw [Nat.or_comm, ← h2]; omega
  · omega

theorem fields_of {d : Desc} {f e : Nat} {s : Bool} (hf : f < 2 ^ d.mantSize) (he : e < 2 ^ d.expSize) :
    fracOf d (f + e * 2 ^ d.mantSize + (if s then 2 ^ (d.mantSize + d.expSize) else 0)) = f ∧
    expOf d (f + e * 2 ^ d.mantSize + (if s then 2 ^ (d.mantSize + d.expSize) else 0)) = e ∧
    signOf d (f + e * 2 ^ d.mantSize + (if s then 2 ^ (d.mantSize + d.expSize) else 0)) = s := by
  have hx : f + e * 2 ^ d.mantSize + (if s then 2 ^ (d.mantSize + d.expSize) else 0) = 2 ^ d.mantSize * (e + 2 ^ d.expSize * (if s then 1 else 0)) + f := by
    cases s <;> simp [Nat.pow_add] <;> ring
  have hdiv : (2 ^ d.mantSize * (e + 2 ^ d.expSize * (if s then 1 else 0)) + f) / 2 ^ d.mantSize = 2 ^ d.expSize * (if s then 1 else 0) + e := by
    rw [Nat.mul_add_div (Nat.two_pow_pos _), Nat.div_eq_of_lt hf]; omega
  rw [hx]
  refine ⟨?_, ?_, ?_⟩
  · unfold fracOf; rw [Nat.mul_add_mod, Nat.mod_eq_of_lt hf]
  · unfold expOf; rw [hdiv, Nat.mul_add_mod, Nat.mod_eq_of_lt he]
  · unfold signOf
    rw [Nat.testBit_eq_decide_div_mod_eq, Nat.add_comm d.expSize, Nat.pow_add, ← Nat.div_div_eq_div_mul, hdiv, Nat.mul_add_div (Nat.two_pow_pos _), Nat.div_eq_of_lt he]
    cases s <;> simp

theorem pattern_of_fields {d : Desc} {p : Nat} (hp : p < 2 ^ (d.mantSize + d.expSize + 1)) :
    p = fracOf d p + expOf d p * 2 ^ d.mantSize + (if signOf d p then 2 ^ (d.mantSize + d.expSize) else 0) := by
  have h1 := Nat.div_add_mod p (2 ^ d.mantSize)
  have h2 := Nat.div_add_mod (p / 2 ^ d.mantSize) (2 ^ d.expSize)
  rw [Nat.div_div_eq_div_mul, ← Nat.pow_add] at h2
  have h3 : p / 2 ^ (d.mantSize + d.expSize) < 2 := by
    rw [Nat.div_lt_iff_lt_mul (Nat.two_pow_pos _), Nat.mul_comm, ← Nat.pow_succ]; exact hp
  have h4 : p / 2 ^ (d.mantSize + d.expSize) = if signOf d p then 1 else 0 := by
    unfold signOf
    rw [Nat.testBit_eq_decide_div_mod_eq, Nat.add_comm d.expSize]
    generalize p / 2 ^ (d.mantSize + d.expSize) = y at h3 ⊢
    have : y = 0 ∨ y = 1 := by omega
    rcases this with rfl | rfl <;> rfl
  rw [h4] at h2
  unfold fracOf expOf
  rw [Nat.pow_add]
  generalize p / 2 ^ d.mantSize = x at *
  generalize signOf d p = s at *
  subst_vars
  conv => lhs; rw [← h1, ← h2]
  cases s <;> simp <;> ring

end Verif.Model.Flt
