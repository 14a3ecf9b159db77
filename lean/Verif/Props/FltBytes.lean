import Verif.Lemmas.FltPattern
/-!
# C44: bit patterns of floating point values
-/
namespace Verif.Props.Flt
open Verif.Model.Flt Verif.Spec.Flt

/-- a format of `fltcalc.c`: at least two exponent bits, at least one fraction bit -/
structure Fmt (d : Desc) : Prop where
  exp : 2 ≤ d.expSize
  frac : 1 ≤ d.em

theorem Fmt.size {d : Desc} (h : Fmt d) : d.one = true → 1 ≤ d.mantSize := by
  intro h1; have := h.frac; unfold Desc.em at this; omega

/-- IEEE double precision, single precision, half precision and the 80 bit format of the x87 -/
def double : Desc := ⟨11, 52, false⟩
def single : Desc := ⟨8, 23, false⟩
def half : Desc := ⟨5, 10, false⟩
def x87 : Desc := ⟨15, 64, true⟩

example : Fmt double ∧ Fmt single ∧ Fmt half ∧ Fmt x87 := ⟨⟨by decide, by decide⟩, ⟨by decide, by decide⟩, ⟨by decide, by decide⟩, ⟨by decide, by decide⟩⟩

/-- C44: reading a bit pattern (`fc_val_from_bytes`) and writing it back (`pack`, `fc_val_to_bytes`) gives the same pattern, for zeros,
subnormal and normal numbers, infinities and NaNs with all their payload bits, in every rounding mode.  With a stored leading bit the
pattern has to be canonical. -/
theorem pattern_round_trip (rm : Rnd) {d : Desc} (hd : Fmt d) {p : Nat} (hp : p < 2 ^ (d.mantSize + d.expSize + 1)) (hc : Canonical d p) :
    pack (fromPattern rm d p) = p := by
  have hel := expOf_lt d p
  have hfl : fracOf d p < 2 ^ d.mantSize := Nat.mod_lt _ (Nat.two_pow_pos _)
  have hpf := pattern_of_fields hp
  have done : ∀ v : Fp, v.desc = d → v.exp = (expOf d p : Int) → v.mant / 4 % 2 ^ d.mantSize = fracOf d p → v.sign = signOf d p → pack v = p := by
    intro v h1 h2 h3 h4
    have := pack_eq (v := v) (e := expOf d p) (f := fracOf d p) h2 (by rw [h1]; exact hel) (by rw [h1]; exact h3)
    rw [this, h1, h4]; exact hpf.symm
  by_cases h0 : expOf d p = 0
  · rw [fromPattern_small rm d hd.exp hd.size p hc h0]
    split
    · apply done _ rfl (by rw [h0]; rfl) _ rfl
      simp only [Nat.mul_div_cancel_left _ (show 0 < 4 by omega), Nat.mod_eq_of_lt hfl]
    · apply done _ rfl (by rw [h0]; rfl) _ rfl
      simp only [Nat.mul_div_cancel_left _ (show 0 < 4 by omega), Nat.mod_eq_of_lt hfl]
  · by_cases h1 : expOf d p = 2 ^ d.expSize - 1
    · rw [fromPattern_special rm d hd.exp hd.size p h1]
      split
      · rename_i h2
        apply done _ rfl rfl _ rfl
        simp only
        cases ho : d.one with
        | true =>
          simp only [if_true, Nat.mul_div_cancel_left _ (show 0 < 4 by omega), Nat.mod_eq_of_lt hfl]
        | false =>
          have e1 : d.mantSize = d.em := by rw [em_eq d hd.size, ho]; rfl
          rw [e1] at hfl ⊢
          rw [Nat.mod_eq_of_lt hfl] at h2
          simp only [Bool.false_eq_true, if_false, h2]
          rw [Nat.pow_add, Nat.mul_div_cancel _ (by omega), Nat.mod_self]
      · apply done _ rfl rfl _ rfl
        simp only [Nat.mul_div_cancel_left _ (show 0 < 4 by omega), Nat.mod_eq_of_lt hfl]
    · obtain ⟨h2, h3, h4⟩ := fromPattern_normal rm d hd.size p hc h0 h1
      rw [h2]
      apply done _ rfl rfl _ rfl
      simp only [Nat.mul_div_cancel_left _ (show 0 < 4 by omega)]
      unfold sigOf at *
      cases ho : d.one with
      | true => simp only [if_true, Nat.mod_eq_of_lt hfl]
      | false =>
        have e1 : d.mantSize = d.em := by rw [em_eq d hd.size, ho]; rfl
        rw [e1] at hfl ⊢
        simp only [Bool.false_eq_true, if_false, h0, Nat.add_mod_left, Nat.mod_eq_of_lt hfl]

/-- for formats with a hidden bit all patterns are canonical -/
theorem canonical_hidden {d : Desc} (h : d.one = false) (p : Nat) : Canonical d p := by
  intro h1; rw [h] at h1; cases h1

example : Canonical x87 0x3fff8000000000000000 ∧ pack (fromPattern .nearest x87 0x3fff8000000000000000) = 0x3fff8000000000000000 :=
  ⟨by intro _; decide +kernel, by decide +kernel⟩
example : pack (fromPattern .nearest double 0xfff4000000000123) = 0xfff4000000000123 := by decide +kernel

/-- a pattern without leading one is changed (a non-canonical 80 bit pattern for 0.5) -/
theorem pattern_unnormal_changed : pack (fromPattern .nearest x87 0x3fff4000000000000000) = 0x3ffe8000000000000000 := by decide +kernel

/-- the patterns that are taken for zero: subnormal numbers whose last 32 bits are zero -/
def TakenForZero (d : Desc) (p : Nat) : Prop := expOf d p = 0 ∧ fracOf d p ≠ 0 ∧ fracOf d p % 2 ^ 32 = 0

theorem not_taken_small {d : Desc} (hd : Fmt d) (h : d.em < 32) {p : Nat} (hc : Canonical d p) : ¬ TakenForZero d p := by
  rintro ⟨h1, h2, h3⟩
  obtain ⟨f1, f2⟩ := frac_lt d hd.size p
  have hf : fracOf d p < 2 ^ d.em := by
    cases ho : d.one with
    | false => exact f2 ho
    | true => have := hc ho; omega
  have : 2 ^ d.em ≤ 2 ^ 31 := Nat.pow_le_pow_right (by omega) (by omega)
  omega

/-- the value read from a pattern is well-formed and stands for the datum of the pattern, unless it is wrongly taken for zero -/
theorem fromPattern_num_partial (rm : Rnd) {d : Desc} (hd : Fmt d) {p : Nat} (hc : Canonical d p) (hz : ¬ TakenForZero d p) :
    Wf d (fromPattern rm d p) ∧ (fromPattern rm d p).num = decode d.expSize d.em d.one p := by
  obtain ⟨f1, f2⟩ := frac_lt d hd.size p
  have hel := expOf_lt d p
  have hE4 : 4 ≤ 2 ^ d.expSize := Nat.pow_le_pow_right (n := 2) (by omega) hd.exp
  have p2 : 2 ^ (d.em + 2) = 4 * 2 ^ d.em := by rw [Nat.pow_add]; ring
  have p3 : 2 ^ (d.em + 3) = 8 * 2 ^ d.em := by rw [Nat.pow_add]; ring
  have p1 : 2 ^ (d.em + 1) = 2 * 2 ^ d.em := by rw [Nat.pow_add]; ring
  have hcast : ((2 ^ d.expSize : Nat) : Int) = 2 ^ d.expSize := by push_cast; rfl
  have hdec : decode d.expSize d.em d.one p =
      if expOf d p = 2 ^ d.expSize - 1 then (if fracOf d p % 2 ^ d.em = 0 then .inf (signOf d p) else .nan)
      else if expOf d p = 0 then .fin (signOf d p) (fracOf d p)
      else .fin (signOf d p) ((if d.one then fracOf d p else 2 ^ d.em + fracOf d p) * 2 ^ (expOf d p - 1)) := by
    unfold decode
    simp only [← em_eq d hd.size]
    rfl
  rw [hdec]
  by_cases h0 : expOf d p = 0
  · rw [fromPattern_small rm d hd.exp hd.size p hc h0, if_neg (show ¬ expOf d p = 2 ^ d.expSize - 1 by omega), if_pos h0]
    have hf : fracOf d p < 2 ^ d.em := by
      cases ho : d.one with
      | false => exact f2 ho
      | true => have := hc ho; omega
    split
    · rename_i h
      have : fracOf d p = 0 := by
        by_contra hcn
        exact hz ⟨h0, hcn, by unfold valueSize at h; omega⟩
      rw [this]
      exact ⟨⟨rfl, rfl, rfl⟩, rfl⟩
    · rename_i h
      refine ⟨⟨rfl, rfl, by simp only; omega, ?_, by simp only; omega⟩, ?_⟩
      · simp only
        rcases Nat.eq_zero_or_pos (fracOf d p) with hc | hc
        · rw [hc] at h; simp at h
        · omega
      · simp [Fp.num]
  · by_cases h1 : expOf d p = 2 ^ d.expSize - 1
    · rw [fromPattern_special rm d hd.exp hd.size p h1, if_pos h1]
      have hex : (expOf d p : Int) = 2 ^ d.expSize - 1 := by omega
      split
      · rename_i h2
        refine ⟨⟨rfl, hex, ?_⟩, rfl⟩
        simp only
        cases ho : d.one with
        | true =>
          have := (hc ho).mpr h0
          obtain ⟨k, hk⟩ := Nat.dvd_of_mod_eq_zero h2
          have hk1 : k = 1 := by
            have a1 : 2 ^ d.em * k < 2 ^ d.em * 2 := by omega
            have a2 : k < 2 := Nat.lt_of_mul_lt_mul_left a1
            have a3 : k ≠ 0 := by
              intro h; rw [h] at hk; have := Nat.two_pow_pos d.em; omega
            omega
          rw [hk1] at hk
          simp only [if_true]; omega
        | false => rfl
      · rename_i h2
        refine ⟨⟨rfl, hex, ?_⟩, rfl⟩
        simp only [Nat.mul_div_cancel_left _ (show 0 < 4 by omega)]
        exact h2
    · obtain ⟨h2, h3, h4⟩ := fromPattern_normal rm d hd.size p hc h0 h1
      rw [h2, if_neg h1, if_neg h0]
      refine ⟨⟨rfl, ?_⟩, ?_⟩
      · simp only
        exact ⟨by omega, by omega, by omega, by omega, by omega⟩
      · simp only [Fp.num, Nat.mul_div_cancel_left _ (show 0 < 4 by omega)]
        congr 1
        have : ((expOf d p : Int) - 1).toNat = expOf d p - 1 := by omega
        rw [this]
        unfold sigOf
        simp [h0]

/-- witness: the double precision pattern of 2^32 quanta is read as zero -/
theorem fromPattern_num_wrong :
    decode 11 52 false 0x100000000 = .fin false (2 ^ 32) ∧ (fromPattern .nearest double 0x100000000).num = .fin false 0 := by decide +kernel

example : ¬ TakenForZero double 0x100000001 ∧ Canonical double 0x100000001 := ⟨by
  rintro ⟨_, _, h⟩; revert h; decide +kernel, canonical_hidden rfl _⟩

/-- writing a well-formed value gives a pattern of the datum it stands for -/
theorem pack_num {d : Desc} (hd : Fmt d) {v : Fp} (hv : Wf d v) : decode d.expSize d.em d.one (pack v) = v.num := by
  obtain ⟨hdesc, hcl⟩ := hv
  have hE4 : 4 ≤ 2 ^ d.expSize := Nat.pow_le_pow_right (n := 2) (by omega) hd.exp
  have p2 : 2 ^ (d.em + 2) = 4 * 2 ^ d.em := by rw [Nat.pow_add]; ring
  have p3 : 2 ^ (d.em + 3) = 8 * 2 ^ d.em := by rw [Nat.pow_add]; ring
  have p1 : 2 ^ (d.em + 1) = 2 * 2 ^ d.em := by rw [Nat.pow_add]; ring
  have pp := Nat.two_pow_pos d.em
  have hcast : ((2 ^ d.expSize : Nat) : Int) = 2 ^ d.expSize := by push_cast; rfl
  have hdec : ∀ p, decode d.expSize d.em d.one p =
      if expOf d p = 2 ^ d.expSize - 1 then (if fracOf d p % 2 ^ d.em = 0 then .inf (signOf d p) else .nan)
      else if expOf d p = 0 then .fin (signOf d p) (fracOf d p)
      else .fin (signOf d p) ((if d.one then fracOf d p else 2 ^ d.em + fracOf d p) * 2 ^ (expOf d p - 1)) := by
    intro p
    unfold decode
    simp only [← em_eq d hd.size]
    rfl
  have main : ∀ e : Nat, v.exp = e → e < 2 ^ d.expSize → decode d.expSize d.em d.one (pack v) =
      if e = 2 ^ d.expSize - 1 then (if v.mant / 4 % 2 ^ d.mantSize % 2 ^ d.em = 0 then .inf v.sign else .nan)
      else if e = 0 then .fin v.sign (v.mant / 4 % 2 ^ d.mantSize)
      else .fin v.sign ((if d.one then v.mant / 4 % 2 ^ d.mantSize else 2 ^ d.em + v.mant / 4 % 2 ^ d.mantSize) * 2 ^ (e - 1)) := by
    intro e he hlt
    have := pack_eq (v := v) (e := e) he (by rw [hdesc]; exact hlt) rfl
    rw [hdesc] at this
    obtain ⟨g1, g2, g3⟩ := fields_of (d := d) (f := v.mant / 4 % 2 ^ d.mantSize) (e := e) (s := v.sign) (Nat.mod_lt _ (Nat.two_pow_pos _)) hlt
    rw [hdec, this, g1, g2, g3]
  have hmod : v.mant / 4 % 2 ^ d.mantSize % 2 ^ d.em = v.mant / 4 % 2 ^ d.em := by
    apply Nat.mod_mod_of_dvd
    rw [em_eq d hd.size]
    split
    · exact ⟨2, by omega⟩
    · exact Nat.dvd_refl _
  have hsz : d.mantSize = d.em ∨ d.mantSize = d.em + 1 := by rw [em_eq d hd.size]; split <;> simp
  obtain ⟨c, hcl'⟩ : ∃ c, v.clss = c := ⟨_, rfl⟩
  rw [hcl'] at hcl
  unfold Fp.num
  rw [hcl']
  cases c with
  | zero =>
    obtain ⟨h1, h2⟩ := hcl
    rw [main 0 h1 (by omega), if_neg (by omega), if_pos rfl, h2]; simp
  | subnormal =>
    obtain ⟨h1, h2, h3, h4⟩ := hcl
    rw [main 0 h1 (by omega), if_neg (by omega), if_pos rfl, Nat.mod_eq_of_lt]
    rcases hsz with h | h <;> rw [h] <;> omega
  | inf =>
    obtain ⟨h1, h2⟩ := hcl
    rw [main (2 ^ d.expSize - 1) (by omega) (by omega), if_pos rfl, hmod, if_pos]
    rw [h2, p2, Nat.mul_div_cancel_left _ (by omega), Nat.mod_self]
  | nan =>
    obtain ⟨h1, h3⟩ := hcl
    rw [main (2 ^ d.expSize - 1) (by omega) (by omega), if_pos rfl, hmod, if_neg h3]
  | normal =>
    obtain ⟨h1, h2, h3, h4, h5⟩ := hcl
    obtain ⟨e, he⟩ : ∃ e : Nat, v.exp = e := ⟨v.exp.toNat, by omega⟩
    have hee : (v.exp - 1).toNat = e - 1 := by omega
    rw [main e he (by omega), if_neg (by omega), if_neg (by omega)]
    simp only [hee]
    congr 2
    have := em_eq d hd.size
    cases ho : d.one with
    | true =>
      rw [ho] at this
      simp only [if_true] at this ⊢
      rw [this, Nat.mod_eq_of_lt (by omega)]
    | false =>
      rw [ho] at this
      simp only [Bool.false_eq_true, if_false] at this ⊢
      rw [this]
      have : v.mant / 4 = 2 ^ d.em + (v.mant / 4 - 2 ^ d.em) := by omega
      rw [this, Nat.add_mod_left, Nat.mod_eq_of_lt (by omega)]

example : Wf half (fromPattern .nearest half 0x3e00) ∧ (fromPattern .nearest half 0x3e00).num = .fin false (3 * 2 ^ 23) :=
  ⟨(fromPattern_num_partial .nearest ⟨by decide, by decide⟩ (canonical_hidden rfl _)
    (not_taken_small ⟨by decide, by decide⟩ (by decide) (canonical_hidden rfl _))).1, by decide +kernel⟩

end Verif.Props.Flt
