import Verif.Props.IntDiv
import Verif.Props.IntBitwise
/-!
# C05: constant shifts

The specification of the effective amount is `effShift`; the results are
`x * 2^s` wrapped, `(x mod 2^n) / 2^s` (the logical shift of the pattern)
wrapped, and `⌊x' / 2^s⌋` for the signed reading `x'` of the pattern.
-/
namespace Verif.Props
open Verif.Spec Verif.Model

/-- The effective shift amount: reduced by the modulo-shift of the mode if
that is not zero. -/
def effShift (modulo : Nat) (y : Nat) : Nat := if modulo ≠ 0 then y % modulo else y

theorem shiftAmount_eq {E : TvEnv} (env : EnvOk E) {md mb : Mode} {q : List Nat} {y : Nat}
    (hmod : md.modulo < 2 ^ 32) (hb : Denotes E (.int mb q) mb (y : Int)) (hy : md.modulo = 0 → y < 2 ^ 32) :
    tvShiftAmount E md q = some (effShift md.modulo y) := by
  have hm : 5 ≤ E.m := env
  have hbx := denotes_abs hb
  rw [abs_of_nonneg (by omega)] at hbx
  obtain ⟨q', e, lq, bq, sq⟩ := hb.repr
  cases e
  have hfin : ∀ (t : List Nat) (s : Nat), t.length = 2 * E.m → Bytes t → svalue t = (s : Int) → s < 2 ^ 32 →
      (if scToLong t < 0 then none else some ((scToLong t).toNat % 2 ^ 32)) = some s := by
    intro t s lt bt st hs
    rw [scToLong_eq bt (by omega), st]
    have : ((s : Nat) : Int).bmod (2 ^ 64) = s := by
      rw [Int.bmod_eq_of_le] <;> omega
    rw [this, if_neg (by omega), Int.toNat_natCast, Nat.mod_eq_of_lt hs]
  unfold tvShiftAmount effShift
  by_cases h0 : md.modulo = 0
  · rw [if_neg (by simp [h0]), if_neg (by simp [h0])]
    exact hfin q y lq bq sq (hy h0)
  · rw [if_pos h0, if_pos h0]
    have lm := scFromUlong_length (2 * E.m) md.modulo
    have bm := scFromUlong_bytes (2 * E.m) md.modulo
    have hbig : 2 ^ 40 ≤ 2 ^ (8 * (2 * E.m) - 1) := Nat.pow_le_pow_right (by decide) (by omega)
    have hbig2 : 2 ^ 32 ≤ 256 ^ (2 * E.m) := by
      rw [pow256]; exact Nat.pow_le_pow_right (by decide) (by omega)
    have hvm : value (scFromUlong (2 * E.m) md.modulo) = md.modulo := by
      rw [scFromUlong_value, Nat.mod_eq_of_lt (by omega)]
    have hsm : svalue (scFromUlong (2 * E.m) md.modulo) = (md.modulo : Int) := by
      rw [svalue_of_nonneg (by omega) (by rw [hvm, lm]; omega), hvm]
    have h256 : 256 * 256 ^ E.m ≤ 2 ^ (8 * (2 * E.m) - 1) := by
      rw [pow256, show 256 = 2 ^ 8 by rfl, ← Nat.pow_add]; exact Nat.pow_le_pow_right (by decide) (by omega)
    obtain ⟨qu, re, h, l1, l2, b1, b2, s1, s2⟩ := scDivmod_spec (a := q) (b := scFromUlong (2 * E.m) md.modulo)
      (by omega) (by omega) bq bm (by rw [sq, lq]; omega)
      (by rw [hsm, lq, abs_of_nonneg (by omega)]; omega) (by rw [hsm]; omega)
    rw [h]
    have hlt := Nat.mod_lt y (Nat.pos_of_ne_zero h0)
    exact hfin re (y % md.modulo) (by omega) b2 (by rw [s2, sq, hsm, Int.tmod_eq_emod_of_nonneg (by omega)]; norm_cast) (by omega)

/-! ## the kernels -/

theorem shl_denotes {E : TvEnv} {md : Mode} {p : List Nat} {x : Int} (ha : Denotes E (.int md p) md x) (s : Nat) :
    Denotes E (getIntTarval (scShlI p s) md) md (wrap md.signed md.bits (x * 2 ^ s)) := by
  have ok := ha.ok
  have hlt := modeOk_lt ok
  obtain ⟨p', e, lp, bp, sp⟩ := ha.repr
  cases e
  apply getIntTarval_denotes_of_emod ok (by rw [scShlI_length, lp]) (scShlI_bytes bp s)
  have h1 := svalue_emod (scShlI p s)
  rw [scShlI_value bp, scShlI_length, pow256, ← two_pow_cast] at h1
  have h2 := svalue_emod p
  rw [sp, pow256, ← two_pow_cast] at h2
  have hd : (2:Int) ^ md.bits ∣ 2 ^ (8 * p.length) := pow_dvd_pow 2 (by omega)
  rw [← Int.emod_emod_of_dvd _ hd, h1, ← Int.emod_emod_of_dvd (x * 2 ^ s) hd, Int.mul_emod x, h2, ← Int.mul_emod]
  congr 1
  rw [Int.natCast_emod, ← two_pow_cast]
  push_cast
  rw [Int.emod_emod_of_dvd _ (dvd_refl _)]

theorem shr_denotes {E : TvEnv} {md : Mode} {p : List Nat} {x : Int} (ha : Denotes E (.int md p) md x) (s : Nat) :
    Denotes E (getIntTarval (scShrI (scZeroExtend p md.bits) s).1 md) md
      (wrap md.signed md.bits (x % 2 ^ md.bits / 2 ^ s)) := by
  have ok := ha.ok
  have hlt := modeOk_lt ok
  obtain ⟨p', e, lp, bp, sp⟩ := ha.repr
  cases e
  have bz := scZeroExtend_bytes bp md.bits
  apply getIntTarval_denotes_of_emod ok (by rw [scShrI_length, scZeroExtend_length, lp]) (scShrI_bytes bz s)
  have hz := scZeroExtend_value bp md.bits
  have hv : (value (scZeroExtend p md.bits) : Int) = x % 2 ^ md.bits := by
    rw [hz, Int.natCast_emod, ← two_pow_cast, value_eq_svalue_emod bp, sp,
      Int.emod_emod_of_dvd _ (pow_dvd_pow 2 (by omega))]
  have hpos : 0 < 2 ^ md.bits := by positivity
  have hsmall : value (scShrI (scZeroExtend p md.bits) s).1 < 2 ^ (8 * (scShrI (scZeroExtend p md.bits) s).1.length - 1) := by
    rw [scShrI_value bz, scShrI_length, scZeroExtend_length, hz]
    have h1 := Nat.div_le_self (value p % 2 ^ md.bits) (2 ^ s)
    have h2 := Nat.mod_lt (value p) hpos
    have h3 : 2 ^ md.bits ≤ 2 ^ (8 * p.length - 1) := Nat.pow_le_pow_right (by decide) (by omega)
    omega
  rw [svalue_of_nonneg (by rw [scShrI_length, scZeroExtend_length]; omega) hsmall, scShrI_value bz, Int.natCast_ediv, hv,
    ← two_pow_cast]

/-- the signed reading of the `n`-bit pattern, shifted: bit `i` is bit
`min (i+s) (n-1)` -/
theorem ibit_floor_shift {b : Nat} (hb : 0 < b) (x : Int) (s : Nat) {i : Nat} :
    ibit ((wrap true b x) / 2 ^ s) i = ibit x (min (i + s) (b - 1)) := by
  have h1 : ibit ((wrap true b x) / 2 ^ s) i = ibit (wrap true b x) (i + s) := by
    unfold ibit
    rw [Int.ediv_ediv_of_nonneg (by positivity), ← pow_add, Nat.add_comm]
  rw [h1]
  have hr := wrap_inRange true hb x
  unfold InRange at hr
  simp only [if_true] at hr
  by_cases h : i + s < b
  · rw [ibit_wrap_lt h, Nat.min_eq_left (by omega)]
  · rw [Nat.min_eq_right (by omega), ← ibit_wrap_lt (s := true) (b := b) (i := b - 1) (x := x) (by omega)]
    have hp : (2:Int) ^ (b - 1) ≤ 2 ^ (i + s) := pow_le_pow_right₀ (by decide) (by omega)
    by_cases hn : wrap true b x < 0
    · rw [ibit_ge_neg hn (by omega), ibit_ge_neg hn (by omega)]
    · rw [ibit_ge_nonneg (by omega) (by omega), ibit_ge_nonneg (by omega) (by omega)]

theorem emod_eq_of_ibit {b : Nat} {x y : Int} (h : ∀ i, i < b → ibit x i = ibit y i) : x % 2 ^ b = y % 2 ^ b := by
  apply ibit_ext
  intro i
  by_cases hi : i < b
  · rw [ibit_emod hi, ibit_emod hi, h i hi]
  · rw [ibit_emod_ge (by omega), ibit_emod_ge (by omega)]

theorem shrs_denotes {E : TvEnv} {md : Mode} {p : List Nat} {x : Int} {s : Nat} {r : List Nat × Bool}
    (ha : Denotes E (.int md p) md x) (hr : scShrsI p s md.bits = some r) :
    Denotes E (getIntTarval r.1 md) md (wrap md.signed md.bits (wrap true md.bits x / 2 ^ s)) := by
  have ok := ha.ok
  have hlt := modeOk_lt ok
  obtain ⟨p', e, lp, bp, sp⟩ := ha.repr
  cases e
  obtain ⟨hl, hb, ht⟩ := scShrsI_some hr bp ok.pos (by omega)
  apply getIntTarval_denotes_of_emod ok (by omega) hb
  apply emod_eq_of_ibit
  intro i hi
  rw [ibit_of_buf ok (by omega) hb hi, ht i (by omega), ibit_floor_shift ok.pos, ← sp,
    ibit_of_buf ok lp bp (by have := ok.pos; omega)]

/-! ## C05 -/

/-- C05: `tarval_shl`.  Partial: the amount is passed through an `unsigned`
(strcalc.c:838, `sc_shlI(val1, (unsigned)shift_count, ...)`), so when the mode
has no modulo-shift the statement needs an amount below `2^32`
(`tarval_shl_truncates` shows that it fails beyond). -/
theorem tarval_shl_spec_partial {E : TvEnv} (env : EnvOk E) {a b : TarVal} {md mb : Mode} {x : Int} {y : Nat}
    (hmod : md.modulo < 2 ^ 32) (hy : md.modulo = 0 → y < 2 ^ 32)
    (ha : Denotes E a md x) (hb : Denotes E b mb (y : Int)) :
    ∃ r, tarvalShl E a b = some r ∧
      Denotes E r md (wrap md.signed md.bits (x * 2 ^ effShift md.modulo y)) := by
  have okb := hb.ok
  obtain ⟨p, rfl, lp, bp, sp⟩ := ha.repr
  obtain ⟨q, rfl, lq, bq, sq⟩ := hb.repr
  refine ⟨_, ?_, shl_denotes ha _⟩
  unfold tarvalShl
  simp only [ha.ok.twos, okb.twos, Bool.and_true, if_true, shiftAmount_eq env hmod hb hy]
  rfl

/-- C05: `tarval_shr`: the logical shift of the bit pattern. Partial as above. -/
theorem tarval_shr_spec_partial {E : TvEnv} (env : EnvOk E) {a b : TarVal} {md mb : Mode} {x : Int} {y : Nat}
    (hmod : md.modulo < 2 ^ 32) (hy : md.modulo = 0 → y < 2 ^ 32)
    (ha : Denotes E a md x) (hb : Denotes E b mb (y : Int)) :
    ∃ r, tarvalShr E a b = some r ∧
      Denotes E r md (wrap md.signed md.bits (x % 2 ^ md.bits / 2 ^ effShift md.modulo y)) := by
  have okb := hb.ok
  obtain ⟨p, rfl, lp, bp, sp⟩ := ha.repr
  obtain ⟨q, rfl, lq, bq, sq⟩ := hb.repr
  refine ⟨_, ?_, shr_denotes ha _⟩
  unfold tarvalShr
  simp only [ha.ok.twos, okb.twos, Bool.and_true, if_true, shiftAmount_eq env hmod hb hy]
  rfl

/-- C05: `tarval_shrs`: floor division of the signed reading of the pattern,
for sizes that are a multiple of eight (otherwise the function asserts). Partial as above. -/
theorem tarval_shrs_spec_partial {E : TvEnv} (env : EnvOk E) {a b : TarVal} {md mb : Mode} {x : Int} {y : Nat}
    (hmod : md.modulo < 2 ^ 32) (hy : md.modulo = 0 → y < 2 ^ 32) (h8 : md.bits % 8 = 0)
    (ha : Denotes E a md x) (hb : Denotes E b mb (y : Int)) :
    ∃ r, tarvalShrs E a b = some r ∧
      Denotes E r md (wrap md.signed md.bits (wrap true md.bits x / 2 ^ effShift md.modulo y)) := by
  have okb := hb.ok
  obtain ⟨p, rfl, lp, bp, sp⟩ := ha.repr
  obtain ⟨q, rfl, lq, bq, sq⟩ := hb.repr
  obtain ⟨r, hr⟩ := Option.isSome_iff_exists.1 (scShrsI_isSome (v := p) (c := effShift md.modulo y) h8)
  refine ⟨_, ?_, shrs_denotes ha hr⟩
  unfold tarvalShrs
  simp only [ha.ok.twos, okb.twos, Bool.and_true, if_true, shiftAmount_eq env hmod hb hy, hr]
  rfl

/-- C05: the `_unsigned` variants hold for every amount. -/
theorem tarval_shl_unsigned_spec {E : TvEnv} {a : TarVal} {md : Mode} {x : Int} (ha : Denotes E a md x) (y : Nat) :
    ∃ r, tarvalShlUnsigned a y = some r ∧
      Denotes E r md (wrap md.signed md.bits (x * 2 ^ effShift md.modulo y)) := by
  obtain ⟨p, rfl, lp, bp, sp⟩ := ha.repr
  exact ⟨_, by unfold tarvalShlUnsigned; simp only [ha.ok.twos, if_true]; rfl, shl_denotes ha _⟩

theorem tarval_shr_unsigned_spec {E : TvEnv} {a : TarVal} {md : Mode} {x : Int} (ha : Denotes E a md x) (y : Nat) :
    ∃ r, tarvalShrUnsigned a y = some r ∧
      Denotes E r md (wrap md.signed md.bits (x % 2 ^ md.bits / 2 ^ effShift md.modulo y)) := by
  obtain ⟨p, rfl, lp, bp, sp⟩ := ha.repr
  exact ⟨_, by unfold tarvalShrUnsigned; simp only [ha.ok.twos, if_true]; rfl, shr_denotes ha _⟩

theorem tarval_shrs_unsigned_spec {E : TvEnv} {a : TarVal} {md : Mode} {x : Int} (ha : Denotes E a md x)
    (h8 : md.bits % 8 = 0) (y : Nat) :
    ∃ r, tarvalShrsUnsigned a y = some r ∧
      Denotes E r md (wrap md.signed md.bits (wrap true md.bits x / 2 ^ effShift md.modulo y)) := by
  obtain ⟨p, rfl, lp, bp, sp⟩ := ha.repr
  obtain ⟨r, hr⟩ := Option.isSome_iff_exists.1 (scShrsI_isSome (v := p) (c := effShift md.modulo y) h8)
  refine ⟨_, ?_, shrs_denotes ha hr⟩
  unfold tarvalShrsUnsigned
  simp only [ha.ok.twos, if_true]
  unfold effShift at hr
  rw [hr]; rfl

/-! ### oversized amounts -/

/-- C05: the specified results for amounts of at least the size of the mode
are 0, 0 and the sign fill. -/
theorem oversized_shift (s : Bool) {b t : Nat} (h : b ≤ t) (x : Int) :
    wrap s b (x * 2 ^ t) = wrap s b 0 ∧ x % 2 ^ b / 2 ^ t = 0 ∧
    wrap true b x / 2 ^ t = if wrap true b x < 0 then -1 else 0 := by
  refine ⟨?_, ?_, ?_⟩
  · apply wrap_of_emod_eq
    obtain ⟨k, rfl⟩ := Nat.exists_eq_add_of_le h
    rw [pow_add, ← mul_assoc, mul_comm x, mul_assoc, Int.mul_emod_right]; simp
  · apply Int.ediv_eq_zero_of_lt (Int.emod_nonneg _ (by positivity))
    exact lt_of_lt_of_le (Int.emod_lt_of_pos _ (by positivity)) (pow_le_pow_right₀ (by decide) h)
  · have hp : (0:Int) < 2 ^ b := by positivity
    have hbt : (2:Int) ^ b ≤ 2 ^ t := pow_le_pow_right₀ (by decide) h
    have hbd : -(2:Int) ^ b ≤ wrap true b x ∧ wrap true b x < 2 ^ b := by
      unfold wrap
      simp only [if_true]
      have h1 := Int.le_bmod (x := x) (m := 2 ^ b) (by positivity)
      have h2 := Int.bmod_lt (x := x) (m := 2 ^ b) (by positivity)
      rw [two_pow_cast] at *
      constructor <;> omega
    generalize wrap true b x = z at *
    split
    · next hn =>
      have : z / 2 ^ t = (z + 2 ^ t) / 2 ^ t - 1 := by
        rw [show z + 2 ^ t = z + 1 * 2 ^ t by ring, Int.add_mul_ediv_right _ _ (by positivity)]; ring
      rw [this, Int.ediv_eq_zero_of_lt (by omega) (by omega)]; rfl
    · exact Int.ediv_eq_zero_of_lt (by omega) (by omega)

/-- a 64-bit mode without modulo-shift -/
def modeLuNoModulo : Mode := ⟨20, .intNumber, 64, false, 0⟩

/-- Finding: shifting `1` left by `2^32` in a mode without modulo-shift yields
`1` (the amount is truncated to 32 bits), not `0`. -/
theorem tarval_shl_truncates :
    (newTarvalFromLong TvEnv.default 1 modeLuNoModulo).bind (fun a =>
      (newTarvalFromLong TvEnv.default (2 ^ 32) modeLuNoModulo).bind (fun b => tarvalShl TvEnv.default a b))
    = newTarvalFromLong TvEnv.default 1 modeLuNoModulo := by decide +kernel

/-- A negative amount that is not a multiple of the modulo hits the assertion
`shift_count >= 0` (strcalc.c:838). -/
theorem tarval_shl_negative_asserts :
    (newTarvalFromLong TvEnv.default 1 modeIs).bind (fun a =>
      (newTarvalFromLong TvEnv.default (-1) modeIs).bind (fun b => tarvalShl TvEnv.default a b)) = none := by
  decide +kernel

/-- non-vacuity: 200 shifted by 200 (effective amount 8) in an 8-bit mode. -/
example : ∃ r, tarvalShr TvEnv.default (.int modeBu (200 :: scZero 33)) (.int modeBu (200 :: scZero 33)) = some r ∧
    Denotes TvEnv.default r modeBu (wrap false 8 (200 % 2 ^ 8 / 2 ^ effShift 32 200)) :=
  tarval_shr_spec_partial envOk_default (by decide) (by decide) denotes_example denotes_example

/-- -7 >>s 1 = -4. -/
example : (newTarvalFromLong TvEnv.default (-7) modeIs).bind (fun a => tarvalShrsUnsigned a 33)
    = newTarvalFromLong TvEnv.default (-4) modeIs := by decide +kernel

end Verif.Props
