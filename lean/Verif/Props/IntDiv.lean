import Verif.Props.IntArith
/-!
# C04: integer division

The specification uses `Int.tdiv`/`Int.tmod` (truncated division of the
standard library) and, independently, the characterisation by the division
identity with the remainder's sign and magnitude.
-/
namespace Verif.Props
open Verif.Spec Verif.Model

/-- dividing two buffers holding values of an admissible mode -/
theorem divmod_buf {E : TvEnv} (env : EnvOk E) {p q : List Nat} {x y : Int} {ma mb : Mode}
    (ha : Denotes E (.int ma p) ma x) (hb : Denotes E (.int mb q) mb y) (hy : y ≠ 0) :
    ∃ qu re f, scDivmod p q = some (qu, re, f) ∧ qu.length = 2 * E.m ∧ re.length = 2 * E.m ∧ Bytes qu ∧ Bytes re ∧
      svalue qu = x.tdiv y ∧ svalue re = x.tmod y := by
  have hax := abs_lt.1 (denotes_abs ha)
  have hbx := denotes_abs hb
  obtain ⟨p', e, lp, bp, sp⟩ := ha.repr
  cases e
  obtain ⟨q', e, lq, bq, sq⟩ := hb.repr
  cases e
  have hm : 5 ≤ E.m := env
  have hbig : 256 * 256 ^ E.m ≤ 2 ^ (8 * (2 * E.m) - 1) := by
    rw [pow256, show 256 = 2 ^ 8 by rfl, ← Nat.pow_add]; exact Nat.pow_le_pow_right (by decide) (by omega)
  obtain ⟨qu, re, h, l1, l2, b1, b2, s1, s2⟩ := scDivmod_spec (a := p) (b := q) (by omega) (by omega) bp bq
    (by rw [sp, lp]; omega) (by rw [sq, lp]; omega) (by omega)
  exact ⟨qu, re, _, h, by omega, by omega, b1, b2, by rw [s1, sp, sq], by rw [s2, sp, sq]⟩

/-- the comparison `b == get_mode_null(mode)` is the test for zero -/
theorem eq_null_iff {E : TvEnv} {b : TarVal} {md : Mode} {y : Int} (hb : Denotes E b md y) :
    b = modeNull E md ↔ y = 0 := by
  constructor
  · intro h; rw [h] at hb; exact denotes_fun hb (modeNull_denotes hb.ok)
  · intro h; rw [h] at hb; exact denotes_unique hb (modeNull_denotes hb.ok)

theorem tmod_nonpos {x : Int} (y : Int) (h : x ≤ 0) : x.tmod y ≤ 0 := by
  have := Int.tmod_nonneg y (a := -x) (by omega)
  rw [Int.neg_tmod] at this; omega

theorem tmod_inRange {s : Bool} {b : Nat} {x y : Int} (hb : 0 < b) (hx : InRange s b x) : InRange s b (x.tmod y) := by
  have hxx : |x.tmod y| ≤ |x| := by
    rw [Int.abs_eq_natAbs, Int.abs_eq_natAbs, Int.natAbs_tmod]
    exact_mod_cast Nat.mod_le _ _
  have hs : 0 ≤ x → 0 ≤ x.tmod y := fun h => Int.tmod_nonneg y h
  have hs2 : x ≤ 0 → x.tmod y ≤ 0 := fun h => tmod_nonpos y h
  unfold InRange at *
  cases s with
  | false =>
    simp only [Bool.false_eq_true, if_false] at *
    have := hs hx.1
    rw [abs_of_nonneg hx.1, abs_of_nonneg this] at hxx
    omega
  | true =>
    simp only [if_true] at *
    rcases le_total 0 x with h | h
    · have := hs h; rw [abs_of_nonneg h, abs_of_nonneg this] at hxx; omega
    · have := hs2 h; rw [abs_of_nonpos h, abs_of_nonpos this] at hxx; omega

/-- C04: a zero divisor yields `tarval_bad`. -/
theorem tarval_div_zero {E : TvEnv} {a b : TarVal} {md : Mode} {x : Int} (ha : Denotes E a md x) (hb : Denotes E b md 0) :
    tarvalDiv E a b = some .bad ∧ tarvalMod E a b = some .bad ∧ tarvalDivmod E a b = some (.bad, none) := by
  have h0 := (eq_null_iff hb).2 rfl
  have ok := ha.ok
  obtain ⟨p, rfl, lp, bp, sp⟩ := ha.repr
  obtain ⟨q, rfl, lq, bq, sq⟩ := hb.repr
  unfold tarvalDiv tarvalMod tarvalDivmod
  simp [TarVal.mode, ok.twos, h0]

/-- C04: division truncates; remainder takes the sign of the dividend.  The
quotient is wrapped, the remainder is always representable. -/
theorem tarval_divmod_spec {E : TvEnv} (env : EnvOk E) {a b : TarVal} {md : Mode} {x y : Int}
    (ha : Denotes E a md x) (hb : Denotes E b md y) (hy : y ≠ 0) :
    ∃ q r, tarvalDiv E a b = some q ∧ tarvalMod E a b = some r ∧ tarvalDivmod E a b = some (q, some r) ∧
      Denotes E q md (wrap md.signed md.bits (x.tdiv y)) ∧ Denotes E r md (x.tmod y) := by
  have h0 : b ≠ modeNull E md := fun h => hy ((eq_null_iff hb).1 h)
  have ok := ha.ok
  have hr := tmod_inRange (y := y) ok.pos ha.inRange
  obtain ⟨p, rfl, lp, bp, sp⟩ := ha.repr
  obtain ⟨q, rfl, lq, bq, sq⟩ := hb.repr
  obtain ⟨qu, re, f, h, l1, l2, b1, b2, s1, s2⟩ := divmod_buf env ha hb hy
  refine ⟨getIntTarval qu md, getIntTarval re md, ?_, ?_, ?_, ?_, ?_⟩
  · unfold tarvalDiv; simp [TarVal.mode, ok.twos, h0, h]
  · unfold tarvalMod; simp [TarVal.mode, ok.twos, h0, h]
  · unfold tarvalDivmod; simp [TarVal.mode, ok.twos, h0, h]
  · rw [← s1]; exact getIntTarval_denotes ok l1 b1
  · have := getIntTarval_denotes ok l2 b2
    rwa [s2, wrap_of_inRange ok.pos hr] at this

/-- C04: the quotient is exact (not wrapped) except for the minimum divided by
minus one. -/
theorem tdiv_inRange {s : Bool} {b : Nat} {x y : Int} (hb : 0 < b) (hx : InRange s b x) (hy : InRange s b y) (hy0 : y ≠ 0)
    (hmin : ¬ (s = true ∧ x = -2 ^ (b - 1) ∧ y = -1)) : InRange s b (x.tdiv y) := by
  have h1 : |x.tdiv y| ≤ |x| := by
    rw [Int.abs_eq_natAbs, Int.abs_eq_natAbs, Int.natAbs_tdiv]
    exact_mod_cast Nat.div_le_self _ _
  unfold InRange at *
  cases s with
  | false =>
    simp only [Bool.false_eq_true, if_false] at *
    have := Int.tdiv_nonneg hx.1 hy.1
    rw [abs_of_nonneg hx.1, abs_of_nonneg this] at h1
    omega
  | true =>
    simp only [if_true] at *
    have hp : (0:Int) < 2 ^ (b - 1) := by positivity
    have h1' := abs_le.1 h1
    by_cases hxm : x = -2 ^ (b - 1)
    · have hym : y ≠ -1 := fun h => hmin ⟨trivial, hxm, h⟩
      have : |x| = 2 ^ (b - 1) := by rw [hxm, abs_neg, abs_of_pos hp]
      by_cases hy1 : y = 1
      · rw [hy1, Int.tdiv_one]; omega
      · have h2 : 2 ≤ y.natAbs := by omega
        have h3 : (x.tdiv y).natAbs ≤ x.natAbs / 2 := by
          rw [Int.natAbs_tdiv]; exact Nat.div_le_div_left h2 (by decide)
        omega
    · have : |x| < 2 ^ (b - 1) := abs_lt.2 ⟨by omega, by omega⟩
      omega

theorem tarval_div_exact {E : TvEnv} (env : EnvOk E) {a b : TarVal} {md : Mode} {x y : Int}
    (ha : Denotes E a md x) (hb : Denotes E b md y) (hy : y ≠ 0)
    (hmin : ¬ (md.signed = true ∧ x = -2 ^ (md.bits - 1) ∧ y = -1)) :
    ∃ q r zq zr, tarvalDiv E a b = some q ∧ tarvalMod E a b = some r ∧ Denotes E q md zq ∧ Denotes E r md zr ∧
      x = y * zq + zr ∧ |zr| < |y| ∧ (0 ≤ x → 0 ≤ zr) ∧ (x ≤ 0 → zr ≤ 0) := by
  obtain ⟨q, r, h1, h2, _, h3, h4⟩ := tarval_divmod_spec env ha hb hy
  rw [wrap_of_inRange ha.ok.pos (tdiv_inRange ha.ok.pos ha.inRange hb.inRange hy hmin)] at h3
  refine ⟨q, r, _, _, h1, h2, h3, h4, ?_, ?_, fun h => Int.tmod_nonneg y h, fun h => tmod_nonpos y h⟩
  · exact (Int.mul_tdiv_add_tmod x y).symm
  · rw [Int.abs_eq_natAbs, Int.abs_eq_natAbs, Int.natAbs_tmod]
    exact_mod_cast Nat.mod_lt _ (by omega)

/-- C04: the minimum divided by minus one wraps to the minimum, remainder 0. -/
theorem tarval_div_min {E : TvEnv} (env : EnvOk E) {a b : TarVal} {md : Mode} 
    (ha : Denotes E a md (-2 ^ (md.bits - 1))) (hb : Denotes E b md (-1)) :
    ∃ r, tarvalDiv E a b = some a ∧ tarvalMod E a b = some r ∧ Denotes E r md 0 := by
  obtain ⟨q, r, h1, h2, _, h3, h4⟩ := tarval_divmod_spec env ha hb (by decide)
  have e1 : wrap md.signed md.bits ((-2 ^ (md.bits - 1) : Int).tdiv (-1)) = -2 ^ (md.bits - 1) := by
    apply wrap_unique ha.ok.pos ha.inRange
    rw [Int.tdiv_neg, Int.tdiv_one, neg_neg]
    have := ha.ok.pos
    have h2 : (2:Int) ^ md.bits = 2 ^ (md.bits - 1) + 2 ^ (md.bits - 1) := by
      rw [two_pow_cast, half_pow this]; push_cast; ring
    have : (-2 ^ (md.bits - 1) : Int) = 2 ^ (md.bits - 1) + 2 ^ md.bits * (-1) := by rw [h2]; ring
    rw [this, Int.add_mul_emod_self_left]
  rw [e1] at h3
  have e2 : (-2 ^ (md.bits - 1) : Int).tmod (-1) = 0 := by rw [Int.tmod_neg, Int.tmod_one]
  rw [e2] at h4
  exact ⟨r, by rw [h1, denotes_unique h3 ha], h2, h4⟩

/-- non-vacuity: the hypotheses are met, e.g. 200 / 200 in 8 bits. -/
example : ∃ q r zq zr, tarvalDiv TvEnv.default (.int modeBu (200 :: scZero 33)) (.int modeBu (200 :: scZero 33)) = some q ∧
    tarvalMod TvEnv.default (.int modeBu (200 :: scZero 33)) (.int modeBu (200 :: scZero 33)) = some r ∧
    Denotes TvEnv.default q modeBu zq ∧ Denotes TvEnv.default r modeBu zr ∧
      200 = 200 * zq + zr ∧ |zr| < |(200:Int)| ∧ ((0:Int) ≤ 200 → 0 ≤ zr) ∧ ((200:Int) ≤ 0 → zr ≤ 0) :=
  tarval_div_exact envOk_default denotes_example denotes_example (by decide) (by decide)

/-- -7 / 2 = -3 remainder -1 in 32 bits. -/
example : (newTarvalFromLong TvEnv.default (-7) modeIs).bind (fun a => (newTarvalFromLong TvEnv.default 2 modeIs).bind
      (fun b => tarvalDivmod TvEnv.default a b)) =
    (newTarvalFromLong TvEnv.default (-3) modeIs).bind (fun q => (newTarvalFromLong TvEnv.default (-1) modeIs).map
      (fun r => (q, some r))) := by decide +kernel

end Verif.Props
