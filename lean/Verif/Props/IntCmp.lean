import Verif.Props.IntArith
/-!
# C08, C14, C17: comparison, conversion from and to `long`, mode limits
-/
namespace Verif.Props
open Verif.Spec Verif.Model

/-! ## C08 -/

/-- C08: comparison is the order of the mathematical values. -/
theorem tarval_cmp_order {E : TvEnv} {a b : TarVal} {md : Mode} {x y : Int} (ha : Denotes E a md x) (hb : Denotes E b md y) :
    tarvalCmp a b = some (if x < y then Rel.less else if x = y then Rel.equal else Rel.greater) := by
  have hm : 0 < 2 * E.m := by have := modeOk_lt ha.ok; omega
  have heq : a = b ↔ x = y := ⟨fun h => by rw [h] at ha; exact denotes_fun ha hb, fun h => by rw [h] at ha; exact denotes_unique ha hb⟩
  obtain ⟨p, rfl, lp, bp, sp⟩ := ha.repr
  obtain ⟨q, rfl, lq, bq, sq⟩ := hb.repr
  unfold tarvalCmp
  rw [if_neg (by simp), if_neg (by simp [TarVal.mode])]
  simp only [heq]
  by_cases h : x = y
  · rw [if_pos h, if_neg (by omega), if_pos h]
  · rw [if_neg h, scComp_eq (by omega) bp bq (by omega), sp, sq, if_neg h]
    by_cases h2 : x < y
    · rw [if_neg (by omega), if_pos h2]
    · rw [if_pos (by omega), if_neg h2, if_neg h]

/-- C08: `equal` exactly for the same object. -/
theorem tarval_cmp_equal_iff {E : TvEnv} {a b : TarVal} {md : Mode} {x y : Int} (ha : Denotes E a md x) (hb : Denotes E b md y) :
    tarvalCmp a b = some Rel.equal ↔ a = b := by
  rw [tarval_cmp_order ha hb]
  constructor
  · intro h
    by_cases h1 : x < y
    · rw [if_pos h1] at h; exact absurd h (by decide)
    · by_cases h2 : x = y
      · rw [h2] at ha; exact denotes_unique ha hb
      · rw [if_neg h1, if_neg h2] at h; exact absurd h (by decide)
  · intro h
    rw [h] at ha
    have := denotes_fun ha hb
    rw [if_neg (by omega), if_pos this]

/-- C08 for the Boolean mode and the special objects. -/
theorem tarval_cmp_bool (a b : Bool) :
    tarvalCmp (.bool a) (.bool b) = some (if a = b then Rel.equal else if b then Rel.less else Rel.greater) := by
  cases a <;> cases b <;> decide

/-- `tarval_in_range` tests `lo ≤ x ≤ hi`. -/
theorem tarval_in_range_spec {E : TvEnv} {l a h : TarVal} {md : Mode} {xl x xh : Int} (hl : Denotes E l md xl)
    (ha : Denotes E a md x) (hh : Denotes E h md xh) (hle : xl ≤ xh) :
    tarvalInRange l a h = some (decide (xl ≤ x ∧ x ≤ xh)) := by
  have e1 : a = l ↔ x = xl := ⟨fun e => by rw [e] at ha; exact denotes_fun ha hl, fun e => by rw [e] at ha; exact denotes_unique ha hl⟩
  have e2 : l = h ↔ xl = xh := ⟨fun e => by rw [e] at hl; exact denotes_fun hl hh, fun e => by rw [e] at hl; exact denotes_unique hl hh⟩
  unfold tarvalInRange
  rw [tarval_cmp_order hl hh, tarval_cmp_order hl ha, tarval_cmp_order ha hh]
  simp only [e1, e2]
  have hle2 : ∀ u v : Int, ((if u < v then Rel.less else if u = v then Rel.equal else Rel.greater) &&& Rel.lessEqual = 0#4) ↔ ¬ u ≤ v := by
    intro u v
    by_cases h1 : u < v
    · rw [if_pos h1]; simp only [Rel.less, Rel.lessEqual]; constructor
      · intro h; exact absurd h (by decide)
      · intro h; omega
    · by_cases h2 : u = v
      · rw [if_neg h1, if_pos h2]; constructor
        · intro h; exact absurd h (by decide)
        · intro h; omega
      · rw [if_neg h1, if_neg h2]; constructor
        · intro _; omega
        · intro _; decide
  rw [if_neg (by rw [hle2]; omega)]
  simp only [ne_eq, hle2, not_not]
  by_cases c1 : x = xl
  · rw [if_pos c1]; congr 1; symm; rw [decide_eq_true_eq]; omega
  · rw [if_neg c1]
    by_cases c2 : xl = xh
    · rw [if_pos c2]; congr 1; symm; rw [decide_eq_false_iff_not]; omega
    · rw [if_neg c2]; simp [Bool.decide_and]

/-! ## C14 -/

/-- C14: `new_tarval_from_long` yields the value wrapped into the mode. -/
theorem from_long_spec {E : TvEnv} (env : EnvOk E) {md : Mode} (ok : ModeOk E md) {l : Int} (h1 : -2 ^ 63 ≤ l) (h2 : l < 2 ^ 63) :
    ∃ r, newTarvalFromLong E l md = some r ∧ Denotes E r md (wrap md.signed md.bits l) := by
  have hm : 5 ≤ E.m := env
  refine ⟨_, by unfold newTarvalFromLong; rw [if_pos ok.twos], ?_⟩
  have := getIntTarval_denotes ok (scFromLong_length (2 * E.m) l) (scFromLong_bytes _ _)
  rwa [scFromLong_svalue (by omega) h1 h2] at this

/-- the documented meaning of "fits a long": no information is lost, that is
the value is in the range of `long`, or of `unsigned long` for an unsigned mode -/
def FitsLong (signed : Bool) (x : Int) : Prop := if signed then -2 ^ 63 ≤ x ∧ x < 2 ^ 63 else x < 2 ^ 64

/-- C14: `tarval_is_long` is exact. -/
theorem tarval_is_long_spec {E : TvEnv} (env : EnvOk E) {a : TarVal} {md : Mode} {x : Int} (ha : Denotes E a md x) :
    tarvalIsLong E a = true ↔ FitsLong md.signed x := by
  have ok := ha.ok
  have hr := ha.inRange
  have hm : 5 ≤ E.m := env
  obtain ⟨p, rfl, lp, bp, sp⟩ := ha.repr
  unfold tarvalIsLong
  simp only [ok.twos, Bool.not_true, Bool.false_eq_true, if_false]
  by_cases h8 : md.sizeBytes ≤ 8
  · simp only [h8, if_true, true_iff]
    have hb : md.bits ≤ 64 := by
      unfold Mode.sizeBytes at h8; split at h8 <;> omega
    unfold FitsLong; unfold InRange at hr
    split at hr
    · next hs =>
      rw [if_pos hs]
      have : (2:Int) ^ (md.bits - 1) ≤ 2 ^ 63 := pow_le_pow_right₀ (by decide) (by omega)
      omega
    · next hs =>
      rw [if_neg hs]
      have : (2:Int) ^ md.bits ≤ 2 ^ 64 := pow_le_pow_right₀ (by decide) (by omega)
      omega
  · simp only [h8, if_false]
    have l1 := scMaxFromBits_length (2 * E.m) 64 md.signed
    have b1 := scMaxFromBits_bytes (2 * E.m) 64 md.signed
    have v1 := scMaxFromBits_value (n := 2 * E.m) (k := 64) (s := md.signed) (by omega)
    have hbig : 2 ^ 64 ≤ 2 ^ (8 * (2 * E.m) - 1) := Nat.pow_le_pow_right (by decide) (by omega)
    have s1 : svalue (scMaxFromBits (2 * E.m) 64 md.signed) = if md.signed then 2 ^ 63 - 1 else 2 ^ 64 - 1 := by
      rw [svalue_of_nonneg (by omega) (by rw [v1, l1]; split <;> omega), v1]
      split <;> rfl
    have s2 : svalue (scSignExtend (scMinFromBits (2 * E.m) 64 true) 64) = -2 ^ 63 := by
      have bm := scMinFromBits_bytes (2 * E.m) 64 true
      have lm := scMinFromBits_length (2 * E.m) 64 true
      rw [scSignExtend_svalue bm (by decide) (by rw [lm]; omega), wrap_value_eq (by rw [lm]; omega),
        scMinFromBits_svalue (by decide) (by omega)]
      decide
    have l2 : (scSignExtend (scMinFromBits (2 * E.m) 64 true) 64).length = 2 * E.m := by
      rw [scSignExtend_length, scMinFromBits_length]
    have b2 := scSignExtend_bytes (scMinFromBits_bytes (2 * E.m) 64 true) 64
    have g : ∀ {q : List Nat}, q.length = 2 * E.m → Bytes q →
        ((scComp p q = Rel.greater ↔ svalue q < x) ∧ (scComp p q = Rel.less ↔ x < svalue q)) := by
      intro q lq bq
      rw [scComp_eq (by omega) bp bq (by omega), sp]
      by_cases e1 : x = svalue q
      · rw [if_pos e1]
        exact ⟨⟨fun h => absurd h (by decide), fun h => by omega⟩, ⟨fun h => absurd h (by decide), fun h => by omega⟩⟩
      · rw [if_neg e1]
        by_cases e2 : x > svalue q
        · rw [if_pos e2]
          exact ⟨⟨fun _ => e2, fun _ => rfl⟩, ⟨fun h => absurd h (by decide), fun h => by omega⟩⟩
        · rw [if_neg e2]
          exact ⟨⟨fun h => absurd h (by decide), fun h => by omega⟩, ⟨fun _ => by omega, fun _ => rfl⟩⟩
    simp only [(g l1 b1).1, (g l2 b2).2, s1, s2]
    unfold FitsLong
    cases hs : md.signed with
    | true =>
      simp only [if_true, true_and]
      by_cases c1 : (2:Int) ^ 63 - 1 < x
      · rw [if_pos c1]; simp only [Bool.false_eq_true, false_iff]; omega
      · rw [if_neg c1]
        by_cases c2 : x < -2 ^ 63
        · rw [if_pos c2]; simp only [Bool.false_eq_true, false_iff]; omega
        · rw [if_neg c2]; simp only [true_iff]; omega
    | false =>
      simp only [Bool.false_eq_true, if_false, false_and]
      by_cases c1 : (2:Int) ^ 64 - 1 < x
      · rw [if_pos c1]; simp only [Bool.false_eq_true, false_iff]; omega
      · rw [if_neg c1]; simp only [true_iff]; omega

/-- C14: `get_tarval_long` returns the value modulo `2^64` as a `long`; it is
the value itself when that is in the range of `long`. -/
theorem get_tarval_long_spec {E : TvEnv} (env : EnvOk E) {a : TarVal} {md : Mode} {x : Int} (ha : Denotes E a md x)
    (hf : FitsLong md.signed x) : getTarvalLong E a = some (wrap true 64 x) ∧ (x < 2 ^ 63 → getTarvalLong E a = some x) := by
  have hm : 5 ≤ E.m := env
  have h1 := (tarval_is_long_spec env ha).2 hf
  have hr := ha.inRange
  have h0 : getTarvalLong E a = some (wrap true 64 x) := by
    obtain ⟨p, rfl, lp, bp, sp⟩ := ha.repr
    unfold getTarvalLong
    rw [if_pos h1]
    simp only [scToLong_eq bp (by omega : 8 ≤ p.length), sp]
    rfl
  refine ⟨h0, fun hx => ?_⟩
  rw [h0, wrap_of_inRange (by decide)]
  unfold InRange
  simp only [if_true]
  unfold FitsLong at hf
  unfold InRange at hr
  split at hf
  · omega
  · next hs => rw [if_neg hs] at hr; omega

/-- C14: the round trip `long` → tarval → `long`, for values of the mode. -/
theorem long_roundtrip {E : TvEnv} (env : EnvOk E) {md : Mode} (ok : ModeOk E md) {l : Int} (h1 : -2 ^ 63 ≤ l) (h2 : l < 2 ^ 63)
    (hr : InRange md.signed md.bits l) : (newTarvalFromLong E l md).bind (getTarvalLong E) = some l := by
  obtain ⟨r, e, hd⟩ := from_long_spec env ok h1 h2
  rw [wrap_of_inRange ok.pos hr] at hd
  rw [e]
  have hf : FitsLong md.signed l := by
    unfold FitsLong; split <;> omega
  exact (get_tarval_long_spec env hd hf).2 h2

/-- `get_tarval_uint64` returns the low 64 bits of the value. -/
theorem get_tarval_uint64_spec {E : TvEnv} (env : EnvOk E) {a : TarVal} {md : Mode} {x : Int} (ha : Denotes E a md x) {n : Nat}
    (h : getTarvalUint64 E a = some n) : (n : Int) = x % 2 ^ 64 := by
  have hm : 5 ≤ E.m := env
  obtain ⟨p, rfl, lp, bp, sp⟩ := ha.repr
  unfold getTarvalUint64 at h
  split at h
  · simp only [Option.some.injEq] at h
    rw [← h, scToUint64_eq, Int.natCast_emod, ← two_pow_cast, value_eq_svalue_emod bp, sp,
      Int.emod_emod_of_dvd _ (pow_dvd_pow 2 (by omega))]
  · cases h

/-! ## C17 -/

theorem scSetBit0_zero {n : Nat} (hn : 0 < n) : (scSetBit0 (scZero n)).length = n ∧ Bytes (scSetBit0 (scZero n)) ∧
    value (scSetBit0 (scZero n)) = 1 := by
  obtain ⟨k, rfl⟩ := Nat.exists_eq_succ_of_ne_zero (by omega : n ≠ 0)
  have : scSetBit0 (scZero (k + 1)) = 1 :: scZero k := rfl
  rw [Nat.succ_eq_add_one, this]
  exact ⟨by simp [scZero_length], (scZero_bytes k).cons (by decide), by simp [value, scZero_value]⟩

/-- C17: the smallest value of the mode. -/
theorem mode_min_spec {E : TvEnv} {md : Mode} (ok : ModeOk E md) :
    ∃ x, Denotes E (modeMin E md) md x ∧ ∀ y, InRange md.signed md.bits y → x ≤ y := by
  have hlt := modeOk_lt ok
  have h1 := getIntTarval_denotes ok (scMinFromBits_length (2 * E.m) md.bits md.signed) (scMinFromBits_bytes _ _ _)
  cases hs : md.signed with
  | true =>
    rw [hs, scMinFromBits_svalue ok.pos (by omega)] at h1
    have hr : InRange true md.bits (-2 ^ (md.bits - 1)) := by
      unfold InRange; simp only [if_true]
      have : (0:Int) < 2 ^ (md.bits - 1) := by positivity
      omega
    rw [wrap_of_inRange ok.pos hr] at h1
    refine ⟨_, by unfold modeMin; rw [hs]; exact h1, fun y hy => ?_⟩
    unfold InRange at hy; simp only [if_true] at hy; exact hy.1
  | false =>
    rw [hs] at h1
    have e : svalue (scMinFromBits (2 * E.m) md.bits false) = 0 := scZero_svalue _
    have hr : InRange false md.bits 0 := by
      unfold InRange; simp only [Bool.false_eq_true, if_false]
      exact ⟨le_refl _, by positivity⟩
    rw [e, wrap_of_inRange ok.pos hr] at h1
    refine ⟨_, by unfold modeMin; rw [hs]; exact h1, fun y hy => ?_⟩
    unfold InRange at hy; simp only [Bool.false_eq_true, if_false] at hy; exact hy.1

/-- C17: the largest value of the mode. -/
theorem mode_max_spec {E : TvEnv} {md : Mode} (ok : ModeOk E md) :
    ∃ x, Denotes E (modeMax E md) md x ∧ ∀ y, InRange md.signed md.bits y → y ≤ x := by
  have hlt := modeOk_lt ok
  have hpos := ok.pos
  have hl := scMaxFromBits_length (2 * E.m) md.bits md.signed
  have hv := scMaxFromBits_value (n := 2 * E.m) (k := md.bits) (s := md.signed) (by omega)
  have hle : 2 ^ (md.bits - if md.signed = true then 1 else 0) ≤ 2 ^ (8 * (2 * E.m) - 1) :=
    Nat.pow_le_pow_right (by decide) (by omega)
  have hp : 0 < 2 ^ (md.bits - if md.signed = true then 1 else 0) := by positivity
  have hsv : svalue (scMaxFromBits (2 * E.m) md.bits md.signed) = 2 ^ (md.bits - if md.signed = true then 1 else 0) - 1 := by
    rw [svalue_of_nonneg (by omega) (by rw [hv, hl]; omega), hv, two_pow_cast]; omega
  have h1 := getIntTarval_denotes ok hl (scMaxFromBits_bytes _ _ _)
  rw [hsv] at h1
  have hr : InRange md.signed md.bits (2 ^ (md.bits - if md.signed = true then 1 else 0) - 1) := by
    rw [two_pow_cast]
    unfold InRange
    cases hs : md.signed with
    | true => simp only [hs, if_true] at hp ⊢; rw [two_pow_cast]; omega
    | false => simp only [hs, Bool.false_eq_true, if_false, Nat.sub_zero] at hp ⊢; rw [two_pow_cast]; omega
  rw [wrap_of_inRange ok.pos hr] at h1
  refine ⟨_, h1, fun y hy => ?_⟩
  unfold InRange at hy
  cases hs : md.signed with
  | true => simp only [hs, if_true] at hy ⊢; omega
  | false => simp only [hs, Bool.false_eq_true, if_false, Nat.sub_zero] at hy ⊢; omega

/-- C17: null, one (for modes that can represent 1) and the all-ones pattern. -/
theorem mode_null_one_spec {E : TvEnv} {md : Mode} (ok : ModeOk E md) :
    Denotes E (modeNull E md) md 0 ∧ ((md.signed = true → 2 ≤ md.bits) → Denotes E (modeOne E md) md 1) ∧
    ∃ x, Denotes E (modeAllOne E md) md x ∧ ∀ i, i < md.bits → ibit x i = true := by
  have hlt := modeOk_lt ok
  have hpos := ok.pos
  refine ⟨modeNull_denotes ok, fun h2 => ?_, ?_⟩
  · obtain ⟨l1, b1, v1⟩ := scSetBit0_zero (n := 2 * E.m) (by omega)
    have h1 := getIntTarval_denotes ok l1 b1
    have hb : 2 ^ 1 ≤ 2 ^ (8 * (2 * E.m) - 1) := Nat.pow_le_pow_right (by decide) (by omega)
    rw [svalue_of_nonneg (by omega) (by rw [v1, l1]; omega), v1] at h1
    have hr : InRange md.signed md.bits ((1 : Nat) : Int) := by
      unfold InRange
      cases hs : md.signed with
      | true =>
        simp only [if_true]
        have := h2 hs
        have h3 : (2:Int) ^ 1 ≤ 2 ^ (md.bits - 1) := pow_le_pow_right₀ (by decide) (by omega)
        omega
      | false =>
        simp only [Bool.false_eq_true, if_false]
        have h3 : (2:Int) ^ 1 ≤ 2 ^ md.bits := pow_le_pow_right₀ (by decide) (by omega)
        omega
    rw [wrap_of_inRange ok.pos hr] at h1
    exact h1
  · have l1 := scMaxFromBits_length (2 * E.m) md.bits false
    have b1 := scMaxFromBits_bytes (2 * E.m) md.bits false
    have v1 := scMaxFromBits_value (n := 2 * E.m) (k := md.bits) (s := false) (by omega)
    refine ⟨_, getIntTarval_denotes ok l1 b1, fun i hi => ?_⟩
    rw [ibit_wrap_lt hi, ibit_svalue b1 (by omega), if_pos (by omega), v1]
    simp only [Bool.false_eq_true, if_false, Nat.sub_zero, Nat.testBit_two_pow_sub_one, decide_eq_true_eq]; exact hi

/-- non-vacuity of C08, C14, C17 -/
example : tarvalCmp (.int modeBu (200 :: scZero 33)) (modeMax TvEnv.default modeBu) = some Rel.less := by decide +kernel
example : (newTarvalFromLong TvEnv.default (-5) modeIs).bind (getTarvalLong TvEnv.default) = some (-5) :=
  long_roundtrip envOk_default ⟨by decide, by decide, by decide⟩ (by decide) (by decide) (by decide)
example : tarvalIsLong TvEnv.default (.int modeBu (200 :: scZero 33)) = true := by decide +kernel
/-- a 128-bit value outside the range of `long` -/
example : tarvalIsLong TvEnv.default (modeMax TvEnv.default ⟨30, .intNumber, 128, true, 128⟩) = false := by decide +kernel
example : (∃ x, Denotes TvEnv.default (modeMin TvEnv.default modeLs) modeLs x ∧ ∀ y, InRange true 64 y → x ≤ y) :=
  mode_min_spec ⟨by decide, by decide, by decide⟩

end Verif.Props
