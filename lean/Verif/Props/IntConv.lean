import Verif.Props.IntArith
/-!
# C07, C18: integer conversion and the mode predicates that promise it is lossless
-/
namespace Verif.Props
open Verif.Spec Verif.Model

theorem convert_ne {E : TvEnv} {src dst : Mode} {p : List Nat} {x : Int} (ha : Denotes E (.int src p) src x) (hd : ModeOk E dst)
    (hne : src ≠ dst) : ∃ v, tarvalConvertTo E (.int src p) dst = getIntTarvalOverflow E v dst ∧
      v.length = 2 * E.m ∧ Bytes v ∧ svalue v = x := by
  have ok := ha.ok
  have hr := ha.inRange
  obtain ⟨p', e, lp, bp, sp⟩ := ha.repr
  cases e
  have hs := ok.twos
  have hdt := hd.twos
  unfold Mode.twos at hs
  by_cases h1 : src.sort = .intNumber
  · refine ⟨p, ?_, lp, bp, sp⟩
    unfold tarvalConvertTo
    rw [if_neg (by simpa [TarVal.mode] using hne)]
    have : dst.sort = .reference ∨ dst.sort = .intNumber := by
      unfold Mode.twos at hdt; simp at hdt; exact hdt.symm
    simp only [h1, if_true, this]
  · have h2 : src.sort = .reference := by simpa [h1] using hs
    refine ⟨extendBuf p src, ?_, by rw [extendBuf_length, lp], extendBuf_bytes bp src, ?_⟩
    · unfold tarvalConvertTo
      rw [if_neg (by simpa [TarVal.mode] using hne)]
      simp only [h2, reduceCtorEq, if_false, if_true, hdt]; rfl
    · rw [extendBuf_svalue ok lp bp, sp, wrap_of_inRange ok.pos hr]

/-- C07: conversion between two's complement modes preserves the value modulo
`2^(destination bits)`. -/
theorem tarval_convert_wraps {E : TvEnv} (hw : E.wrap = true) {a : TarVal} {src dst : Mode} {x : Int}
    (ha : Denotes E a src x) (hd : ModeOk E dst) :
    Denotes E (tarvalConvertTo E a dst) dst (wrap dst.signed dst.bits x) := by
  by_cases hne : src = dst
  · subst hne
    obtain ⟨p, rfl, _⟩ := ha.repr
    unfold tarvalConvertTo
    rw [if_pos (by rfl), wrap_of_inRange hd.pos ha.inRange]; exact ha
  · obtain ⟨p, rfl, _⟩ := ha.repr
    obtain ⟨v, h, lv, bv, sv⟩ := convert_ne ha hd hne
    rw [h, getIntTarvalOverflow_wrap hw, ← sv]
    exact getIntTarval_denotes hd lv bv

/-- C07: conversion to a mode that can represent the value is the identity on values. -/
theorem tarval_convert_exact {E : TvEnv} (hw : E.wrap = true) {a : TarVal} {src dst : Mode} {x : Int}
    (ha : Denotes E a src x) (hd : ModeOk E dst) (hr : InRange dst.signed dst.bits x) :
    Denotes E (tarvalConvertTo E a dst) dst x := by
  have := tarval_convert_wraps hw ha hd
  rwa [wrap_of_inRange hd.pos hr] at this

/-- C07/C02: with wrap-around off the conversion reports exactly the values the
destination cannot represent. -/
theorem tarval_convert_overflow {E : TvEnv} (hw : E.wrap = false) {a : TarVal} {src dst : Mode} {x : Int}
    (ha : Denotes E a src x) (hd : ModeOk E dst) :
    (tarvalConvertTo E a dst = .bad ↔ ¬ InRange dst.signed dst.bits x) ∧
    (InRange dst.signed dst.bits x → Denotes E (tarvalConvertTo E a dst) dst x) := by
  have key : (¬ InRange dst.signed dst.bits x → tarvalConvertTo E a dst = .bad) ∧
      (InRange dst.signed dst.bits x → Denotes E (tarvalConvertTo E a dst) dst x) := by
    by_cases hne : src = dst
    · subst hne
      have hr := ha.inRange
      have h2 : Denotes E (tarvalConvertTo E a src) src x := by
        obtain ⟨p, rfl, _⟩ := ha.repr
        unfold tarvalConvertTo
        rw [if_pos (by rfl)]; exact ha
      exact ⟨fun h => absurd hr h, fun _ => h2⟩
    · obtain ⟨p, rfl, _⟩ := ha.repr
      obtain ⟨v, h, lv, bv, sv⟩ := convert_ne ha hd hne
      rw [h, ← sv]
      exact getIntTarvalOverflow_strict hw hd lv bv
  refine ⟨⟨fun hbad hin => ?_, key.1⟩, key.2⟩
  obtain ⟨_, h', _⟩ := (key.2 hin).repr
  rw [hbad] at h'; cases h'

/-! ## C18 -/

/-- `smaller_mode` on integer modes is inclusion of the value ranges. -/
theorem smaller_mode_range {sm lm : Mode} (hp : 0 < sm.bits) (hp' : 0 < lm.bits) (h : smallerMode sm lm = true) (x : Int) :
    InRange sm.signed sm.bits x → InRange lm.signed lm.bits x := by
  unfold smallerMode at h
  split at h
  · next e => rw [e]; exact id
  · split at h
    · unfold InRange
      cases hs : sm.signed <;> cases hl : lm.signed <;> simp only [hs, hl, Bool.false_eq_true, if_true, if_false, Bool.not_false, Bool.not_true,
        decide_eq_true_eq] at h ⊢
      · intro hx
        have : (2:Int) ^ sm.bits ≤ 2 ^ lm.bits := pow_le_pow_right₀ (by decide) h
        omega
      · intro hx
        have : (2:Int) ^ sm.bits ≤ 2 ^ (lm.bits - 1) := pow_le_pow_right₀ (by decide) (by omega)
        have : (0:Int) < 2 ^ (lm.bits - 1) := by positivity
        omega
      · intro hx
        have : (2:Int) ^ (sm.bits - 1) ≤ 2 ^ (lm.bits - 1) := pow_le_pow_right₀ (by decide) (by omega)
        omega
    · exact absurd h (by decide)

/-- C18: `smaller_mode(sm, lm)` promises that converting any value of `sm` to
`lm` does not change it, and that converting back yields the original object. -/
theorem smaller_mode_lossless {E : TvEnv} {a : TarVal} {sm lm : Mode} {x : Int} (h : smallerMode sm lm = true)
    (ha : Denotes E a sm x) (hl : ModeOk E lm) :
    Denotes E (tarvalConvertTo E a lm) lm x ∧ tarvalConvertTo E (tarvalConvertTo E a lm) sm = a := by
  have hr := smaller_mode_range ha.ok.pos hl.pos h x ha.inRange
  cases hw : E.wrap with
  | true =>
    have h1 := tarval_convert_exact hw ha hl hr
    exact ⟨h1, denotes_unique (tarval_convert_exact hw h1 ha.ok ha.inRange) ha⟩
  | false =>
    have h1 := (tarval_convert_overflow hw ha hl).2 hr
    exact ⟨h1, denotes_unique ((tarval_convert_overflow hw h1 ha.ok).2 ha.inRange) ha⟩

/-- `smaller_mode` is also complete: on integer modes of different identity it
holds exactly when the ranges are included. -/
theorem smaller_mode_complete {sm lm : Mode} (hp : 0 < sm.bits) (hp' : 0 < lm.bits) (hs : sm.sort = .intNumber) (hl : lm.sort = .intNumber)
    (h : ∀ x, InRange sm.signed sm.bits x → InRange lm.signed lm.bits x) :
    smallerMode sm lm = true := by
  unfold smallerMode
  split
  · rfl
  · simp only [hs, hl]
    unfold InRange at h
    have hpow : ∀ {a b : Nat}, (2:Int) ^ a ≤ 2 ^ b → a ≤ b := by
      intro a b hab
      exact (pow_le_pow_iff_right₀ (by decide : (1:Int) < 2)).1 hab
    have hpos : ∀ k : Nat, (0:Int) < 2 ^ k := fun k => by positivity
    cases hss : sm.signed <;> cases hls : lm.signed <;> simp only [hss, hls, Bool.false_eq_true, if_true, if_false, Bool.not_false,
      Bool.not_true, decide_eq_true_eq] at h ⊢
    · have := h (2 ^ sm.bits - 1) ⟨by have := hpos sm.bits; omega, by omega⟩
      exact hpow (by omega)
    · have := h (2 ^ sm.bits - 1) ⟨by have := hpos sm.bits; omega, by omega⟩
      have := hpow (a := sm.bits) (b := lm.bits - 1) (by omega)
      omega
    · have := h (-2 ^ (sm.bits - 1)) ⟨by omega, by have := hpos (sm.bits - 1); omega⟩
      have := hpos (sm.bits - 1); omega
    · have := h (2 ^ (sm.bits - 1) - 1) ⟨by have := hpos (sm.bits - 1); omega, by omega⟩
      have := hpow (a := sm.bits - 1) (b := lm.bits - 1) (by omega)
      omega

/-- C18: `values_in_mode(sm, lm)` promises that conversion to `lm` and back
restores every value of `sm`. -/
theorem values_in_mode_roundtrip {E : TvEnv} (hw : E.wrap = true) {a : TarVal} {sm lm : Mode} {x : Int}
    (h : valuesInMode sm lm = true) (ha : Denotes E a sm x) (hl : ModeOk E lm) :
    tarvalConvertTo E (tarvalConvertTo E a lm) sm = a := by
  have hb : sm.bits ≤ lm.bits := by
    unfold valuesInMode at h
    split at h
    · next e => rw [e]
    · simp only [ha.ok.twos, hl.twos, Bool.and_self, if_true, decide_eq_true_eq] at h; exact h
  have h1 := tarval_convert_wraps hw ha hl
  have h2 := tarval_convert_wraps hw h1 ha.ok
  rw [wrap_wrap_of_le hb, wrap_of_inRange ha.ok.pos ha.inRange] at h2
  exact denotes_unique h2 ha

/-- `values_in_mode` does not promise that the mathematical value is kept:
`-1` of `mode_Is` is `2^32-1` in `mode_Iu`. -/
theorem values_in_mode_changes_value : valuesInMode modeIs modeIu = true ∧ InRange true 32 (-1) ∧ ¬ InRange false 32 (-1) := by
  decide

/-- C18: `is_reinterpret_cast` holds between two's complement modes of the same size only, -/
theorem reinterpret_cast_iff {E : TvEnv} {src dst : Mode} (hs : ModeOk E src) (hd : ModeOk E dst) : isReinterpretCast src dst = true ↔ src.bits = dst.bits := by
  unfold isReinterpretCast
  rw [hs.twos, hd.twos]
  by_cases h : src = dst
  · simp [h]
  · by_cases hb : src.bits = dst.bits <;> simp [h, hb]

/-- and then the conversion keeps all bits, and converting back restores the value. -/
theorem reinterpret_cast_bits {E : TvEnv} (hw : E.wrap = true) {a : TarVal} {src dst : Mode} {x : Int} (h : isReinterpretCast src dst = true)
    (ha : Denotes E a src x) (hd : ModeOk E dst) :
    ∃ y, Denotes E (tarvalConvertTo E a dst) dst y ∧ (∀ i < dst.bits, ibit y i = ibit x i) ∧ tarvalConvertTo E (tarvalConvertTo E a dst) src = a := by
  have hb := (reinterpret_cast_iff ha.ok hd).1 h
  refine ⟨_, tarval_convert_wraps hw ha hd, fun i hi => ibit_congr hi (wrap_emod _ _ _), values_in_mode_roundtrip hw ?_ ha hd⟩
  unfold valuesInMode
  rw [ha.ok.twos, hd.twos]
  split
  · rfl
  · simp [hb]

example : isReinterpretCast modeIs modeIu = true ∧ isReinterpretCast modeBu modeIs = false ∧ isReinterpretCast modeIs modeBu = false := by decide

/-- non-vacuity -/
example : smallerMode modeBu modeIs = true ∧ valuesInMode modeBu modeBs = true := by decide
example : Denotes TvEnv.default (tarvalConvertTo TvEnv.default (.int modeBu (200 :: scZero 33)) modeIs) modeIs 200 :=
  (smaller_mode_lossless (by decide) denotes_example ⟨by decide, by decide, by decide⟩).1
/-- 200 as a signed byte is -56 -/
example : Denotes TvEnv.default (tarvalConvertTo TvEnv.default (.int modeBu (200 :: scZero 33)) modeBs) modeBs (-56) := by
  have := tarval_convert_wraps (E := TvEnv.default) rfl denotes_example (dst := modeBs) ⟨by decide, by decide, by decide⟩
  exact this

end Verif.Props
