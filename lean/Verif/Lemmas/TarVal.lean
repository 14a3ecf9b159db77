import Verif.Lemmas.StrCalcDiv
import Verif.Spec.TarVal
/-! Helper lemmas: target values denote integers. -/
namespace Verif.Model
open Verif.Spec

theorem wrap_value_eq {v : List Nat} {s : Bool} {b : Nat} (hb : b ≤ 8 * v.length) :
    wrap s b (value v) = wrap s b (svalue v) := by
  apply wrap_of_emod_eq
  have h := svalue_emod v
  rw [pow256, ← two_pow_cast] at h
  have hd : (2:Int) ^ b ∣ 2 ^ (8 * v.length) := pow_dvd_pow 2 hb
  rw [← Int.emod_emod_of_dvd _ hd, ← h, Int.emod_emod_of_dvd _ hd]

theorem modeOk_lt {E : TvEnv} {md : Mode} (ok : ModeOk E md) : md.bits < 8 * (2 * E.m) := by
  have := ok.pos; have := ok.le; omega

/-- buffer of `get_int_tarval` -/
def extendBuf (v : List Nat) (md : Mode) : List Nat :=
  if md.signed then scSignExtend v md.bits else scZeroExtend v md.bits

theorem extendBuf_length (v : List Nat) (md : Mode) : (extendBuf v md).length = v.length := by
  unfold extendBuf; split; exact scSignExtend_length _ _; exact scZeroExtend_length _ _

theorem extendBuf_bytes {v : List Nat} (h : Bytes v) (md : Mode) : Bytes (extendBuf v md) := by
  unfold extendBuf; split; exact scSignExtend_bytes h _; exact scZeroExtend_bytes h _

theorem extendBuf_svalue {E : TvEnv} {v : List Nat} {md : Mode} (ok : ModeOk E md) (hl : v.length = 2 * E.m) (h : Bytes v) :
    svalue (extendBuf v md) = wrap md.signed md.bits (svalue v) := by
  have hlt := modeOk_lt ok
  unfold extendBuf
  split
  · next hs => rw [scSignExtend_svalue h ok.pos (by omega), hs, wrap_value_eq (by omega)]
  · next hs =>
    have : md.signed = false := by simpa using hs
    rw [scZeroExtend_svalue h (by omega), this, wrap_value_eq (by omega)]

theorem getIntTarval_denotes {E : TvEnv} {v : List Nat} {md : Mode} (ok : ModeOk E md) (hl : v.length = 2 * E.m)
    (h : Bytes v) : Denotes E (getIntTarval v md) md (wrap md.signed md.bits (svalue v)) :=
  ⟨ok, wrap_inRange _ ok.pos _, extendBuf v md, rfl, by rw [extendBuf_length, hl], extendBuf_bytes h md,
    extendBuf_svalue ok hl h⟩

theorem getIntTarval_denotes_of_emod {E : TvEnv} {v : List Nat} {md : Mode} (ok : ModeOk E md) (hl : v.length = 2 * E.m)
    (h : Bytes v) {x : Int} (hx : svalue v % 2 ^ md.bits = x % 2 ^ md.bits) :
    Denotes E (getIntTarval v md) md (wrap md.signed md.bits x) := by
  rw [← wrap_of_emod_eq hx]; exact getIntTarval_denotes ok hl h

theorem bmod256_emod {b n : Nat} (hb : b ≤ 8 * n) (x : Int) : (x.bmod (256 ^ n)) % 2 ^ b = x % 2 ^ b := by
  have h : x.bmod (256 ^ n) % (256 ^ n : Nat) = x % (256 ^ n : Nat) := Int.bmod_emod
  rw [pow256, ← two_pow_cast] at h
  have hd : (2:Int) ^ b ∣ 2 ^ (8 * n) := pow_dvd_pow 2 hb
  rw [← Int.emod_emod_of_dvd _ hd, pow256, h, Int.emod_emod_of_dvd _ hd]

theorem isOverflow_iff {E : TvEnv} {v : List Nat} {md : Mode} (ok : ModeOk E md) (hl : v.length = 2 * E.m) (h : Bytes v) :
    isOverflow v md = true ↔ ¬ InRange md.signed md.bits (svalue v) := by
  have hlt := modeOk_lt ok
  have hn : 0 < v.length := by have := ok.pos; omega
  have hv := value_lt h
  have hh := half256 hn
  have hpos := ok.pos
  unfold isOverflow InRange
  cases hs : md.signed with
  | false =>
    simp only [Bool.false_eq_true, if_false, Bool.not_false, Bool.true_or]
    have key := scHighestSetBit_ge_iff h md.bits
    have hp : 2 ^ md.bits ≤ 2 ^ (8 * v.length - 1) := Nat.pow_le_pow_right (by decide) (by omega)
    rw [two_pow_cast]
    by_cases hc : 2 ^ md.bits ≤ value v
    · rw [if_pos (by simpa using key.2 hc)]
      simp only [true_iff, not_and, not_lt]
      intro h0
      have hnn : value v < 2 ^ (8 * v.length - 1) := by
        by_contra hcc
        rw [svalue_of_neg h hn (by omega)] at h0; omega
      rw [svalue_of_nonneg hn hnn]; omega
    · rw [if_neg (by simpa using fun hh => hc (key.1 hh))]
      simp only [Bool.false_eq_true, false_iff, not_not]
      rw [svalue_of_nonneg hn (by omega)]; omega
  | true =>
    simp only [if_true, Bool.not_true, Bool.false_or]
    have e : (md.bits : Int) - 1 = ((md.bits - 1 : Nat) : Int) := by omega
    rw [e]
    have key := scHighestSetBit_ge_iff h (md.bits - 1)
    have key2 := scHighestClearBit_ge_iff h (md.bits - 1)
    have hp : 2 * 2 ^ (md.bits - 1) ≤ 2 ^ (8 * v.length - 1) := by
      rw [← half_pow hpos]; exact Nat.pow_le_pow_right (by decide) (by omega)
    rw [two_pow_cast]
    by_cases hc : 2 ^ (md.bits - 1) ≤ value v
    · rw [if_pos (key.2 hc)]
      by_cases hc2 : 2 ^ (md.bits - 1) ≤ 256 ^ v.length - 1 - value v
      · simp only [key2.2 hc2, decide_true, true_iff]
        by_cases hneg : 2 ^ (8 * v.length - 1) ≤ value v
        · rw [svalue_of_neg h hn hneg]; omega
        · rw [svalue_of_nonneg hn (by omega)]; omega
      · have : ¬ scHighestClearBit v ≥ ((md.bits - 1 : Nat) : Int) := fun hh => hc2 (key2.1 hh)
        simp only [this, decide_false, Bool.false_eq_true, false_iff, not_not]
        have hneg : 2 ^ (8 * v.length - 1) ≤ value v := by omega
        rw [svalue_of_neg h hn hneg]; omega
    · rw [if_neg (fun hh => hc (key.1 hh))]
      simp only [Bool.false_eq_true, false_iff, not_not]
      rw [svalue_of_nonneg hn (by omega)]; omega

/-- with wrap-around -/
theorem getIntTarvalOverflow_wrap {E : TvEnv} (hw : E.wrap = true) (v : List Nat) (md : Mode) :
    getIntTarvalOverflow E v md = getIntTarval v md := by
  unfold getIntTarvalOverflow; simp [hw]

/-- without wrap-around: bad iff out of range -/
theorem getIntTarvalOverflow_strict {E : TvEnv} (hw : E.wrap = false) {v : List Nat} {md : Mode} (ok : ModeOk E md)
    (hl : v.length = 2 * E.m) (h : Bytes v) :
    (¬ InRange md.signed md.bits (svalue v) → getIntTarvalOverflow E v md = .bad) ∧
    (InRange md.signed md.bits (svalue v) → Denotes E (getIntTarvalOverflow E v md) md (svalue v)) := by
  have key := isOverflow_iff ok hl h
  unfold getIntTarvalOverflow
  simp only [hw, Bool.not_false, Bool.true_and]
  constructor
  · intro hr; rw [if_pos (key.2 hr)]
  · intro hr
    rw [if_neg (fun hc => key.1 hc hr)]
    have := getIntTarval_denotes ok hl h
    rwa [wrap_of_inRange ok.pos hr] at this

/-! consequences of being in range -/
theorem inRange_abs {s : Bool} {b : Nat} {x : Int} (hb : 0 < b) (h : InRange s b x) : |x| < 2 ^ b := by
  have h2 : (2:Int) ^ b = 2 * 2 ^ (b - 1) := by
    rw [two_pow_cast, half_pow hb]; push_cast; rfl
  have hpos : (0:Int) < 2 ^ (b - 1) := by positivity
  unfold InRange at h
  cases s
  · simp only [Bool.false_eq_true, if_false] at h; rw [abs_of_nonneg h.1]; exact h.2
  · simp only [if_true] at h; rw [abs_lt]; constructor <;> omega

theorem denotes_abs {E : TvEnv} {t : TarVal} {md : Mode} {x : Int} (h : Denotes E t md x) :
    |x| < ((256 ^ E.m : Nat) : Int) := by
  have h1 := inRange_abs h.ok.pos h.inRange
  have h2 : (2:Int) ^ md.bits ≤ 2 ^ (8 * E.m) := pow_le_pow_right₀ (by decide) h.ok.le
  rw [two_pow_cast (8 * E.m)] at h2
  rw [pow256]; omega

theorem denotes_unique {E : TvEnv} {t u : TarVal} {md : Mode} {x : Int} (h1 : Denotes E t md x) (h2 : Denotes E u md x) : t = u := by
  obtain ⟨b1, rfl, l1, y1, s1⟩ := h1.repr
  obtain ⟨b2, rfl, l2, y2, s2⟩ := h2.repr
  rw [svalue_inj (by omega) y1 y2 (by omega)]

theorem denotes_fun {E : TvEnv} {t : TarVal} {md : Mode} {x y : Int} (h1 : Denotes E t md x) (h2 : Denotes E t md y) : x = y := by
  obtain ⟨b1, e1, _, _, s1⟩ := h1.repr
  obtain ⟨b2, e2, _, _, s2⟩ := h2.repr
  rw [e1] at e2; cases e2; omega

theorem scZero_svalue (n : Nat) : svalue (scZero n) = 0 := by
  unfold svalue; rw [scZero_value]; simp

theorem modeNull_denotes {E : TvEnv} {md : Mode} (ok : ModeOk E md) : Denotes E (modeNull E md) md 0 := by
  have := getIntTarval_denotes ok (v := scZero (2 * E.m)) (scZero_length _) (scZero_bytes _)
  rw [scZero_svalue] at this
  unfold modeNull
  have h0 : InRange md.signed md.bits 0 := by
    unfold InRange
    have h1 : (0:Int) < 2 ^ (md.bits - 1) := by positivity
    have h2 : (0:Int) < 2 ^ md.bits := by positivity
    split <;> omega
  rwa [wrap_of_inRange ok.pos h0] at this

end Verif.Model
