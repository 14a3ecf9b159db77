import Verif.Lemmas.FltArith
import Verif.Props.FltArith
/-!
# C90: the limits of a floating point format
-/
namespace Verif.Props.Flt
open Verif.Model.Flt Verif.Spec.Flt

/-- the magnitude of a datum, in quanta; only finite data have one -/
def magnitude : Num → Option Nat
  | .fin _ q => some q
  | _ => none

theorem wf_getMax {d : Desc} (hd : Fmt d) (s : Bool) : Wf d (getMax d s) := by
  have hE4 : 4 ≤ 2 ^ d.expSize := Nat.pow_le_pow_right (n := 2) (by omega) hd.exp
  have hcast : ((2 ^ d.expSize : Nat) : Int) = 2 ^ d.expSize := by push_cast; rfl
  have p1 : 2 ^ (d.em + 1) = 2 * 2 ^ d.em := by rw [Nat.pow_add]; ring
  have p2 : 2 ^ (d.em + 2) = 4 * 2 ^ d.em := by rw [Nat.pow_add]; ring
  have p3 : 2 ^ (d.em + 3) = 8 * 2 ^ d.em := by rw [Nat.pow_add]; ring
  have := Nat.two_pow_pos d.em
  refine ⟨rfl, ?_⟩
  simp only [getMax]
  refine ⟨by omega, by omega, by omega, by omega, by omega⟩

/-- `fc_get_max`: a finite number of the wanted sign, and no finite number of the format is larger in magnitude -/
theorem fc_get_max_spec {d : Desc} (hd : Fmt d) (s : Bool) :
    Wf d (getMax d s) ∧ ∃ q, (getMax d s).num = .fin s q ∧ ∀ v, Wf d v → ∀ r, magnitude v.num = some r → r ≤ q := by
  refine ⟨wf_getMax hd s, _, rfl, fun v hv r hr => ?_⟩
  have hE4 : 4 ≤ 2 ^ d.expSize := Nat.pow_le_pow_right (n := 2) (by omega) hd.exp
  have hcast : ((2 ^ d.expSize : Nat) : Int) = 2 ^ d.expSize := by push_cast; rfl
  have p1 : 2 ^ (d.em + 1) = 2 * 2 ^ d.em := by rw [Nat.pow_add]; ring
  have p2 : 2 ^ (d.em + 2) = 4 * 2 ^ d.em := by rw [Nat.pow_add]; ring
  have p3 : 2 ^ (d.em + 3) = 8 * 2 ^ d.em := by rw [Nat.pow_add]; ring
  have hp := Nat.two_pow_pos d.em
  obtain ⟨c, cl, n, e, m⟩ := v
  obtain ⟨hdesc, hcl⟩ := hv
  simp only [getMax]
  rw [Nat.mul_div_cancel _ (by omega : 0 < 4)]
  have hx := Nat.two_pow_pos (2 ^ d.expSize - 2 - 1 : Int).toNat
  cases cl with
  | nan => simp [Fp.num, magnitude] at hr
  | inf => simp [Fp.num, magnitude] at hr
  | zero => simp [Fp.num, magnitude] at hr; omega
  | subnormal =>
    simp only [Fp.num, magnitude, Option.some.injEq] at hr
    simp only at hcl
    subst hr
    calc m / 4 ≤ (2 ^ (d.em + 1) - 1) * 1 := by omega
      _ ≤ _ := Nat.mul_le_mul (le_refl _) hx
  | normal =>
    simp only [Fp.num, magnitude, Option.some.injEq] at hr
    simp only at hcl
    subst hr
    apply Nat.mul_le_mul (by omega)
    exact Nat.pow_le_pow_right (by omega) (by omega)

/-- `fc_get_small`: a number of the format, and no normalised number is smaller in magnitude -/
theorem fc_get_small_spec {d : Desc} (hd : Fmt d) :
    Wf d (getSmall d) ∧ ∃ q, (getSmall d).num = .fin false q ∧ q = 2 ^ d.em ∧
      ∀ v, Wf d v → v.clss = .normal → ∃ r, magnitude v.num = some r ∧ q ≤ r := by
  have hE4 : 4 ≤ 2 ^ d.expSize := Nat.pow_le_pow_right (n := 2) (by omega) hd.exp
  have hcast : ((2 ^ d.expSize : Nat) : Int) = 2 ^ d.expSize := by push_cast; rfl
  have p2 : 2 ^ (d.em + 2) = 4 * 2 ^ d.em := by rw [Nat.pow_add]; ring
  have p3 : 2 ^ (d.em + 3) = 8 * 2 ^ d.em := by rw [Nat.pow_add]; ring
  have hp := Nat.two_pow_pos d.em
  refine ⟨⟨rfl, ?_⟩, _, rfl, ?_, fun v hv hn => ?_⟩
  · simp only [getSmall]; exact ⟨by omega, by omega, by omega, by omega, by omega⟩
  · simp only [getSmall]; rw [p2]; simp
  · obtain ⟨c, cl, n, e, m⟩ := v
    obtain ⟨hdesc, hcl⟩ := hv
    simp only at hn
    subst hn
    refine ⟨_, rfl, ?_⟩
    simp only at hcl
    simp only [getSmall]
    rw [p2, Nat.mul_div_cancel_left _ (by omega : 0 < 4)]
    simp only [sub_self, Int.toNat_zero, pow_zero, mul_one]
    calc 2 ^ d.em = 2 ^ d.em * 1 := by omega
      _ ≤ _ := Nat.mul_le_mul (by omega) (Nat.two_pow_pos _)

/-- the number of quanta of one -/
def oneQ (d : Desc) : Nat := 2 ^ (bias d.expSize + d.em - 1)

/-- `fc_get_epsilon`, for formats with fewer fraction bits than the exponent bias: one plus this number is representable, and it is the
smallest representable number above one -/
theorem fc_get_epsilon_spec {d : Desc} (hd : Fmt d) (hb : d.em < d.bias) :
    Wf d (getEpsilon d) ∧ ∃ q, (getEpsilon d).num = .fin false q ∧ Rep d.em (oneQ d + q) ∧
      ∀ f, Rep d.em f → oneQ d < f → oneQ d + q ≤ f := by
  have hE4 : 4 ≤ 2 ^ d.expSize := Nat.pow_le_pow_right (n := 2) (by omega) hd.exp
  have hE : 2 ^ d.expSize = 2 * 2 ^ (d.expSize - 1) := by
    rw [← Nat.pow_succ']; congr 1; have := hd.exp; omega
  have hcast : ((2 ^ d.expSize : Nat) : Int) = 2 ^ d.expSize := by push_cast; rfl
  have p1 : 2 ^ (d.em + 1) = 2 * 2 ^ d.em := by rw [Nat.pow_add]; ring
  have p2 : 2 ^ (d.em + 2) = 4 * 2 ^ d.em := by rw [Nat.pow_add]; ring
  have p3 : 2 ^ (d.em + 3) = 8 * 2 ^ d.em := by rw [Nat.pow_add]; ring
  have hp := Nat.two_pow_pos d.em
  have hbias : bias d.expSize = d.bias := rfl
  have hbd : d.bias = 2 ^ (d.expSize - 1) - 1 := rfl
  have hM := hd.frac
  refine ⟨⟨rfl, ?_⟩, 2 ^ (d.bias - 1), ?_, ?_, fun f hf hlt => ?_⟩
  · simp only [getEpsilon]; refine ⟨by omega, by omega, by omega, by omega, by omega⟩
  · have : (getEpsilon d).num = .fin false (2 ^ (d.em + 2) / 4 * 2 ^ ((d.bias : Int) - d.em - 1).toNat) := rfl
    rw [this, p2, Nat.mul_div_cancel_left _ (by omega : 0 < 4), ← Nat.pow_add]
    congr 2; omega
  · refine ⟨2 ^ d.em + 1, d.bias - 1, ?_, ?_⟩
    · have h1 : 2 ^ 1 ≤ 2 ^ d.em := Nat.pow_le_pow_right (by omega) (by omega)
      omega
    · unfold oneQ
      rw [hbias, Nat.add_mul, ← Nat.pow_add, Nat.one_mul]
      congr 2; omega
  · have hone : oneQ d = 2 ^ d.em * 2 ^ (d.bias - 1) := by
      unfold oneQ; rw [hbias, ← Nat.pow_add]; congr 1; omega
    obtain ⟨s, j, hs, rfl⟩ := hf
    rw [hone] at hlt ⊢
    -- the exponent of a number above one is large enough to make it a multiple of epsilon
    have hj : d.bias - 1 ≤ j := by
      apply Classical.byContradiction
      intro hj
      have hj' : j + 1 ≤ d.bias - 1 := by omega
      have h2 : 2 ^ (j + 1) ≤ 2 ^ (d.bias - 1) := Nat.pow_le_pow_right (by omega) hj'
      have h3 : s * 2 ^ j < 2 ^ (d.em + 1) * 2 ^ j := Nat.mul_lt_mul_of_pos_right hs (Nat.two_pow_pos _)
      have h4 : 2 ^ d.em * 2 ^ (j + 1) ≤ 2 ^ d.em * 2 ^ (d.bias - 1) := Nat.mul_le_mul (le_refl _) h2
      have h5 : 2 ^ (d.em + 1) * 2 ^ j = 2 ^ d.em * 2 ^ (j + 1) := by rw [← Nat.pow_add, ← Nat.pow_add]; congr 1; omega
      omega
    obtain ⟨k, rfl⟩ := Nat.exists_eq_add_of_le hj
    have e : s * 2 ^ (d.bias - 1 + k) = s * 2 ^ k * 2 ^ (d.bias - 1) := by rw [Nat.pow_add]; ring
    rw [e] at hlt ⊢
    have := Nat.lt_of_mul_lt_mul_right hlt
    calc 2 ^ d.em * 2 ^ (d.bias - 1) + 2 ^ (d.bias - 1) = (2 ^ d.em + 1) * 2 ^ (d.bias - 1) := by ring
      _ ≤ _ := Nat.mul_le_mul this (le_refl _)

/-- single precision: the limits, and `1 + epsilon` computed by `fc_add` is the next number -/
example : Fmt single ∧ single.em < single.bias ∧ (getMax single false).num = .fin false ((2 ^ 24 - 1) * 2 ^ 253) ∧
    (getSmall single).num = .fin false (2 ^ 23) ∧ (getEpsilon single).num = .fin false (2 ^ 126) ∧
    (getEpsilon single).mant = 2 ^ 25 := by
  refine ⟨?_, ?_, ?_, ?_, ?_, ?_⟩
  · exact ⟨by decide, by decide⟩
  all_goals decide +kernel

end Verif.Props.Flt
