import Verif.Model.DivConst
import Verif.Lemmas.Bits
import Mathlib.Data.Nat.Prime.Basic
import Mathlib.Tactic.Ring
import Mathlib.Tactic.Linarith
import Mathlib.Tactic.Positivity
/-!
# Lemmas on division by multiplication
-/
namespace Verif.Model
open Verif.Spec

/-! ## Number theory -/

/-- the error of the multiplier is small: the multiplication rounds down to the quotient -/
theorem magic_lt {D M P δ a : Nat} (hD : 0 < D) (hM : M * D = P + δ) (h : δ * a < P * (D - a % D)) : M * a < P * (a / D + 1) := by
  have h1 : M * a * D = P * a + δ * a := by rw [Nat.mul_right_comm, hM, Nat.add_mul]
  have h2 : a = D * (a / D) + a % D := (Nat.div_add_mod a D).symm
  have h3 : a % D < D := Nat.mod_lt _ hD
  have h4 : P * (a / D + 1) * D = P * a + P * (D - a % D) := by
    have : (a / D + 1) * D = a + (D - a % D) := by
      rw [Nat.add_mul, Nat.mul_comm (a / D) D]; omega
    rw [Nat.mul_assoc, this, Nat.mul_add]
  have h5 : M * a * D < P * (a / D + 1) * D := by rw [h1, h4]; omega
  exact Nat.lt_of_mul_lt_mul_right h5

theorem magic_le {D M P δ a : Nat} (hD : 0 < D) (hM : M * D = P + δ) (h : δ * a ≤ P * (D - a % D)) : M * a ≤ P * (a / D + 1) := by
  have h1 : M * a * D = P * a + δ * a := by rw [Nat.mul_right_comm, hM, Nat.add_mul]
  have h2 : a = D * (a / D) + a % D := (Nat.div_add_mod a D).symm
  have h3 : a % D < D := Nat.mod_lt _ hD
  have h4 : P * (a / D + 1) * D = P * a + P * (D - a % D) := by
    have : (a / D + 1) * D = a + (D - a % D) := by
      rw [Nat.add_mul, Nat.mul_comm (a / D) D]; omega
    rw [Nat.mul_assoc, this, Nat.mul_add]
  have h5 : M * a * D ≤ P * (a / D + 1) * D := by rw [h1, h4]; omega
  exact Nat.le_of_mul_le_mul_right h5 hD

/-- the multiplication rounds up -/
theorem magic_ge {D M P δ a : Nat} (hM : M * D = P + δ) : P * (a / D) ≤ M * a := by
  calc P * (a / D) ≤ (P + δ) * (a / D) := Nat.mul_le_mul_right _ (by omega)
    _ = M * (D * (a / D)) := by rw [← hM, Nat.mul_assoc]
    _ ≤ M * a := Nat.mul_le_mul_left _ (Nat.mul_div_le a D)

theorem magic_gt {D M P δ a : Nat} (hD : 0 < D) (hM : M * D = P + δ) (hδ : 0 < δ) (ha : 0 < a) : P * (a / D) < M * a := by
  have h1 : P * (a / D) * D ≤ P * a := by
    rw [Nat.mul_assoc, Nat.mul_comm (a / D)]; exact Nat.mul_le_mul_left _ (Nat.mul_div_le a D)
  have h2 : P * a < M * a * D := by
    rw [Nat.mul_right_comm, hM, Nat.add_mul]
    have : 0 < δ * a := Nat.mul_pos hδ ha
    omega
  exact Nat.lt_of_mul_lt_mul_right (Nat.lt_of_le_of_lt h1 h2)

/-- `c` is the largest number below `t` that is congruent to `D - 1`, and the error is below `P` at `c`: then the error is small
enough for every number below `t` -/
theorem magic_err {D P δ t a : Nat} (hD : 0 < D) (ht : D ≤ t) (h : δ * (t - 1 - t % D) < P) (ha : a + 1 ≤ t) :
    δ * a < P * (D - a % D) := by
  have htd := Nat.div_add_mod t D
  have htm : t % D < D := Nat.mod_lt _ hD
  have hc : 1 ≤ t / D := (Nat.le_div_iff_mul_le hD).2 (by omega)
  have had := Nat.div_add_mod a D
  have ham : a % D < D := Nat.mod_lt _ hD
  have hP : 0 < P := by omega
  have hcD : D ≤ D * (t / D) := Nat.le_mul_of_pos_right D hc
  by_cases hr : a % D = D - 1
  · have h1 : a / D < t / D := by
      by_contra hge
      have : D * (t / D) ≤ D * (a / D) := Nat.mul_le_mul_left _ (by omega)
      omega
    have h2 : D * (a / D) + D ≤ D * (t / D) := by
      have : D * (a / D + 1) ≤ D * (t / D) := Nat.mul_le_mul_left _ h1
      rw [Nat.mul_add, Nat.mul_one] at this; exact this
    have h3 : a ≤ t - 1 - t % D := by omega
    calc δ * a ≤ δ * (t - 1 - t % D) := Nat.mul_le_mul_left _ h3
      _ < P := h
      _ ≤ P * (D - a % D) := Nat.le_mul_of_pos_right P (by omega)
  · have h3 : a ≤ 2 * (t - 1 - t % D) := by omega
    calc δ * a ≤ δ * (2 * (t - 1 - t % D)) := Nat.mul_le_mul_left _ h3
      _ = 2 * (δ * (t - 1 - t % D)) := by ring
      _ < 2 * P := by omega
      _ = P * 2 := by ring
      _ ≤ P * (D - a % D) := Nat.mul_le_mul_left _ (by omega)

/-- the number `t` itself, if it is a divisor of `P` -/
theorem magic_err_top {D P δ t c : Nat} (hD : 0 < D) (ht : D ≤ t) (hP : P = t * c) (h : δ * (t - 1 - t % D) < P) (hδ : δ + P % D = D) :
    δ * t ≤ P * (D - t % D) := by
  have htd := Nat.div_add_mod t D
  have htm : t % D < D := Nat.mod_lt _ hD
  have hc : 1 ≤ t / D := (Nat.le_div_iff_mul_le hD).2 (by omega)
  have hcD : D ≤ D * (t / D) := Nat.le_mul_of_pos_right D hc
  by_cases hr : t % D = D - 1
  · -- `δ` and `c` are congruent, hence `δ ≤ c`
    have h0 : 0 < c := by
      by_contra hc0
      rw [Nat.eq_zero_of_not_pos hc0, Nat.mul_zero] at hP; omega
    have h1 : δ ≤ c := by
      have hdv : D ∣ P + c := by
        have : P + c = (D * (t / D + 1)) * c := by
          rw [hP, ← Nat.succ_mul, Nat.mul_add D, Nat.mul_one]
          have : t.succ = D * (t / D) + D := by omega
          rw [this]
        rw [this]; exact Dvd.dvd.mul_right (Nat.dvd_mul_right _ _) _
      by_contra hlt
      have h2 : (P % D + c) % D = 0 := by rw [Nat.mod_add_mod]; exact Nat.mod_eq_zero_of_dvd hdv
      rw [Nat.mod_eq_of_lt (by omega)] at h2; omega
    have : D - t % D = 1 := by omega
    rw [this, Nat.mul_one, hP, Nat.mul_comm t c]
    exact Nat.mul_le_mul_right _ h1
  · have h3 : t ≤ 2 * (t - 1 - t % D) := by
      by_cases hge : D * (t / D) = D
      · omega
      · have : 2 ≤ t / D := by
          by_contra hlt
          have : t / D = 1 := by omega
          rw [this] at hge; omega
        have : D * 2 ≤ D * (t / D) := Nat.mul_le_mul_left _ this
        omega
    calc δ * t ≤ δ * (2 * (t - 1 - t % D)) := Nat.mul_le_mul_left _ h3
      _ = 2 * (δ * (t - 1 - t % D)) := by ring
      _ ≤ 2 * P := by omega
      _ = P * 2 := by ring
      _ ≤ P * (D - t % D) := Nat.mul_le_mul_left _ (by omega)

/-- a number that is not a power of two divides no power of two -/
theorem pow2_mod_pos {D : Nat} (h : ∀ k, D ≠ 2 ^ k) (p : Nat) : 0 < 2 ^ p % D := by
  rcases Nat.eq_zero_or_pos (2 ^ p % D) with h0 | h0
  · obtain ⟨k, _, hk⟩ := (Nat.dvd_prime_pow Nat.prime_two).1 (Nat.dvd_of_mod_eq_zero h0)
    exact absurd hk (h k)
  · exact h0

theorem pow_succ_div_mod {D p : Nat} (hD : 0 < D) :
    (2 ^ p % D * 2 < D → 2 ^ (p + 1) / D = 2 ^ p / D * 2 ∧ 2 ^ (p + 1) % D = 2 ^ p % D * 2) ∧
    (D ≤ 2 ^ p % D * 2 → 2 ^ (p + 1) / D = 2 ^ p / D * 2 + 1 ∧ 2 ^ (p + 1) % D = 2 ^ p % D * 2 - D) := by
  have h := Nat.div_add_mod (2 ^ p) D
  have hm : 2 ^ p % D < D := Nat.mod_lt _ hD
  rw [Nat.pow_succ]
  generalize 2 ^ p / D = q at h ⊢
  generalize 2 ^ p % D = r at h hm ⊢
  constructor
  · intro hr
    have he : 2 ^ p * 2 = r * 2 + D * (q * 2) := by rw [← h]; ring
    rw [he, Nat.add_mul_div_left _ _ hD, Nat.add_mul_mod_self_left, Nat.div_eq_of_lt hr, Nat.mod_eq_of_lt hr]
    exact ⟨by omega, rfl⟩
  · intro hr
    have he : 2 ^ p * 2 = (r * 2 - D) + D * (q * 2 + 1) := by
      rw [Nat.mul_add, Nat.mul_one, ← h]
      have : (D * q + r) * 2 = D * (q * 2) + r * 2 := by ring
      omega
    rw [he, Nat.add_mul_div_left _ _ hD, Nat.add_mul_mod_self_left, Nat.div_eq_of_lt (by omega), Nat.mod_eq_of_lt (by omega)]
    exact ⟨by omega, rfl⟩

/-! ## Unsigned arithmetic without overflow -/

theorem uAdd_eq {W a b : Nat} (h : a + b < 2 ^ W) : uAdd W a b = a + b := Nat.mod_eq_of_lt h
theorem uMul_eq {W a b : Nat} (h : a * b < 2 ^ W) : uMul W a b = a * b := Nat.mod_eq_of_lt h
theorem uSub_eq {W a b : Nat} (h : b ≤ a) (ha : a < 2 ^ W) : uSub W a b = a - b := by
  unfold uSub
  have : a + (2 ^ W - b) = (a - b) + 2 ^ W := by omega
  rw [this, Nat.add_mod_right, Nat.mod_eq_of_lt (by omega)]
theorem uShlOne_eq {W s : Nat} (h : s < W) : uShlOne W s = 2 ^ s :=
  Nat.mod_eq_of_lt (Nat.pow_lt_pow_right (by omega) h)

/-! ## The signed loop -/

theorem magicDouble_spec {W D p : Nat} (hD : 0 < D) (h2 : 2 * D ≤ 2 ^ W) (hq : 2 ^ (p + 1) / D < 2 ^ W) :
    magicDouble W D (2 ^ p / D, 2 ^ p % D) = (2 ^ (p + 1) / D, 2 ^ (p + 1) % D) := by
  have hm : 2 ^ p % D < D := Nat.mod_lt _ hD
  obtain ⟨h1, h3⟩ := pow_succ_div_mod (p := p) hD
  unfold magicDouble
  simp only []
  rw [uAdd_eq (a := 2 ^ p % D) (by omega)]
  by_cases hr : D ≤ 2 ^ p % D + 2 ^ p % D
  · obtain ⟨e1, e2⟩ := h3 (by omega)
    rw [if_pos hr, uAdd_eq (a := 2 ^ p / D) (by omega), uAdd_eq (by omega), uSub_eq hr (by omega), e1, e2]
    congr 1 <;> omega
  · obtain ⟨e1, e2⟩ := h1 (by omega)
    rw [if_neg hr, uAdd_eq (by omega), e1, e2]
    congr 1 <;> omega

theorem magicContinue_spec {W ad anc p : Nat} (hanc : 0 < anc) (had : 0 < ad) (h2 : ad < 2 ^ W) :
    magicContinue W ad (2 ^ p / anc, 2 ^ p % anc) (2 ^ p / ad, 2 ^ p % ad) = true ↔ 2 ^ p ≤ anc * (ad - 2 ^ p % ad) := by
  have hm : 2 ^ p % ad < ad := Nat.mod_lt _ had
  have hm' : 2 ^ p % anc < anc := Nat.mod_lt _ hanc
  have h := Nat.div_add_mod (2 ^ p) anc
  unfold magicContinue
  rw [uSub_eq (Nat.le_of_lt hm) h2]
  generalize ad - 2 ^ p % ad = δ
  generalize 2 ^ p / anc = q at *
  generalize 2 ^ p % anc = r at *
  generalize 2 ^ p = P at *
  simp only [Bool.or_eq_true, decide_eq_true_eq, Bool.and_eq_true, beq_iff_eq]
  constructor
  · rintro (hl | ⟨rfl, rfl⟩)
    · have : anc * (q + 1) ≤ anc * δ := Nat.mul_le_mul_left _ hl
      rw [Nat.mul_add] at this; omega
    · omega
  · intro hle
    by_cases hl : q < δ
    · exact Or.inl hl
    · have : anc * δ ≤ anc * q := Nat.mul_le_mul_left _ (by omega)
      have hq : q = δ := by
        by_contra hne
        have : anc * (δ + 1) ≤ anc * q := Nat.mul_le_mul_left _ (by omega)
        rw [Nat.mul_add] at this; omega
      subst hq
      exact Or.inr ⟨rfl, by omega⟩

theorem magicLoop_spec {W ad anc : Nat} (hW : 1 ≤ W) (had : 3 ≤ ad) (hnp : ∀ k, ad ≠ 2 ^ k) (hadle : ad ≤ 2 ^ (W - 1)) (hanc : ad - 1 ≤ anc) (hancle : anc ≤ 2 ^ (W - 1)) :
    ∀ (fuel p : Nat), W - 1 ≤ p → 2 * W ≤ fuel + p + 1 → (p = W - 1 ∨ 2 ^ p ≤ anc * (ad - 2 ^ p % ad)) → 0 < fuel →
      ∃ P, magicLoop W ad anc fuel p (2 ^ p / anc, 2 ^ p % anc) (2 ^ p / ad, 2 ^ p % ad) = some (P, 2 ^ P / ad) ∧
        W ≤ P ∧ P ≤ 2 * W - 1 ∧ anc * (ad - 2 ^ P % ad) < 2 ^ P ∧ 2 ^ P / ad + 1 < 2 ^ W := by
  intro fuel
  induction fuel with
  | zero => intro p _ _ _ h0; omega
  | succ f ih =>
    intro p hp hfuel hinv _
    have hpow : 2 ^ W = 2 * 2 ^ (W - 1) := half_pow hW
    have hb : 2 ^ (p + 1) / anc < 2 ^ W ∧ 2 ^ (p + 1) / ad + 1 < 2 ^ W := by
      rcases hinv with hpe | hle
      · have : p + 1 = W := by omega
        rw [this]
        constructor
        · exact Nat.div_lt_self (by positivity) (by omega)
        · have h1 : 2 ^ W / ad ≤ 2 ^ W / 3 := Nat.div_le_div_left had (by omega)
          omega
      · have hr := pow2_mod_pos hnp p
        have h1 : 2 ^ (p + 1) ≤ 2 * (anc * (ad - 1)) := by
          rw [Nat.pow_succ]
          have : anc * (ad - 2 ^ p % ad) ≤ anc * (ad - 1) := Nat.mul_le_mul_left _ (by omega)
          omega
        constructor
        · have h2 : 2 ^ (p + 1) / anc ≤ 2 * (ad - 1) := by
            apply Nat.div_le_of_le_mul
            calc 2 ^ (p + 1) ≤ 2 * (anc * (ad - 1)) := h1
              _ = anc * (2 * (ad - 1)) := by ring
          omega
        · by_contra hge
          have h2 : 2 * anc - 1 ≤ 2 ^ (p + 1) / ad := by omega
          have h3 : (2 * anc - 1) * ad ≤ 2 ^ (p + 1) :=
            Nat.le_trans (Nat.mul_le_mul_right _ h2) (Nat.div_mul_le_self _ _)
          have h4 : (2 * anc - 1) * ad ≤ 2 * (anc * (ad - 1)) := Nat.le_trans h3 h1
          have h5 : (2 * anc - 1) * ad + ad = 2 * (anc * (ad - 1)) + 2 * anc := by
            obtain ⟨c, hc⟩ : ∃ c, ad = c + 1 := ⟨ad - 1, by omega⟩
            obtain ⟨n, hn⟩ : ∃ n, 2 * anc - 1 = n ∧ 2 * anc = n + 1 := ⟨2 * anc - 1, rfl, by omega⟩
            rw [hn.1, hc, Nat.add_sub_cancel]
            have : 2 * (anc * c) = (n + 1) * c := by rw [← hn.2]; ring
            rw [this, hn.2]; ring
          omega
    rw [magicLoop, magicDouble_spec (by omega) (by omega) hb.1, magicDouble_spec (by omega) (by omega) (by omega)]
    have hc := magicContinue_spec (W := W) (ad := ad) (anc := anc) (p := p + 1) (by omega) (by omega) (by omega)
    by_cases hcont : magicContinue W ad (2 ^ (p + 1) / anc, 2 ^ (p + 1) % anc) (2 ^ (p + 1) / ad, 2 ^ (p + 1) % ad) = true
    · rw [if_pos hcont]
      have hle := hc.1 hcont
      have hlt : p + 1 < 2 * W - 1 := by
        by_contra hge
        have h1 : 2 ^ (2 * W - 1) ≤ 2 ^ (p + 1) := Nat.pow_le_pow_right (by omega) (by omega)
        have h2 : anc * (ad - 2 ^ (p + 1) % ad) ≤ 2 ^ (W - 1) * 2 ^ (W - 1) := Nat.mul_le_mul hancle (by omega)
        have h3 : 2 ^ (2 * W - 1) = 2 ^ (W - 1) * 2 ^ (W - 1) * 2 := by
          rw [← Nat.pow_add, ← Nat.pow_succ]; congr 1; omega
        have h4 : 0 < 2 ^ (W - 1) * 2 ^ (W - 1) := by positivity
        omega
      exact ih (p + 1) (by omega) (by omega) (Or.inr hle) (by omega)
    · rw [if_neg hcont]
      have hgt : anc * (ad - 2 ^ (p + 1) % ad) < 2 ^ (p + 1) := by
        by_contra hge; exact hcont (hc.2 (by omega))
      refine ⟨p + 1, rfl, by omega, ?_, hgt, hb.2⟩
      rcases hinv with hpe | hle
      · omega
      · by_contra hge
        have h1 : 2 ^ (2 * W - 1) ≤ 2 ^ p := Nat.pow_le_pow_right (by omega) (by omega)
        have h2 : anc * (ad - 2 ^ p % ad) ≤ 2 ^ (W - 1) * 2 ^ (W - 1) := Nat.mul_le_mul hancle (by omega)
        have h3 : 2 ^ (2 * W - 1) = 2 ^ (W - 1) * 2 ^ (W - 1) * 2 := by
          rw [← Nat.pow_add, ← Nat.pow_succ]; congr 1; omega
        have h4 : 0 < 2 ^ (W - 1) * 2 ^ (W - 1) := by positivity
        omega

end Verif.Model
