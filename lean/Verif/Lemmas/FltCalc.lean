import Verif.Model.FltCalc
import Verif.Lemmas.Float
/-!
# Lemmas about `normalize`
-/
namespace Verif.Model.Flt
open Verif.Spec.Flt

theorem highest_lt {m k : Nat} : highest m < (k : Int) ↔ m < 2 ^ k := by
  unfold highest
  split
  · rename_i h; subst h; simp; omega
  · rename_i h
    rw [← Nat.log2_lt h]; omega

theorem highest_ge {m k : Nat} : (k : Int) ≤ highest m ↔ 2 ^ k ≤ m := by
  have := @highest_lt m k; omega

theorem mod_split (m a b : Nat) : m % 2 ^ (a + b) ≠ 0 ↔ m % 2 ^ a ≠ 0 ∨ m / 2 ^ a % 2 ^ b ≠ 0 := by
  rw [Nat.pow_add, Nat.mod_mul]
  have := Nat.two_pow_pos a
  constructor
  · intro h
    by_contra hc
    push Not at hc
    apply h; rw [hc.1, hc.2]; simp
  · rintro (h | h) hc
    · omega
    · have : 2 ^ a * (m / 2 ^ a % 2 ^ b) = 0 := by omega
      rcases Nat.mul_eq_zero.mp this with h1 | h1
      · omega
      · exact h h1

theorem shl_mod (m a b : Nat) : m * 2 ^ a % 2 ^ (a + b) ≠ 0 ↔ m % 2 ^ b ≠ 0 := by
  rw [Nat.pow_add, Nat.mul_comm m, Nat.mul_mod_mul_left]
  have := Nat.two_pow_pos a
  constructor
  · intro h hc; apply h; rw [hc]; simp
  · intro h hc
    rcases Nat.mul_eq_zero.mp hc with h1 | h1
    · omega
    · exact h h1

/-- the mantissa moved by `k` places -/
def moved (m : Nat) (k : Int) : Nat := if 0 ≤ k then m * 2 ^ k.toNat else m / 2 ^ (-k).toNat

/-- bits are lost by moving -/
def lost (m : Nat) (k : Int) : Bool := decide (k < 0 ∧ m % 2 ^ (-k).toNat ≠ 0)

/-- the effect of the first two steps of `normalize` -/
theorem align_underflow (M m : Nat) (exp : Int) (sticky : Bool) :
    ∃ e : Nat, 1 ≤ e ∧
      (underflowStep (alignStep M ⟨m, exp, sticky, true⟩)).1.mant = moved m (exp - e) ∧
      moved m (exp - e) < 2 ^ (M + 3) ∧
      (((underflowStep (alignStep M ⟨m, exp, sticky, true⟩)).2 = .normal ∧
          (underflowStep (alignStep M ⟨m, exp, sticky, true⟩)).1.exp = e ∧ 2 ^ (M + 2) ≤ moved m (exp - e)) ∨
       ((underflowStep (alignStep M ⟨m, exp, sticky, true⟩)).2 = .subnormal ∧
          (underflowStep (alignStep M ⟨m, exp, sticky, true⟩)).1.exp = 0 ∧ e = 1 ∧ moved m (exp - e) < 2 ^ (M + 2))) ∧
      (underflowStep (alignStep M ⟨m, exp, sticky, true⟩)).1.sticky = (sticky || lost m (exp - e)) ∧
      (underflowStep (alignStep M ⟨m, exp, sticky, true⟩)).1.exact = !lost m (exp - e) := by
  by_cases hm0 : m = 0
  · subst hm0
    have : alignStep M ⟨0, exp, sticky, true⟩ = ⟨0, 0, sticky, true⟩ := by
      unfold alignStep highest; simp
    refine ⟨1, Nat.le_refl _, ?_⟩
    rw [this]
    have hmv : moved 0 (exp - (1 : Nat)) = 0 := by unfold moved; split <;> simp
    have hl : lost 0 (exp - (1 : Nat)) = false := by unfold lost; simp
    rw [hmv, hl]
    simp [underflowStep]
  · have hlo : 2 ^ Nat.log2 m ≤ m := (Nat.le_log2 hm0).mp (Nat.le_refl _)
    have hhi : m < 2 ^ (Nat.log2 m + 1) := (Nat.log2_lt hm0).mp (Nat.lt_succ_self _)
    have hh : highest m = (Nat.log2 m : Int) := by simp [highest, hm0]
    generalize hL : Nat.log2 m = L at *
    have hne : ¬ (2 + (M : Int) - highest m - 1 = 2 + (M : Int)) := by omega
    by_cases hbig : M + 2 < L
    · obtain ⟨c, rfl⟩ : ∃ c, L = M + 2 + (c + 1) := ⟨L - M - 3, by omega⟩
      have hneg : 2 + (M : Int) - highest m - 1 < -1 := by omega
      have hk : (-(2 + (M : Int) - highest m - 1) - 1).toNat = c + 1 := by omega
      have hal : alignStep M ⟨m, exp, sticky, true⟩ = ⟨m / 2 ^ (c + 1), exp + (c + 1 : Nat), sticky || decide (m % 2 ^ (c + 1) ≠ 0), !decide (m % 2 ^ (c + 1) ≠ 0)⟩ := by
        unfold alignStep; simp only [hne, if_false, hneg, if_true, hk, Bool.true_and]
      have b1 : m / 2 ^ (c + 1) < 2 ^ (M + 3) := by
        rw [Nat.div_lt_iff_lt_mul (Nat.two_pow_pos _), ← Nat.pow_add]
        exact Nat.lt_of_lt_of_eq hhi (by congr 1; omega)
      have b2 : 2 ^ (M + 2) ≤ m / 2 ^ (c + 1) := by
        rw [Nat.le_div_iff_mul_le (Nat.two_pow_pos _), ← Nat.pow_add]
        exact Nat.le_trans (Nat.le_of_eq (by congr 1)) hlo
      rw [hal]
      by_cases hexp : exp + (c + 1 : Nat) ≤ 0
      · have hk2 : (1 - (exp + ((c + 1 : Nat) : Int))).toNat = (1 - exp).toNat - (c + 1) := by omega
        obtain ⟨k2, hk2'⟩ : ∃ k2, (1 - exp).toNat = (c + 1) + (k2 + 1) := ⟨(1 - exp).toNat - (c + 1) - 1, by omega⟩
        have hk3 : (1 - (exp + ((c + 1 : Nat) : Int))).toNat = k2 + 1 := by omega
        have hmv : moved m (exp - (1 : Nat)) = m / 2 ^ (c + 1) / 2 ^ (k2 + 1) := by
          unfold moved; rw [if_neg (by omega), show (-(exp - ((1 : Nat) : Int))).toNat = (c + 1) + (k2 + 1) from by omega, Nat.pow_add (n := k2 + 1),
            ← Nat.div_div_eq_div_mul]
        have hl : lost m (exp - (1 : Nat)) = (decide (m % 2 ^ (c + 1) ≠ 0) || decide (m / 2 ^ (c + 1) % 2 ^ (k2 + 1) ≠ 0)) := by
          unfold lost; rw [show (-(exp - ((1 : Nat) : Int))).toNat = (c + 1) + (k2 + 1) from by omega]
          rw [← Bool.decide_or, decide_eq_decide, mod_split]
          constructor
          · exact And.right
          · exact fun h => ⟨by omega, h⟩
        have hlt : m / 2 ^ (c + 1) / 2 ^ (k2 + 1) < 2 ^ (M + 2) := by
          rw [Nat.div_lt_iff_lt_mul (Nat.two_pow_pos _), ← Nat.pow_add]
          exact Nat.lt_of_lt_of_le b1 (Nat.pow_le_pow_right (by omega) (by omega))
        refine ⟨1, Nat.le_refl _, ?_⟩
        rw [hmv, hl]
        have hun : ∀ st ex, underflowStep ⟨m / 2 ^ (c + 1), exp + (c + 1 : Nat), st, ex⟩ = (⟨m / 2 ^ (c + 1) / 2 ^ (k2 + 1), 0, st || decide (m / 2 ^ (c + 1) % 2 ^ (k2 + 1) ≠ 0), ex && !decide (m / 2 ^ (c + 1) % 2 ^ (k2 + 1) ≠ 0)⟩, .subnormal) := by
          intro st ex; unfold underflowStep; simp only [hexp, if_true, hk3]
        rw [hun]
        refine ⟨rfl, ?_, Or.inr ⟨rfl, rfl, rfl, hlt⟩, ?_, ?_⟩
        · exact Nat.lt_of_lt_of_le hlt (Nat.pow_le_pow_right (by omega) (by omega))
        · simp only [Bool.or_assoc]
        · simp only [Bool.not_or]
      · obtain ⟨e, he⟩ : ∃ e : Nat, exp + (c + 1 : Nat) = e := ⟨(exp + (c + 1 : Nat)).toNat, by omega⟩
        have hke : exp - (e : Int) = -((c + 1 : Nat) : Int) := by omega
        have hmv : moved m (exp - e) = m / 2 ^ (c + 1) := by
          rw [hke]; unfold moved; rw [if_neg (by omega)]; congr 2
        have hl : lost m (exp - e) = decide (m % 2 ^ (c + 1) ≠ 0) := by
          rw [hke]; unfold lost; rw [decide_eq_decide, show (- -((c + 1 : Nat) : Int)).toNat = c + 1 from by omega]
          exact ⟨And.right, fun h => ⟨by omega, h⟩⟩
        refine ⟨e, by omega, ?_⟩
        rw [hmv, hl]
        have hun : ∀ st ex, underflowStep ⟨m / 2 ^ (c + 1), exp + (c + 1 : Nat), st, ex⟩ = (⟨m / 2 ^ (c + 1), exp + (c + 1 : Nat), st, ex⟩, .normal) := by
          intro st ex; unfold underflowStep; simp only [hexp, if_false]
        rw [hun]
        exact ⟨rfl, b1, Or.inl ⟨rfl, he, b2⟩, rfl, rfl⟩
    · obtain ⟨c, hc⟩ : ∃ c, M + 2 = L + c := ⟨M + 2 - L, by omega⟩
      have hneg : ¬ (2 + (M : Int) - highest m - 1 < -1) := by omega
      have hk : (2 + (M : Int) - highest m - 1 + 1).toNat = c := by omega
      have hal : alignStep M ⟨m, exp, sticky, true⟩ = ⟨m * 2 ^ c, exp - (c : Nat), sticky, true⟩ := by
        unfold alignStep; simp only [hne, if_false, hneg, hk]
      have b1 : m * 2 ^ c < 2 ^ (M + 3) := by
        have : m * 2 ^ c < 2 ^ (L + 1) * 2 ^ c := Nat.mul_lt_mul_of_pos_right hhi (Nat.two_pow_pos _)
        rw [← Nat.pow_add] at this
        exact Nat.lt_of_lt_of_eq this (by congr 1; omega)
      have b2 : 2 ^ (M + 2) ≤ m * 2 ^ c := by
        have : 2 ^ L * 2 ^ c ≤ m * 2 ^ c := Nat.mul_le_mul_right _ hlo
        rw [← Nat.pow_add] at this
        exact Nat.le_trans (Nat.le_of_eq (by congr 1)) this
      rw [hal]
      by_cases hexp : exp - (c : Int) ≤ 0
      · have hun : underflowStep ⟨m * 2 ^ c, exp - (c : Nat), sticky, true⟩ = (⟨m * 2 ^ c / 2 ^ (1 - (exp - (c : Int))).toNat, 0, sticky || decide (m * 2 ^ c % 2 ^ (1 - (exp - (c : Int))).toNat ≠ 0), !decide (m * 2 ^ c % 2 ^ (1 - (exp - (c : Int))).toNat ≠ 0)⟩, .subnormal) := by
          unfold underflowStep; simp only [hexp, if_true, Bool.true_and]
        have hmv : moved m (exp - (1 : Nat)) = m * 2 ^ c / 2 ^ (1 - (exp - (c : Int))).toNat := by
          unfold moved
          split
          · rename_i h
            obtain ⟨k, hk⟩ : ∃ k : Nat, exp = 1 + (k : Int) := ⟨(exp - 1).toNat, by omega⟩
            have e1 : (1 - (exp - (c : Int))).toNat = c - k := by omega
            have e2 : (exp - ((1 : Nat) : Int)).toNat = k := by omega
            have e3 : c = k + (c - k) := by omega
            rw [e1, e2, e3, Nat.pow_add, ← Nat.mul_assoc, show k + (c - k) - k = c - k from by omega, Nat.mul_div_cancel _ (Nat.two_pow_pos _)]
          · rename_i h
            have e1 : (1 - (exp - (c : Int))).toNat = c + (1 - exp).toNat := by omega
            have e2 : (-(exp - ((1 : Nat) : Int))).toNat = (1 - exp).toNat := by omega
            rw [e1, e2, Nat.pow_add, Nat.mul_comm m, Nat.mul_div_mul_left _ _ (Nat.two_pow_pos _)]
        have hl : lost m (exp - (1 : Nat)) = decide (m * 2 ^ c % 2 ^ (1 - (exp - (c : Int))).toNat ≠ 0) := by
          unfold lost; rw [decide_eq_decide]
          by_cases h : 0 ≤ exp - ((1 : Nat) : Int)
          · obtain ⟨k, hk⟩ : ∃ k : Nat, exp = 1 + (k : Int) := ⟨(exp - 1).toNat, by omega⟩
            have e1 : (1 - (exp - (c : Int))).toNat = c - k := by omega
            have e3 : m * 2 ^ c = m * 2 ^ k * 2 ^ (c - k) := by rw [Nat.mul_assoc, ← Nat.pow_add]; congr 2; omega
            rw [e1, e3, Nat.mul_mod_left]
            simp; omega
          · have e1 : (1 - (exp - (c : Int))).toNat = c + (1 - exp).toNat := by omega
            have e2 : (-(exp - ((1 : Nat) : Int))).toNat = (1 - exp).toNat := by omega
            rw [e1, e2, shl_mod]
            exact ⟨And.right, fun hh => ⟨by omega, hh⟩⟩
        have hlt : m * 2 ^ c / 2 ^ (1 - (exp - (c : Int))).toNat < 2 ^ (M + 2) := by
          rw [Nat.div_lt_iff_lt_mul (Nat.two_pow_pos _), ← Nat.pow_add]
          exact Nat.lt_of_lt_of_le b1 (Nat.pow_le_pow_right (by omega) (by omega))
        refine ⟨1, Nat.le_refl _, ?_⟩
        rw [hmv, hl, hun]
        exact ⟨rfl, Nat.lt_of_lt_of_le hlt (Nat.pow_le_pow_right (by omega) (by omega)), Or.inr ⟨rfl, rfl, rfl, hlt⟩, rfl, rfl⟩
      · obtain ⟨e, he⟩ : ∃ e : Nat, exp - (c : Int) = e := ⟨(exp - (c : Int)).toNat, by omega⟩
        have hke : exp - (e : Int) = (c : Int) := by omega
        have hmv : moved m (exp - e) = m * 2 ^ c := by
          rw [hke]; unfold moved; rw [if_pos (by omega)]; congr 2
        have hl : lost m (exp - e) = false := by
          rw [hke]; unfold lost; simp
        refine ⟨e, by omega, ?_⟩
        rw [hmv, hl]
        have hun : underflowStep ⟨m * 2 ^ c, exp - (c : Nat), sticky, true⟩ = (⟨m * 2 ^ c, exp - (c : Nat), sticky, true⟩, .normal) := by
          unfold underflowStep; simp only [hexp, if_false]
        rw [hun]
        exact ⟨rfl, b1, Or.inl ⟨rfl, he, b2⟩, by simp, rfl⟩

/-- The mantissa `m` with exponent `exp` (value `m / 4 * 2^(exp-1)` quanta) stands for `N / D` quanta:
exactly when `sticky` is not set, and with a part less than one in the last place cut off when it is. -/
def Stands (N D m : Nat) (exp : Int) (sticky : Bool) : Prop :=
  if sticky then m * D * 2 ^ (exp - 1).toNat < 4 * N * 2 ^ (1 - exp).toNat ∧ 4 * N * 2 ^ (1 - exp).toNat < (m + 1) * D * 2 ^ (exp - 1).toNat
  else m * D * 2 ^ (exp - 1).toNat = 4 * N * 2 ^ (1 - exp).toNat

/-- what is known after moving -/
def Tracks (N B m : Nat) (sticky : Bool) : Prop :=
  if sticky then m * B < 4 * N ∧ (4 * N < (m + 1) * B ∨ m % 2 = 0 ∧ 4 * N < (m + 2) * B)
  else m * B = 4 * N

theorem tracks_of_stands {M N D m e : Nat} {exp : Int} {sticky : Bool} (he : 1 ≤ e) (hD : 0 < D)
    (h : Stands N D m exp sticky) (pre : sticky = true → 2 ^ (M + 1) ≤ m ∨ exp ≤ 1) (hlt : moved m (exp - e) < 2 ^ (M + 3)) :
    Tracks N (D * 2 ^ (e - 1)) (moved m (exp - e)) (sticky || lost m (exp - e)) := by
  by_cases hk : 0 ≤ exp - e
  · obtain ⟨k, hk'⟩ : ∃ k : Nat, exp = e + (k : Int) := ⟨(exp - e).toNat, by omega⟩
    have e1 : (exp - 1).toNat = (e - 1) + k := by omega
    have e2 : (1 - exp).toNat = 0 := by omega
    have e3 : (exp - e).toNat = k := by omega
    have hl : lost m (exp - e) = false := by unfold lost; simp; omega
    have hmv : moved m (exp - e) = m * 2 ^ k := by unfold moved; rw [if_pos hk, e3]
    rw [hl, Bool.or_false]
    rw [hmv] at hlt ⊢
    unfold Stands at h
    rw [e1, e2, Nat.pow_add] at h
    unfold Tracks
    cases sticky with
    | false =>
      simp only [Bool.false_eq_true, if_false] at h ⊢
      rw [← (by simpa using h : m * D * (2 ^ (e - 1) * 2 ^ k) = 4 * N)]; ring
    | true =>
      simp only [if_true] at h ⊢
      have hk1 : k ≤ 1 := by
        rcases pre rfl with h1 | h1
        · by_contra hc
          have : 2 ^ (M + 1) * 2 ^ 2 ≤ m * 2 ^ k := Nat.mul_le_mul h1 (Nat.pow_le_pow_right (by omega) (by omega))
          rw [← Nat.pow_add, show M + 1 + 2 = M + 3 from by omega] at this
          omega
        · omega
      have hk01 : k = 0 ∨ k = 1 := by omega
      rcases hk01 with rfl | rfl
      · refine ⟨by nlinarith [h.1], Or.inl (by nlinarith [h.2])⟩
      · refine ⟨by nlinarith [h.1], Or.inr ⟨by omega, by nlinarith [h.2]⟩⟩
  · obtain ⟨c, hc⟩ : ∃ c : Nat, (e : Int) = exp + (c : Int) := ⟨(e - exp).toNat, by omega⟩
    have e3 : (-(exp - (e : Int))).toNat = c := by omega
    have hl : lost m (exp - e) = decide (m % 2 ^ c ≠ 0) := by
      unfold lost; rw [e3, decide_eq_decide]; exact ⟨And.right, fun hh => ⟨by omega, hh⟩⟩
    have hmv : moved m (exp - e) = m / 2 ^ c := by unfold moved; rw [if_neg hk, e3]
    rw [hl, hmv]
    have hab : 2 ^ (e - 1) * 2 ^ (1 - exp).toNat = 2 ^ c * 2 ^ (exp - 1).toNat := by
      rw [← Nat.pow_add, ← Nat.pow_add]; congr 1; omega
    unfold Stands at h
    generalize 2 ^ (1 - exp).toNat = a at h hab
    generalize hbb : 2 ^ (exp - 1).toNat = b at h hab
    have bpos : 0 < b := by rw [← hbb]; exact Nat.two_pow_pos _
    have apos : 0 < a := by
      rcases Nat.eq_zero_or_pos a with h0 | h0
      · rw [h0, Nat.mul_zero] at hab
        have := Nat.mul_pos (Nat.two_pow_pos c) bpos
        omega
      · exact h0
    generalize hu : 2 ^ (e - 1) = u at hab ⊢
    have hdm := Nat.div_add_mod m (2 ^ c)
    have hml := Nat.mod_lt m (Nat.two_pow_pos c)
    generalize hq : m / 2 ^ c = q at hdm ⊢
    generalize hρ : m % 2 ^ c = ρ at hdm hml ⊢
    generalize hC : 2 ^ c = C at hdm hml hab
    subst hdm
    -- everything multiplied by a
    have hDb : 0 < D * b := Nat.mul_pos hD bpos
    have t1 : q * (D * u) * a = C * q * D * b := by
      calc q * (D * u) * a = q * D * (u * a) := by ring
        _ = C * q * D * b := by rw [hab]; ring
    have t2 : (q + 1) * (D * u) * a = C * q * D * b + C * D * b := by
      calc (q + 1) * (D * u) * a = (q + 1) * D * (u * a) := by ring
        _ = C * q * D * b + C * D * b := by rw [hab]; ring
    have t3 : (C * q + ρ) * D * b = C * q * D * b + ρ * D * b := by ring
    have t4 : (C * q + ρ + 1) * D * b = C * q * D * b + (ρ + 1) * D * b := by ring
    have t5 : (ρ + 1) * D * b ≤ C * D * b := by
      apply Nat.mul_le_mul_right; apply Nat.mul_le_mul_right; omega
    unfold Tracks
    cases sticky with
    | false =>
      simp only [Bool.false_eq_true, if_false, Bool.false_or, decide_eq_true_eq] at h ⊢
      split
      · rename_i hne
        have t6 : 0 < ρ * D * b := by
          rw [Nat.mul_assoc]; exact Nat.mul_pos (by omega) hDb
        have t7 : ρ * D * b < C * D * b := by
          rw [Nat.mul_assoc, Nat.mul_assoc]; exact Nat.mul_lt_mul_of_pos_right hml hDb
        refine ⟨?_, Or.inl ?_⟩
        · apply Nat.lt_of_mul_lt_mul_right (a := a); omega
        · apply Nat.lt_of_mul_lt_mul_right (a := a); omega
      · rename_i hne
        have : ρ = 0 := by omega
        subst this
        apply Nat.eq_of_mul_eq_mul_right apos
        simp only [Nat.zero_mul, Nat.add_zero] at t3 h ⊢
        omega
    | true =>
      simp only [if_true, Bool.true_or] at h ⊢
      refine ⟨?_, Or.inl ?_⟩
      · apply Nat.lt_of_mul_lt_mul_right (a := a)
        have : C * q * D * b ≤ (C * q + ρ) * D * b := by omega
        omega
      · apply Nat.lt_of_mul_lt_mul_right (a := a); omega

/-- the rounded number of places -/
def rounded (m : Nat) (sticky : Bool) : Nat :=
  m / 4 + (if m % 4 / 2 = 1 ∧ (sticky = true ∨ m % 2 = 1 ∨ m / 4 % 2 = 1) then 1 else 0)

theorem roundStep_nearest (M : Nat) (hM : M ≠ 7 ∧ M ≠ 8) (sign : Bool) (s : NState) :
    (roundStep .nearest M sign s).mant = 4 * rounded s.mant s.sticky ∧
    (roundStep .nearest M sign s).exp = s.exp ∧
    (roundStep .nearest M sign s).exact = (s.exact && decide (s.mant % 4 = 0)) := by
  have hlb : lastBits M s.mant = s.mant % 8 := by
    unfold lastBits
    split
    · rename_i h
      have h1 : (M + 2) % 8 = 3 ∨ (M + 2) % 8 = 4 ∨ (M + 2) % 8 = 5 ∨ (M + 2) % 8 = 6 ∨ (M + 2) % 8 = 7 := by omega
      rcases h1 with h1 | h1 | h1 | h1 | h1 <;> rw [h1] <;> norm_num <;> omega
    · rfl
  have key : ∀ l, l < 8 → ∀ st : Bool,
      roundDelta .nearest sign st l = 4 * (if l % 4 / 2 = 1 ∧ (st = true ∨ l % 2 = 1 ∨ l / 4 % 2 = 1) then 1 else 0) - ((l % 4 : Nat) : Int) := by
    intro l hl st
    have : l = 0 ∨ l = 1 ∨ l = 2 ∨ l = 3 ∨ l = 4 ∨ l = 5 ∨ l = 6 ∨ l = 7 := by omega
    rcases this with rfl | rfl | rfl | rfl | rfl | rfl | rfl | rfl <;> cases st <;> cases sign <;> rfl
  have hk := key (s.mant % 8) (by omega) s.sticky
  have e1 : s.mant % 8 % 4 = s.mant % 4 := by omega
  have e2 : s.mant % 8 % 2 = s.mant % 2 := by omega
  have e3 : s.mant % 8 / 4 % 2 = s.mant / 4 % 2 := by omega
  rw [e1, e2, e3] at hk
  unfold roundStep rounded
  simp only [hlb, hk]
  refine ⟨?_, trivial, ?_⟩
  · split <;> omega
  · congr 1
    rw [decide_eq_decide]
    split <;> omega

/-- rounding is to the nearest, ties to even -/
theorem rounded_near {N B m : Nat} {sticky : Bool} (h : Tracks N B m sticky) :
    2 * dist N (rounded m sticky * B) ≤ B ∧ (2 * dist N (rounded m sticky * B) = B → rounded m sticky % 2 = 0 ∨ B = 0) := by
  obtain ⟨a, l, hl, rfl⟩ : ∃ a l, l < 8 ∧ m = 8 * a + l := ⟨m / 8, m % 8, by omega, by omega⟩
  have hr : rounded (8 * a + l) sticky = 2 * a + rounded l sticky := by
    have e0 : (8 * a + l) / 4 = 2 * a + l / 4 := by omega
    have e1 : (8 * a + l) % 4 = l % 4 := by omega
    have e2 : (8 * a + l) % 2 = l % 2 := by omega
    have e3 : (2 * a + l / 4) % 2 = l / 4 % 2 := by omega
    unfold rounded
    rw [e0, e1, e2, e3]; omega
  rw [hr]
  unfold Tracks at h
  have x1 : ∀ c, (8 * a + l + c) * B = 8 * (a * B) + (l + c) * B := fun c => by ring
  have x0 : (8 * a + l) * B = 8 * (a * B) + l * B := by ring
  have x2 : ∀ c, (2 * a + c) * B = 2 * (a * B) + c * B := fun c => by ring
  rw [x1, x1, x0] at h
  rw [x2]
  generalize a * B = A at *
  have hp : (8 * a + l) % 2 = l % 2 := by omega
  rw [hp] at h
  have : l = 0 ∨ l = 1 ∨ l = 2 ∨ l = 3 ∨ l = 4 ∨ l = 5 ∨ l = 6 ∨ l = 7 := by omega
  rcases this with rfl | rfl | rfl | rfl | rfl | rfl | rfl | rfl <;> cases sticky <;>
    simp [rounded, dist] at h ⊢ <;> omega

theorem rounded_le {M m : Nat} {sticky : Bool} (h : m < 2 ^ (M + 2)) : rounded m sticky ≤ 2 ^ M := by
  have : 2 ^ (M + 2) = 4 * 2 ^ M := by rw [Nat.pow_add]; ring
  unfold rounded; split <;> omega

theorem rounded_ge {M m : Nat} {sticky : Bool} (h : 2 ^ (M + 2) ≤ m) : 2 ^ M ≤ rounded m sticky := by
  have : 2 ^ (M + 2) = 4 * 2 ^ M := by rw [Nat.pow_add]; ring
  unfold rounded; omega

/-! ## Values -/

/-- the datum a value stands for, by its class -/
def Fp.num (v : Fp) : Num :=
  match v.clss with
  | .nan => .nan
  | .inf => .inf v.sign
  | .zero => .fin v.sign 0
  | .subnormal => .fin v.sign (v.mant / 4)
  | .normal => .fin v.sign (v.mant / 4 * 2 ^ (v.exp - 1).toNat)

/-- the invariant of values of the format `d` -/
def Wf (d : Desc) (v : Fp) : Prop :=
  v.desc = d ∧
  match v.clss with
  | .normal => 1 ≤ v.exp ∧ v.exp < 2 ^ d.expSize - 1 ∧ v.mant % 4 = 0 ∧ 2 ^ (d.em + 2) ≤ v.mant ∧ v.mant < 2 ^ (d.em + 3)
  | .subnormal => v.exp = 0 ∧ v.mant % 4 = 0 ∧ 0 < v.mant ∧ v.mant < 2 ^ (d.em + 2)
  | .zero => v.exp = 0 ∧ v.mant = 0
  | .inf => v.exp = 2 ^ d.expSize - 1 ∧ v.mant = 2 ^ (d.em + 2)
  | .nan => v.exp = 2 ^ d.expSize - 1 ∧ v.mant / 4 % 2 ^ d.em ≠ 0

theorem hsb_lt (M m : Nat) : (2 + (M : Int) - highest m - 1 < -1) ↔ 2 ^ (M + 3) ≤ m := by
  have := @highest_ge m (M + 3)
  rw [← this]; omega

theorem hsb_eq (M m : Nat) : (2 + (M : Int) - highest m - 1 = -1) ↔ 2 ^ (M + 2) ≤ m ∧ m < 2 ^ (M + 3) := by
  have h1 := @highest_ge m (M + 2)
  have h2 := @highest_lt m (M + 3)
  rw [← h1, ← h2]; omega

theorem adjust_sub {M R : Nat} {sticky exact : Bool} (hR : R ≤ 2 ^ M) :
    adjustStep M ⟨4 * R, 0, sticky, exact⟩ .subnormal =
      if 4 * R % 2 ^ valueSize = 0 then (⟨4 * R, 0, sticky, exact⟩, .zero)
      else if R = 2 ^ M then (⟨4 * R, 1, sticky, exact⟩, .normal) else (⟨4 * R, 0, sticky, exact⟩, .subnormal) := by
  have p2 : 2 ^ (M + 2) = 4 * 2 ^ M := by rw [Nat.pow_add]; ring
  have p3 : 2 ^ (M + 3) = 8 * 2 ^ M := by rw [Nat.pow_add]; ring
  have pp := Nat.two_pow_pos M
  have h1 := hsb_lt M (4 * R)
  have h2 := hsb_eq M (4 * R)
  unfold adjustStep
  by_cases hz : 4 * R % 2 ^ valueSize = 0
  · have : ¬ (2 + (M : Int) - highest (4 * R) - 1 < -1) := by rw [h1]; omega
    simp [hz, this]
  · by_cases hR2 : R = 2 ^ M
    · have : 2 + (M : Int) - highest (4 * R) - 1 = -1 := by rw [h2]; omega
      have hlt : ¬ (2 + (M : Int) - highest (4 * R) - 1 < -1) := by omega
      simp only [hz, false_and, if_false, this, if_pos hR2]
      simp
    · have h3 : ¬ (2 + (M : Int) - highest (4 * R) - 1 = -1) := by rw [h2]; omega
      simp [hz, h3, hR2]

theorem adjust_normal {M R : Nat} {exp : Int} {sticky exact : Bool} (hR : R ≤ 2 ^ (M + 1)) :
    adjustStep M ⟨4 * R, exp, sticky, exact⟩ .normal =
      if R = 2 ^ (M + 1) then (⟨2 ^ (M + 2), exp + 1, sticky, exact⟩, .normal) else (⟨4 * R, exp, sticky, exact⟩, .normal) := by
  have p2 : 2 ^ (M + 2) = 4 * 2 ^ M := by rw [Nat.pow_add]; ring
  have p3 : 2 ^ (M + 3) = 8 * 2 ^ M := by rw [Nat.pow_add]; ring
  have p1 : 2 ^ (M + 1) = 2 * 2 ^ M := by rw [Nat.pow_add]; ring
  have h1 := hsb_lt M (4 * R)
  unfold adjustStep
  by_cases hR2 : R = 2 ^ (M + 1)
  · have h3 : 2 + (M : Int) - highest (4 * R) - 1 < -1 := by rw [h1]; omega
    have h4 : 4 * R / 2 = 2 ^ (M + 2) := by omega
    have h5 : 4 * R % 2 = 0 := by omega
    rw [if_pos hR2]
    simp only [h3, h4, h5]
    simp
  · have h3 : ¬ (2 + (M : Int) - highest (4 * R) - 1 < -1) := by rw [h1]; omega
    simp [h3, hR2]

/-- what is left of `normalize` once the outcome `4 * R` of the rounding step is known -/
theorem normalize_gen (rm : Rnd) (d : Desc) (sign : Bool) (exp : Int) (m : Nat) (sticky : Bool) :
    ∃ e : Nat, 1 ≤ e ∧ moved m (exp - e) < 2 ^ (d.em + 3) ∧
      (e = 1 ∨ 2 ^ (d.em + 2) ≤ moved m (exp - e)) ∧
      ∀ R : Nat,
      (∀ s : NState, s.mant = moved m (exp - e) → s.sticky = (sticky || lost m (exp - e)) →
        (roundStep rm d.em sign s).mant = 4 * R ∧ (roundStep rm d.em sign s).exact = (s.exact && decide (moved m (exp - e) % 4 = 0))) →
      (moved m (exp - e) < 2 ^ (d.em + 2) → R ≤ 2 ^ d.em) → R ≤ 2 ^ (d.em + 1) →
      (let ex := !lost m (exp - e) && decide (moved m (exp - e) % 4 = 0)
       let s : NState × Cls :=
         if moved m (exp - e) < 2 ^ (d.em + 2) then
           if 4 * R % 2 ^ valueSize = 0 then (⟨4 * R, 0, sticky || lost m (exp - e), ex⟩, .zero)
           else if R = 2 ^ d.em then (⟨4 * R, 1, sticky || lost m (exp - e), ex⟩, .normal)
           else (⟨4 * R, 0, sticky || lost m (exp - e), ex⟩, .subnormal)
         else if R = 2 ^ (d.em + 1) then (⟨2 ^ (d.em + 2), e + 1, sticky || lost m (exp - e), ex⟩, .normal)
         else (⟨4 * R, e, sticky || lost m (exp - e), ex⟩, .normal)
       normalize rm d sign exp m sticky =
         if s.1.exp < 2 ^ d.expSize - 1 then (⟨d, s.2, sign, s.1.exp, s.1.mant⟩, ex)
         else match rm with
           | .nearest | .positive => (getInf d sign, ex)
           | .negative | .zero => (getMax d sign, ex)) := by
  obtain ⟨e, he, hm, hlt, hcls, hst, hex⟩ := align_underflow d.em m exp sticky
  refine ⟨e, he, hlt, ?_, fun R hrnd hR1 hR2 => ?_⟩
  · rcases hcls with h | h
    · exact Or.inr h.2.2
    · exact Or.inl h.2.2.1
  · unfold normalize
    obtain ⟨s1, hs1⟩ : ∃ s, underflowStep (alignStep d.em ⟨m, exp, sticky, true⟩) = s := ⟨_, rfl⟩
    rw [hs1] at hm hcls hst hex
    simp only [hs1]
    obtain ⟨⟨m1, e1, st1, ex1⟩, c1⟩ := s1
    simp only at hm hcls hst hex ⊢
    subst hm hst hex
    obtain ⟨r1, r3⟩ := hrnd ⟨moved m (exp - e), e1, sticky || lost m (exp - e), !lost m (exp - e)⟩ rfl rfl
    have r2 : (roundStep rm d.em sign ⟨moved m (exp - e), e1, sticky || lost m (exp - e), !lost m (exp - e)⟩).exp = e1 := rfl
    have r4 : (roundStep rm d.em sign ⟨moved m (exp - e), e1, sticky || lost m (exp - e), !lost m (exp - e)⟩).sticky = (sticky || lost m (exp - e)) := rfl
    obtain ⟨s2, hs2⟩ : ∃ s, roundStep rm d.em sign ⟨moved m (exp - e), e1, sticky || lost m (exp - e), !lost m (exp - e)⟩ = s := ⟨_, rfl⟩
    rw [hs2] at r1 r2 r3 r4 ⊢
    obtain ⟨m2, e2, st2, ex2⟩ := s2
    simp only at r1 r2 r3 r4
    subst r1 r2 r3 r4
    rcases hcls with ⟨h1, h2, h3⟩ | ⟨h1, h2, h3, h4⟩
    · subst h1 h2
      rw [adjust_normal hR2]
      rw [if_neg (show ¬ moved m (exp - e) < 2 ^ (d.em + 2) by omega)]
      split <;> cases rm <;> simp
    · subst h1 h2
      rw [adjust_sub (hR1 h4)]
      rw [if_pos h4]
      split
      · cases rm <;> simp
      · split <;> cases rm <;> simp

theorem normalize_nearest (d : Desc) (hM : d.em ≠ 7 ∧ d.em ≠ 8) (sign : Bool) (exp : Int) (m : Nat) (sticky : Bool) :
    ∃ e : Nat, 1 ≤ e ∧ moved m (exp - e) < 2 ^ (d.em + 3) ∧
      (e = 1 ∨ 2 ^ (d.em + 2) ≤ moved m (exp - e)) ∧
      (let R := rounded (moved m (exp - e)) (sticky || lost m (exp - e))
       let ex := !lost m (exp - e) && decide (moved m (exp - e) % 4 = 0)
       let s : NState × Cls :=
         if moved m (exp - e) < 2 ^ (d.em + 2) then
           if 4 * R % 2 ^ valueSize = 0 then (⟨4 * R, 0, sticky || lost m (exp - e), ex⟩, .zero)
           else if R = 2 ^ d.em then (⟨4 * R, 1, sticky || lost m (exp - e), ex⟩, .normal)
           else (⟨4 * R, 0, sticky || lost m (exp - e), ex⟩, .subnormal)
         else if R = 2 ^ (d.em + 1) then (⟨2 ^ (d.em + 2), e + 1, sticky || lost m (exp - e), ex⟩, .normal)
         else (⟨4 * R, e, sticky || lost m (exp - e), ex⟩, .normal)
       normalize .nearest d sign exp m sticky =
         if s.1.exp < 2 ^ d.expSize - 1 then (⟨d, s.2, sign, s.1.exp, s.1.mant⟩, ex) else (getInf d sign, ex)) := by
  obtain ⟨e, he, hlt, hc, hall⟩ := normalize_gen .nearest d sign exp m sticky
  refine ⟨e, he, hlt, hc, hall _ (fun s h1 h2 => ?_) (fun h => rounded_le h) (rounded_le (by rw [show d.em + 1 + 2 = d.em + 3 from by omega]; exact hlt))⟩
  obtain ⟨r1, _, r3⟩ := roundStep_nearest d.em hM sign s
  rw [← h1, ← h2]; exact ⟨r1, r3⟩

/-- nothing is added when the rounding bits are zero -/
theorem roundStep_exact (rm : Rnd) (M : Nat) (sign : Bool) (s : NState) (h4 : s.mant % 4 = 0) (hst : s.sticky = false) :
    (roundStep rm M sign s).mant = s.mant ∧ (roundStep rm M sign s).exact = s.exact := by
  have hl : lastBits M s.mant % 4 = 0 := by
    unfold lastBits
    split
    · rename_i h
      have h1 : (M + 2) % 8 = 1 ∨ (M + 2) % 8 = 2 ∨ (M + 2) % 8 = 3 ∨ (M + 2) % 8 = 4 ∨ (M + 2) % 8 = 5 ∨ (M + 2) % 8 = 6 ∨ (M + 2) % 8 = 7 := by omega
      rcases h1 with h1 | h1 | h1 | h1 | h1 | h1 | h1 <;> rw [h1] <;> norm_num <;> omega
    · omega
  have hd : roundDelta rm sign s.sticky (lastBits M s.mant) = 0 := by
    have g1 : lastBits M s.mant / 2 % 2 = 0 := by omega
    have g2 : lastBits M s.mant % 2 = 0 := by omega
    unfold roundDelta roundUp
    rw [hst, g1, g2]
    cases rm <;> simp
  unfold roundStep
  simp [hd]

/-- numbers of the format are not changed by `normalize`, whatever the rounding mode -/
theorem normalize_exact (rm : Rnd) (d : Desc) (sign : Bool) {t e : Nat} (he : 1 ≤ e) (heE : e + 1 < 2 ^ d.expSize) (ht : t < 2 ^ (d.em + 1))
    (hn : e = 1 ∨ 2 ^ d.em ≤ t) (k : Nat) :
    normalize rm d sign ((e : Int) - k) (4 * t * 2 ^ k) false =
      (if 2 ^ d.em ≤ t then ⟨d, .normal, sign, e, 4 * t⟩
       else if 4 * t % 2 ^ valueSize = 0 then ⟨d, .zero, sign, 0, 4 * t⟩ else ⟨d, .subnormal, sign, 0, 4 * t⟩, true) := by
  obtain ⟨e', he', hlt, hc, hall⟩ := normalize_gen rm d sign ((e : Int) - k) (4 * t * 2 ^ k) false
  have p1 : 2 ^ (d.em + 1) = 2 * 2 ^ d.em := by rw [Nat.pow_add]; ring
  have p2 : 2 ^ (d.em + 2) = 4 * 2 ^ d.em := by rw [Nat.pow_add]; ring
  have p3 : 2 ^ (d.em + 3) = 8 * 2 ^ d.em := by rw [Nat.pow_add]; ring
  have pp := Nat.two_pow_pos d.em
  have hcast : ((2 ^ d.expSize : Nat) : Int) = 2 ^ d.expSize := by push_cast; rfl
  have hmv0 : moved (4 * t * 2 ^ k) ((e : Int) - k - e) = 4 * t := by
    unfold moved
    split
    · rw [show k = 0 by omega, show ((e : Int) - (0 : Nat) - e).toNat = 0 by omega]; simp
    · rw [show (-((e : Int) - k - e)).toNat = k by omega, Nat.mul_div_cancel _ (Nat.two_pow_pos _)]
  have hl0 : lost (4 * t * 2 ^ k) ((e : Int) - k - e) = false := by
    unfold lost; rw [show (-((e : Int) - k - e)).toNat = k by omega]; simp
  have hee : e' = e := by
    rcases Nat.lt_trichotomy e' e with h | h | h
    · -- moved further to the left
      exfalso
      have ht2 : 2 ^ d.em ≤ t := hn.resolve_left (by omega)
      obtain ⟨c, rfl⟩ : ∃ c, e = e' + (c + 1) := ⟨e - e' - 1, by omega⟩
      have : 4 * t * 2 ^ (c + 1) ≤ moved (4 * t * 2 ^ k) (((e' + (c + 1) : Nat) : Int) - k - e') := by
        unfold moved
        split
        · obtain ⟨w, hw⟩ : ∃ w, c + 1 = k + w := ⟨c + 1 - k, by omega⟩
          rw [show ((((e' + (c + 1) : Nat) : Int)) - k - e').toNat = w by omega, hw, Nat.pow_add 2 k w, ← Nat.mul_assoc]
        · obtain ⟨w, hw⟩ : ∃ w, k = c + 1 + w := ⟨k - (c + 1), by omega⟩
          rw [show (-((((e' + (c + 1) : Nat) : Int)) - k - e')).toNat = w by omega, hw, Nat.pow_add 2 (c + 1) w, ← Nat.mul_assoc, Nat.mul_div_cancel _ (Nat.two_pow_pos _)]
      have h2 : 4 * t * 2 ^ 1 ≤ 4 * t * 2 ^ (c + 1) := Nat.mul_le_mul_left _ (Nat.pow_le_pow_right (by omega) (by omega))
      omega
    · exact h
    · exfalso
      have hc' := hc.resolve_left (by omega)
      obtain ⟨c, rfl⟩ : ∃ c, e' = e + (c + 1) := ⟨e' - e - 1, by omega⟩
      have : moved (4 * t * 2 ^ k) ((e : Int) - k - ((e + (c + 1) : Nat) : Int)) = 4 * t / 2 ^ (c + 1) := by
        unfold moved
        rw [if_neg (by omega), show (-((e : Int) - k - ((e + (c + 1) : Nat) : Int))).toNat = k + (c + 1) by omega, Nat.pow_add 2 k (c + 1),
          Nat.mul_comm (4 * t) (2 ^ k), Nat.mul_div_mul_left _ _ (Nat.two_pow_pos _)]
      rw [this] at hc'
      have h2 : 4 * t / 2 ^ (c + 1) ≤ 4 * t / 2 ^ 1 := Nat.div_le_div_left (Nat.pow_le_pow_right (by omega) (by omega)) (by omega)
      omega
  subst hee
  rw [hmv0, hl0] at hall
  rw [hmv0] at hc hlt
  have := hall t (fun s h1 h2 => by
    obtain ⟨x1, x2⟩ := roundStep_exact rm d.em sign s (by rw [h1]; omega) (by rw [h2]; rfl)
    refine ⟨by rw [x1, h1], ?_⟩
    rw [x2, show decide (4 * t % 4 = 0) = true by simp]; simp) (by omega) (by omega)
  simp only at this
  rw [this]
  have hex : (!false && decide (4 * t % 4 = 0)) = true := by simp
  rw [hex]
  have hlim0 : (0 : Int) < 2 ^ d.expSize - 1 := by omega
  have hlim1 : (e' : Int) < 2 ^ d.expSize - 1 := by omega
  by_cases htl : 2 ^ d.em ≤ t
  · rw [if_neg (show ¬ 4 * t < 2 ^ (d.em + 2) by omega), if_neg (show ¬ t = 2 ^ (d.em + 1) by omega), if_pos htl]
    simp only [hlim1, if_true]
  · rw [if_pos (show 4 * t < 2 ^ (d.em + 2) by omega), if_neg htl]
    by_cases hz : 4 * t % 2 ^ valueSize = 0
    · rw [if_pos hz, if_pos hz]
      simp only [hlim0, if_true]
    · rw [if_neg hz, if_neg hz, if_neg (show ¬ t = 2 ^ d.em by omega)]
      simp only [hlim0, if_true]

/-- the case in which `normalize` takes a number for zero: a subnormal result whose last 32 places are zero -/
def ZeroBug (M N D r : Nat) : Prop := N < 2 ^ M * D ∧ r ≠ 0 ∧ r % 2 ^ 32 = 0

theorem zeroBug_small {M N D r : Nat} (hM : M < 32) (hD : 0 < D) (h : Nearest M N D r) : ¬ ZeroBug M N D r := by
  rintro ⟨h1, h2, h3⟩
  have hr : r ≤ 2 ^ M := by
    have := (h.2 (2 ^ M) (rep_small (Nat.pow_lt_pow_right (by omega) (by omega)))).1
    by_contra hc
    have : 2 ^ M * D < r * D := Nat.mul_lt_mul_of_pos_right (by omega) hD
    unfold dist at *
    omega
  have : 2 ^ M ≤ 2 ^ 31 := Nat.pow_le_pow_right (by omega) (by omega)
  omega

theorem pow_cast_lt {a b : Nat} : ((a : Int) < 2 ^ b - 1) ↔ a + 1 < 2 ^ b := by
  have : ((2 ^ b : Nat) : Int) = 2 ^ b := by push_cast; rfl
  rw [← this]; omega

/-- `normalize` rounds to nearest -/
theorem normalize_spec {d : Desc} (hE : 2 ≤ d.expSize) (hM1 : 1 ≤ d.em) (hM : d.em ≠ 7 ∧ d.em ≠ 8) {N D m : Nat} {exp : Int} {sticky : Bool}
    (hD : 0 < D) (h : Stands N D m exp sticky) (pre : sticky = true → 2 ^ (d.em + 1) ≤ m ∨ exp ≤ 1) (sign : Bool) :
    ∃ r, Nearest d.em N D r ∧ (¬ ZeroBug d.em N D r →
      Wf d (normalize .nearest d sign exp m sticky).1 ∧
      (normalize .nearest d sign exp m sticky).1.num = finish d.expSize d.em sign r) := by
  obtain ⟨e, he, hlt, hcase, heq⟩ := normalize_nearest d hM sign exp m sticky
  have ht := tracks_of_stands he hD h pre hlt
  generalize (sticky || lost m (exp - e)) = st at *
  generalize hex : (!lost m (exp - e) && decide (moved m (exp - e) % 4 = 0)) = ex at *
  generalize moved m (exp - e) = m1 at *
  simp only at heq
  obtain ⟨f, rfl⟩ : ∃ f, e = f + 1 := ⟨e - 1, by omega⟩
  rw [show f + 1 - 1 = f from rfl] at ht
  obtain ⟨n1, n2⟩ := rounded_near ht
  have p1 : 2 ^ (d.em + 1) = 2 * 2 ^ d.em := by rw [Nat.pow_add]; ring
  have p2 : 2 ^ (d.em + 2) = 4 * 2 ^ d.em := by rw [Nat.pow_add]; ring
  have p3 : 2 ^ (d.em + 3) = 8 * 2 ^ d.em := by rw [Nat.pow_add]; ring
  have pp := Nat.two_pow_pos d.em
  have hRle : rounded m1 st ≤ 2 ^ (d.em + 1) := rounded_le (by omega)
  have hBpos : 0 < D * 2 ^ f := Nat.mul_pos hD (Nat.two_pow_pos _)
  have hm1B : m1 * (D * 2 ^ f) ≤ 4 * N := by
    unfold Tracks at ht; split at ht
    · exact Nat.le_of_lt ht.1
    · exact Nat.le_of_eq ht
  have hm1lt : 4 * N < (m1 + 2) * (D * 2 ^ f) := by
    have e1 : (m1 + 2) * (D * 2 ^ f) = m1 * (D * 2 ^ f) + 2 * (D * 2 ^ f) := by ring
    have e2 : (m1 + 1) * (D * 2 ^ f) = m1 * (D * 2 ^ f) + (D * 2 ^ f) := by ring
    unfold Tracks at ht; split at ht
    · rcases ht.2 with h | h <;> omega
    · omega
  have hsub : m1 < 2 ^ (d.em + 2) → f = 0 ∧ N < 2 ^ d.em * D := by
    intro hlt2
    have hf : f = 0 := by
      rcases hcase with h | h <;> omega
    subst hf
    refine ⟨rfl, ?_⟩
    rw [p2] at hlt2
    have hB : 4 * 2 ^ d.em * (D * 2 ^ 0) = 4 * (2 ^ d.em * D) := by ring
    have a1 : (m1 + 1) * (D * 2 ^ 0) ≤ 4 * 2 ^ d.em * (D * 2 ^ 0) := Nat.mul_le_mul_right _ (by omega)
    unfold Tracks at ht; split at ht
    · rcases ht.2 with h | h
      · omega
      · have a2 : (m1 + 2) * (D * 2 ^ 0) ≤ 4 * 2 ^ d.em * (D * 2 ^ 0) := Nat.mul_le_mul_right _ (by omega)
        omega
    · have e2 : (m1 + 1) * (D * 2 ^ 0) = m1 * (D * 2 ^ 0) + (D * 2 ^ 0) := by ring
      omega
  have hnear : Nearest d.em N D (rounded m1 st * 2 ^ f) := by
    apply nearest_of_round hM1 hD hRle
    · rcases hcase with h | h
      · exact Or.inl (by omega)
      · refine Or.inr ⟨rounded_ge h, ?_⟩
        have : 2 ^ (d.em + 2) * (D * 2 ^ f) ≤ m1 * (D * 2 ^ f) := Nat.mul_le_mul_right _ h
        rw [p2] at this
        have e1 : 4 * 2 ^ d.em * (D * 2 ^ f) = 4 * (2 ^ d.em * 2 ^ f * D) := by ring
        omega
    · rw [Nat.mul_assoc, Nat.mul_comm (2 ^ f) D]; exact n1
    · rw [Nat.mul_assoc, Nat.mul_comm (2 ^ f) D]
      intro hh
      exact (n2 hh).resolve_right (by omega)
  refine ⟨_, hnear, fun hz => ?_⟩
  rw [heq]
  have hEpos : 4 ≤ 2 ^ d.expSize := Nat.pow_le_pow_right (n := 2) (by omega) hE
  have hlim : limit d.expSize d.em = 2 ^ d.em * 2 ^ (2 ^ d.expSize - 2) := by
    unfold limit; rw [← Nat.pow_add]; congr 1; omega
  have hcast : ((2 ^ d.expSize : Nat) : Int) = 2 ^ d.expSize := by push_cast; rfl
  have winf : Wf d (getInf d sign) := ⟨rfl, rfl, rfl⟩
  have ninf : (getInf d sign).num = .inf sign := rfl
  by_cases hlow : m1 < 2 ^ (d.em + 2)
  · obtain ⟨hf0, hN⟩ := hsub hlow
    subst hf0
    have hR : rounded m1 st ≤ 2 ^ d.em := rounded_le hlow
    have hfin : rounded m1 st * 2 ^ 0 < limit d.expSize d.em := by
      have : 2 ^ 1 ≤ 2 ^ (2 ^ d.expSize - 2) := Nat.pow_le_pow_right (by omega) (by omega)
      have : 2 ^ d.em * 2 ^ 1 ≤ 2 ^ d.em * 2 ^ (2 ^ d.expSize - 2) := Nat.mul_le_mul_left _ this
      omega
    rw [if_pos hlow]
    by_cases h0 : 4 * rounded m1 st % 2 ^ valueSize = 0
    · have hR0 : rounded m1 st = 0 := by
        by_contra hc
        apply hz
        refine ⟨hN, by simpa using hc, ?_⟩
        rw [Nat.pow_zero, Nat.mul_one]
        unfold valueSize at h0
        omega
      rw [if_pos h0, hR0]
      have : (0 : Int) < 2 ^ d.expSize - 1 := by omega
      simp only [this, if_true]
      rw [hR0] at hfin
      refine ⟨⟨rfl, rfl, rfl⟩, ?_⟩
      unfold finish
      rw [if_pos hfin]
      simp [Fp.num]
    · rw [if_neg h0]
      by_cases hR2 : rounded m1 st = 2 ^ d.em
      · rw [if_pos hR2]
        have : (1 : Int) < 2 ^ d.expSize - 1 := by omega
        simp only [this, if_true]
        refine ⟨⟨rfl, ?_⟩, ?_⟩
        · simp only
          refine ⟨Int.le_refl _, this, by omega, by omega, by omega⟩
        · unfold finish
          rw [if_pos hfin]
          simp [Fp.num]
      · rw [if_neg hR2]
        have : (0 : Int) < 2 ^ d.expSize - 1 := by omega
        simp only [this, if_true]
        refine ⟨⟨rfl, ?_⟩, ?_⟩
        · simp only
          refine ⟨trivial, by omega, ?_, by omega⟩
          rcases Nat.eq_zero_or_pos (rounded m1 st) with hc | hc
          · rw [hc] at h0; simp at h0
          · omega
        · unfold finish
          rw [if_pos hfin]
          simp [Fp.num]
  · rw [if_neg hlow]
    have hR : 2 ^ d.em ≤ rounded m1 st := rounded_ge (by omega)
    by_cases hR2 : rounded m1 st = 2 ^ (d.em + 1)
    · rw [if_pos hR2]
      have hval : rounded m1 st * 2 ^ f = 2 ^ d.em * 2 ^ (f + 1) := by rw [hR2]; rw [← Nat.pow_add, ← Nat.pow_add]; congr 1; omega
      have hiff : ((f + 1 : Nat) : Int) + 1 < 2 ^ d.expSize - 1 ↔ rounded m1 st * 2 ^ f < limit d.expSize d.em := by
        rw [hval, hlim, Nat.mul_lt_mul_left pp, Nat.pow_lt_pow_iff_right (by omega)]
        omega
      simp only
      by_cases hov : ((f + 1 : Nat) : Int) + 1 < 2 ^ d.expSize - 1
      · rw [if_pos hov]
        refine ⟨⟨rfl, ?_⟩, ?_⟩
        · simp only
          exact ⟨by omega, hov, by omega, Nat.le_refl _, by omega⟩
        · unfold finish
          rw [if_pos (hiff.mp hov), hval]
          simp only [Fp.num]
          congr 1
          rw [p2, Nat.mul_div_cancel_left _ (by omega)]
          congr 2
          omega
      · rw [if_neg hov]
        refine ⟨winf, ?_⟩
        unfold finish
        rw [if_neg (fun hc => hov (hiff.mpr hc)), ninf]
    · rw [if_neg hR2]
      have hiff : ((f + 1 : Nat) : Int) < 2 ^ d.expSize - 1 ↔ rounded m1 st * 2 ^ f < limit d.expSize d.em := by
        rw [hlim]
        constructor
        · intro hh
          have a1 : rounded m1 st * 2 ^ f < 2 ^ (d.em + 1) * 2 ^ f := Nat.mul_lt_mul_of_pos_right (by omega) (Nat.two_pow_pos _)
          have a2 : 2 ^ (d.em + 1) * 2 ^ f ≤ 2 ^ d.em * 2 ^ (2 ^ d.expSize - 2) := by
            rw [← Nat.pow_add, ← Nat.pow_add]; exact Nat.pow_le_pow_right (by omega) (by omega)
          omega
        · intro hh
          by_contra hc
          have a1 : 2 ^ d.em * 2 ^ f ≤ rounded m1 st * 2 ^ f := Nat.mul_le_mul_right _ hR
          have a2 : 2 ^ d.em * 2 ^ (2 ^ d.expSize - 2) ≤ 2 ^ d.em * 2 ^ f :=
            Nat.mul_le_mul_left _ (Nat.pow_le_pow_right (by omega) (by omega))
          omega
      simp only
      by_cases hov : ((f + 1 : Nat) : Int) < 2 ^ d.expSize - 1
      · rw [if_pos hov]
        refine ⟨⟨rfl, ?_⟩, ?_⟩
        · simp only
          exact ⟨by omega, hov, by omega, by omega, by omega⟩
        · unfold finish
          rw [if_pos (hiff.mp hov)]
          simp only [Fp.num]
          congr 1
          rw [Nat.mul_div_cancel_left _ (by omega)]
          congr 2
          omega
      · rw [if_neg hov]
        refine ⟨winf, ?_⟩
        unfold finish
        rw [if_neg (fun hc => hov (hiff.mpr hc)), ninf]

end Verif.Model.Flt
