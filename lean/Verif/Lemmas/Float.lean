import Verif.Spec.Float
import Mathlib.Tactic.Ring
import Mathlib.Tactic.Linarith
/-!
# Lemmas about rounding to nearest
-/
namespace Verif.Spec.Flt

theorem dist_eq (a b : Nat) : (dist a b : Int) = |(a : Int) - b| := by
  unfold dist
  rcases Nat.le_total a b with h | h
  · rw [abs_of_nonpos (by omega)]; omega
  · rw [abs_of_nonneg (by omega)]; omega

theorem dist_self (a : Nat) : dist a a = 0 := by simp [dist]

theorem dist_zero {a b : Nat} (h : dist a b = 0) : a = b := by unfold dist at h; omega

theorem rep_zero (M : Nat) : Rep M 0 := ⟨0, 0, by positivity, by simp⟩

theorem rep_small {M f : Nat} (h : f < 2 ^ (M + 1)) : Rep M f := ⟨f, 0, h, by simp⟩

theorem rep_le {M R e : Nat} (h : R ≤ 2 ^ (M + 1)) : Rep M (R * 2 ^ e) := by
  rcases Nat.lt_or_ge R (2 ^ (M + 1)) with h1 | h1
  · exact ⟨R, e, h1, rfl⟩
  · refine ⟨1, M + 1 + e, Nat.one_lt_two_pow (by omega), ?_⟩
    rw [Nat.le_antisymm h h1, Nat.one_mul, ← Nat.pow_add]

theorem even_of {M R e : Nat} (hM : 1 ≤ M) (h : R ≤ 2 ^ (M + 1)) (he : e = 0 ∨ 2 ^ M ≤ R) (ev : R % 2 = 0) :
    EvenSig M (R * 2 ^ e) := by
  rcases Nat.lt_or_ge R (2 ^ (M + 1)) with h1 | h1
  · exact ⟨R, e, h1, he, ev, rfl⟩
  · refine ⟨2 ^ M, e + 1, Nat.pow_lt_pow_right (by omega) (by omega), Or.inr (Nat.le_refl _), ?_, ?_⟩
    · obtain ⟨k, rfl⟩ : ∃ k, M = k + 1 := ⟨M - 1, by omega⟩
      rw [Nat.pow_succ]; omega
    · rw [Nat.le_antisymm h h1, Nat.pow_succ, Nat.pow_succ]; ring

/-- rounding at the right place gives the nearest number -/
theorem nearest_of_round {M N D R e : Nat} (hM : 1 ≤ M) (hD : 0 < D) (hR : R ≤ 2 ^ (M + 1))
    (he : e = 0 ∨ (2 ^ M ≤ R ∧ 2 ^ M * 2 ^ e * D ≤ N))
    (hd : 2 * dist N (R * 2 ^ e * D) ≤ 2 ^ e * D) (tie : 2 * dist N (R * 2 ^ e * D) = 2 ^ e * D → R % 2 = 0) :
    Nearest M N D (R * 2 ^ e) := by
  have upos : 0 < 2 ^ e := Nat.two_pow_pos e
  have key : ∀ F : Nat, F ≠ R → dist N (R * 2 ^ e * D) ≤ dist N (F * 2 ^ e * D) ∧
      (dist N (R * 2 ^ e * D) = dist N (F * 2 ^ e * D) → 2 * dist N (R * 2 ^ e * D) = 2 ^ e * D) := by
    intro F hF
    have hdist : 2 ^ e * D ≤ dist (R * 2 ^ e * D) (F * 2 ^ e * D) := by
      rcases Nat.lt_or_gt_of_ne hF with h | h
      · have : (F + 1) * 2 ^ e * D ≤ R * 2 ^ e * D := Nat.mul_le_mul_right _ (Nat.mul_le_mul_right _ h)
        have e1 : (F + 1) * 2 ^ e * D = F * 2 ^ e * D + 2 ^ e * D := by ring
        unfold dist; omega
      · have : (R + 1) * 2 ^ e * D ≤ F * 2 ^ e * D := Nat.mul_le_mul_right _ (Nat.mul_le_mul_right _ h)
        have e1 : (R + 1) * 2 ^ e * D = R * 2 ^ e * D + 2 ^ e * D := by ring
        unfold dist; omega
    generalize R * 2 ^ e * D = x at *
    generalize F * 2 ^ e * D = y at *
    generalize 2 ^ e * D = z at *
    unfold dist at *
    omega
  refine ⟨rep_le hR, fun f hf => ?_⟩
  have evenR : R % 2 = 0 → EvenSig M (R * 2 ^ e) := even_of hM hR (he.imp_right And.left)
  by_cases hdvd : ∃ F, f = F * 2 ^ e
  · obtain ⟨F, rfl⟩ := hdvd
    by_cases hFR : F = R
    · subst hFR; exact ⟨Nat.le_refl _, fun h => absurd rfl h⟩
    · obtain ⟨k1, k2⟩ := key F hFR
      exact ⟨k1, fun _ hh => evenR (tie (k2 hh))⟩
  · obtain ⟨s, j, hs, rfl⟩ := hf
    have hj : j < e := by
      by_contra hc
      apply hdvd
      refine ⟨s * 2 ^ (j - e), ?_⟩
      rw [Nat.mul_assoc, ← Nat.pow_add]; congr 2; omega
    obtain ⟨h1, h2⟩ := he.resolve_left (by omega)
    have hf : s * 2 ^ j < 2 ^ M * 2 ^ e := by
      have a1 : s * 2 ^ j < 2 ^ (M + 1) * 2 ^ j := Nat.mul_lt_mul_of_pos_right hs (Nat.two_pow_pos j)
      have a2 : 2 ^ (M + 1) * 2 ^ j ≤ 2 ^ M * 2 ^ e := by
        rw [← Nat.pow_add, ← Nat.pow_add]; exact Nat.pow_le_pow_right (by omega) (by omega)
      omega
    have hfD : s * 2 ^ j * D < 2 ^ M * 2 ^ e * D := Nat.mul_lt_mul_of_pos_right hf hD
    have h0 : dist N (R * 2 ^ e * D) ≤ dist N (2 ^ M * 2 ^ e * D) := by
      by_cases h : 2 ^ M = R
      · rw [h]
      · exact (key _ h).1
    have hlt : dist N (2 ^ M * 2 ^ e * D) < dist N (s * 2 ^ j * D) := by unfold dist; omega
    exact ⟨by omega, fun _ hh => by omega⟩

/-- rounding to nearest, ties to even, determines the result -/
theorem nearest_unique {M N D r r' : Nat} (h : Nearest M N D r) (h' : Nearest M N D r') (hD : 0 < D) : r = r' := by
  -- it suffices to treat r < r'
  have main : ∀ r r' : Nat, Nearest M N D r → Nearest M N D r' → ¬ r < r' := by
    intro r r' h h' hlt
    have d1 := (h.2 r' h'.1).1
    have d2 := (h'.2 r h.1).1
    have deq : dist N (r * D) = dist N (r' * D) := Nat.le_antisymm d1 d2
    have ev := (h.2 r' h'.1).2 (by omega) deq
    have ev' := (h'.2 r h.1).2 (by omega) deq.symm
    obtain ⟨s, j, hs, hj, hse, rfl⟩ := ev
    obtain ⟨s', j', hs', hj', hse', rfl⟩ := ev'
    have hrep : Rep M ((s + 1) * 2 ^ j) := ⟨s + 1, j, by
      rw [Nat.pow_succ] at *; omega, rfl⟩
    have hup : s * 2 ^ j < (s + 1) * 2 ^ j := Nat.mul_lt_mul_of_pos_right (by omega) (Nat.two_pow_pos j)
    have hbelow : (s + 1) * 2 ^ j < s' * 2 ^ j' := by
      by_contra hc
      have hc : s' * 2 ^ j' ≤ (s + 1) * 2 ^ j := by omega
      rcases Nat.lt_or_ge j' j with hjj | hjj
      · have hsM : 2 ^ M ≤ s := hj.resolve_left (by omega)
        have a1 : s' * 2 ^ j' < 2 ^ (M + 1) * 2 ^ j' := Nat.mul_lt_mul_of_pos_right hs' (Nat.two_pow_pos j')
        have a2 : 2 ^ (M + 1) * 2 ^ j' ≤ 2 ^ M * 2 ^ j := by
          rw [← Nat.pow_add, ← Nat.pow_add]; exact Nat.pow_le_pow_right (by omega) (by omega)
        have a3 : 2 ^ M * 2 ^ j ≤ s * 2 ^ j := Nat.mul_le_mul_right _ hsM
        omega
      · obtain ⟨k, rfl⟩ : ∃ k, j' = j + k := ⟨j' - j, by omega⟩
        have e1 : s' * 2 ^ (j + k) = s' * 2 ^ k * 2 ^ j := by rw [Nat.pow_add]; ring
        rw [e1] at hc hlt
        have b1 : s < s' * 2 ^ k := Nat.lt_of_mul_lt_mul_right hlt
        have b2 : s' * 2 ^ k ≤ s + 1 := Nat.le_of_mul_le_mul_right hc (Nat.two_pow_pos j)
        have b3 : s' * 2 ^ k % 2 = 0 := by rw [Nat.mul_mod, hse']; simp
        omega
    have c1 := Nat.mul_lt_mul_of_pos_right hup hD
    have c2 := Nat.mul_lt_mul_of_pos_right hbelow hD
    have c3 := (h.2 _ hrep).1
    unfold dist at *
    omega
  have := main r r' h h'
  have := main r' r h' h
  omega

/-- a representable number rounds to itself -/
theorem nearest_exact {M N D r : Nat} (h : Nearest M N D r) {f : Nat} (hf : Rep M f) (hN : N = f * D) (hD : 0 < D) : r = f := by
  have := (h.2 f hf).1
  rw [hN, dist_self] at this
  have := dist_zero (Nat.le_zero.mp this)
  exact (Nat.eq_of_mul_eq_mul_right hD this).symm

theorem nearest_rep {M f D : Nat} (hf : Rep M f) (hD : 0 < D) : Nearest M (f * D) D f := by
  refine ⟨hf, fun g hg => ⟨by rw [dist_self]; exact Nat.zero_le _, fun hne he => ?_⟩⟩
  rw [dist_self] at he
  have := dist_zero he.symm
  exact absurd (Nat.eq_of_mul_eq_mul_right hD this).symm hne

/-- less than half a quantum rounds to zero -/
theorem nearest_tiny {M N D r : Nat} (hD : 0 < D) (h : Nearest M N D r) (hN : 2 * N < D) : r = 0 := by
  have := (h.2 0 (rep_zero M)).1
  by_contra hc
  have : D ≤ r * D := Nat.le_mul_of_pos_left D (by omega)
  unfold dist at *
  simp at *
  omega

/-- only the ratio matters -/
theorem nearest_scale {M N D c r : Nat} (hc : 0 < c) : Nearest M (N * c) (D * c) r ↔ Nearest M N D r := by
  have e : ∀ f, dist (N * c) (f * (D * c)) = dist N (f * D) * c := by
    intro f
    unfold dist
    rw [← Nat.mul_assoc, ← Nat.sub_mul, ← Nat.sub_mul, ← Nat.add_mul]
  unfold Nearest
  simp only [e, Nat.mul_le_mul_right_iff hc, Nat.mul_left_inj (Nat.pos_iff_ne_zero.mp hc)]

end Verif.Spec.Flt
