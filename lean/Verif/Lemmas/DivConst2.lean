import Verif.Lemmas.DivConst
import Verif.Lemmas.MulDecomp
/-!
# Lemmas on signed division by multiplication
-/
namespace Verif.Model
open Verif.Spec

theorem magicInit_eq {W a : Nat} (hW : 1 ≤ W) (ha : 0 < a) : magicInit W a = (2 ^ (W - 1) / a, 2 ^ (W - 1) % a) := by
  unfold magicInit
  have hpow : 2 ^ W = 2 * 2 ^ (W - 1) := half_pow hW
  have h0 : 0 < 2 ^ (W - 1) := by positivity
  rw [uShlOne_eq (by omega)]
  have h := Nat.div_add_mod (2 ^ (W - 1)) a
  rw [Nat.mul_comm] at h
  rw [uMul_eq (by omega), uSub_eq (by omega) (by omega)]
  congr 1
  omega

theorem toUnsigned_nonneg {W : Nat} {d : Int} (h0 : 0 ≤ d) (h : d < 2 ^ W) : toUnsigned W d = d.natAbs := by
  unfold toUnsigned
  rw [Int.emod_eq_of_lt h0 h]
  omega

theorem toUnsigned_neg {W : Nat} {d : Int} (h0 : d < 0) (h : -2 ^ W ≤ d) : toUnsigned W d = 2 ^ W - d.natAbs := by
  unfold toUnsigned
  have : d % 2 ^ W = d + 2 ^ W := by
    rw [← Int.add_emod_right, Int.emod_eq_of_lt (by omega) (by omega)]
  rw [this, two_pow_cast]
  rw [two_pow_cast] at h
  omega

theorem inRange_signed {W : Nat} {x : Int} (h : InRange true W x) : -((2 ^ (W - 1) : Nat) : Int) ≤ x ∧ x < ((2 ^ (W - 1) : Nat) : Int) := by
  unfold InRange at h
  rw [if_pos rfl, two_pow_cast] at h
  exact h

theorem inRange_signed' {W : Nat} {x : Int} (h1 : -((2 ^ (W - 1) : Nat) : Int) ≤ x) (h2 : x < ((2 ^ (W - 1) : Nat) : Int)) : InRange true W x := by
  unfold InRange
  rw [if_pos rfl, two_pow_cast]
  exact ⟨h1, h2⟩

theorem toUnsigned_wrap (W : Nat) (s : Bool) (x : Int) : toUnsigned W (Spec.wrap s W x) = toUnsigned W x := by
  unfold toUnsigned; rw [wrap_emod]

theorem magicAd_eq {W : Nat} (hW : 1 ≤ W) {d : Int} (hd : InRange true W d) : magicAd W d = d.natAbs := by
  unfold magicAd
  have h := inRange_signed hd
  have hpow : 2 ^ W = 2 * 2 ^ (W - 1) := half_pow hW
  have h0 : 0 < 2 ^ (W - 1) := by positivity
  rw [toUnsigned_wrap]
  have hc : ((2:Int) ^ W) = ((2 * 2 ^ (W - 1) : Nat) : Int) := by rw [two_pow_cast, hpow]
  split
  · rw [toUnsigned_nonneg (by omega) (by rw [hc]; omega)]; omega
  · rw [toUnsigned_nonneg (by omega) (by rw [hc]; omega)]

theorem magicT_eq {W : Nat} (hW : 2 ≤ W) {d : Int} (hd : InRange true W d) :
    magicT W d = 2 ^ (W - 1) + (if d < 0 then 1 else 0) := by
  unfold magicT
  have h := inRange_signed hd
  have hpow : 2 ^ W = 2 * 2 ^ (W - 1) := half_pow (by omega)
  have h0 : 2 ≤ 2 ^ (W - 1) := by
    calc 2 = 2 ^ 1 := rfl
      _ ≤ 2 ^ (W - 1) := Nat.pow_le_pow_right (by omega) (by omega)
  have hc : ((2:Int) ^ W) = ((2 * 2 ^ (W - 1) : Nat) : Int) := by rw [two_pow_cast, hpow]
  rw [uShlOne_eq (by omega)]
  have : toUnsigned W d / 2 ^ (W - 1) = if d < 0 then 1 else 0 := by
    split
    · rw [toUnsigned_neg (by omega) (by rw [hc]; omega)]
      apply Nat.div_eq_of_lt_le <;> omega
    · rw [toUnsigned_nonneg (by omega) (by rw [hc]; omega)]
      exact Nat.div_eq_of_lt (by omega)
  rw [this]
  apply uAdd_eq
  split <;> omega

/-- the facts about the magic number -/
theorem magic_spec {W : Nat} (hW : 2 ≤ W) {d : Int} (hd : InRange true W d) (hd3 : 3 ≤ d.natAbs) (hnp : ∀ k, d.natAbs ≠ 2 ^ k) :
    ∃ P M δ, magic (W + 1) W d = some (magicResult W d (P, M - 1)) ∧ W ≤ P ∧ P ≤ 2 * W - 1 ∧ 0 < M ∧ M < 2 ^ W ∧
      M * d.natAbs = 2 ^ P + δ ∧ 0 < δ ∧ δ + 2 ^ P % d.natAbs = d.natAbs ∧
      δ * (magicT W d - 1 - magicT W d % d.natAbs) < 2 ^ P := by
  have h := inRange_signed hd
  have hpow : 2 ^ W = 2 * 2 ^ (W - 1) := half_pow (by omega)
  have hT := magicT_eq hW hd
  have hTb : 2 ^ (W - 1) ≤ magicT W d ∧ magicT W d ≤ 2 ^ (W - 1) + 1 := by rw [hT]; split <;> omega
  have hm : magicT W d % d.natAbs < d.natAbs := Nat.mod_lt _ (by omega)
  have hdm := Nat.div_add_mod (magicT W d) d.natAbs
  have hc : 1 ≤ magicT W d / d.natAbs := (Nat.le_div_iff_mul_le (by omega)).2 (by omega)
  have hcD : d.natAbs ≤ d.natAbs * (magicT W d / d.natAbs) := Nat.le_mul_of_pos_right _ hc
  have hanc : magicAnc W d = magicT W d - 1 - magicT W d % d.natAbs := by
    unfold magicAnc
    rw [magicAd_eq (by omega) hd, uSub_eq (a := magicT W d) (by omega) (by omega), uSub_eq (by omega) (by omega)]
  obtain ⟨P, e, h1, h2, h3, h4⟩ := magicLoop_spec (W := W) (ad := d.natAbs) (anc := magicAnc W d) (by omega) hd3 hnp (by omega)
    (by rw [hanc]; omega) (by rw [hanc]; omega) (W + 1) (W - 1) (by omega) (by omega) (Or.inl rfl) (by omega)
  have hPm : 2 ^ P % d.natAbs < d.natAbs := Nat.mod_lt _ (by omega)
  refine ⟨P, 2 ^ P / d.natAbs + 1, d.natAbs - 2 ^ P % d.natAbs, ?_, h1, h2, Nat.succ_pos _, h4, ?_, by omega, by omega, ?_⟩
  · unfold magic
    rw [magicAd_eq (by omega) hd, if_neg (by rw [hanc]; omega), magicInit_eq (by omega) (by rw [hanc]; omega),
      magicInit_eq (by omega) (by omega), e]
    rfl
  · have := Nat.div_add_mod (2 ^ P) d.natAbs
    rw [Nat.add_mul, Nat.one_mul, Nat.mul_comm]; omega
  · rw [← hanc, Nat.mul_comm]; exact h3

theorem emod_wrap (W : Nat) (s : Bool) (x : Int) : Spec.wrap s W x ≡ x [ZMOD 2 ^ W] := wrap_emod s W x

theorem magicM_eq {W : Nat} (d : Int) {M : Nat} (hM : 0 < M) :
    magicM W d (M - 1) = Spec.wrap true W (if 0 ≤ d then (M : Int) else -M) := by
  have h1 : Spec.wrap true W (Spec.wrap true W ((M - 1 : Nat) : Int) + 1) = Spec.wrap true W (M : Int) := by
    apply wrap_of_emod_eq
    have := (emod_wrap W true ((M - 1 : Nat) : Int)).add_right 1
    rw [show ((M - 1 : Nat) : Int) + 1 = M from by omega] at this
    exact this
  unfold magicM
  rw [h1]
  split
  · rfl
  · apply wrap_of_emod_eq
    have := (emod_wrap W true (M : Int)).sub_left 0
    rw [Int.zero_sub] at this ⊢
    rw [Int.zero_sub] at this
    exact this

/-- the corrected upper half of the product with the wrapped multiplier is the upper half of the product with the multiplier -/
theorem mulhFix_eq {m : IMode} (hs : m.signed = true) (hW : 2 ≤ m.bits) (d : Int) (hd : d ≠ 0) {M : Nat} (hM0 : 0 < M) (hM : M < 2 ^ m.bits)
    (s : Nat) (x : Int) :
    mulhFix m (magicResult m.bits d (s, M - 1)) x (irMulh m x (magicResult m.bits d (s, M - 1)).M) =
      m.wrap (x * (if 0 ≤ d then (M : Int) else -M) / 2 ^ m.bits) := by
  have hpow : 2 ^ m.bits = 2 * 2 ^ (m.bits - 1) := half_pow (by omega)
  have hc : ((2:Int) ^ m.bits) = ((2 * 2 ^ (m.bits - 1) : Nat) : Int) := by rw [two_pow_cast, hpow]
  have h0 : 0 < 2 ^ (m.bits - 1) := by positivity
  have hp0 : (2:Int) ^ m.bits ≠ 0 := by positivity
  have key : ∀ (N k : Int), (x * (N + 2 ^ m.bits * k)) / 2 ^ m.bits = x * N / 2 ^ m.bits + x * k := by
    intro N k
    rw [show x * (N + 2 ^ m.bits * k) = x * N + 2 ^ m.bits * (x * k) from by ring, Int.add_mul_ediv_left _ _ hp0]
  unfold magicResult mulhFix
  simp only []
  rw [magicM_eq d hM0]
  by_cases hd0 : 0 ≤ d
  · rw [if_pos hd0]
    by_cases hbig : M < 2 ^ (m.bits - 1)
    · have hw : Spec.wrap true m.bits (M : Int) = M := wrap_of_inRange (by omega) (inRange_signed' (by omega) (by omega))
      rw [hw, if_neg (by simp), if_neg (by simp; omega)]
      rfl
    · have hw : Spec.wrap true m.bits (M : Int) = (M : Int) + 2 ^ m.bits * (-1) := by
        apply wrap_unique (by omega)
        · apply inRange_signed' <;> rw [hc] <;> omega
        · rw [Int.add_mul_emod_self_left]
      rw [hw, if_pos (by rw [hc]; simp only [Bool.and_eq_true, decide_eq_true_eq]; omega)]
      unfold irAdd irMulh
      rw [key]
      apply wrap_of_emod_eq
      have := (emod_wrap m.bits m.signed (x * (M : Int) / 2 ^ m.bits + x * -1)).add_right x
      rw [show x * (M : Int) / 2 ^ m.bits + x * -1 + x = x * (M : Int) / 2 ^ m.bits from by ring] at this
      exact this
  · rw [if_neg hd0]
    by_cases hbig : M ≤ 2 ^ (m.bits - 1)
    · have hw : Spec.wrap true m.bits (-(M : Int)) = -M := wrap_of_inRange (by omega) (inRange_signed' (by omega) (by omega))
      rw [hw, if_neg (by simp; omega), if_neg (by simp)]
      rfl
    · have hw : Spec.wrap true m.bits (-(M : Int)) = -(M : Int) + 2 ^ m.bits * 1 := by
        apply wrap_unique (by omega)
        · apply inRange_signed' <;> rw [hc] <;> omega
        · rw [Int.add_mul_emod_self_left]
      rw [hw, if_neg (by simp; omega), if_pos (by rw [hc]; simp only [Bool.and_eq_true, decide_eq_true_eq]; omega)]
      unfold irSub irMulh
      rw [key]
      apply wrap_of_emod_eq
      have := (emod_wrap m.bits m.signed (x * (-(M : Int)) / 2 ^ m.bits + x * 1)).sub_right x
      rw [show x * (-(M : Int)) / 2 ^ m.bits + x * 1 - x = x * (-(M : Int)) / 2 ^ m.bits from by ring] at this
      exact this

theorem shrs_eq {m : IMode} (hs : m.signed = true) (ha : AmtOk m) {q : Int} (hq : m.In q) {s : Nat} (hs' : s < m.bits) :
    irShrs m q s = q / 2 ^ s := by
  unfold irShrs
  have hq' : InRange true m.bits q := by rw [← hs]; exact hq
  rw [amt_eq ha hs', wrap_of_inRange (by omega) hq']
  apply wrap_of_inRange (by omega)
  rw [hs]
  have h := inRange_signed hq'
  have h0 : (0:Int) < 2 ^ s := by positivity
  apply inRange_signed'
  · apply Int.le_ediv_of_mul_le h0
    have : ((2 ^ (m.bits - 1) : Nat) : Int) * 1 ≤ ((2 ^ (m.bits - 1) : Nat) : Int) * 2 ^ s :=
      Int.mul_le_mul_of_nonneg_left (by omega) (by omega)
    rw [Int.neg_mul]; omega
  · apply Int.ediv_lt_of_lt_mul h0
    have : ((2 ^ (m.bits - 1) : Nat) : Int) * 1 ≤ ((2 ^ (m.bits - 1) : Nat) : Int) * 2 ^ s :=
      Int.mul_le_mul_of_nonneg_left (by omega) (by omega)
    omega

theorem shr_sign {m : IMode} (hs : m.signed = true) (hW : 2 ≤ m.bits) (ha : AmtOk m) {q : Int} (hq : m.In q) :
    irShr m q (m.bits - 1) = if q < 0 then 1 else 0 := by
  unfold irShr
  have hq' : InRange true m.bits q := by rw [← hs]; exact hq
  have h := inRange_signed hq'
  have hpow : 2 ^ m.bits = 2 * 2 ^ (m.bits - 1) := half_pow (by omega)
  have hc : ((2:Int) ^ m.bits) = ((2 * 2 ^ (m.bits - 1) : Nat) : Int) := by rw [two_pow_cast, hpow]
  have h2 : 2 ≤ 2 ^ (m.bits - 1) := by
    calc 2 = 2 ^ 1 := rfl
      _ ≤ 2 ^ (m.bits - 1) := Nat.pow_le_pow_right (by omega) (by omega)
  rw [amt_eq ha (by omega), two_pow_cast (m.bits - 1)]
  have h0 : (0:Int) < ((2 ^ (m.bits - 1) : Nat) : Int) := by omega
  have e : q % 2 ^ m.bits / ((2 ^ (m.bits - 1) : Nat) : Int) = if q < 0 then 1 else 0 := by
    split
    · have : q % 2 ^ m.bits = q + 2 ^ m.bits := by
        rw [← Int.add_emod_right, Int.emod_eq_of_lt (by rw [hc]; omega) (by omega)]
      rw [this, hc]
      apply Int.le_antisymm
      · apply Int.le_of_lt_add_one; apply Int.ediv_lt_of_lt_mul h0; omega
      · apply Int.le_ediv_of_mul_le h0; omega
    · rw [Int.emod_eq_of_lt (by omega) (by rw [hc]; omega)]
      exact Int.ediv_eq_zero_of_lt (by omega) (by omega)
  rw [e]
  apply wrap_of_inRange (by omega)
  rw [hs]
  apply inRange_signed' <;> split <;> omega

/-- the value before the final correction -/
theorem signedMulh_floor {m : IMode} (hs : m.signed = true) (hW : 2 ≤ m.bits) (ha : AmtOk m) {d : Int} (hd : d ≠ 0) {M P : Nat} (hM0 : 0 < M)
    (hM : M < 2 ^ m.bits) (hP : m.bits ≤ P) (hP2 : P ≤ 2 * m.bits - 1) {x : Int} (hx : m.In x) :
    signedMulhValue m (magicResult m.bits d (P, M - 1)) x =
      m.wrap (x * (if 0 ≤ d then (M : Int) else -M) / 2 ^ P + if x * (if 0 ≤ d then (M : Int) else -M) / 2 ^ P < 0 then 1 else 0) := by
  unfold signedMulhValue
  rw [mulhFix_eq hs hW d hd hM0 hM]
  have hN : (if 0 ≤ d then (M : Int) else -M).natAbs < 2 ^ m.bits := by split <;> omega
  generalize (if 0 ≤ d then (M : Int) else -M) = N at *
  have hx' : InRange true m.bits x := by rw [← hs]; exact hx
  have h := inRange_signed hx'
  have hpow : 2 ^ m.bits = 2 * 2 ^ (m.bits - 1) := half_pow (by omega)
  have h0 : 0 < 2 ^ (m.bits - 1) := by positivity
  have hp0 : (0:Int) < 2 ^ m.bits := by positivity
  have hb : (x * N).natAbs ≤ 2 ^ (m.bits - 1) * (2 ^ m.bits - 1) := by
    rw [Int.natAbs_mul]; exact Nat.mul_le_mul (by omega) (by omega)
  have hb' : 2 ^ (m.bits - 1) * (2 ^ m.bits - 1) + 2 ^ (m.bits - 1) = 2 ^ (m.bits - 1) * 2 ^ m.bits := by
    rw [← Nat.mul_succ]; congr 1; omega
  have hq : m.In (x * N / 2 ^ m.bits) := by
    unfold IMode.In; rw [hs]
    apply inRange_signed'
    · apply Int.le_ediv_of_mul_le hp0
      rw [two_pow_cast m.bits, Int.neg_mul, ← Int.natCast_mul]; omega
    · apply Int.ediv_lt_of_lt_mul hp0
      rw [two_pow_cast m.bits, ← Int.natCast_mul]; omega
  have hwq : m.wrap (x * N / 2 ^ m.bits) = x * N / 2 ^ m.bits := wrap_of_inRange (by omega) hq
  rw [hwq]
  have hmag : (magicResult m.bits d (P, M - 1)).s = P - m.bits := rfl
  rw [hmag]
  have hsh : shrsPos m (x * N / 2 ^ m.bits) (P - m.bits) = x * N / 2 ^ P := by
    have hsplit : (2:Int) ^ P = 2 ^ m.bits * 2 ^ (P - m.bits) := by rw [← pow_add]; congr 1; omega
    rw [hsplit, ← Int.ediv_ediv_of_nonneg (by omega)]
    unfold shrsPos
    split
    · rw [shrs_eq hs ha hq (by omega)]
    · have : P - m.bits = 0 := by omega
      rw [this]; simp
  have hin : m.In (x * N / 2 ^ P) := by
    by_cases hz : 0 < P - m.bits
    · rw [← hsh]; unfold shrsPos; rw [if_pos hz]; exact wrap_inRange _ (by omega) _
    · have : P = m.bits := by omega
      rw [this]; exact hq
  rw [hsh]
  unfold addSign irAdd
  rw [shr_sign hs hW ha hin]

theorem floor_neg_eq {P a k : Nat} (h1 : P * k < a) (h2 : a ≤ P * (k + 1)) : -(a : Int) / (P : Int) = -(k : Int) - 1 := by
  have hP : 0 < P := by
    rcases Nat.eq_zero_or_pos P with h | h
    · subst h; omega
    · exact h
  have h1' : (P : Int) * k < a := by exact_mod_cast h1
  have h2' : (a : Int) ≤ P * (k + 1) := by exact_mod_cast h2
  apply Int.le_antisymm
  · apply Int.le_of_lt_add_one
    apply Int.ediv_lt_of_lt_mul (by omega)
    have : (-(k : Int) - 1 + 1) * P = -(P * k) := by ring
    omega
  · apply Int.le_ediv_of_mul_le (by omega)
    have : (-(k : Int) - 1) * P = -(P * (k + 1)) := by ring
    omega

theorem floor_eq {P a k : Nat} (h1 : P * k ≤ a) (h2 : a < P * (k + 1)) : (a : Int) / (P : Int) = (k : Int) := by
  have : a / P = k := by
    apply Nat.div_eq_of_lt_le
    · rw [Nat.mul_comm]; exact h1
    · rw [Nat.mul_comm]; exact h2
  exact_mod_cast this

/-- the quotient of a magic multiplication -/
theorem magic_tdiv {W P M δ : Nat} (hW : 2 ≤ W) (hP : W ≤ P) {d x : Int} (hd : InRange true W d) (hx : InRange true W x) (hd0 : d ≠ 0)
    (hM : M * d.natAbs = 2 ^ P + δ) (hδ : 0 < δ) (hδ2 : δ + 2 ^ P % d.natAbs = d.natAbs)
    (hc : δ * (magicT W d - 1 - magicT W d % d.natAbs) < 2 ^ P) :
    x * (if 0 ≤ d then (M : Int) else -M) / 2 ^ P + (if x * (if 0 ≤ d then (M : Int) else -M) / 2 ^ P < 0 then 1 else 0) = x.tdiv d := by
  have hD : 0 < d.natAbs := by omega
  have hdn : d = d.natAbs ∨ d = -(d.natAbs : Int) := by omega
  have hdr := inRange_signed hd
  have hxr := inRange_signed hx
  have hT := magicT_eq hW hd
  have hTd : d.natAbs ≤ magicT W d := by rw [hT]; omega
  have hlt : ∀ a : Nat, a + 1 ≤ magicT W d → M * a < 2 ^ P * (a / d.natAbs + 1) := fun a h =>
    magic_lt hD hM (magic_err hD hTd hc h)
  have hge : ∀ a : Nat, 2 ^ P * (a / d.natAbs) ≤ M * a := fun a => magic_ge hM
  have hgt : ∀ a : Nat, 0 < a → 2 ^ P * (a / d.natAbs) < M * a := fun a h => magic_gt hD hM hδ h
  generalize d.natAbs = D at *
  obtain ⟨a, rfl | rfl⟩ := x.eq_nat_or_neg
  · -- x ≥ 0
    by_cases hd1 : 0 ≤ d
    · rw [if_pos hd1]
      have hDe : d = (D : Int) := by omega
      rw [if_neg (by omega)] at hT
      have e : (a : Int) * (M : Int) / 2 ^ P = ((a / D : Nat) : Int) := by
        rw [two_pow_cast, ← Int.natCast_mul, Nat.mul_comm]
        exact floor_eq (hge a) (hlt a (by omega))
      rw [e, if_neg (by have := Int.natCast_nonneg (a / D); omega), hDe, ← Int.ofNat_tdiv]; omega
    · rw [if_neg hd1]
      have hDe : d = -(D : Int) := by omega
      rw [if_pos (by omega)] at hT
      rcases Nat.eq_zero_or_pos a with h0 | h0
      · subst h0; simp
      · have e : (a : Int) * (-(M : Int)) / 2 ^ P = -((a / D : Nat) : Int) - 1 := by
          rw [two_pow_cast, Int.mul_neg, ← Int.natCast_mul, Nat.mul_comm]
          exact floor_neg_eq (hgt a h0) (Nat.le_of_lt (hlt a (by omega)))
        rw [e, if_pos (by have := Int.natCast_nonneg (a / D); omega), hDe, Int.tdiv_neg, ← Int.ofNat_tdiv]; omega
  · -- x ≤ 0
    by_cases hd1 : 0 ≤ d
    · rw [if_pos hd1]
      have hDe : d = (D : Int) := by omega
      rw [if_neg (by omega), Nat.add_zero] at hT
      rcases Nat.eq_zero_or_pos a with h0 | h0
      · subst h0; simp
      · have hle : M * a ≤ 2 ^ P * (a / D + 1) := by
          by_cases hat : a + 1 ≤ magicT W d
          · exact Nat.le_of_lt (hlt a hat)
          · have hae : a = magicT W d := by omega
            apply magic_le hD hM
            rw [hae]
            refine magic_err_top (c := 2 ^ (P - (W - 1))) hD hTd ?_ hc hδ2
            rw [hT, ← Nat.pow_add]; congr 1; omega
        have e : -(a : Int) * (M : Int) / 2 ^ P = -((a / D : Nat) : Int) - 1 := by
          rw [two_pow_cast, Int.neg_mul, ← Int.natCast_mul, Nat.mul_comm]
          exact floor_neg_eq (hgt a h0) hle
        rw [e, if_pos (by have := Int.natCast_nonneg (a / D); omega), hDe, Int.neg_tdiv, ← Int.ofNat_tdiv]; omega
    · rw [if_neg hd1]
      have hDe : d = -(D : Int) := by omega
      rw [if_pos (by omega)] at hT
      have e : -(a : Int) * (-(M : Int)) / 2 ^ P = ((a / D : Nat) : Int) := by
        rw [two_pow_cast, Int.neg_mul_neg, ← Int.natCast_mul, Nat.mul_comm]
        exact floor_eq (hge a) (hlt a (by omega))
      rw [e, if_neg (by have := Int.natCast_nonneg (a / D); omega), hDe, Int.neg_tdiv, Int.tdiv_neg, Int.neg_neg, ← Int.ofNat_tdiv]; omega

end Verif.Model
