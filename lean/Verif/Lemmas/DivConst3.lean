import Verif.Lemmas.DivConst2
/-!
# Lemmas on unsigned division by multiplication
-/
namespace Verif.Model
open Verif.Spec

theorem shiftsToZero_spec : ∀ (fuel v : Nat), v < 2 ^ fuel → v < 2 ^ shiftsToZero fuel v ∧ (0 < v → 0 < shiftsToZero fuel v ∧ 2 ^ (shiftsToZero fuel v - 1) ≤ v) := by
  intro fuel
  induction fuel with
  | zero => intro v h; simp at h; subst h; simp [shiftsToZero]
  | succ f ih =>
    intro v h
    rw [shiftsToZero]
    by_cases hv : 0 < v
    · rw [if_pos hv]
      obtain ⟨h1, h2⟩ := ih (v / 2) (by rw [Nat.pow_succ] at h; omega)
      refine ⟨by rw [Nat.add_comm, Nat.pow_succ]; omega, fun _ => ⟨by omega, ?_⟩⟩
      rw [Nat.add_sub_cancel_left]
      by_cases h3 : 0 < v / 2
      · obtain ⟨h4, h5⟩ := h2 h3
        obtain ⟨k, hk⟩ : ∃ k, shiftsToZero f (v / 2) = k + 1 := ⟨_, (Nat.sub_add_cancel h4).symm⟩
        rw [hk, Nat.add_sub_cancel] at h5
        rw [hk, Nat.pow_succ]; omega
      · have : shiftsToZero f (v / 2) = 0 := by
          have : v / 2 = 0 := by omega
          rw [this]; cases f <;> simp [shiftsToZero]
        rw [this]; omega
    · rw [if_neg hv]; exact ⟨by omega, fun h => absurd h hv⟩

theorem shiftsToOdd_spec : ∀ (fuel v : Nat), 0 < v → v < 2 ^ fuel → ∃ o, v = 2 ^ shiftsToOdd fuel v * o ∧ o % 2 = 1 := by
  intro fuel
  induction fuel with
  | zero => intro v h0 h; simp at h; omega
  | succ f ih =>
    intro v h0 h
    rw [shiftsToOdd]
    by_cases hv : v % 2 = 0
    · rw [if_pos hv]
      obtain ⟨o, h1, h2⟩ := ih (v / 2) (by omega) (by rw [Nat.pow_succ] at h; omega)
      refine ⟨o, ?_, h2⟩
      rw [Nat.add_comm, Nat.pow_succ]
      have : v = v / 2 * 2 := by omega
      conv => lhs; rw [this, h1]
      ring
    · rw [if_neg hv]; exact ⟨v, by simp, by omega⟩

/-- quotient (modulo the word) and remainder of the power `2 ^ p` -/
def uState (W D p : Nat) : Nat × Nat := (2 ^ p / D % 2 ^ W, 2 ^ p % D)

theorem magicuDouble_spec {W D p : Nat} (hD : 0 < D) (hDW : D < 2 ^ W) : magicuDouble W D (uState W D p) = uState W D (p + 1) := by
  have hm : 2 ^ p % D < D := Nat.mod_lt _ hD
  obtain ⟨h1, h3⟩ := pow_succ_div_mod (p := p) hD
  unfold magicuDouble uState
  simp only []
  rw [uSub_eq (Nat.le_of_lt hm) hDW]
  by_cases hr : D - 2 ^ p % D ≤ 2 ^ p % D
  · obtain ⟨e1, e2⟩ := h3 (by omega)
    rw [if_pos hr, e1, e2]
    congr 1
    · unfold uAdd uMul; rw [Nat.mod_add_mod, ← Nat.mod_add_mod, Nat.mod_mul_mod, Nat.mod_add_mod]
    · unfold uSub uMul
      rw [Nat.mod_add_mod]
      have : 2 ^ p % D * 2 + (2 ^ W - D) = (2 ^ p % D * 2 - D) + 2 ^ W := by omega
      rw [this, Nat.add_mod_right, Nat.mod_eq_of_lt (by omega)]
  · obtain ⟨e1, e2⟩ := h1 (by omega)
    rw [if_neg hr, e1, e2]
    congr 1
    · unfold uMul; rw [Nat.mod_mul_mod]
    · exact uMul_eq (by omega)

/-- the round-down candidate after the exponents below `e` -/
def DownOk (W D extra L e : Nat) (down : Option (Nat × Nat)) : Prop :=
  match down with
  | some p => p.2 < e ∧ p.2 + extra < L ∧ p.1 = 2 ^ (W + p.2) / D % 2 ^ W ∧ 2 ^ (W + p.2) % D ≤ 2 ^ (p.2 + extra)
  | none => ∀ x < e, 2 ^ (x + extra) < 2 ^ (W + x) % D

theorem magicuLoop_spec {W D extra L : Nat} (hW : 1 ≤ W) (hD : 0 < D) (hDW : D < 2 ^ W) (hLW : L ≤ W) :
    ∀ (fuel e : Nat) (down : Option (Nat × Nat)), L < fuel + e → 0 < fuel → (e = 0 ∨ e + extra ≤ L) →
      (∀ x < e, 2 ^ (x + extra) < D - 2 ^ (W + x) % D) → DownOk W D extra L e down →
      ∃ E down', magicuLoop W D extra L fuel e (uState W D (W + e - 1)) down = some (E, 2 ^ (W + E) / D % 2 ^ W, down') ∧
        (E = 0 ∨ E + extra ≤ L) ∧ (L ≤ E + extra ∨ D - 2 ^ (W + E) % D ≤ 2 ^ (E + extra)) ∧
        (∀ x < E, 2 ^ (x + extra) < D - 2 ^ (W + x) % D) ∧ DownOk W D extra L E down' := by
  intro fuel
  induction fuel with
  | zero => intro e down _ h; omega
  | succ f ih =>
    intro e down hf _ he hnd hdown
    rw [magicuLoop, magicuDouble_spec hD hDW, show W + e - 1 + 1 = W + e from by omega]
    have hm : 2 ^ (W + e) % D < D := Nat.mod_lt _ hD
    by_cases hdone : magicuDone W D extra L e (uState W D (W + e)).2 = true
    · rw [if_pos hdone]
      refine ⟨e, down, rfl, he, ?_, hnd, hdown⟩
      unfold magicuDone uState at hdone
      simp only [Bool.or_eq_true, decide_eq_true_eq] at hdone
      rw [uSub_eq (Nat.le_of_lt hm) hDW] at hdone
      rcases hdone with h | h
      · exact Or.inl h
      · by_cases hl : L ≤ e + extra
        · exact Or.inl hl
        · rw [uShlOne_eq (by omega)] at h; exact Or.inr h
    · rw [if_neg hdone]
      unfold magicuDone uState at hdone
      simp only [Bool.or_eq_true, decide_eq_true_eq, not_or, Nat.not_le] at hdone
      rw [uSub_eq (Nat.le_of_lt hm) hDW, uShlOne_eq (by omega)] at hdone
      have h := ih (e + 1) (magicuDown W extra down e (uState W D (W + e))) (by omega) (by omega) (by omega) ?_ ?_
      · rw [show W + (e + 1) - 1 = W + e from by omega] at h; exact h
      · intro x hx
        by_cases hxe : x = e
        · subst hxe; exact hdone.2
        · exact hnd x (by omega)
      · unfold magicuDown uState
        rw [uShlOne_eq (by omega)]
        cases down with
        | some p =>
          simp only [Option.isNone_some, Bool.false_eq_true, false_and, if_false]
          unfold DownOk at hdown ⊢
          exact ⟨by omega, hdown.2⟩
        | none =>
          by_cases hle : 2 ^ (W + e) % D ≤ 2 ^ (e + extra)
          · rw [if_pos ⟨rfl, hle⟩]
            unfold DownOk
            exact ⟨by simp, hdone.1, rfl, hle⟩
          · rw [if_neg (by intro hc; exact hle hc.2)]
            unfold DownOk at hdown ⊢
            simp only [] at hdown ⊢
            intro x hx
            by_cases hxe : x = e
            · subst hxe; omega
            · exact hdown x (by omega)

theorem notPow2Assert_eq {D : Nat} (h0 : 0 < D) (hnp : ∀ k, D ≠ 2 ^ k) : notPow2Assert D = true := by
  unfold notPow2Assert
  rw [bne_iff_ne]
  intro h
  obtain ⟨k, hk⟩ := (Nat.and_sub_one_eq_zero_iff_isPowerOfTwo (by omega)).1 h
  exact hnp k hk

/-- the bit length of a divisor that is no power of two -/
theorem ceilLog_spec {W D : Nat} (h0 : 0 < D) (hDW : D < 2 ^ W) (hnp : ∀ k, D ≠ 2 ^ k) :
    ∃ l, shiftsToZero (W + 1) D = l + 1 ∧ 1 ≤ l ∧ 2 ^ l < D ∧ D < 2 ^ (l + 1) ∧ l + 1 ≤ W := by
  obtain ⟨h1, h2⟩ := shiftsToZero_spec (W + 1) D (by rw [Nat.pow_succ]; omega)
  obtain ⟨h3, h4⟩ := h2 h0
  obtain ⟨l, hl⟩ : ∃ l, shiftsToZero (W + 1) D = l + 1 := ⟨_, (Nat.sub_add_cancel h3).symm⟩
  rw [hl] at h1 h4
  rw [Nat.add_sub_cancel] at h4
  have h5 : 2 ^ l < D := Nat.lt_of_le_of_ne h4 (fun h => hnp l h.symm)
  refine ⟨l, hl, ?_, h5, h1, ?_⟩
  · rcases Nat.eq_zero_or_pos l with h | h
    · subst h; simp at h5 h1; omega
    · exact h
  exact (Nat.pow_lt_pow_iff_right (a := 2) (by omega)).1 (Nat.lt_trans h5 hDW)

theorem up_multiplier {W D l E : Nat} (hl0 : 1 ≤ l) (h1 : 2 ^ l < D) (hl : l + 1 ≤ W) (hE : E ≤ l) : 2 ^ (W + E) / D + 1 < 2 ^ W := by
  by_contra hge
  have hge' : 2 ^ W ≤ 2 ^ (W + E) / D + 1 := Nat.le_of_not_lt hge
  have h2 : 2 ^ W - 1 ≤ 2 ^ (W + E) / D := Nat.sub_le_of_le_add hge'
  have h3 : (2 ^ W - 1) * D ≤ 2 ^ (W + E) := Nat.le_trans (Nat.mul_le_mul_right _ h2) (Nat.div_mul_le_self _ _)
  have h4 : (2 ^ W - 1) * (2 ^ l + 1) ≤ 2 ^ (W + l) := by
    calc (2 ^ W - 1) * (2 ^ l + 1) ≤ (2 ^ W - 1) * D := Nat.mul_le_mul_left _ h1
      _ ≤ 2 ^ (W + E) := h3
      _ ≤ 2 ^ (W + l) := Nat.pow_le_pow_right (by omega) (by omega)
  have h5 : 2 ^ (l + 1) ≤ 2 ^ W := Nat.pow_le_pow_right (by omega) hl
  rw [Nat.pow_succ] at h5
  have h6 : 0 < 2 ^ l := by positivity
  have h7 : (2 ^ W - 1) * (2 ^ l + 1) + 2 ^ l + 1 = 2 ^ (W + l) + 2 ^ W := by
    rw [Nat.pow_add]
    obtain ⟨n, hn⟩ : ∃ n, 2 ^ W = n + 1 := ⟨2 ^ W - 1, by omega⟩
    rw [hn, Nat.add_sub_cancel]; ring
  have h8 : 2 ^ 1 ≤ 2 ^ l := Nat.pow_le_pow_right (by omega) hl0
  generalize 2 ^ (W + l) = A at *
  generalize (2 ^ W - 1) * (2 ^ l + 1) = B at *
  generalize 2 ^ W = C at *
  omega

/-- the round-up multiplication -/
theorem up_div {W D E s n : Nat} (hD : 0 < D) (hs : s ≤ W) (h : D - 2 ^ (W + E) % D ≤ 2 ^ (E + s)) (hn : n < 2 ^ (W - s)) :
    (2 ^ (W + E) / D + 1) * n / 2 ^ (W + E) = n / D := by
  have hm : 2 ^ (W + E) % D < D := Nat.mod_lt _ hD
  have hdm := Nat.div_add_mod (2 ^ (W + E)) D
  have hM : (2 ^ (W + E) / D + 1) * D = 2 ^ (W + E) + (D - 2 ^ (W + E) % D) := by
    rw [Nat.add_mul, Nat.one_mul, Nat.mul_comm]; omega
  apply Nat.div_eq_of_lt_le
  · rw [Nat.mul_comm]; exact magic_ge hM
  · rw [Nat.mul_comm (n / D + 1)]
    apply magic_lt hD hM
    calc (D - 2 ^ (W + E) % D) * n ≤ 2 ^ (E + s) * n := Nat.mul_le_mul_right _ h
      _ < 2 ^ (E + s) * 2 ^ (W - s) := Nat.mul_lt_mul_of_pos_left hn (by positivity)
      _ = 2 ^ (W + E) := by rw [← Nat.pow_add]; congr 1; omega
      _ ≤ 2 ^ (W + E) * (D - n % D) := Nat.le_mul_of_pos_right _ (by have := Nat.mod_lt n hD; omega)

/-- the round-down multiplication of the increment -/
theorem down_div {W D E n : Nat} (hD : 0 < D) (hr0 : 0 < 2 ^ (W + E) % D) (h : 2 ^ (W + E) % D ≤ 2 ^ E) (hn : n < 2 ^ W) {n' : Nat}
    (hn' : n' = n + 1 ∨ (n' = n ∧ 0 < n % D)) :
    2 ^ (W + E) / D * n' / 2 ^ (W + E) = n / D := by
  have hdm := Nat.div_add_mod (2 ^ (W + E)) D
  have hnd := Nat.div_add_mod n D
  have hnm := Nat.mod_lt n hD
  have hP : 2 ^ (W + E) = 2 ^ E * 2 ^ W := by rw [← Nat.pow_add]; congr 1; omega
  have hP0 : 0 < 2 ^ (W + E) := by positivity
  have hn0 : 0 < n' := by
    rcases hn' with h | ⟨h1, h2⟩
    · omega
    · have := Nat.mod_le n D; omega
  have hrn : 2 ^ (W + E) % D * n' ≤ 2 ^ (W + E) := by
    rw [hP] at h ⊢
    rw [← hP] at h ⊢
    calc 2 ^ (W + E) % D * n' ≤ 2 ^ E * 2 ^ W := Nat.mul_le_mul h (by omega)
      _ = 2 ^ (W + E) := hP.symm
  have hrn0 : 0 < 2 ^ (W + E) % D * n' := Nat.mul_pos hr0 hn0
  generalize hPe : 2 ^ (W + E) = P at *
  generalize P / D = q at *
  generalize P % D = r at *
  have hq : q * n' * D + r * n' = P * n' := by rw [← hdm]; ring
  apply Nat.div_eq_of_lt_le
  · -- lower bound
    have h1 : n / D * P * D + P ≤ P * n' := by
      have : n / D * D + 1 ≤ n' := by
        rw [Nat.mul_comm]; omega
      calc n / D * P * D + P = (n / D * D + 1) * P := by ring
        _ ≤ n' * P := Nat.mul_le_mul_right _ this
        _ = P * n' := by ring
    have h2 : n / D * P * D ≤ q * n' * D := by omega
    exact Nat.le_of_mul_le_mul_right h2 hD
  · have h1 : P * n' ≤ (n / D + 1) * P * D := by
      have : n' ≤ (n / D + 1) * D := by
        rw [Nat.add_mul, Nat.mul_comm (n / D)]; omega
      calc P * n' ≤ P * ((n / D + 1) * D) := Nat.mul_le_mul_left _ this
        _ = (n / D + 1) * P * D := by ring
    have h2 : q * n' * D < (n / D + 1) * P * D := by omega
    exact Nat.lt_of_mul_lt_mul_right h2

/-- what a magic number must do: with the multiplier `M`, the shifts and the increment, every dividend is divided by `D` -/
def MagicuOk (W D : Nat) (i : MagicuInfo) : Prop :=
  i.multiplier < 2 ^ W ∧ i.preShift < W ∧ i.postShift < W ∧
  ∀ n < 2 ^ W, i.multiplier * (if i.increment then (if n / 2 ^ i.preShift = 2 ^ W - 1 then n / 2 ^ i.preShift else n / 2 ^ i.preShift + 1) else n / 2 ^ i.preShift)
    / 2 ^ (W + i.postShift) = n / D

theorem up_nested {W D s : Nat} (h0 : 0 < D) (hnp : ∀ k, D ≠ 2 ^ k) (hDW : D < 2 ^ W) (hs : 1 ≤ s) (hsD : D * 2 ^ s < 2 ^ W) :
    ∃ i, magicuNested W D s = some i ∧ i.increment = false ∧ i.preShift = 0 ∧ i.multiplier < 2 ^ W ∧ i.postShift < W ∧
      ∀ n < 2 ^ (W - s), i.multiplier * n / 2 ^ (W + i.postShift) = n / D := by
  obtain ⟨l, hl, hl0, hl1, hl2, hlW⟩ := ceilLog_spec h0 hDW hnp
  have hsW : s < W := by
    apply (Nat.pow_lt_pow_iff_right (a := 2) (by omega)).1
    calc 2 ^ s ≤ D * 2 ^ s := Nat.le_mul_of_pos_left _ h0
      _ < 2 ^ W := hsD
  obtain ⟨E, down, e, hE1, hE2, _, _⟩ := magicuLoop_spec (W := W) (D := D) (extra := s) (L := l + 1) (by omega) h0 hDW hlW (W + 2) 0 none
    (by omega) (by omega) (Or.inl rfl) (by intro x hx; omega) (by intro x hx; omega)
  have hsearch : magicuSearch W D s = some (E, 2 ^ (W + E) / D % 2 ^ W, down) := by
    unfold magicuSearch
    rw [hl, uShlOne_eq (by omega), ← e]
    congr 1
    unfold uState
    congr 1
    rw [Nat.mod_eq_of_lt]
    · rfl
    · calc 2 ^ (W + 0 - 1) / D ≤ 2 ^ (W + 0 - 1) := Nat.div_le_self _ _
        _ < 2 ^ W := Nat.pow_lt_pow_right (by omega) (by omega)
  have hEl : E ≤ l := by omega
  have hmul := up_multiplier hl0 hl1 hlW hEl
  have herr : D - 2 ^ (W + E) % D ≤ 2 ^ (E + s) := by
    rcases hE2 with h | h
    · calc D - 2 ^ (W + E) % D ≤ D := Nat.sub_le _ _
        _ ≤ 2 ^ (l + 1) := Nat.le_of_lt hl2
        _ ≤ 2 ^ (E + s) := Nat.pow_le_pow_right (by omega) h
    · exact h
  refine ⟨⟨2 ^ (W + E) / D + 1, 0, E, false⟩, ?_, rfl, rfl, hmul, by show E < W; omega, ?_⟩
  · unfold magicuNested
    rw [if_pos (notPow2Assert_eq h0 hnp), hsearch]
    simp only []
    unfold magicuUpDown
    rw [hl, if_pos (by show E < l + 1; omega)]
    simp only [and_self, if_true]
    rw [Nat.mod_eq_of_lt (by omega), uAdd_eq (by omega)]
  · intro n hn
    exact up_div h0 (by omega) herr hn

theorem magicu_spec {W D : Nat} (h0 : 0 < D) (hDW : D < 2 ^ W) (hnp : ∀ k, D ≠ 2 ^ k) :
    ∃ i, getMagicInfo W D = some i ∧ MagicuOk W D i := by
  obtain ⟨l, hl, hl0, hl1, hl2, hlW⟩ := ceilLog_spec h0 hDW hnp
  obtain ⟨E, down, e, hE1, hE2, hE3, hE4⟩ := magicuLoop_spec (W := W) (D := D) (extra := 0) (L := l + 1) (by omega) h0 hDW hlW (W + 2) 0 none
    (by omega) (by omega) (Or.inl rfl) (by intro x hx; omega) (by intro x hx; omega)
  have hsearch : magicuSearch W D 0 = some (E, 2 ^ (W + E) / D % 2 ^ W, down) := by
    unfold magicuSearch
    rw [hl, uShlOne_eq (by omega), ← e]
    congr 1
    unfold uState
    congr 1
    rw [Nat.mod_eq_of_lt]
    · rfl
    · calc 2 ^ (W + 0 - 1) / D ≤ 2 ^ (W + 0 - 1) := Nat.div_le_self _ _
        _ < 2 ^ W := Nat.pow_lt_pow_right (by omega) (by omega)
  unfold getMagicInfo
  rw [if_pos (notPow2Assert_eq h0 hnp), hsearch, hl]
  simp only []
  by_cases hEl : E ≤ l
  · -- round up
    have hmul := up_multiplier hl0 hl1 hlW hEl
    have herr : D - 2 ^ (W + E) % D ≤ 2 ^ (E + 0) := by
      rcases hE2 with h | h
      · omega
      · exact h
    rw [if_neg (by omega)]
    unfold magicuUpDown
    rw [if_pos (by show E < l + 1; omega)]
    simp only []
    rw [Nat.mod_eq_of_lt (by omega), uAdd_eq (by omega)]
    refine ⟨_, rfl, hmul, by show 0 < W; omega, by show E < W; omega, ?_⟩
    intro n hn
    simp only [Bool.false_eq_true, if_false, Nat.pow_zero, Nat.div_one]
    exact up_div h0 (by omega) herr (by simpa using hn)
  · have hEe : E = l + 1 := by omega
    have hup := hE3 l (by omega)
    rw [Nat.add_zero] at hup
    by_cases hodd : D % 2 = 0
    · -- even
      rw [if_pos ⟨by omega, hodd⟩]
      obtain ⟨o, ho1, ho2⟩ := shiftsToOdd_spec W D h0 hDW
      have hs1 : 1 ≤ shiftsToOdd W D := by
        rcases Nat.eq_zero_or_pos (shiftsToOdd W D) with h | h
        · rw [h, Nat.pow_zero, Nat.one_mul] at ho1; omega
        · exact h
      generalize shiftsToOdd W D = s at *
      have hdiv : D / 2 ^ s = o := by rw [ho1, Nat.mul_div_cancel_left _ (by positivity)]
      have hnpo : ∀ k, o ≠ 2 ^ k := by
        intro k hk
        apply hnp (s + k)
        rw [ho1, hk, Nat.pow_add]
      have hoD : o ≤ D := by rw [← hdiv]; exact Nat.div_le_self _ _
      obtain ⟨i, ei, hi1, hi2, hi3, hi4, hi5⟩ := up_nested (W := W) (D := o) (s := s) (by omega) hnpo (by omega) hs1 (by rw [Nat.mul_comm, ← ho1]; exact hDW)
      rw [hdiv, ei]
      refine ⟨_, rfl, hi3, ?_, hi4, ?_⟩
      · show s < W
        apply (Nat.pow_lt_pow_iff_right (a := 2) (by omega)).1
        calc 2 ^ s ≤ 2 ^ s * o := Nat.le_mul_of_pos_right _ (by omega)
          _ < 2 ^ W := by rw [← ho1]; exact hDW
      · intro n hn
        show i.multiplier * (if i.increment then _ else n / 2 ^ s) / 2 ^ (W + i.postShift) = n / D
        rw [hi1]
        simp only [Bool.false_eq_true, if_false]
        have hsW : s ≤ W := by
          apply (Nat.pow_le_pow_iff_right (a := 2) (by omega)).1
          calc 2 ^ s ≤ 2 ^ s * o := Nat.le_mul_of_pos_right _ (by omega)
            _ ≤ 2 ^ W := by rw [← ho1]; exact Nat.le_of_lt hDW
        rw [hi5 _ (by
          rw [Nat.div_lt_iff_lt_mul (by positivity), ← Nat.pow_add, Nat.sub_add_cancel hsW]; exact hn), Nat.div_div_eq_div_mul, ← ho1]
    · -- odd: round down
      rw [if_neg (by omega)]
      unfold magicuUpDown
      rw [if_neg (by show ¬ E < l + 1; omega), if_pos (by omega)]
      have hm : 2 ^ (W + l) % D < D := Nat.mod_lt _ h0
      cases down with
      | none =>
        exfalso
        have := hE4 l (by omega)
        rw [Nat.add_zero] at this
        rw [Nat.pow_succ] at hl2
        omega
      | some p =>
        obtain ⟨hp1, hp2, hp3, hp4⟩ := hE4
        rw [Nat.add_zero] at hp2 hp4
        have hmul := up_multiplier hl0 hl1 hlW (E := p.2) (by omega)
        rw [Nat.mod_eq_of_lt (by omega)] at hp3
        refine ⟨_, rfl, by show p.1 < 2 ^ W; omega, by show 0 < W; omega, by show p.2 < W; omega, ?_⟩
        intro n hn
        simp only [if_true, Nat.pow_zero, Nat.div_one]
        rw [hp3]
        apply down_div h0 (pow2_mod_pos hnp _) hp4 hn
        split
        · -- saturation: `D` does not divide `2 ^ W - 1`
          rename_i hsat
          right
          refine ⟨rfl, ?_⟩
          rcases Nat.eq_zero_or_pos (n % D) with hz | hz
          · exfalso
            -- then `2 ^ (W + l) mod D = 2 ^ l`
            have h1 : 2 ^ W % D = 1 % D := by
              have : 2 ^ W = 1 + D * (n / D) := by
                have := Nat.div_add_mod n D; omega
              rw [this, Nat.add_mul_mod_self_left]
            have h2 : 2 ^ (W + l) % D = 2 ^ l := by
              rw [Nat.pow_add, ← Nat.mod_mul_mod, h1, Nat.mod_mul_mod, Nat.one_mul, Nat.mod_eq_of_lt hl1]
            rw [Nat.pow_succ] at hl2
            omega
          · exact hz
        · left; rfl

end Verif.Model
