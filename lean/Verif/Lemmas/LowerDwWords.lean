import Verif.Spec.DoubleWord
/-!
# Lemmas about values made of two words
-/
namespace Verif.Spec

variable {n w : Nat} {v v' : BitVec n} {l h l' h' : BitVec w}

theorem getLsbD_of_splits (hs : Splits v l h) (i : Nat) : v.getLsbD i = if i < w then l.getLsbD i else h.getLsbD (i - w) := by
  unfold Splits at hs
  unfold BitVec.getLsbD
  rw [hs, Nat.mul_comm, Nat.testBit_two_pow_mul_add _ l.isLt]

theorem splits_of_getLsbD (hn : n = 2 * w) (hb : ∀ i < 2 * w, v.getLsbD i = if i < w then l.getLsbD i else h.getLsbD (i - w)) : Splits v l h := by
  unfold Splits
  apply Nat.eq_of_testBit_eq
  intro i
  rw [Nat.mul_comm, Nat.testBit_two_pow_mul_add _ l.isLt]
  by_cases hi : i < 2 * w
  · exact hb i hi
  · rw [if_neg (by omega)]
    have h1 : v.getLsbD i = false := BitVec.getLsbD_of_ge _ _ (by omega)
    have h2 : h.getLsbD (i - w) = false := BitVec.getLsbD_of_ge _ _ (by omega)
    exact h1.trans h2.symm

theorem splits_unique (hs : Splits v l h) (hs' : Splits v l' h') : l = l' ∧ h = h' := by
  unfold Splits at hs hs'
  have h1 := l.isLt
  have h2 := l'.isLt
  have e1 : l.toNat = l'.toNat := by
    have a : v.toNat % 2 ^ w = l.toNat := by rw [hs, Nat.mul_comm, Nat.mul_add_mod, Nat.mod_eq_of_lt h1]
    have b : v.toNat % 2 ^ w = l'.toNat := by rw [hs', Nat.mul_comm, Nat.mul_add_mod, Nat.mod_eq_of_lt h2]
    omega
  refine ⟨BitVec.eq_of_toNat_eq e1, BitVec.eq_of_toNat_eq ?_⟩
  have : h.toNat * 2 ^ w = h'.toNat * 2 ^ w := by omega
  exact Nat.eq_of_mul_eq_mul_right (Nat.two_pow_pos w) this

theorem splits_self (hn : n = 2 * w) (v : BitVec n) : Splits v (v.setWidth w) ((v >>> w).setWidth w) := by
  apply splits_of_getLsbD hn
  intro i hi
  split
  · simp [*]
  · have : i - w < w := by omega
    simp [*, show w + (i - w) = i by omega]

theorem splits_and (hn : n = 2 * w) (hs : Splits v l h) (hs' : Splits v' l' h') : Splits (v &&& v') (l &&& l') (h &&& h') := by
  apply splits_of_getLsbD hn
  intro i _
  simp only [BitVec.getLsbD_and, getLsbD_of_splits hs, getLsbD_of_splits hs']
  split <;> rfl

theorem splits_or (hn : n = 2 * w) (hs : Splits v l h) (hs' : Splits v' l' h') : Splits (v ||| v') (l ||| l') (h ||| h') := by
  apply splits_of_getLsbD hn
  intro i _
  simp only [BitVec.getLsbD_or, getLsbD_of_splits hs, getLsbD_of_splits hs']
  split <;> rfl

theorem splits_xor (hn : n = 2 * w) (hs : Splits v l h) (hs' : Splits v' l' h') : Splits (v ^^^ v') (l ^^^ l') (h ^^^ h') := by
  apply splits_of_getLsbD hn
  intro i _
  simp only [BitVec.getLsbD_xor, getLsbD_of_splits hs, getLsbD_of_splits hs']
  split <;> rfl

theorem splits_not (hn : n = 2 * w) (hs : Splits v l h) : Splits (~~~v) (~~~l) (~~~h) := by
  apply splits_of_getLsbD hn
  intro i hi
  simp only [BitVec.getLsbD_not, getLsbD_of_splits hs]
  split
  · next h => simp [h, show i < n by omega]
  · simp [show i < n by omega, show i - w < w by omega]

/-! ## Sums -/

theorem pow_double (hn : n = 2 * w) : 2 ^ n = 2 ^ w * 2 ^ w := by rw [hn, Nat.two_mul, Nat.pow_add]

/-- a number and its two words -/
theorem splits_of_nat (hn : n = 2 * w) {x : Nat} (hv : v.toNat = x % 2 ^ n) (hl : l.toNat = x % 2 ^ w) (hh : h.toNat = x / 2 ^ w % 2 ^ w) :
    Splits v l h := by
  unfold Splits
  rw [hv, hl, hh, pow_double hn, Nat.mod_mul, Nat.mul_comm, Nat.add_comm]

theorem splits_add (hn : n = 2 * w) (hs : Splits v l h) (hs' : Splits v' l' h') :
    Splits (v + v') (l + l') (h + h' + if (l + l').toNat < l.toNat then 1#w else 0#w) := by
  unfold Splits at hs hs'
  have hl := l.isLt
  have hl' := l'.isLt
  refine splits_of_nat hn (x := v.toNat + v'.toNat) (BitVec.toNat_add _ _) ?_ ?_
  · rw [hs, hs', BitVec.toNat_add, show h.toNat * 2 ^ w + l.toNat + (h'.toNat * 2 ^ w + l'.toNat)
        = 2 ^ w * (h.toNat + h'.toNat) + (l.toNat + l'.toNat) by grind, Nat.mul_add_mod]
  · rw [hs, hs', show h.toNat * 2 ^ w + l.toNat + (h'.toNat * 2 ^ w + l'.toNat)
        = (l.toNat + l'.toNat) + 2 ^ w * (h.toNat + h'.toNat) by grind, Nat.add_mul_div_left _ _ (Nat.two_pow_pos w)]
    have h1w : 2 ^ w = 1 ∨ 1 < 2 ^ w := by have := Nat.two_pow_pos w; omega
    rw [BitVec.toNat_add l l']
    by_cases hc : l.toNat + l'.toNat < 2 ^ w
    · rw [Nat.mod_eq_of_lt hc, if_neg (by omega), Nat.div_eq_of_lt hc]
      simp
    · rw [Nat.mod_eq_sub_mod (by omega), Nat.mod_eq_of_lt (by omega), if_pos (by omega),
        show (l.toNat + l'.toNat) / 2 ^ w = 1 by
          rw [Nat.div_eq_iff (by omega)]; omega]
      simp only [BitVec.toNat_add, BitVec.toNat_ofNat]
      rw [Nat.add_comm]
      simp

theorem splits_unique_of (hn : n = 2 * w) (hs : Splits v l h) {l1 h1 : BitVec w} (hs1 : Splits v' l1 h1) (he : v = v') : l = l1 ∧ h = h1 := by
  subst he; exact splits_unique hs hs1

/-- every pair of words is a value -/
theorem splits_exists (hn : n = 2 * w) (l h : BitVec w) : ∃ v : BitVec n, Splits v l h := by
  refine ⟨BitVec.ofNat n (h.toNat * 2 ^ w + l.toNat), ?_⟩
  unfold Splits
  rw [BitVec.toNat_ofNat, Nat.mod_eq_of_lt]
  have hl := l.isLt
  have hh := h.isLt
  rw [pow_double hn]
  have : (h.toNat + 1) * 2 ^ w ≤ 2 ^ w * 2 ^ w := Nat.mul_le_mul_right _ hh
  rw [Nat.add_mul] at this
  omega

theorem splits_sub (hn : n = 2 * w) (hs : Splits v l h) (hs' : Splits v' l' h') :
    Splits (v - v') (l - l') (h - h' - if l.toNat < (l - l').toNat then 1#w else 0#w) := by
  -- the difference plus `v'` is `v`
  obtain ⟨d, hd⟩ := splits_exists hn (l - l') (h - h' - if l.toNat < (l - l').toNat then 1#w else 0#w)
  have h1 := splits_add hn hd hs'
  have h2 : l - l' + l' = l := BitVec.sub_add_cancel _ _
  have h3 : h - h' - (if l.toNat < (l - l').toNat then 1#w else 0#w) + h' + (if (l - l' + l').toNat < (l - l').toNat then 1#w else 0#w) = h := by
    rw [h2]
    grind
  rw [h3, h2] at h1
  have h4 : d + v' = v := by
    apply BitVec.eq_of_toNat_eq
    unfold Splits at h1 hs
    rw [h1, hs]
  have h5 : v - v' = d := by rw [← h4, BitVec.add_sub_cancel]
  rw [h5]
  exact hd

theorem splits_zero (n : Nat) : Splits (0#n) (0#w) (0#w) := by unfold Splits; simp

theorem splits_neg (hn : n = 2 * w) (hs : Splits v l h) : Splits (-v) (-l) (-h - if 0 < (-l).toNat then 1#w else 0#w) := by
  have := splits_sub hn (splits_zero (w := w) n) hs
  simpa using this

/-! ## Shifts -/

theorem splits_shr_small (hn : n = 2 * w) (hs : Splits v l h) {c : Nat} (hc : c < w) :
    Splits (v >>> c) (l >>> c ||| h <<< 1 <<< (w - 1 - c)) (h >>> c) := by
  apply splits_of_getLsbD hn
  intro i hi
  simp only [BitVec.getLsbD_ushiftRight, BitVec.getLsbD_or, BitVec.getLsbD_shiftLeft, getLsbD_of_splits hs]
  by_cases h1 : c + i < w
  · rw [if_pos h1, if_pos (by omega)]
    have : i < w - 1 - c ∨ i - (w - 1 - c) < 1 := by omega
    rcases this with h2 | h2 <;> simp [h2]
  · rw [if_neg h1]
    have hl : l.getLsbD (c + i) = false := BitVec.getLsbD_of_ge _ _ (by omega)
    by_cases h2 : i < w
    · rw [if_pos h2]
      simp [hl, h2, show ¬ i < w - 1 - c by omega, show ¬ i - (w - 1 - c) < 1 by omega, show i - (w - 1 - c) < w by omega,
        show i - (w - 1 - c) - 1 = c + i - w by omega]
    · rw [if_neg h2, show c + (i - w) = c + i - w by omega]

theorem splits_shr_large (hn : n = 2 * w) (hs : Splits v l h) {c : Nat} (hc : w ≤ c) : Splits (v >>> c) (h >>> (c - w)) (0#w) := by
  apply splits_of_getLsbD hn
  intro i hi
  simp only [BitVec.getLsbD_ushiftRight, getLsbD_of_splits hs, BitVec.getLsbD_zero]
  rw [if_neg (by omega)]
  split
  · rw [show c + i - w = c - w + i by omega]
  · exact BitVec.getLsbD_of_ge _ _ (by omega)

theorem getLsbD_sshiftRight' (v : BitVec n) (c i : Nat) :
    (v.sshiftRight c).getLsbD i = if i < n then (if c + i < n then v.getLsbD (c + i) else v.getLsbD (n - 1)) else false := by
  rw [BitVec.getLsbD_sshiftRight]
  by_cases hi : i < n
  · simp only [hi, show ¬ n ≤ i by omega, decide_false, Bool.not_false, Bool.true_and, if_true]
    split
    · rfl
    · rw [BitVec.msb_eq_getLsbD_last]
  · simp [hi, show n ≤ i by omega]

theorem splits_sshr_small (hn : n = 2 * w) (hs : Splits v l h) {c : Nat} (hc : c < w) :
    Splits (v.sshiftRight c) (l >>> c ||| h <<< 1 <<< (w - 1 - c)) (h.sshiftRight c) := by
  apply splits_of_getLsbD hn
  intro i hi
  simp only [BitVec.getLsbD_ushiftRight, BitVec.getLsbD_or, BitVec.getLsbD_shiftLeft, getLsbD_sshiftRight', getLsbD_of_splits hs]
  rw [if_pos (show i < n by omega)]
  by_cases h1 : c + i < w
  · rw [if_pos (show c + i < n by omega), if_pos h1, if_pos (by omega)]
    have : i < w - 1 - c ∨ i - (w - 1 - c) < 1 := by omega
    rcases this with h2 | h2 <;> simp [h2]
  · have hl : l.getLsbD (c + i) = false := BitVec.getLsbD_of_ge _ _ (by omega)
    by_cases h2 : i < w
    · rw [if_pos (show c + i < n by omega), if_neg h1, if_pos h2]
      simp [hl, h2, show ¬ i < w - 1 - c by omega, show ¬ i - (w - 1 - c) < 1 by omega, show i - (w - 1 - c) < w by omega,
        show i - (w - 1 - c) - 1 = c + i - w by omega]
    · rw [if_neg h2, if_pos (show i - w < w by omega)]
      by_cases h3 : c + i < n
      · rw [if_pos h3, if_neg h1, if_pos (by omega), show c + (i - w) = c + i - w by omega]
      · rw [if_neg h3, if_neg (by omega), if_neg (by omega), show n - 1 - w = w - 1 by omega]

theorem splits_sshr_large (hn : n = 2 * w) (hw : 0 < w) (hs : Splits v l h) {c : Nat} (hc : w ≤ c) :
    Splits (v.sshiftRight c) (h.sshiftRight (c - w)) (h.sshiftRight (w - 1)) := by
  apply splits_of_getLsbD hn
  intro i hi
  simp only [getLsbD_sshiftRight', getLsbD_of_splits hs]
  rw [if_pos (show i < n by omega)]
  by_cases h2 : i < w
  · rw [if_pos h2, if_pos h2]
    by_cases h3 : c + i < n
    · rw [if_pos h3, if_neg (by omega), if_pos (by omega), show c + i - w = c - w + i by omega]
    · rw [if_neg h3, if_neg (by omega), if_neg (by omega), show n - 1 - w = w - 1 by omega]
  · rw [if_neg h2, if_neg (by omega), if_neg (by omega), if_pos (by omega), show n - 1 - w = w - 1 by omega]
    split
    · rw [show w - 1 + (i - w) = w - 1 by omega]
    · rfl

theorem splits_shl_small (hn : n = 2 * w) (hs : Splits v l h) {c : Nat} (hc : c < w) :
    Splits (v <<< c) (l <<< c) (h <<< c ||| l >>> 1 >>> (w - 1 - c)) := by
  apply splits_of_getLsbD hn
  intro i hi
  simp only [BitVec.getLsbD_ushiftRight, BitVec.getLsbD_or, BitVec.getLsbD_shiftLeft, getLsbD_of_splits hs]
  simp only [show i < n by omega, decide_true, Bool.true_and]
  by_cases h1 : i < w
  · rw [if_pos h1]
    by_cases h2 : i < c
    · simp [h2]
    · simp [h2, h1, show i - c < w by omega]
  · rw [if_neg h1]
    simp only [show i - w < w by omega, decide_true, Bool.true_and, show ¬ i < c by omega, decide_false, Bool.not_false]
    by_cases h2 : i - c < w
    · rw [if_pos h2, show 1 + (w - 1 - c + (i - w)) = i - c by omega]
      simp [show i - w < c by omega]
    · rw [if_neg h2, BitVec.getLsbD_of_ge l _ (by omega), show i - w - c = i - c - w by omega]
      simp [show ¬ i - w < c by omega]

theorem splits_shl_large (hn : n = 2 * w) (hs : Splits v l h) {c : Nat} (hc : w ≤ c) : Splits (v <<< c) (0#w) (l <<< (c - w)) := by
  apply splits_of_getLsbD hn
  intro i hi
  simp only [BitVec.getLsbD_shiftLeft, getLsbD_of_splits hs, BitVec.getLsbD_zero]
  simp only [show i < n by omega, decide_true, Bool.true_and]
  by_cases h1 : i < w
  · simp [h1, show i < c by omega]
  · rw [if_neg h1]
    by_cases h2 : i < c
    · simp [h2, show i - w < c - w by omega]
    · simp [h2, show ¬ i - w < c - w by omega, show i - w < w by omega, show i - c < w by omega, show i - w - (c - w) = i - c by omega]

/-! ## Numbers -/

theorem toInt_of_splits (hn : n = 2 * w) (hw : 0 < w) (hs : Splits v l h) : v.toInt = h.toInt * 2 ^ w + l.toNat := by
  have hl := l.isLt
  have hh := h.isLt
  have hp := pow_double hn
  have h2 : (2 : Int) ^ n = 2 ^ w * 2 ^ w := by exact_mod_cast hp
  have hW : 2 ^ w = 2 * 2 ^ (w - 1) := by rw [← Nat.pow_succ']; congr 1; omega
  unfold Splits at hs
  rw [BitVec.toInt_eq_toNat_cond, BitVec.toInt_eq_toNat_cond]
  have hc : 2 * v.toNat < 2 ^ n ↔ 2 * h.toNat < 2 ^ w := by
    rw [hs, hp, hW]
    generalize 2 ^ (w - 1) = q at *
    constructor
    · intro hlt
      refine Nat.lt_of_not_le fun hge => ?_
      have : q * (2 * (2 * q)) ≤ h.toNat * (2 * (2 * q)) := Nat.mul_le_mul_right _ (by omega)
      grind
    · intro hlt
      have : (h.toNat + 1) * (2 * (2 * q)) ≤ q * (2 * (2 * q)) := Nat.mul_le_mul_right _ (by omega)
      grind
  by_cases h1 : 2 * h.toNat < 2 ^ w
  · rw [if_pos (hc.2 h1), if_pos h1, hs]; push_cast; rfl
  · rw [if_neg (fun h => h1 (hc.1 h)), if_neg h1, hs, hp]; push_cast; grind

theorem lex_lt {a b W : Int} {x y : Nat} (hx : (x : Int) < W) (hy : (y : Int) < W) : a * W + x < b * W + y ↔ a < b ∨ (a = b ∧ (x : Int) < y) := by
  constructor
  · intro h
    rcases Int.lt_trichotomy a b with h1 | h1 | h1
    · exact Or.inl h1
    · subst h1; exact Or.inr ⟨rfl, by omega⟩
    · have : (b + 1) * W ≤ a * W := Int.mul_le_mul_of_nonneg_right (by omega) (by omega)
      rw [Int.add_mul] at this
      omega
  · rintro (h1 | ⟨rfl, h1⟩)
    · have : (a + 1) * W ≤ b * W := Int.mul_le_mul_of_nonneg_right (by omega) (by omega)
      rw [Int.add_mul] at this
      omega
    · omega

theorem lex_eq {a b W : Int} {x y : Nat} (hx : (x : Int) < W) (hy : (y : Int) < W) : a * W + x = b * W + y ↔ a = b ∧ (x : Int) = y := by
  have h1 := lex_lt (a := a) (b := b) hx hy
  have h2 := lex_lt (a := b) (b := a) hy hx
  constructor
  · intro h
    have h3 : a = b := by
      rcases Int.lt_trichotomy a b with h3 | h3 | h3
      · have := h1.2 (Or.inl h3); omega
      · exact h3
      · have := h2.2 (Or.inl h3); omega
    subst h3
    exact ⟨rfl, by omega⟩
  · rintro ⟨rfl, h⟩; omega

end Verif.Spec
