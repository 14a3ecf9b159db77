import Verif.Lemmas.ConstBits
import Verif.Props.Relation
import Mathlib.Data.Int.ModEq
/-!
# Lemmas on known bits: shifts, conversions, comparisons, and the bit patterns of values
-/
namespace Verif.Model
open Verif.Spec

variable {w : Nat}

/-! ## Masks of shift counts -/

theorem maskOf_getLsbD (v k i : Nat) : (BitInfo.maskOf v (2 ^ k)).getLsbD i = (decide (i < v) && decide (i < k)) := by
  unfold BitInfo.maskOf
  by_cases hi : i < v
  swap
  · rw [BitVec.getLsbD_of_ge _ _ (by omega)]; simp [hi]
  by_cases hk : k < v
  · have h1 : (BitVec.ofNat v (2 ^ k) - 1#v) = BitVec.ofNat v (2 ^ k - 1) := by
      have hp : 0 < 2 ^ k := Nat.two_pow_pos k
      have : 2 ^ k = (2 ^ k - 1) + 1 := by omega
      conv => lhs; rw [this, BitVec.ofNat_add]
      rw [BitVec.add_sub_cancel]
    rw [h1, BitVec.getLsbD_ofNat, Nat.testBit_two_pow_sub_one]
  · have h1 : BitVec.ofNat v (2 ^ k) = 0#v := by
      apply BitVec.eq_of_toNat_eq
      rw [BitVec.toNat_ofNat, BitVec.toNat_zero]
      exact Nat.mod_eq_zero_of_dvd (Nat.pow_dvd_pow 2 (by omega))
    have h2 : 0#v - 1#v = BitVec.allOnes v := by rw [BitVec.zero_sub, BitVec.neg_one_eq_allOnes]
    rw [h1, h2, BitVec.getLsbD_allOnes]
    simp only [hi, decide_true, Bool.true_and]
    symm; rw [decide_eq_true_iff]; omega

theorem maskOf_zero (v : Nat) : BitInfo.maskOf v 0 = BitVec.allOnes v := by
  unfold BitInfo.maskOf
  rw [show BitVec.ofNat v 0 = 0#v from rfl, BitVec.zero_sub, BitVec.neg_one_eq_allOnes]

/-- shift counts are reduced modulo a power of two, or not at all -/
def ModuloOk (M : Nat) : Prop := M = 0 ∨ ∃ b, M = 2 ^ b

/-- the bit `i` of a count matters -/
def Counts (M i : Nat) : Prop := M = 0 ∨ 2 ^ i < M

instance (M i : Nat) : Decidable (Counts M i) := by unfold Counts; infer_instance

theorem maskOf_modulo {M : Nat} (hM : ModuloOk M) (v i : Nat) : (BitInfo.maskOf v M).getLsbD i = (decide (i < v) && decide (Counts M i)) := by
  rcases hM with h | ⟨b, h⟩
  · subst h; rw [maskOf_zero, BitVec.getLsbD_allOnes]; simp [Counts]
  · subst h
    rw [maskOf_getLsbD]
    congr 1
    have h0 : 2 ^ b ≠ 0 := by have := Nat.two_pow_pos b; omega
    have : Counts (2 ^ b) i ↔ i < b := by
      unfold Counts
      constructor
      · rintro (h | h)
        · exact absurd h h0
        · exact (Nat.pow_lt_pow_iff_right (by omega)).1 h
      · intro h; exact Or.inr ((Nat.pow_lt_pow_iff_right (by omega)).2 h)
    simp [this]

theorem amt_testBit {M : Nat} (hM : ModuloOk M) (s i : Nat) : (BitInfo.amt M s).testBit i = (decide (Counts M i) && s.testBit i) := by
  unfold BitInfo.amt
  rcases hM with h | ⟨b, h⟩
  · subst h; simp [Counts]
  · subst h
    have h0 : 2 ^ b ≠ 0 := by have := Nat.two_pow_pos b; omega
    rw [if_neg h0, Nat.testBit_mod_two_pow]
    have : Counts (2 ^ b) i ↔ i < b := by
      unfold Counts
      constructor
      · rintro (h | h)
        · exact absurd h h0
        · exact (Nat.pow_lt_pow_iff_right (by omega)).1 h
      · intro h; exact Or.inr ((Nat.pow_lt_pow_iff_right (by omega)).2 h)
    simp [this]

/-- number of bits of the amounts the loop runs through -/
theorem rMask_spec {a M v : Nat} (hM : ModuloOk M) (ha : a < v) :
    ∃ c, c ≤ a ∧ (BitInfo.rMask v (2 ^ a) M + 1#v).toNat = 2 ^ c ∧ ∀ i, i < c ↔ i < a ∧ Counts M i := by
  obtain ⟨c, hc, hcc⟩ : ∃ c, c ≤ a ∧ ∀ i, i < c ↔ i < a ∧ Counts M i := by
    rcases hM with h | ⟨b, h⟩
    · exact ⟨a, Nat.le_refl _, by intro i; simp [Counts, h]⟩
    · refine ⟨min a b, Nat.min_le_left _ _, ?_⟩
      intro i
      have h0 : 2 ^ b ≠ 0 := by have := Nat.two_pow_pos b; omega
      have : Counts M i ↔ i < b := by
        rw [h]; unfold Counts
        constructor
        · rintro (h | h)
          · exact absurd h h0
          · exact (Nat.pow_lt_pow_iff_right (by omega)).1 h
        · intro h; exact Or.inr ((Nat.pow_lt_pow_iff_right (by omega)).2 h)
      rw [this]; omega
  refine ⟨c, hc, ?_, hcc⟩
  have h1 : BitInfo.rMask v (2 ^ a) M = BitInfo.maskOf v (2 ^ c) := by
    apply getLsbD_ext
    intro i hi
    unfold BitInfo.rMask
    rw [BitVec.getLsbD_and, maskOf_getLsbD, maskOf_modulo hM, maskOf_getLsbD]
    have := hcc i
    by_cases h1 : i < a <;> by_cases h2 : Counts M i <;> simp_all
  rw [h1]
  unfold BitInfo.maskOf
  rw [BitVec.sub_add_cancel, BitVec.toNat_ofNat, Nat.mod_eq_of_lt (Nat.pow_lt_pow_right (by omega) (by omega))]

theorem foldl_shift_z {v : Nat} {sh : BitVec w → Nat → BitVec w} {M : Nat} {l : BitInfo w} {r : BitInfo v} {x : BitVec w} :
    ∀ (ss : List Nat) (acc : BitInfo w), acc.Desc x → (ss.foldl (BitInfo.shiftStep sh M l r) acc).Desc x := by
  intro ss
  induction ss with
  | nil => intro acc h; exact h
  | cons s ss ih =>
    intro acc h
    rw [List.foldl_cons]
    apply ih
    unfold BitInfo.shiftStep
    split
    · exact join_left h
    · exact h

theorem foldl_shift_mem {v : Nat} {sh : BitVec w → Nat → BitVec w} {M : Nat} {l : BitInfo w} {r : BitInfo v} {x : BitVec w} {s : Nat}
    (hp : BitInfo.amountPossible w M r (BitVec.ofNat v s) = true)
    (hd : Describes (sh l.z (BitInfo.amt M s)) (sh l.o (BitInfo.amt M s)) x) :
    ∀ (ss : List Nat) (acc : BitInfo w), s ∈ ss → (ss.foldl (BitInfo.shiftStep sh M l r) acc).Desc x := by
  intro ss
  induction ss with
  | nil => intro acc h; exact absurd h (by simp)
  | cons t ss ih =>
    intro acc h
    rw [List.foldl_cons]
    rcases List.mem_cons.1 h with h | h
    · apply foldl_shift_z
      unfold BitInfo.shiftStep
      rw [← h, if_pos hp]
      exact join_right hd
    · exact ih _ h

theorem foldl_shift_o {v : Nat} {sh : BitVec w → Nat → BitVec w} {M : Nat} {l : BitInfo w} {r : BitInfo v} :
    ∀ (ss : List Nat) (acc : BitInfo w), acc.o = 0#w → (ss.foldl (BitInfo.shiftStep sh M l r) acc).o = 0#w := by
  intro ss
  induction ss with
  | nil => intro acc h; exact h
  | cons t ss ih =>
    intro acc h
    rw [List.foldl_cons]
    apply ih
    unfold BitInfo.shiftStep
    split
    · simp [BitInfo.join, h]
    · exact h

theorem shift_sound {v a M : Nat} (hw : w = 2 ^ a) (ha : a < v) (hM : ModuloOk M) {sh : BitVec w → Nat → BitVec w}
    (hsh : ∀ {z o x : BitVec w}, Describes z o x → ∀ s, Describes (sh z s) (sh o s) (sh x s))
    {l : BitInfo w} {r : BitInfo v} {x : BitVec w} {y : BitVec v} (hl : l.Desc x) (hr : r.Desc y)
    (hbig : w ≤ BitInfo.amt M y.toNat → sh x (BitInfo.amt M y.toNat) = 0#w) :
    (BitInfo.shift sh M l r).Desc (sh x (BitInfo.amt M y.toNat)) := by
  unfold BitInfo.shift
  by_cases hk : r.z = r.o
  · rw [if_pos hk]
    have hy : y = r.z := describes_eq (by rw [BitInfo.Desc, ← hk] at hr; exact hr)
    rw [hy]
    exact hsh hl _
  rw [if_neg hk]
  have hover : ∀ i, (BitInfo.oversizeMask v w M).getLsbD i = (decide (i < v) && (decide (Counts M i) && decide (a ≤ i))) := by
    intro i
    unfold BitInfo.oversizeMask BitInfo.andnot
    rw [BitVec.getLsbD_and, BitVec.getLsbD_not, maskOf_modulo hM, hw, maskOf_getLsbD]
    by_cases h1 : i < v <;> by_cases h2 : Counts M i <;> by_cases h3 : i < a <;> simp [h1, h2, h3, Nat.not_lt]
    · omega
  have hbit : ∀ i, (BitInfo.amt M y.toNat).testBit i = (decide (Counts M i) && y.getLsbD i) := fun i => amt_testBit hM _ i
  by_cases hA : w ≤ BitInfo.amt M y.toNat
  · rw [hbig hA]
    -- an oversize bit of the count is set
    obtain ⟨i, hi, hib⟩ : ∃ i, a ≤ i ∧ (BitInfo.amt M y.toNat).testBit i = true := by
      rw [hw] at hA
      obtain ⟨i, h1, h2⟩ := Nat.exists_ge_and_testBit_of_ge_two_pow hA
      exact ⟨i, h1, h2⟩
    rw [hbit, Bool.and_eq_true] at hib
    have hiv : i < v := by
      by_contra h
      rw [BitVec.getLsbD_of_ge _ _ (by omega)] at hib
      exact absurd hib.2 (by decide)
    have hz : r.z &&& BitInfo.oversizeMask v w M ≠ 0#v := by
      intro h
      have := congrArg (fun u => BitVec.getLsbD u i) h
      simp only [BitVec.getLsbD_and, hover, hiv, decide_true, hib.1, hi, Bool.and_true, (hr i hiv).1 hib.2, BitVec.getLsbD_zero] at this
      exact absurd this (by decide)
    have ho : (BitInfo.shiftUnsure sh M l r).o = 0#w := by
      unfold BitInfo.shiftUnsure
      rw [if_neg hz]
      split
      · exact foldl_shift_o _ _ rfl
      · rfl
    intro i hi
    rw [ho]; simp
  · -- the count is one of the amounts of the loop
    have hov : ∀ i < v, Counts M i → a ≤ i → y.getLsbD i = false := by
      intro i hi hc hai
      by_contra h
      have h1 : (BitInfo.amt M y.toNat).testBit i = true := by rw [hbit]; simpa [hc] using h
      have := Nat.ge_two_pow_of_testBit h1
      have h2 : 2 ^ a ≤ 2 ^ i := Nat.pow_le_pow_right (by omega) hai
      omega
    have ho : r.o &&& BitInfo.oversizeMask v w M = 0#v := by
      apply getLsbD_ext
      intro i hi
      rw [BitVec.getLsbD_and, hover]
      by_cases h2 : Counts M i <;> by_cases h3 : a ≤ i
      · have := hov i hi h2 h3
        have h4 := (hr i hi).2
        rw [this] at h4
        cases h : r.o.getLsbD i
        · simp
        · exact absurd (h4 h) (by decide)
      all_goals simp [h2, h3]
    unfold BitInfo.shiftUnsure
    rw [if_pos ho]
    obtain ⟨c, hca, hb, hcc⟩ := rMask_spec (v := v) hM ha
    rw [← hw] at hb
    have hAc : BitInfo.amt M y.toNat < 2 ^ c := by
      apply Nat.lt_pow_two_of_testBit
      intro i hi
      rw [hbit]
      by_cases hc : Counts M i
      · have hai : a ≤ i := by
          by_contra h
          exact absurd ((hcc i).2 ⟨by omega, hc⟩) (by omega)
        by_cases hiv : i < v
        · rw [hov i hiv hc hai]; simp
        · rw [BitVec.getLsbD_of_ge _ _ (by omega)]; simp
      · simp [hc]
    have hAA : BitInfo.amt M (BitInfo.amt M y.toNat) = BitInfo.amt M y.toNat := by
      unfold BitInfo.amt
      split
      · rfl
      · exact Nat.mod_mod _ _
    have hAv : BitInfo.amt M y.toNat < 2 ^ v := Nat.lt_of_lt_of_le hAc (Nat.pow_le_pow_right (by omega) (by omega))
    apply foldl_shift_mem (s := BitInfo.amt M y.toNat)
    · unfold BitInfo.amountPossible
      rw [beq_iff_eq]
      apply getLsbD_ext
      intro i hi
      rw [BitVec.getLsbD_and, BitVec.getLsbD_and, BitVec.getLsbD_not, BitVec.getLsbD_xor, BitVec.getLsbD_xor, BitVec.getLsbD_ofNat, hbit]
      unfold BitInfo.rMask
      rw [BitVec.getLsbD_and, maskOf_modulo hM, BitVec.getLsbD_zero]
      by_cases hc : Counts M i
      · have := hr i hi
        simp only [hi, decide_true, hc, Bool.true_and, Bool.and_true]
        generalize r.z.getLsbD i = p, r.o.getLsbD i = q, y.getLsbD i = s, (BitInfo.maskOf v w).getLsbD i = t at *
        revert this; revert p q s t; decide
      · simp [hc]
    · rw [hAA]; exact hsh hl _
    · rw [List.mem_range, hb]; exact hAc

/-! ## Bit patterns of values -/

theorem bv_of_emod {m : IMode} {x y : Int} (h : x % 2 ^ m.bits = y % 2 ^ m.bits) : m.bv x = m.bv y := by
  unfold IMode.bv
  apply BitVec.eq_of_toNat_eq
  rw [BitVec.toNat_ofInt, BitVec.toNat_ofInt]
  rw [two_pow_cast] at h
  rw [h]

theorem bv_wrap (m : IMode) (x : Int) : m.bv (m.wrap x) = m.bv x := bv_of_emod (wrap_emod _ _ _)

theorem bv_toNat (m : IMode) (x : Int) : (m.bv x).toNat = m.pattern x := by
  unfold IMode.bv IMode.pattern
  rw [BitVec.toNat_ofInt, two_pow_cast]

theorem bv_natCast (m : IMode) (n : Nat) : m.bv (n : Int) = BitVec.ofNat m.bits n := by
  unfold IMode.bv; exact BitVec.ofInt_natCast _ _

theorem bv_num {m : IMode} (hb : 0 < m.bits) {x : Int} (hx : m.In x) : BitInfo.num m.signed (m.bv x) = x := by
  have h := wrap_of_inRange hb hx
  unfold BitInfo.num IMode.bv
  unfold wrap at h
  cases hs : m.signed
  · rw [hs] at h
    simp only [Bool.false_eq_true, if_false] at h ⊢
    rw [BitVec.toNat_ofInt, ← two_pow_cast, h]
    have h2 : InRange false m.bits x := by rw [← hs]; exact hx
    unfold InRange at h2
    simp only [Bool.false_eq_true, if_false] at h2
    omega
  · rw [hs] at h
    simp only [if_true] at h ⊢
    rw [BitVec.toInt_ofInt]; exact h

theorem bv_add (m : IMode) (x y : Int) : m.bv (irAdd m x y) = m.bv x + m.bv y := by
  unfold irAdd; rw [bv_wrap]; exact BitVec.ofInt_add _ _

theorem bv_neg (m : IMode) (x : Int) : m.bv (irNeg m x) = -m.bv x := by
  unfold irNeg; rw [bv_wrap]; exact BitVec.ofInt_neg

theorem bv_sub (m : IMode) (x y : Int) : m.bv (irSub m x y) = m.bv x - m.bv y := by
  unfold irSub; rw [bv_wrap, Int.sub_eq_add_neg, BitVec.sub_eq_add_neg]
  unfold IMode.bv
  rw [BitVec.ofInt_add, BitVec.ofInt_neg]

theorem bv_mul (m : IMode) (x y : Int) : m.bv (irMul m x y) = m.bv x * m.bv y := by
  unfold irMul; rw [bv_wrap]; exact BitVec.ofInt_mul _ _

theorem bv_not (m : IMode) (x : Int) : m.bv (irNot m x) = ~~~m.bv x := by
  unfold irNot; rw [bv_wrap, BitVec.not_eq_neg_add, Int.sub_eq_add_neg]
  unfold IMode.bv
  rw [BitVec.ofInt_add, BitVec.ofInt_neg, BitVec.sub_eq_add_neg]
  congr 1
  rw [BitVec.ofInt_neg]; rfl

theorem bv_and (m : IMode) (x y : Int) : m.bv (irAnd m x y) = m.bv x &&& m.bv y := by
  unfold irAnd; rw [bv_wrap, bv_natCast]
  apply BitVec.eq_of_toNat_eq
  rw [BitVec.toNat_and, bv_toNat, bv_toNat, BitVec.toNat_ofNat, Nat.mod_eq_of_lt]
  rw [← bv_toNat, ← bv_toNat, ← BitVec.toNat_and]; exact BitVec.isLt _

theorem bv_or (m : IMode) (x y : Int) : m.bv (irOr m x y) = m.bv x ||| m.bv y := by
  unfold irOr; rw [bv_wrap, bv_natCast]
  apply BitVec.eq_of_toNat_eq
  rw [BitVec.toNat_or, bv_toNat, bv_toNat, BitVec.toNat_ofNat, Nat.mod_eq_of_lt]
  rw [← bv_toNat, ← bv_toNat, ← BitVec.toNat_or]; exact BitVec.isLt _

theorem bv_eor (m : IMode) (x y : Int) : m.bv (irEor m x y) = m.bv x ^^^ m.bv y := by
  unfold irEor; rw [bv_wrap, bv_natCast]
  apply BitVec.eq_of_toNat_eq
  rw [BitVec.toNat_xor, bv_toNat, bv_toNat, BitVec.toNat_ofNat, Nat.mod_eq_of_lt]
  rw [← bv_toNat, ← bv_toNat, ← BitVec.toNat_xor]; exact BitVec.isLt _

theorem bv_shl (m : IMode) (x : Int) (s : Nat) : m.bv (irShl m x s) = m.bv x <<< BitInfo.amt m.modulo s := by
  unfold irShl
  rw [bv_wrap]
  apply BitVec.eq_of_toNat_eq
  rw [BitVec.toNat_shiftLeft, bv_toNat, bv_toNat, Nat.shiftLeft_eq]
  unfold IMode.pattern
  show _ = (x % 2 ^ m.bits).toNat * 2 ^ m.amt s % 2 ^ m.bits
  have h0 : (0:Int) < ((2 ^ m.bits : Nat) : Int) := by exact_mod_cast Nat.two_pow_pos _
  rw [two_pow_cast, two_pow_cast]
  apply Int.ofNat.inj
  show ((_ : Nat) : Int) = ((_ : Nat) : Int)
  push_cast
  rw [Int.toNat_of_nonneg (Int.emod_nonneg _ (by positivity)), Int.toNat_of_nonneg (Int.emod_nonneg _ (by positivity))]
  exact (Int.mod_modEq x _).symm.mul_right _

theorem bv_shr (m : IMode) (x : Int) (s : Nat) : m.bv (irShr m x s) = m.bv x >>> BitInfo.amt m.modulo s := by
  unfold irShr
  rw [bv_wrap]
  apply BitVec.eq_of_toNat_eq
  rw [BitVec.toNat_ushiftRight, bv_toNat m x, Nat.shiftRight_eq_div_pow]
  have h0 : x % 2 ^ m.bits = ((m.pattern x : Nat) : Int) := by
    unfold IMode.pattern
    rw [Int.toNat_of_nonneg (Int.emod_nonneg _ (by positivity))]
  rw [h0]
  show _ = m.pattern x / 2 ^ m.amt s
  rw [two_pow_cast, ← Int.natCast_ediv, bv_natCast, BitVec.toNat_ofNat, Nat.mod_eq_of_lt]
  refine Nat.lt_of_le_of_lt (Nat.div_le_self _ _) ?_
  rw [← bv_toNat]; exact BitVec.isLt _

theorem bv_shrs (m : IMode) (x : Int) (s : Nat) : m.bv (irShrs m x s) = (m.bv x).sshiftRight (BitInfo.amt m.modulo s) := by
  unfold irShrs
  rw [bv_wrap]
  have h : Spec.wrap true m.bits x = (m.bv x).toInt := by
    unfold IMode.bv Spec.wrap
    rw [BitVec.toInt_ofInt]; rfl
  rw [h]
  apply BitVec.eq_of_toInt_eq
  rw [BitVec.toInt_sshiftRight, Int.shiftRight_eq_div_pow]
  show (BitVec.ofInt m.bits _).toInt = _
  have e : ((m.bv x).toInt / 2 ^ m.amt s) = ((m.bv x).sshiftRight (m.amt s)).toInt := by
    rw [BitVec.toInt_sshiftRight, Int.shiftRight_eq_div_pow]; norm_cast
  rw [e, BitVec.ofInt_toInt, BitVec.toInt_sshiftRight, Int.shiftRight_eq_div_pow]
  rfl

/-! ## Conversions -/

theorem num_ofInt_emod (signed : Bool) (x : BitVec w) : BitInfo.num signed x % 2 ^ w = (x.toNat : Int) := by
  unfold BitInfo.num
  cases signed
  · simp only [Bool.false_eq_true, if_false]
    rw [two_pow_cast]; norm_cast; exact Nat.mod_eq_of_lt x.isLt
  · simp only [if_true]
    rw [BitVec.toInt_eq_toNat_bmod, two_pow_cast, Int.bmod_emod]
    norm_cast; exact Nat.mod_eq_of_lt x.isLt

theorem convertTo_getLsbD (signed : Bool) (w' : Nat) (x : BitVec w) {i : Nat} (hi : i < w') :
    (BitInfo.convertTo signed w' x).getLsbD i = if i < w then x.getLsbD i else (signed && x.msb) := by
  unfold BitInfo.convertTo BitInfo.num
  cases signed
  · simp only [Bool.false_eq_true, if_false, Bool.false_and, BitVec.ofInt_natCast, BitVec.getLsbD_ofNat, hi, decide_true, Bool.true_and]
    split
    · rfl
    · exact BitVec.getLsbD_of_ge x i (by omega)
  · simp only [if_true, Bool.true_and]
    have : BitVec.ofInt w' x.toInt = x.signExtend w' := rfl
    rw [this, BitVec.getLsbD_signExtend]
    simp [hi]

theorem conv_sound (signed : Bool) (w' : Nat) (hw : 0 < w) {b : BitInfo w} {x : BitVec w} (h : b.Desc x) :
    (b.conv signed w').Desc (BitInfo.convertTo signed w' x) := by
  intro i hi
  simp only [BitInfo.conv, convertTo_getLsbD signed w' _ hi]
  by_cases hiw : i < w
  · simp only [hiw, if_true]; exact h i hiw
  · simp only [hiw, if_false, Bool.and_eq_true]
    have := h (w - 1) (by omega)
    simp only [BitVec.msb_eq_getLsbD_last]
    exact ⟨fun hx => ⟨hx.1, this.1 hx.2⟩, fun hx => ⟨hx.1, this.2 hx.2⟩⟩

/-! ## Comparisons -/

theorem bitDiffers_sound {l r : BitInfo w} {x y : BitVec w} (hl : l.Desc x) (hr : r.Desc y) (h : BitInfo.bitDiffers l r = true) : x ≠ y := by
  intro hxy
  subst hxy
  unfold BitInfo.bitDiffers BitInfo.andnot at h
  have h1 : r.o &&& ~~~l.z = 0#w := by
    apply getLsbD_ext
    intro i hi
    have := hl i hi
    have := hr i hi
    simp only [BitVec.getLsbD_and, BitVec.getLsbD_not, hi, decide_true, Bool.true_and, BitVec.getLsbD_zero]
    cases a : x.getLsbD i <;> cases b : l.z.getLsbD i <;> cases c : r.o.getLsbD i <;> simp_all
  have h2 : l.o &&& ~~~r.z = 0#w := by
    apply getLsbD_ext
    intro i hi
    have := hl i hi
    have := hr i hi
    simp only [BitVec.getLsbD_and, BitVec.getLsbD_not, hi, decide_true, Bool.true_and, BitVec.getLsbD_zero]
    cases a : x.getLsbD i <;> cases b : r.z.getLsbD i <;> cases c : l.o.getLsbD i <;> simp_all
  rw [h1, h2] at h
  simp at h

theorem bothEqual_sound {l r : BitInfo w} {x y : BitVec w} (hl : l.Desc x) (hr : r.Desc y) (h : BitInfo.bothEqual l r = true) : x = y := by
  unfold BitInfo.bothEqual at h
  simp only [Bool.and_eq_true, beq_iff_eq] at h
  obtain ⟨⟨h1, h2⟩, h3⟩ := h
  have hx := describes_eq (z := l.z) (v := x) (by rw [BitInfo.Desc, ← h1] at hl; exact hl)
  have hy := describes_eq (z := r.z) (v := y) (by rw [BitInfo.Desc, ← h2] at hr; exact hr)
  rw [hx, hy, h3]

/-- if both bounds are non-negative, they bound the number -/
theorem num_bounds {signed : Bool} {b : BitInfo w} {x : BitVec w} (hw : 0 < w) (h : b.Desc x) (hz : 0 ≤ BitInfo.num signed b.z) :
    BitInfo.num signed b.o ≤ BitInfo.num signed x ∧ BitInfo.num signed x ≤ BitInfo.num signed b.z := by
  have h1 := toNat_le (fun i hi => (h i hi).1)
  have h2 := toNat_le (fun i hi => (h i hi).2)
  unfold BitInfo.num at hz ⊢
  cases signed
  · simp only [Bool.false_eq_true, if_false]; omega
  · simp only [if_true] at hz ⊢
    have hm : b.z.msb = false := by
      rw [← Bool.not_eq_true, BitVec.msb_eq_toInt]; simp; omega
    have hxm : x.msb = false := by
      have := (h (w - 1) (by omega)).1
      rw [BitVec.msb_eq_getLsbD_last] at hm ⊢
      cases hx : x.getLsbD (w - 1)
      · rfl
      · rw [this hx] at hm; exact absurd hm (by decide)
    have hom : b.o.msb = false := by
      have := (h (w - 1) (by omega)).2
      rw [BitVec.msb_eq_getLsbD_last] at hxm ⊢
      cases hx : b.o.getLsbD (w - 1)
      · rfl
      · rw [this hx] at hxm; exact absurd hxm (by decide)
    rw [BitVec.toInt_eq_toNat_of_msb hm, BitVec.toInt_eq_toNat_of_msb hxm, BitVec.toInt_eq_toNat_of_msb hom]
    omega

end Verif.Model
