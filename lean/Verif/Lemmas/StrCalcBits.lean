import Verif.Lemmas.Bits
import Verif.Lemmas.StrCalcArith
/-! Helper lemmas: bit-level kernels of strcalc. -/
namespace Verif.Model
open Verif.Spec

/-! ### reading bits of lists -/
theorem getD_of_ge {l : List Nat} {i : Nat} (h : l.length ≤ i) : l.getD i 0 = 0 := by
  rw [List.getD_eq_getElem?_getD, List.getElem?_eq_none h]; rfl

theorem getD_mapIdx (l : List Nat) (f : Nat → Nat → Nat) (i : Nat) :
    (l.mapIdx f).getD i 0 = if i < l.length then f i (l.getD i 0) else 0 := by
  by_cases h : i < l.length
  · rw [if_pos h, List.getD_eq_getElem?_getD, List.getD_eq_getElem?_getD, List.getElem?_mapIdx,
      List.getElem?_eq_getElem h]; rfl
  · rw [if_neg h, getD_of_ge (by rw [List.length_mapIdx]; omega)]

theorem getD_zipWith {a b : List Nat} (f : Nat → Nat → Nat) (hl : a.length = b.length) (i : Nat) :
    (List.zipWith f a b).getD i 0 = if i < a.length then f (a.getD i 0) (b.getD i 0) else 0 := by
  by_cases h : i < a.length
  · rw [if_pos h, List.getD_eq_getElem?_getD, List.getD_eq_getElem?_getD, List.getD_eq_getElem?_getD,
      List.getElem?_zipWith, List.getElem?_eq_getElem h, List.getElem?_eq_getElem (by omega)]; rfl
  · rw [if_neg h, getD_of_ge (by rw [List.length_zipWith]; omega)]

theorem getD_map (l : List Nat) (f : Nat → Nat) (i : Nat) :
    (l.map f).getD i 0 = if i < l.length then f (l.getD i 0) else 0 := by
  by_cases h : i < l.length
  · rw [if_pos h, List.getD_eq_getElem?_getD, List.getD_eq_getElem?_getD, List.getElem?_map,
      List.getElem?_eq_getElem h]; rfl
  · rw [if_neg h, getD_of_ge (by rw [List.length_map]; omega)]

theorem getD_range_map (n : Nat) (f : Nat → Nat) (i : Nat) :
    ((List.range n).map f).getD i 0 = if i < n then f i else 0 := by
  by_cases h : i < n
  · rw [if_pos h, List.getD_eq_getElem?_getD, List.getElem?_map, List.getElem?_range h]; rfl
  · rw [if_neg h, getD_of_ge (by simp; omega)]

theorem bytes_of_getD {l : List Nat} (h : ∀ i, i < l.length → l.getD i 0 < 256) : Bytes l := by
  intro b hb
  obtain ⟨i, hi, rfl⟩ := List.getElem_of_mem hb
  have := h i hi
  rwa [List.getD_eq_getElem?_getD, List.getElem?_eq_getElem hi] at this

theorem list_ext_getD {a b : List Nat} (hl : a.length = b.length)
    (h : ∀ i, i < a.length → a.getD i 0 = b.getD i 0) : a = b := by
  apply List.ext_getElem hl
  intro i h1 h2
  have := h i h1
  rwa [List.getD_eq_getElem?_getD, List.getD_eq_getElem?_getD, List.getElem?_eq_getElem h1,
    List.getElem?_eq_getElem h2] at this

theorem testBit_byte_ge {b i : Nat} (hb : b < 256) (hi : 8 ≤ i) : b.testBit i = false :=
  Nat.testBit_lt_two_pow (lt_of_lt_of_le hb (by
    calc 256 = 2 ^ 8 := rfl
      _ ≤ 2 ^ i := Nat.pow_le_pow_right (by decide) hi))

theorem testBit_value_ge {l : List Nat} (h : Bytes l) {i : Nat} (hi : 8 * l.length ≤ i) :
    (value l).testBit i = false := by
  rw [testBit_value h, getD_of_ge (by omega), Nat.zero_testBit]

/-! ### digits -/
theorem byte_lt (x y : Nat) (hx : x < 256) (hy : y < 256) : x ||| y < 256 :=
  Nat.or_lt_two_pow (n := 8) hx hy

theorem maxDigit_testBit {x i : Nat} (hx : x < 8) : (maxDigit x).testBit i = decide (i < x) := by
  unfold maxDigit
  rw [Nat.one_shiftLeft, Nat.mod_eq_of_lt, Nat.testBit_two_pow_sub_one]
  have : 2 ^ x ≤ 2 ^ 7 := Nat.pow_le_pow_right (by decide) (by omega)
  omega

theorem maxDigit_lt (x : Nat) : maxDigit x < 256 := Nat.mod_lt _ (by decide)

theorem maxDigit_eq {x : Nat} (hx : x < 8) : maxDigit x = 2 ^ x - 1 := by
  unfold maxDigit
  rw [Nat.one_shiftLeft, Nat.mod_eq_of_lt]
  have : 2 ^ x ≤ 2 ^ 7 := Nat.pow_le_pow_right (by decide) (by omega)
  omega

theorem sexDigit_lt (x : Nat) : sexDigit x < 256 :=
  lt_of_le_of_lt Nat.and_le_right (by decide)

theorem sexDigit_testBit {x i : Nat} : (sexDigit x).testBit i = (decide (x < i) && decide (i < 8)) := by
  unfold sexDigit
  rw [Nat.testBit_and, Nat.testBit_shiftLeft, show (255:Nat) = 2 ^ 8 - 1 from rfl,
    Nat.testBit_two_pow_sub_one, Nat.testBit_two_pow_sub_one]
  by_cases h1 : x < i <;> by_cases h2 : i < 8 <;> simp [h1, h2, Nat.succ_le_iff] <;> omega

theorem minDigit_lt (x : Nat) : minDigit x < 256 := by unfold minDigit; omega

theorem minDigit_testBit {x i : Nat} (hx : x < 8) : (minDigit x).testBit i = (decide (x ≤ i) && decide (i < 8)) := by
  unfold minDigit
  have e : 255 - maxDigit x = 2 ^ 8 - (maxDigit x + 1) := by omega
  rw [e, Nat.testBit_two_pow_sub_succ (maxDigit_lt x), maxDigit_testBit hx]
  by_cases h1 : i < 8 <;> by_cases h2 : i < x <;> simp [h1, h2] <;> omega

theorem testBit_255 (i : Nat) : (255 : Nat).testBit i = decide (i < 8) := by
  rw [show (255:Nat) = 2 ^ 8 - 1 from rfl, Nat.testBit_two_pow_sub_one]

/-! ### bitwise kernels -/
theorem scAnd_length {a b : List Nat} (hl : a.length = b.length) : (scAnd a b).length = a.length := by
  simp [scAnd, hl]
theorem scOr_length {a b : List Nat} (hl : a.length = b.length) : (scOr a b).length = a.length := by
  simp [scOr, hl]
theorem scXor_length {a b : List Nat} (hl : a.length = b.length) : (scXor a b).length = a.length := by
  simp [scXor, hl]
theorem scAndNot_length {a b : List Nat} (hl : a.length = b.length) : (scAndNot a b).length = a.length := by
  simp [scAndNot, hl]
theorem scOrNot_length {a b : List Nat} (hl : a.length = b.length) : (scOrNot a b).length = a.length := by
  simp [scOrNot, hl]

theorem zipWith_bytes {a b : List Nat} (f : Nat → Nat → Nat) (hl : a.length = b.length)
    (ha : Bytes a) (hb : Bytes b) (hf : ∀ x y, x < 256 → y < 256 → f x y < 256) :
    Bytes (List.zipWith f a b) := by
  apply bytes_of_getD
  intro i hi
  rw [getD_zipWith f hl]
  split
  · exact hf _ _ (ha.getD i) (hb.getD i)
  · decide

theorem and_lt256 (x y : Nat) (hx : x < 256) : x &&& y < 256 := lt_of_le_of_lt Nat.and_le_left hx
theorem xor_lt256 (x y : Nat) (hx : x < 256) (hy : y < 256) : x ^^^ y < 256 := Nat.xor_lt_two_pow (n := 8) hx hy

theorem scAnd_bytes {a b : List Nat} (hl : a.length = b.length) (ha : Bytes a) (hb : Bytes b) : Bytes (scAnd a b) :=
  zipWith_bytes _ hl ha hb fun x y hx _ => and_lt256 x y hx
theorem scOr_bytes {a b : List Nat} (hl : a.length = b.length) (ha : Bytes a) (hb : Bytes b) : Bytes (scOr a b) :=
  zipWith_bytes _ hl ha hb fun x y hx hy => byte_lt x y hx hy
theorem scXor_bytes {a b : List Nat} (hl : a.length = b.length) (ha : Bytes a) (hb : Bytes b) : Bytes (scXor a b) :=
  zipWith_bytes _ hl ha hb fun x y hx hy => xor_lt256 x y hx hy
theorem scAndNot_bytes {a b : List Nat} (hl : a.length = b.length) (ha : Bytes a) (hb : Bytes b) : Bytes (scAndNot a b) :=
  zipWith_bytes _ hl ha hb fun x y hx _ => and_lt256 x _ hx
theorem scOrNot_bytes {a b : List Nat} (hl : a.length = b.length) (ha : Bytes a) (hb : Bytes b) : Bytes (scOrNot a b) :=
  zipWith_bytes _ hl ha hb fun x y hx hy => byte_lt x _ hx (xor_lt256 255 y (by decide) hy)

theorem zipWith_testBit {a b : List Nat} (f : Nat → Nat → Nat) (g : Bool → Bool → Bool) (hl : a.length = b.length)
    (ha : Bytes a) (hb : Bytes b) (hf : ∀ x y, x < 256 → y < 256 → f x y < 256)
    (hfg : ∀ x y i, x < 256 → y < 256 → i < 8 → (f x y).testBit i = g (x.testBit i) (y.testBit i))
    {i : Nat} (hi : i < 8 * a.length) :
    (value (List.zipWith f a b)).testBit i = g ((value a).testBit i) ((value b).testBit i) := by
  rw [testBit_value (zipWith_bytes f hl ha hb hf), testBit_value ha, testBit_value hb, getD_zipWith f hl,
    if_pos (by omega), hfg _ _ _ (ha.getD _) (hb.getD _) (by omega)]

/-! ### bits of the signed reading -/
theorem ibit_svalue {l : List Nat} (h : Bytes l) (hn : 0 < l.length) (i : Nat) :
    ibit (svalue l) i = if i < 8 * l.length then (value l).testBit i else scIsNegative l := by
  split
  · next hi =>
    rw [← ibit_natCast]
    apply ibit_congr hi
    have := svalue_emod l
    rw [pow256] at this
    rw [two_pow_cast]; exact this
  · next hi =>
    have hb := svalue_bounds hn
    have hp : (2:Int) ^ (8 * l.length - 1) ≤ 2 ^ i := pow_le_pow_right₀ (by decide) (by omega)
    rw [two_pow_cast] at hp
    by_cases hneg : scIsNegative l = true
    · rw [hneg, ibit_ge_neg ((scIsNegative_iff h hn).1 hneg) (by omega)]
    · have h0 := hneg
      rw [scIsNegative_iff h hn] at h0
      rw [ibit_ge_nonneg (by omega) (by omega)]
      simpa using hneg

theorem value_eq_svalue_emod {l : List Nat} (h : Bytes l) : (value l : Int) = svalue l % 2 ^ (8 * l.length) := by
  have := svalue_emod l
  have hlt := value_lt h
  rw [pow256] at this hlt
  rw [two_pow_cast, this, Int.emod_eq_of_lt (by omega) (by omega)]

/-! ### extension -/
theorem scZeroExtend_length (v : List Nat) (k : Nat) : (scZeroExtend v k).length = v.length := by
  simp [scZeroExtend]

theorem scZeroExtend_bytes {v : List Nat} (h : Bytes v) (k : Nat) : Bytes (scZeroExtend v k) := by
  apply bytes_of_getD
  intro i hi
  unfold scZeroExtend
  simp only []
  rw [getD_mapIdx]
  have := h.getD i
  split
  · split
    · exact this
    · split
      · exact and_lt256 _ _ this
      · decide
  · decide

theorem scZeroExtend_value {v : List Nat} (h : Bytes v) (k : Nat) :
    value (scZeroExtend v k) = value v % 2 ^ k := by
  apply Nat.eq_of_testBit_eq
  intro i
  rw [Nat.testBit_mod_two_pow, testBit_value (scZeroExtend_bytes h k), testBit_value h]
  unfold scZeroExtend
  simp only []
  rw [getD_mapIdx]
  by_cases hi : i / 8 < v.length
  · rw [if_pos hi]
    by_cases h1 : i / 8 < k / 8
    · rw [if_pos h1]
      have : i < k := by omega
      simp [this]
    · rw [if_neg h1]
      by_cases h2 : k % 8 > 0 ∧ i / 8 = k / 8
      · rw [if_pos h2, Nat.testBit_and, maxDigit_testBit (by omega), Bool.and_comm]
        congr 1
        rw [decide_eq_decide]; omega
      · rw [if_neg h2]
        have : ¬ i < k := by omega
        simp [this]
  · rw [if_neg hi, getD_of_ge (by omega)]; simp

theorem scSignExtend_length (v : List Nat) (k : Nat) : (scSignExtend v k).length = v.length := by
  unfold scSignExtend; simp only []; split; simp; exact scZeroExtend_length v k

theorem scSignExtend_bytes {v : List Nat} (h : Bytes v) (k : Nat) : Bytes (scSignExtend v k) := by
  unfold scSignExtend
  simp only []
  split
  · apply bytes_of_getD
    intro i hi
    rw [getD_mapIdx]
    have := h.getD i
    split
    · split
      · exact this
      · split
        · exact byte_lt _ _ this (sexDigit_lt _)
        · decide
    · decide
  · exact scZeroExtend_bytes h k

theorem scGetBitAt_eq {v : List Nat} (h : Bytes v) (i : Nat) : scGetBitAt v i = (value v).testBit i :=
  (testBit_value h i).symm

theorem scSignExtend_testBit {v : List Nat} (h : Bytes v) {k : Nat} (hk : 0 < k) (hkn : k ≤ 8 * v.length)
    {i : Nat} (hi : i < 8 * v.length) :
    (value (scSignExtend v k)).testBit i = (value v).testBit (min i (k - 1)) := by
  by_cases hb : scGetBitAt v (k - 1) = true
  · rw [testBit_value (scSignExtend_bytes h k)]
    unfold scSignExtend
    simp only [hb, if_true]
    rw [getD_mapIdx, if_pos (by omega)]
    rw [scGetBitAt_eq h] at hb
    by_cases hik : i < k
    · rw [Nat.min_eq_left (by omega), testBit_value h]
      by_cases h1 : i / 8 < (k - 1) / 8
      · rw [if_pos h1]
      · rw [if_neg h1, if_pos (by omega), Nat.testBit_or, sexDigit_testBit]
        have : ¬ (k - 1) % 8 < i % 8 := by omega
        simp [this]
    · rw [Nat.min_eq_right (by omega), hb]
      rw [if_neg (by omega)]
      split
      · rw [Nat.testBit_or, sexDigit_testBit]
        have h1 : (k - 1) % 8 < i % 8 := by omega
        have h2 : i % 8 < 8 := by omega
        simp [h1, h2]
      · rw [testBit_255]; simp; omega
  · have e : scSignExtend v k = scZeroExtend v k := by
      unfold scSignExtend; simp only [hb]; rfl
    rw [e, scZeroExtend_value h, Nat.testBit_mod_two_pow]
    rw [scGetBitAt_eq h] at hb
    by_cases hik : i < k
    · rw [Nat.min_eq_left (by omega)]; simp [hik]
    · rw [Nat.min_eq_right (by omega)]; simp [hik]; simpa using hb

/-- sign extension from `k` bits: the signed reading is the `k`-bit two's
complement reading of the low `k` bits. -/
theorem scSignExtend_svalue {v : List Nat} (h : Bytes v) {k : Nat} (hk : 0 < k) (hkn : k ≤ 8 * v.length) :
    svalue (scSignExtend v k) = wrap true k (value v) := by
  have hn : 0 < v.length := by omega
  have hlen := scSignExtend_length v k
  symm
  apply ibit_ext
  intro i
  have hbits : ∀ j, ibit (wrap true k (value v)) j = (value v).testBit (min j (k - 1)) := by
    intro j
    have hr := wrap_inRange true hk (value v)
    by_cases hj : j < k
    · rw [ibit_wrap_lt hj, ibit_natCast, Nat.min_eq_left (by omega)]
    · rw [Nat.min_eq_right (by omega)]
      have e1 : ibit (wrap true k (value v)) (k - 1) = (value v).testBit (k - 1) := by
        rw [ibit_wrap_lt (by omega), ibit_natCast]
      rw [← e1]
      unfold InRange at hr; simp only [if_true] at hr
      have hp : (2:Int) ^ (k - 1) ≤ 2 ^ j := pow_le_pow_right₀ (by decide) (by omega)
      by_cases h0 : wrap true k (value v) < 0
      · rw [ibit_ge_neg h0 (by omega), ibit_ge_neg h0 hr.1]
      · rw [ibit_ge_nonneg (by omega) (by omega), ibit_ge_nonneg (by omega) hr.2]
  rw [hbits, ibit_svalue (scSignExtend_bytes h k) (by omega)]
  split
  · next hi => rw [scSignExtend_testBit h hk hkn (by omega)]
  · next hi =>
    unfold scIsNegative
    rw [scGetBitAt_eq (scSignExtend_bytes h k), scSignExtend_testBit h hk hkn (by omega)]
    congr 1; omega

theorem scZeroExtend_svalue {v : List Nat} (h : Bytes v) {k : Nat} (hkn : k < 8 * v.length) :
    svalue (scZeroExtend v k) = wrap false k (value v) := by
  have hn : 0 < v.length := by omega
  have e := scZeroExtend_value h k
  have hl := scZeroExtend_length v k
  have hlt : value v % 2 ^ k < 2 ^ k := Nat.mod_lt _ (by positivity)
  have hp : 2 ^ k ≤ 2 ^ (8 * v.length - 1) := Nat.pow_le_pow_right (by decide) (by omega)
  rw [svalue_of_nonneg (by omega) (by rw [e, hl]; omega), e]
  unfold wrap; simp

/-! ### shifts -/
theorem scShlI_length (v : List Nat) (c : Nat) : (scShlI v c).length = v.length := by
  unfold scShlI; simp only []; split; exact scZero_length _; simp

theorem mod256_lt (x : Nat) : x % 256 < 256 := Nat.mod_lt _ (by decide)

theorem scShlI_bytes {v : List Nat} (h : Bytes v) (c : Nat) : Bytes (scShlI v c) := by
  unfold scShlI; simp only []
  split
  · exact scZero_bytes _
  · apply bytes_of_getD
    intro i hi
    rw [getD_mapIdx]
    split
    · split
      · decide
      · split
        · exact h.getD _
        · exact byte_lt _ _ (mod256_lt _) (mod256_lt _)
    · decide

theorem testBit_mod256 (x i : Nat) : (x % 256).testBit i = (decide (i < 8) && x.testBit i) := by
  rw [show (256:Nat) = 2 ^ 8 from rfl, Nat.testBit_mod_two_pow]

theorem scShlI_testBit {v : List Nat} (h : Bytes v) (c : Nat) {i : Nat} (hi : i < 8 * v.length) :
    (value (scShlI v c)).testBit i = (decide (c ≤ i) && (value v).testBit (i - c)) := by
  rw [testBit_value (scShlI_bytes h c)]
  unfold scShlI; simp only []
  by_cases hc : c ≥ v.length * 8
  · rw [if_pos hc]
    have : ¬ c ≤ i := by omega
    unfold scZero
    rw [List.getD_eq_getElem?_getD, List.getElem?_replicate]
    split <;> simp [this]
  · rw [if_neg hc, getD_mapIdx, if_pos (by omega)]
    by_cases h1 : i / 8 < c / 8
    · rw [if_pos h1]
      have : ¬ c ≤ i := by omega
      simp [this]
    · rw [if_neg h1]
      by_cases h2 : c % 8 = 0
      · rw [if_pos h2, testBit_value h]
        have : c ≤ i := by omega
        have e1 : (i - c) / 8 = i / 8 - c / 8 := by omega
        have e2 : (i - c) % 8 = i % 8 := by omega
        simp [this, e1, e2]
      · rw [if_neg h2, Nat.testBit_or, testBit_mod256, testBit_mod256, Nat.testBit_shiftLeft,
          Nat.testBit_shiftRight]
        have h8 : i % 8 < 8 := by omega
        simp only [h8, decide_true, Bool.true_and]
        by_cases h3 : c % 8 ≤ i % 8
        · have hci : c ≤ i := by omega
          have e1 : (i - c) / 8 = i / 8 - c / 8 := by omega
          have e2 : (i - c) % 8 = i % 8 - c % 8 := by omega
          have hx : (if i / 8 - c / 8 = 0 then 0 else v.getD (i / 8 - c / 8 - 1) 0).testBit (8 - c % 8 + i % 8) = false := by
            apply testBit_byte_ge _ (by omega)
            split
            · decide
            · exact h.getD _
          rw [hx, testBit_value h, e1, e2]
          simp [h3, hci]
        · simp only [h3, ge_iff_le, decide_false, Bool.false_and, Bool.false_or]
          by_cases h4 : i / 8 - c / 8 = 0
          · have : ¬ c ≤ i := by omega
            simp [h4, this]
          · have hci : c ≤ i := by omega
            have e1 : (i - c) / 8 = i / 8 - c / 8 - 1 := by omega
            have e2 : (i - c) % 8 = 8 - c % 8 + i % 8 := by omega
            rw [if_neg h4, testBit_value h, e1, e2]
            simp [hci]

theorem scShlI_value {v : List Nat} (h : Bytes v) (c : Nat) :
    value (scShlI v c) = (value v * 2 ^ c) % 256 ^ v.length := by
  apply Nat.eq_of_testBit_eq
  intro i
  rw [pow256, Nat.testBit_mod_two_pow, ← Nat.shiftLeft_eq, Nat.testBit_shiftLeft]
  by_cases hi : i < 8 * v.length
  · rw [scShlI_testBit h c hi]; simp [hi]
  · rw [testBit_value_ge (scShlI_bytes h c) (by rw [scShlI_length]; omega)]; simp [hi]

theorem scShrI_length (v : List Nat) (c : Nat) : (scShrI v c).1.length = v.length := by
  unfold scShrI; simp only []; split
  · exact scZero_length _
  · split <;> simp

theorem scShrI_bytes {v : List Nat} (h : Bytes v) (c : Nat) : Bytes (scShrI v c).1 := by
  unfold scShrI; simp only []
  split
  · exact scZero_bytes _
  · split
    · apply bytes_of_getD
      intro i hi
      simp only []
      rw [getD_mapIdx]
      split
      · split
        · exact h.getD _
        · decide
      · decide
    · apply bytes_of_getD
      intro i hi
      simp only []
      rw [getD_mapIdx]
      split
      · split
        · exact byte_lt _ _ (mod256_lt _) (mod256_lt _)
        · decide
      · decide

theorem scShrI_testBit {v : List Nat} (h : Bytes v) (c i : Nat) :
    (value (scShrI v c).1).testBit i = (value v).testBit (i + c) := by
  rw [testBit_value (scShrI_bytes h c), testBit_value h]
  unfold scShrI; simp only []
  by_cases hc : c ≥ v.length * 8
  · rw [if_pos hc]
    unfold scZero
    simp only []
    rw [List.getD_eq_getElem?_getD, List.getElem?_replicate, getD_of_ge (l := v) (by omega)]
    split <;> simp
  · rw [if_neg hc]
    by_cases h2 : c % 8 = 0
    · simp only [if_pos h2]
      rw [getD_mapIdx]
      by_cases h3 : i / 8 < v.length - c / 8
      · rw [if_pos (by omega), if_pos h3]
        have e1 : (i + c) / 8 = i / 8 + c / 8 := by omega
        have e2 : (i + c) % 8 = i % 8 := by omega
        rw [e1, e2]
      · rw [getD_of_ge (l := v) (i := (i + c) / 8) (by omega)]
        simp [h3]
    · simp only [if_neg h2]
      rw [getD_mapIdx]
      by_cases h3 : i / 8 < v.length - c / 8
      · rw [if_pos (by omega), if_pos h3]
        rw [Nat.testBit_or, testBit_mod256, testBit_mod256, Nat.testBit_shiftLeft, Nat.testBit_shiftRight]
        have h8 : i % 8 < 8 := by omega
        simp only [h8, decide_true, Bool.true_and]
        by_cases h4 : i % 8 + c % 8 < 8
        · have e1 : (i + c) / 8 = i / 8 + c / 8 := by omega
          have e2 : (i + c) % 8 = c % 8 + i % 8 := by omega
          have : ¬ (8 - c % 8 ≤ i % 8) := by omega
          rw [e1, e2]
          simp [this]
        · have e1 : (i + c) / 8 = i / 8 + c / 8 + 1 := by omega
          have e2 : (i + c) % 8 = i % 8 - (8 - c % 8) := by omega
          have h5 : 8 - c % 8 ≤ i % 8 := by omega
          rw [testBit_byte_ge (h.getD _) (by omega), e1, e2]
          by_cases h6 : i / 8 + c / 8 + 1 < v.length
          · simp [h5, h6]
          · rw [getD_of_ge (l := v) (i := i / 8 + c / 8 + 1) (by omega)]; simp [h6]
      · rw [getD_of_ge (l := v) (i := (i + c) / 8) (by omega)]
        simp [h3]

theorem scShrI_value {v : List Nat} (h : Bytes v) (c : Nat) : value (scShrI v c).1 = value v / 2 ^ c := by
  apply Nat.eq_of_testBit_eq
  intro i
  rw [scShrI_testBit h, Nat.testBit_div_two_pow]

end Verif.Model
