import Verif.Lemmas.DivConst3
/-!
# C22, C23, C24: division and remainder by constants

The theorems are about the value of the nodes that replace `x / d` and `x % d`, for every value `x` of the mode; the meaning of Div and
Mod is `irDiv` and `irMod` of `Verif.Spec.IR` (truncated division).
-/
namespace Verif.Props
open Verif.Spec Verif.Model

theorem amtOk_of_eq {m : IMode} (h : m.modulo = m.bits) : AmtOk m := Or.inr (by omega)

/-! ## Multiply-high -/

theorem natAbs_ge_three {d : Int} (h0 : d ≠ 0) (hnp : ∀ k, d.natAbs ≠ 2 ^ k) : 3 ≤ d.natAbs := by
  have h1 := hnp 0
  have h2 := hnp 1
  simp only [Nat.pow_zero, Nat.pow_one] at h1 h2
  omega

/-- C22: for every signed mode of at least two bits and every divisor whose magnitude is not a power of two, the magic number exists
and the multiply-high sequence evaluates to the truncated quotient, for every dividend. -/
theorem signed_div_by_mulh (m : IMode) (hs : m.signed = true) (hb : 2 ≤ m.bits) (hm : m.modulo = 0 ∨ m.bits ≤ m.modulo)
    (d : Int) (hd : m.In d) (h0 : d ≠ 0) (hnp : ∀ k, d.natAbs ≠ 2 ^ k) (x : Int) (hx : m.In x) :
    replaceDivByMulh m d x = some (irDiv m x d) := by
  have hd' : InRange true m.bits d := by rw [← hs]; exact hd
  have hx' : InRange true m.bits x := by rw [← hs]; exact hx
  obtain ⟨P, M, δ, e, h1, h2, h3, h4, h5, h6, h7, h8⟩ := magic_spec hb hd' (natAbs_ge_three h0 hnp) hnp
  unfold replaceDivByMulh
  rw [if_pos hs, e, Option.map_some, signedMulh_floor hs hb hm h0 h3 h4 h1 h2 hx, magic_tdiv hb h1 hd' hx' h0 h5 h6 h7 h8]
  rfl

/-- the magic number of 7 in 32 bits, and a division with it -/
example : magic 33 32 7 = some ⟨-1840700269, 2, true, false⟩ ∧ replaceDivByMulh ⟨true, 32, 32⟩ 7 (-2147483648) = some (-306783378) := by
  decide +kernel

theorem in_unsigned {m : IMode} (hs : m.signed = false) {x : Int} (hx : m.In x) : ∃ n : Nat, x = n ∧ n < 2 ^ m.bits := by
  unfold IMode.In InRange at hx
  rw [hs, if_neg (by decide), two_pow_cast] at hx
  exact ⟨x.toNat, by omega, by omega⟩

theorem unsigned_in {m : IMode} (hs : m.signed = false) {n : Nat} (hn : n < 2 ^ m.bits) : m.In (n : Int) := by
  unfold IMode.In InRange
  rw [hs, if_neg (by decide), two_pow_cast]
  omega

theorem wrap_nat {m : IMode} (hs : m.signed = false) (hb : 0 < m.bits) {n : Nat} (hn : n < 2 ^ m.bits) : m.wrap (n : Int) = n :=
  wrap_of_inRange hb (unsigned_in hs hn)

theorem shr_nat {m : IMode} (hs : m.signed = false) (hb : 0 < m.bits) {n : Nat} (hn : n < 2 ^ m.bits) (s : Nat) :
    irShr m (n : Int) s = ((n / 2 ^ m.amt s : Nat) : Int) := by
  unfold irShr
  have : (n : Int) % 2 ^ m.bits / 2 ^ m.amt s = ((n / 2 ^ m.amt s : Nat) : Int) := by
    rw [two_pow_cast, two_pow_cast, ← Int.natCast_emod, ← Int.natCast_ediv, Nat.mod_eq_of_lt hn]
  rw [this]
  exact wrap_nat hs hb (Nat.lt_of_le_of_lt (Nat.div_le_self _ _) hn)

theorem mulh_nat {m : IMode} (hs : m.signed = false) (hb : 0 < m.bits) {a b : Nat} (ha : a < 2 ^ m.bits) (hbl : b < 2 ^ m.bits) :
    irMulh m (a : Int) (b : Int) = ((a * b / 2 ^ m.bits : Nat) : Int) := by
  unfold irMulh
  have : (a : Int) * b / 2 ^ m.bits = ((a * b / 2 ^ m.bits : Nat) : Int) := by
    rw [two_pow_cast, ← Int.natCast_mul, ← Int.natCast_ediv]
  rw [this]
  apply wrap_nat hs hb
  rw [Nat.div_lt_iff_lt_mul (by positivity)]
  exact Nat.mul_lt_mul'' ha hbl

/-- the operand of the multiplication -/
theorem unsignedPrepare_nat {m : IMode} (hs : m.signed = false) (hm : AmtOk m) {i : MagicuInfo} (hp : i.preShift < m.bits) {n : Nat} (hn : n < 2 ^ m.bits) :
    unsignedPrepare m i (n : Int) = ((if i.increment then (if n / 2 ^ i.preShift = 2 ^ m.bits - 1 then n / 2 ^ i.preShift else n / 2 ^ i.preShift + 1)
      else n / 2 ^ i.preShift : Nat) : Int) := by
  have h1 : (if 0 < i.preShift then irShr m (n : Int) i.preShift else (n : Int)) = ((n / 2 ^ i.preShift : Nat) : Int) := by
    split
    · rw [shr_nat hs (by omega) hn, amt_eq hm hp]
    · have : i.preShift = 0 := by omega
      rw [this]; simp
  unfold unsignedPrepare
  rw [h1]
  split
  · have h0 : 0 < 2 ^ m.bits := by positivity
    unfold satInc
    rw [two_pow_cast]
    generalize n / 2 ^ i.preShift = v
    by_cases hv : v = 2 ^ m.bits - 1
    · rw [if_pos (by omega), if_pos hv]
    · rw [if_neg (by omega), if_neg hv]; rfl
  · rfl

theorem unsigned_tdiv (m : IMode) (hs : m.signed = false) (hb : 0 < m.bits) {n D : Nat} (hn : n < 2 ^ m.bits) :
    irDiv m (n : Int) (D : Int) = ((n / D : Nat) : Int) := by
  unfold irDiv
  rw [← Int.ofNat_tdiv]
  exact wrap_nat hs hb (Nat.lt_of_le_of_lt (Nat.div_le_self _ _) hn)

/-- C23, for modes that reduce shift counts modulo their size: for every divisor that is not a power of two the assertions hold and the
sequence evaluates to the quotient, for every dividend.  Missing: other modes, for which it is false (`unsigned_div_by_mulh_zero`). -/
theorem unsigned_div_by_mulh_partial (m : IMode) (hs : m.signed = false) (hm : m.modulo = m.bits) (hb : 0 < m.bits)
    (d : Int) (hd : m.In d) (h0 : d ≠ 0) (hnp : ∀ k, d.natAbs ≠ 2 ^ k) (x : Int) (hx : m.In x) :
    replaceDivByMulh m d x = some (irDiv m x d) := by
  obtain ⟨n, rfl, hn⟩ := in_unsigned hs hx
  obtain ⟨D, rfl, hD⟩ := in_unsigned hs hd
  obtain ⟨i, e, hi1, hi2, hi3, hi4⟩ := magicu_spec (W := m.bits) (D := D) (by omega) hD hnp
  unfold replaceDivByMulh
  rw [if_neg (by rw [hs]; decide), Int.toNat_natCast, e, Option.map_some, unsigned_tdiv m hs hb hn, ← hi4 n hn]
  congr 1
  unfold unsignedMulhValue
  rw [unsignedPrepare_nat hs (amtOk_of_eq hm) hi2 hn]
  have hprep : (if i.increment then (if n / 2 ^ i.preShift = 2 ^ m.bits - 1 then n / 2 ^ i.preShift else n / 2 ^ i.preShift + 1)
      else n / 2 ^ i.preShift : Nat) < 2 ^ m.bits := by
    have : n / 2 ^ i.preShift ≤ n := Nat.div_le_self _ _
    generalize n / 2 ^ i.preShift = v at *
    split
    · split <;> omega
    · omega
  generalize (if i.increment then (if n / 2 ^ i.preShift = 2 ^ m.bits - 1 then n / 2 ^ i.preShift else n / 2 ^ i.preShift + 1)
      else n / 2 ^ i.preShift : Nat) = v at *
  have hq : v * i.multiplier / 2 ^ m.bits < 2 ^ m.bits := by
    rw [Nat.div_lt_iff_lt_mul (by positivity)]
    exact Nat.mul_lt_mul'' hprep hi1
  have hamt : m.amt m.bits = 0 := by
    unfold IMode.amt; rw [hm, if_neg (by omega), Nat.mod_self]
  rw [mulh_nat hs hb hprep hi1, shr_nat hs hb hq, hamt, Nat.pow_zero, Nat.div_one]
  rw [Nat.mul_comm i.multiplier v, Nat.pow_add, ← Nat.div_div_eq_div_mul]
  split
  · rw [shr_nat hs hb hq, amt_eq (amtOk_of_eq hm) hi3]
  · have : i.postShift = 0 := by omega
    rw [this]; simp

/-- The extra shift of the product by the size of the mode loses everything if the mode does not reduce shift counts modulo its size:
the replacement of `x / d` is zero, whatever `x`. -/
theorem unsigned_div_by_mulh_zero (m : IMode) (hs : m.signed = false) (hm : m.modulo = 0 ∨ m.bits < m.modulo) (hb : 0 < m.bits)
    (d : Int) (hd : m.In d) (h0 : d ≠ 0) (hnp : ∀ k, d.natAbs ≠ 2 ^ k) (x : Int) (hx : m.In x) :
    replaceDivByMulh m d x = some 0 := by
  obtain ⟨n, rfl, hn⟩ := in_unsigned hs hx
  obtain ⟨D, rfl, hD⟩ := in_unsigned hs hd
  obtain ⟨i, e, hi1, hi2, hi3, hi4⟩ := magicu_spec (W := m.bits) (D := D) (by omega) hD hnp
  unfold replaceDivByMulh
  rw [if_neg (by rw [hs]; decide), Int.toNat_natCast, e, Option.map_some]
  congr 1
  unfold unsignedMulhValue
  have hok : AmtOk m := by rcases hm with h | h; exact Or.inl h; exact Or.inr (by omega)
  have hamt : m.amt m.bits = m.bits := by
    unfold IMode.amt
    rcases hm with h | h
    · rw [if_pos h]
    · rw [if_neg (by omega), Nat.mod_eq_of_lt h]
  have hz : ∀ y : Int, m.In y → irShr m y m.bits = 0 := by
    intro y hy
    obtain ⟨v, rfl, hv⟩ := in_unsigned hs hy
    rw [shr_nat hs hb hv, hamt, Nat.div_eq_of_lt hv]; rfl
  rw [hz (irMulh m (unsignedPrepare m i n) i.multiplier) (wrap_inRange _ hb _)]
  split
  · have := shr_nat hs hb (n := 0) (by positivity) i.postShift
    rw [Nat.zero_div] at this
    exact this
  · rfl

/-- the smaller unsigned modes have 8 or 16 bits and modulo-shift 32: 9 / 3 becomes 0 -/
theorem unsigned_div_by_mulh_wrong :
    replaceDivByMulh ⟨false, 8, 32⟩ 3 9 = some 0 ∧ irDiv ⟨false, 8, 32⟩ 9 3 = 3 := by decide +kernel

/-- a divisor that needs the increment, and an even divisor that needs the pre-shift -/
example : (getMagicInfo 32 7).map (·.increment) = some true := by decide +kernel
example : (getMagicInfo 32 14).map (·.preShift) = some 1 := by decide +kernel
example : replaceDivByMulh ⟨false, 32, 32⟩ 7 4294967295 = some 613566756 := by decide +kernel

/-! ## Powers of two -/

theorem ld2Fold_spec (v : Nat) : ∀ N,
    ((List.range N).foldl (ld2Step v) (0, 0) = (0, 0) ∧ v % 2 ^ N = 0) ∨
    (((List.range N).foldl (ld2Step v) (0, 0)).1 = 1 ∧ ((List.range N).foldl (ld2Step v) (0, 0)).2 < N ∧
      v % 2 ^ N = 2 ^ ((List.range N).foldl (ld2Step v) (0, 0)).2) ∨
    (2 ≤ ((List.range N).foldl (ld2Step v) (0, 0)).1 ∧ (∀ k, v % 2 ^ N ≠ 2 ^ k) ∧ v % 2 ^ N ≠ 0) := by
  have hne : ∀ N a k : Nat, 0 < a → a < 2 ^ N → a + 2 ^ N ≠ 2 ^ k := by
    intro N a k h0 h1 h
    have h2 : N < k := (Nat.pow_lt_pow_iff_right (a := 2) (by omega)).1 (by omega)
    have h3 : 2 ^ (N + 1) ≤ 2 ^ k := Nat.pow_le_pow_right (by omega) h2
    rw [Nat.pow_succ] at h3; omega
  intro N
  induction N with
  | zero => left; simp [Nat.mod_one]
  | succ N ih =>
    rw [List.range_succ, List.foldl_append, List.foldl_cons, List.foldl_nil]
    have hmod : v % 2 ^ (N + 1) = v % 2 ^ N + if v.testBit N then 2 ^ N else 0 := by
      rw [Nat.mod_pow_succ, Nat.testBit_eq_decide_div_mod_eq]
      rcases Nat.mod_two_eq_zero_or_one (v / 2 ^ N) with h | h <;> simp [h]
    have hlt : v % 2 ^ N < 2 ^ N := Nat.mod_lt _ (by positivity)
    have h0 : 0 < 2 ^ N := by positivity
    generalize (List.range N).foldl (ld2Step v) (0, 0) = st at ih ⊢
    unfold ld2Step
    rw [hmod]
    by_cases hb : v.testBit N = true
    · rw [if_pos hb, if_pos hb]
      rcases ih with ⟨rfl, h⟩ | ⟨h1, h2, h3⟩ | ⟨h1, h2, h3⟩
      · right; left; simp [h]
      · right; right
        have hp : 0 < 2 ^ st.2 := by positivity
        refine ⟨by show 2 ≤ st.1 + 1; omega, fun k => ?_, by omega⟩
        rw [h3]; exact hne N _ k hp (by omega)
      · right; right
        exact ⟨by show 2 ≤ st.1 + 1; omega, fun k => hne N _ k (by omega) hlt, by omega⟩
    · rw [if_neg hb, if_neg hb, Nat.add_zero]
      rcases ih with ⟨rfl, h⟩ | ⟨h1, h2, h3⟩ | ⟨h1, h2, h3⟩
      · left; exact ⟨rfl, h⟩
      · right; left; exact ⟨h1, by omega, h3⟩
      · right; right; exact ⟨h1, h2, h3⟩

/-- `tv_ld2` finds the exponent of a power of two, and nothing else -/
theorem tv_ld2_spec {N v : Nat} (hv : v < 2 ^ N) :
    match tvLd2 N v with
    | some k => v = 2 ^ k
    | none => ∀ k, v ≠ 2 ^ k := by
  have h := ld2Fold_spec v N
  rw [Nat.mod_eq_of_lt hv] at h
  unfold tvLd2
  rcases h with ⟨h1, h2⟩ | ⟨h1, _, h3⟩ | ⟨h1, h2, _⟩
  · rw [h1, if_neg (by decide)]
    intro k hk
    have : 0 < 2 ^ k := by positivity
    omega
  · rw [if_pos h1]; exact h3
  · rw [if_neg (by omega)]; exact h2

theorem toUnsigned_lt (W : Nat) (x : Int) : toUnsigned W x < 2 ^ W := by
  unfold toUnsigned
  have h1 := Int.emod_nonneg x (show (2:Int) ^ W ≠ 0 by positivity)
  have h2 := Int.emod_lt_of_pos x (show (0:Int) < 2 ^ W by positivity)
  rw [two_pow_cast] at h1 h2 ⊢
  omega

theorem lt_ld2Bits (m : IMode) (x : Int) : toUnsigned m.bits x < 2 ^ ld2Bits m :=
  Nat.lt_of_lt_of_le (toUnsigned_lt _ _) (Nat.pow_le_pow_right (by omega) (by unfold ld2Bits; omega))

/-- which divisors count as powers of two -/
theorem divK_signed {m : IMode} (hs : m.signed = true) (hb : 1 ≤ m.bits) {d : Int} (hd : m.In d) :
    match divK m d with
    | some (k, true) => d = -2 ^ k ∧ k < m.bits
    | some (k, false) => d = 2 ^ k ∧ k + 1 < m.bits
    | none => ∀ k, d.natAbs ≠ 2 ^ k := by
  have hd' : InRange true m.bits d := by rw [← hs]; exact hd
  have h := inRange_signed hd'
  have hpow : 2 ^ m.bits = 2 * 2 ^ (m.bits - 1) := half_pow hb
  have hcW : ((2:Int) ^ m.bits) = ((2 * 2 ^ (m.bits - 1) : Nat) : Int) := by rw [two_pow_cast, hpow]
  have h1 := tv_ld2_spec (lt_ld2Bits m (irNeg m d))
  have h2 := tv_ld2_spec (lt_ld2Bits m d)
  have hH : 0 < 2 ^ (m.bits - 1) := by positivity
  have hneg : toUnsigned m.bits (irNeg m d) = if d ≤ 0 then d.natAbs else 2 ^ m.bits - d.natAbs := by
    unfold irNeg IMode.wrap
    rw [toUnsigned_wrap]
    split
    · rw [toUnsigned_nonneg (by omega) (by rw [hcW]; omega)]; omega
    · rw [toUnsigned_neg (by omega) (by rw [hcW]; omega)]; omega
  have hpos : toUnsigned m.bits d = if 0 ≤ d then d.natAbs else 2 ^ m.bits - d.natAbs := by
    split
    · rw [toUnsigned_nonneg (by omega) (by rw [hcW]; omega)]
    · rw [toUnsigned_neg (by omega) (by rw [hcW]; omega)]
  rw [hneg] at h1
  rw [hpos] at h2
  have hklt : ∀ k, 2 ^ k < 2 ^ m.bits → k < m.bits := fun k => (Nat.pow_lt_pow_iff_right (a := 2) (by omega)).1
  -- a power of two above one half is impossible
  have hhalf : ∀ k, 2 ^ (m.bits - 1) < 2 ^ k → 2 ^ k < 2 ^ m.bits → False := by
    intro k ha hb'
    have h1 := (Nat.pow_lt_pow_iff_right (a := 2) (by omega)).1 ha
    have h2 := hklt k hb'
    omega
  unfold divK
  rw [if_pos hs, hneg, hpos]
  cases e1 : tvLd2 (ld2Bits m) (if d ≤ 0 then d.natAbs else 2 ^ m.bits - d.natAbs) with
  | some k =>
    rw [e1] at h1
    simp only [] at h1 ⊢
    rw [two_pow_cast]
    have hk0 : 0 < 2 ^ k := by positivity
    by_cases hle : d ≤ 0
    · rw [if_pos hle] at h1
      exact ⟨by omega, hklt k (by omega)⟩
    · rw [if_neg hle] at h1
      exact absurd (hhalf k (by omega) (by omega)) id
  | none =>
    rw [e1] at h1
    simp only [] at h1 ⊢
    cases e2 : tvLd2 (ld2Bits m) (if 0 ≤ d then d.natAbs else 2 ^ m.bits - d.natAbs) with
    | some k =>
      rw [e2] at h2
      simp only [Option.map_some] at h2 ⊢
      rw [two_pow_cast]
      have hk0 : 0 < 2 ^ k := by positivity
      by_cases hle : 0 ≤ d
      · rw [if_pos hle] at h2
        refine ⟨by omega, ?_⟩
        have : 2 ^ k < 2 ^ (m.bits - 1) := by omega
        have := (Nat.pow_lt_pow_iff_right (a := 2) (by omega)).1 this
        omega
      · rw [if_neg hle] at h2
        by_cases heq : 2 ^ k = 2 ^ (m.bits - 1)
        · exfalso
          apply h1 (m.bits - 1)
          rw [if_pos (by omega)]; omega
        · exact absurd (hhalf k (by omega) (by omega)) id
    | none =>
      rw [e2] at h2
      simp only [Option.map_none] at h2 ⊢
      intro k hk
      by_cases hle : d ≤ 0
      · exact h1 k (by rw [if_pos hle]; exact hk)
      · exact h2 k (by rw [if_pos (by omega)]; exact hk)

theorem divK_unsigned {m : IMode} (hs : m.signed = false) {n : Nat} (hn : n < 2 ^ m.bits) :
    match divK m (n : Int) with
    | some (k, _) => n = 2 ^ k ∧ k < m.bits
    | none => ∀ k, n ≠ 2 ^ k := by
  have h2 := tv_ld2_spec (lt_ld2Bits m (n : Int))
  have hpos : toUnsigned m.bits (n : Int) = n := by
    rw [toUnsigned_nonneg (by omega) (by rw [two_pow_cast]; omega)]; omega
  rw [hpos] at h2
  unfold divK
  rw [if_neg (by rw [hs]; decide), hpos]
  simp only []
  cases e2 : tvLd2 (ld2Bits m) n with
  | some k =>
    rw [e2] at h2
    simp only [Option.map_some] at h2 ⊢
    exact ⟨h2, (Nat.pow_lt_pow_iff_right (a := 2) (by omega)).1 (by omega)⟩
  | none =>
    rw [e2] at h2
    exact h2

/-- the correction adds `2 ^ k - 1` to negative dividends -/
theorem pow2Correct_eq {m : IMode} (hs : m.signed = true) (hb : 2 ≤ m.bits) (hm : AmtOk m) {k : Nat} (hk0 : 0 < k) (hk : k < m.bits) {x : Int} (hx : m.In x) :
    pow2Correct m k x = if x < 0 then x + 2 ^ k - 1 else x := by
  have hx' : InRange true m.bits x := by rw [← hs]; exact hx
  have h := inRange_signed hx'
  have hpow : 2 ^ m.bits = 2 * 2 ^ (m.bits - 1) := half_pow (by omega)
  have hcW : ((2:Int) ^ m.bits) = ((2 * 2 ^ (m.bits - 1) : Nat) : Int) := by rw [two_pow_cast, hpow]
  have hkW : 2 ^ k ≤ 2 ^ (m.bits - 1) := Nat.pow_le_pow_right (by omega) (by omega)
  have hk1 : 2 ^ 1 ≤ 2 ^ k := Nat.pow_le_pow_right (by omega) (by omega)
  have hsh : (if k = 1 then x else irShrs m x (k - 1)) = x / 2 ^ (k - 1) := by
    split
    · rename_i h1; subst h1; simp
    · exact shrs_eq hs hm hx (by omega)
  unfold pow2Correct
  rw [hsh]
  have hsplit1 : 2 ^ (m.bits - 1) = 2 ^ (m.bits - k) * 2 ^ (k - 1) := by rw [← Nat.pow_add]; congr 1; omega
  have hsplit2 : 2 ^ m.bits = 2 ^ (m.bits - k) * 2 ^ k := by rw [← Nat.pow_add]; congr 1; omega
  have hP : 0 < 2 ^ (k - 1) := by positivity
  have hQ : 0 < 2 ^ (m.bits - k) := by positivity
  have hQ1 : 2 ^ (m.bits - k) ≤ 2 ^ (m.bits - 1) := Nat.pow_le_pow_right (by omega) (by omega)
  have e : irShr m (x / 2 ^ (k - 1)) (m.bits - k) = if x < 0 then 2 ^ k - 1 else 0 := by
    unfold irShr
    rw [amt_eq hm (by omega)]
    have e' : x / 2 ^ (k - 1) % 2 ^ m.bits / 2 ^ (m.bits - k) = if x < 0 then 2 ^ k - 1 else 0 := by
      rw [two_pow_cast (k - 1), two_pow_cast (m.bits - k)]
      have hP' : (0:Int) < ((2 ^ (k - 1) : Nat) : Int) := by omega
      have hQ' : (0:Int) < ((2 ^ (m.bits - k) : Nat) : Int) := by omega
      have hs1 : ((2 ^ (m.bits - 1) : Nat) : Int) = ((2 ^ (m.bits - k) : Nat) : Int) * ((2 ^ (k - 1) : Nat) : Int) := by
        rw [← Int.natCast_mul, ← hsplit1]
      have hs2 : ((2 : Int) ^ m.bits) = ((2 ^ (m.bits - k) : Nat) : Int) * ((2 ^ k : Nat) : Int) := by
        rw [← Int.natCast_mul, ← hsplit2, two_pow_cast]
      split
      · have hy1 : -((2 ^ (m.bits - k) : Nat) : Int) ≤ x / ((2 ^ (k - 1) : Nat) : Int) := by
          apply Int.le_ediv_of_mul_le hP'
          rw [Int.neg_mul, ← hs1]; exact h.1
        have hy2 : x / ((2 ^ (k - 1) : Nat) : Int) < 0 := Int.ediv_neg_of_neg_of_pos (by assumption) hP'
        generalize x / ((2 ^ (k - 1) : Nat) : Int) = y at *
        have : y % 2 ^ m.bits = y + 2 ^ m.bits := by
          rw [← Int.add_emod_right, Int.emod_eq_of_lt (by rw [hcW]; omega) (by omega)]
        rw [this, hs2, Int.add_mul_ediv_left _ _ (by omega)]
        have : y / ((2 ^ (m.bits - k) : Nat) : Int) = -1 := by
          apply Int.le_antisymm
          · apply Int.le_of_lt_add_one; exact Int.ediv_neg_of_neg_of_pos hy2 hQ'
          · apply Int.le_ediv_of_mul_le hQ'; omega
        rw [this, two_pow_cast]; omega
      · have hy1 : x / ((2 ^ (k - 1) : Nat) : Int) < ((2 ^ (m.bits - k) : Nat) : Int) := by
          apply Int.ediv_lt_of_lt_mul hP'
          rw [← hs1]; exact h.2
        have hy2 : 0 ≤ x / ((2 ^ (k - 1) : Nat) : Int) := Int.ediv_nonneg (by omega) (by omega)
        rw [Int.emod_eq_of_lt hy2 (by rw [hcW]; omega)]
        exact Int.ediv_eq_zero_of_lt hy2 hy1
    rw [e']
    apply wrap_of_inRange (by omega)
    rw [hs]
    rw [two_pow_cast]
    apply inRange_signed' <;> split <;> omega
  unfold irAdd
  rw [e]
  have : x + (if x < 0 then 2 ^ k - 1 else 0) = if x < 0 then x + 2 ^ k - 1 else x := by split <;> omega
  rw [this]
  apply wrap_of_inRange (by omega)
  rw [hs, two_pow_cast]
  apply inRange_signed' <;> split <;> omega

theorem correct_in {m : IMode} (hs : m.signed = true) {k : Nat} (hk : k < m.bits) {x : Int} (hx : m.In x) :
    m.In (if x < 0 then x + 2 ^ k - 1 else x) := by
  have hx' : InRange true m.bits x := by rw [← hs]; exact hx
  have h := inRange_signed hx'
  have hkW : 2 ^ k ≤ 2 ^ (m.bits - 1) := Nat.pow_le_pow_right (by omega) (by omega)
  have h0 : 0 < 2 ^ k := by positivity
  unfold IMode.In
  rw [hs, two_pow_cast]
  apply inRange_signed' <;> split <;> omega

/-- rounding towards zero -/
theorem correct_div (x : Int) (k : Nat) : (if x < 0 then x + 2 ^ k - 1 else x) / 2 ^ k = x.tdiv (2 ^ k) := by
  have hc : (0:Int) < 2 ^ k := by positivity
  rw [Int.tdiv_eq_ediv]
  split
  · rename_i hx
    have hx' : ¬ (0:Int) ≤ x := by omega
    have hsg : Int.sign ((2:Int) ^ k) = 1 := Int.sign_eq_one_of_pos hc
    rw [hsg]
    by_cases hdv : (2:Int) ^ k ∣ x
    · rw [if_pos (Or.inr hdv)]
      obtain ⟨c, rfl⟩ := hdv
      rw [Int.mul_ediv_cancel_left _ (by omega), show (2:Int) ^ k * c + 2 ^ k - 1 = (2 ^ k - 1) + 2 ^ k * c from by ring,
        Int.add_mul_ediv_left _ _ (by omega), Int.ediv_eq_zero_of_lt (by omega) (by omega)]
      omega
    · rw [if_neg (by intro h; rcases h with h | h; omega; exact hdv h)]
      have hm := Int.emod_add_mul_ediv x (2 ^ k)
      have hr0 := Int.emod_nonneg x (show (2:Int) ^ k ≠ 0 by omega)
      have hr1 := Int.emod_lt_of_pos x hc
      have hrne : x % 2 ^ k ≠ 0 := fun h => hdv (Int.dvd_of_emod_eq_zero h)
      generalize x / 2 ^ k = q at *
      have : x + 2 ^ k - 1 = (x % 2 ^ k - 1) + 2 ^ k * (q + 1) := by
        rw [Int.mul_add, Int.mul_one]; omega
      rw [this, Int.add_mul_ediv_left _ _ (by omega), Int.ediv_eq_zero_of_lt (by omega) (by omega)]
      omega
  · rename_i hx
    rw [if_pos (Or.inl (by omega))]; omega

theorem exact_div (x : Int) (k : Nat) (h : (2:Int) ^ k ∣ x) : x / 2 ^ k = x.tdiv (2 ^ k) := by
  rw [Int.tdiv_eq_ediv, if_pos (Or.inr h)]; omega

/-- the signed shift sequence -/
theorem divPow2Signed_eq {m : IMode} (hs : m.signed = true) (hb : 2 ≤ m.bits) (hm : AmtOk m) {k : Nat} (hk0 : 0 < k) (hk : k < m.bits) {x : Int} (hx : m.In x)
    (noRem : Bool) (hno : noRem = true → (2:Int) ^ k ∣ x) (neg : Bool) :
    divPow2Signed m noRem k neg x = irDiv m x (if neg then -2 ^ k else 2 ^ k) := by
  have hq : irShrs m (if noRem then x else pow2Correct m k x) k = x.tdiv (2 ^ k) := by
    cases noRem with
    | true => simp only [if_true]; rw [shrs_eq hs hm hx hk, exact_div x k (hno rfl)]
    | false =>
      simp only [Bool.false_eq_true, if_false]
      rw [pow2Correct_eq hs hb hm hk0 hk hx, shrs_eq hs hm (correct_in hs hk hx) hk, correct_div]
  unfold divPow2Signed irDiv
  rw [hq]
  cases neg with
  | true =>
    simp only [if_true]
    unfold irSub
    rw [Int.tdiv_neg, Int.zero_sub]
  | false =>
    simp only [Bool.false_eq_true, if_false]
    rw [← hq]
    unfold irShrs
    exact (wrap_of_inRange (by omega) (wrap_inRange _ (by omega) _)).symm

/-- C24 (division): every replacement made for a signed division by a constant is the truncated quotient, for every dividend.  If the node
is flagged to have no remainder, the divisor must divide the dividend.  (The divisors that are no powers of two are those of C22.) -/
theorem signed_div_by_const (m : IMode) (hs : m.signed = true) (hb : 2 ≤ m.bits) (hm : m.modulo = 0 ∨ m.bits ≤ m.modulo) (allowMulh noRem : Bool)
    (d : Int) (hd : m.In d) (x : Int) (hx : m.In x) (hno : noRem = true → d ∣ x) (r : Option Int) (hr : transformDiv m allowMulh noRem d x = some r) :
    r = some (irDiv m x d) := by
  unfold transformDiv at hr
  by_cases h1 : d = -1
  · rw [if_pos ⟨hs, h1⟩] at hr
    cases hr
    subst h1
    unfold irNeg irDiv
    rw [Int.tdiv_neg, Int.tdiv_one]
  · rw [if_neg (fun h => h1 h.2)] at hr
    unfold replaceDiv at hr
    by_cases h0 : d = 0
    · rw [if_pos h0] at hr; cases hr
    · rw [if_neg h0] at hr
      have hk := divK_signed hs (by omega) hd
      cases e : divK m d with
      | none =>
        rw [e] at hk hr
        simp only [] at hk hr
        cases allowMulh with
        | false => cases hr
        | true => cases hr; exact signed_div_by_mulh m hs hb hm d hd h0 hk x hx
      | some kn =>
        obtain ⟨k, neg⟩ := kn
        rw [e] at hk hr
        cases neg with
        | true =>
          simp only [] at hk hr
          obtain ⟨hk1, hk2⟩ := hk
          have hk0 : k ≠ 0 := by rintro rfl; exact h1 (by simpa using hk1)
          rw [if_neg hk0, if_pos hs] at hr
          cases hr
          rw [divPow2Signed_eq hs hb hm (by omega) hk2 hx noRem (fun h => by
            have := hno h; rw [hk1] at this; exact (Int.neg_dvd).1 this) true, hk1]; rfl
        | false =>
          simp only [] at hk hr
          obtain ⟨hk1, hk2⟩ := hk
          by_cases hk0 : k = 0
          · rw [if_pos hk0] at hr
            cases hr
            subst hk0
            rw [hk1]; unfold irDiv
            rw [pow_zero, Int.tdiv_one]
            exact congrArg some (wrap_of_inRange (by omega) hx).symm
          · rw [if_neg hk0, if_pos hs] at hr
            cases hr
            rw [divPow2Signed_eq hs hb hm (by omega) (by omega) hx noRem (fun h => by have := hno h; rw [hk1] at this; exact this) false, hk1]; rfl

/-- called directly, `arch_dep_replace_div_by_const` replaces `x / -1` by `x`: the exponent of the negated divisor is zero, and the
negation is forgotten -/
theorem replace_div_minus_one (m : IMode) (hs : m.signed = true) (hb : 2 ≤ m.bits) (allowMulh noRem : Bool) (x : Int) :
    replaceDiv m allowMulh noRem (-1) x = some (some x) := by
  have hin : m.In (-1) := by
    unfold IMode.In; rw [hs]
    have : 0 < 2 ^ (m.bits - 1) := by positivity
    apply inRange_signed' <;> omega
  have hk := divK_signed hs (by omega) hin
  unfold replaceDiv
  rw [if_neg (by decide)]
  cases e : divK m (-1) with
  | none => rw [e] at hk; exact absurd rfl (hk 0)
  | some kn =>
    obtain ⟨k, neg⟩ := kn
    rw [e] at hk
    have hk0 : 0 < 2 ^ k := by positivity
    cases neg with
    | true =>
      simp only [] at hk ⊢
      obtain ⟨hk1, _⟩ := hk
      rw [two_pow_cast] at hk1
      have : k = 0 := by
        rcases Nat.eq_zero_or_pos k with h | h
        · exact h
        · have : 2 ^ 1 ≤ 2 ^ k := Nat.pow_le_pow_right (by omega) h
          omega
      rw [if_pos this]
    | false =>
      simp only [] at hk
      obtain ⟨hk1, _⟩ := hk
      rw [two_pow_cast] at hk1; omega

/-- C24 (division, unsigned): the same for unsigned modes; without multiply-high for every modulo-shift, with it see C23. -/
theorem unsigned_div_by_const (m : IMode) (hs : m.signed = false) (hb : 0 < m.bits) (hm : m.modulo = 0 ∨ m.bits ≤ m.modulo) (allowMulh noRem : Bool)
    (hmh : allowMulh = true → m.modulo = m.bits)
    (d : Int) (hd : m.In d) (x : Int) (hx : m.In x) (r : Option Int) (hr : transformDiv m allowMulh noRem d x = some r) :
    r = some (irDiv m x d) := by
  unfold transformDiv at hr
  rw [if_neg (fun h => by rw [hs] at h; exact absurd h.1 (by decide))] at hr
  obtain ⟨n, rfl, hn⟩ := in_unsigned hs hx
  obtain ⟨D, rfl, hD⟩ := in_unsigned hs hd
  have hk := divK_unsigned hs hD
  unfold replaceDiv at hr
  by_cases h0 : (D : Int) = 0
  · rw [if_pos h0] at hr; cases hr
  · rw [if_neg h0] at hr
    cases e : divK m D with
    | none =>
      rw [e] at hk hr
      simp only [] at hk hr
      cases allowMulh with
      | false => cases hr
      | true => cases hr; exact unsigned_div_by_mulh_partial m hs (hmh rfl) hb D hd h0 hk n hx
    | some kn =>
      obtain ⟨k, neg⟩ := kn
      rw [e] at hk hr
      simp only [] at hk hr
      obtain ⟨rfl, hk2⟩ := hk
      rw [unsigned_tdiv m hs hb hn]
      by_cases hk0 : k = 0
      · rw [if_pos hk0] at hr
        cases hr; subst hk0; simp
      · rw [if_neg hk0, if_neg (by rw [hs]; decide)] at hr
        cases hr
        rw [shr_nat hs hb hn, amt_eq hm hk2]

/-! ## Remainder -/

theorem pattern_eq (m : IMode) (x : Int) : (m.pattern x : Int) = x % 2 ^ m.bits := by
  unfold IMode.pattern
  exact Int.toNat_of_nonneg (Int.emod_nonneg x (by positivity))

theorem pattern_lt (m : IMode) (x : Int) : m.pattern x < 2 ^ m.bits := toUnsigned_lt m.bits x

/-- clearing the low bits of a pattern -/
theorem and_high {W k a : Nat} (hk : k ≤ W) (ha : a < 2 ^ W) : a &&& (2 ^ W - 2 ^ k) = a / 2 ^ k * 2 ^ k := by
  apply Nat.eq_of_testBit_eq
  intro i
  rw [Nat.testBit_and, Nat.testBit_mul_two_pow, Nat.testBit_div_two_pow]
  have hsplit : 2 ^ W - 2 ^ k = (2 ^ (W - k) - 1) * 2 ^ k := by
    rw [Nat.sub_mul, ← Nat.pow_add, Nat.one_mul, Nat.sub_add_cancel hk]
  rw [hsplit, Nat.testBit_mul_two_pow, Nat.testBit_two_pow_sub_one]
  by_cases h1 : k ≤ i
  · by_cases h2 : i < W
    · have : i - k < W - k := by omega
      simp [h1, this, Nat.sub_add_cancel h1]
    · have : a.testBit i = false := Nat.testBit_lt_two_pow (Nat.lt_of_lt_of_le ha (Nat.pow_le_pow_right (by omega) (by omega)))
      simp [this, Nat.sub_add_cancel h1]
  · simp [h1]

theorem wrap_floor {m : IMode} (x : Int) {k : Nat} (hk : k < m.bits) :
    m.wrap ((m.pattern x / 2 ^ k * 2 ^ k : Nat) : Int) = m.wrap (x / 2 ^ k * 2 ^ k) := by
  apply wrap_of_emod_eq
  have hp := pattern_eq m x
  push_cast
  rw [hp]
  obtain ⟨c, hc⟩ : ∃ c, x % 2 ^ m.bits = x + 2 ^ m.bits * c := ⟨-(x / 2 ^ m.bits), by
    have := Int.emod_add_mul_ediv x (2 ^ m.bits)
    rw [Int.mul_neg]; omega⟩
  have hsplit : (2:Int) ^ m.bits = 2 ^ k * 2 ^ (m.bits - k) := by rw [← pow_add]; congr 1; omega
  have h0 : (2:Int) ^ k ≠ 0 := by positivity
  rw [hc, show x + 2 ^ m.bits * c = x + 2 ^ k * (2 ^ (m.bits - k) * c) from by rw [hsplit]; ring, Int.add_mul_ediv_left _ _ h0,
    show (x / 2 ^ k + 2 ^ (m.bits - k) * c) * 2 ^ k = x / 2 ^ k * 2 ^ k + 2 ^ m.bits * c from by rw [hsplit]; ring,
    Int.add_mul_emod_self_left]

theorem modPow2Signed_eq {m : IMode} (hs : m.signed = true) (hb : 2 ≤ m.bits) (hm : AmtOk m) {k : Nat} (hk0 : 0 < k) (hk : k < m.bits) {x : Int} (hx : m.In x) :
    modPow2Signed m k x = irMod m x (2 ^ k) := by
  unfold modPow2Signed
  rw [pow2Correct_eq hs hb hm hk0 hk hx]
  generalize hy : (if x < 0 then x + 2 ^ k - 1 else x) = y
  have hmask : m.pattern (irShl m (m.wrap (-1)) k) = 2 ^ m.bits - 2 ^ k := by
    have hk' : 2 ^ k < 2 ^ m.bits := Nat.pow_lt_pow_right (by omega) hk
    have : ((m.pattern (irShl m (m.wrap (-1)) k) : Nat) : Int) = ((2 ^ m.bits - 2 ^ k : Nat) : Int) := by
      rw [pattern_eq]
      unfold irShl IMode.wrap
      rw [wrap_emod, amt_eq hm hk, Int.mul_emod, wrap_emod, ← Int.mul_emod]
      rw [← Int.add_emod_right, two_pow_cast, two_pow_cast, Int.emod_eq_of_lt (by omega) (by
        have : 0 < 2 ^ k := by positivity
        omega)]
      omega
    exact_mod_cast this
  have hand : irAnd m y (irShl m (m.wrap (-1)) k) = m.wrap (y / 2 ^ k * 2 ^ k) := by
    unfold irAnd
    rw [hmask, and_high (by omega) (pattern_lt m y)]
    exact wrap_floor y hk
  rw [hand, ← hy, correct_div]
  unfold irSub irMod
  apply wrap_of_emod_eq
  rw [Int.tmod_def, Int.mul_comm]
  exact (emod_wrap m.bits m.signed _).sub_left x

/-- the remainder from the quotient -/
theorem mod_of_div (m : IMode) (d x : Int) : irSub m x (irMul m (irDiv m x d) d) = irMod m x d := by
  unfold irSub irMul irMod irDiv
  apply wrap_of_emod_eq
  rw [Int.tmod_def, Int.mul_comm d]
  exact ((emod_wrap m.bits m.signed _).trans ((emod_wrap m.bits m.signed _).mul_right d)).sub_left x

/-- C24 (remainder): every replacement made for a signed remainder by a constant is the truncated remainder, for every dividend. -/
theorem signed_mod_by_const (m : IMode) (hs : m.signed = true) (hb : 2 ≤ m.bits) (hm : m.modulo = 0 ∨ m.bits ≤ m.modulo) (allowMulh : Bool)
    (d : Int) (hd : m.In d) (x : Int) (hx : m.In x) (r : Option Int) (hr : replaceMod m allowMulh d x = some r) :
    r = some (irMod m x d) := by
  unfold replaceMod at hr
  by_cases h0 : d = 0
  · rw [if_pos h0] at hr; cases hr
  · rw [if_neg h0] at hr
    have hk := divK_signed hs (by omega) hd
    cases e : divK m d with
    | none =>
      rw [e] at hk hr
      simp only [] at hk hr
      cases allowMulh with
      | false => cases hr
      | true =>
        rw [signed_div_by_mulh m hs hb hm d hd h0 hk x hx] at hr
        cases hr
        exact congrArg some (mod_of_div m d x)
    | some kn =>
      obtain ⟨k, neg⟩ := kn
      rw [e] at hk hr
      simp only [] at hr
      have hkd : (d = 2 ^ k ∨ d = -2 ^ k) ∧ k < m.bits := by
        cases neg with
        | true => exact ⟨Or.inr hk.1, hk.2⟩
        | false => exact ⟨Or.inl hk.1, by have := hk.2; omega⟩
      have htm : irMod m x d = irMod m x (2 ^ k) := by
        unfold irMod
        rcases hkd.1 with h | h
        · rw [h]
        · rw [h, Int.tmod_neg]
      rw [htm]
      by_cases hk0 : k = 0
      · rw [if_pos hk0] at hr
        cases hr; subst hk0
        unfold irMod
        rw [pow_zero, Int.tmod_one]
        exact congrArg some (wrap_of_inRange (by omega) (by
          rw [hs]
          have : 0 < 2 ^ (m.bits - 1) := by positivity
          apply inRange_signed' <;> omega)).symm
      · rw [if_neg hk0, if_pos hs] at hr
        cases hr
        exact congrArg some (modPow2Signed_eq hs hb hm (by omega) hkd.2 hx)

/-- C24 (remainder, unsigned) -/
theorem unsigned_mod_by_const (m : IMode) (hs : m.signed = false) (hb : 0 < m.bits) (hm : m.modulo = 0 ∨ m.bits ≤ m.modulo) (allowMulh : Bool)
    (hmh : allowMulh = true → m.modulo = m.bits)
    (d : Int) (hd : m.In d) (x : Int) (hx : m.In x) (r : Option Int) (hr : replaceMod m allowMulh d x = some r) :
    r = some (irMod m x d) := by
  obtain ⟨n, rfl, hn⟩ := in_unsigned hs hx
  obtain ⟨D, rfl, hD⟩ := in_unsigned hs hd
  have hk := divK_unsigned hs hD
  unfold replaceMod at hr
  by_cases h0 : (D : Int) = 0
  · rw [if_pos h0] at hr; cases hr
  · rw [if_neg h0] at hr
    cases e : divK m D with
    | none =>
      rw [e] at hk hr
      simp only [] at hk hr
      cases allowMulh with
      | false => cases hr
      | true =>
        rw [unsigned_div_by_mulh_partial m hs (hmh rfl) hb D hd h0 hk n hx] at hr
        cases hr
        exact congrArg some (mod_of_div m D n)
    | some kn =>
      obtain ⟨k, neg⟩ := kn
      rw [e] at hk hr
      simp only [] at hk hr
      obtain ⟨rfl, hk2⟩ := hk
      have hmod : irMod m (n : Int) ((2 ^ k : Nat) : Int) = ((n % 2 ^ k : Nat) : Int) := by
        unfold irMod
        rw [← Int.ofNat_tmod]
        exact wrap_nat hs hb (Nat.lt_of_le_of_lt (Nat.mod_le _ _) hn)
      rw [hmod]
      by_cases hk0 : k = 0
      · rw [if_pos hk0] at hr
        cases hr; subst hk0; simp [Nat.mod_one]
      · rw [if_neg hk0, if_neg (by rw [hs]; decide)] at hr
        cases hr
        have hp0 : 0 < 2 ^ m.bits := by positivity
        have hone : m.wrap (-1) = ((2 ^ m.bits - 1 : Nat) : Int) := by
          apply wrap_unique hb (unsigned_in hs (by omega))
          rw [← Int.add_emod_right (-1), two_pow_cast]
          congr 1; omega
        have hmask : irShr m (m.wrap (-1)) (m.bits - k) = ((2 ^ k - 1 : Nat) : Int) := by
          rw [hone, shr_nat hs hb (by omega), amt_eq hm (by omega)]
          congr 1
          have hsplit : 2 ^ m.bits = 2 ^ (m.bits - k) * 2 ^ k := by rw [← Nat.pow_add]; congr 1; omega
          have hq : 0 < 2 ^ (m.bits - k) := by positivity
          have hk' : 0 < 2 ^ k := by positivity
          apply Nat.div_eq_of_lt_le
          · rw [Nat.mul_comm, Nat.mul_sub, Nat.mul_one, ← hsplit]; omega
          · rw [Nat.mul_comm, Nat.sub_add_cancel hk', ← hsplit]; omega
        have hpat : ∀ v : Nat, v < 2 ^ m.bits → m.pattern (v : Int) = v := by
          intro v hv
          have : ((m.pattern (v : Int) : Nat) : Int) = (v : Int) := by
            rw [pattern_eq, two_pow_cast, ← Int.natCast_emod, Nat.mod_eq_of_lt hv]
          exact_mod_cast this
        rw [hmask]
        unfold irAnd
        have hkb : 2 ^ k ≤ 2 ^ m.bits := Nat.pow_le_pow_right (by omega) (by omega)
        rw [hpat n hn, hpat _ (by omega), Nat.and_two_pow_sub_one_eq_mod]
        exact congrArg some (wrap_nat hs hb (Nat.lt_of_le_of_lt (Nat.mod_le _ _) hn))

/-- -7 / -4 = 1, and the most negative value divided by itself -/
example : transformDiv ⟨true, 32, 32⟩ false false (-4) (-7) = some (some 1) ∧
    transformDiv ⟨true, 8, 32⟩ false false (-128) (-128) = some (some 1) ∧ replaceMod ⟨true, 8, 32⟩ false (-128) (-127) = some (some (-127)) := by
  decide +kernel

/-- a wrong claim of "no remainder" gives a wrong quotient: the hypothesis is needed -/
example : transformDiv ⟨true, 32, 32⟩ false true 4 (-7) = some (some (-2)) ∧ irDiv ⟨true, 32, 32⟩ (-7) 4 = -1 := by decide +kernel

end Verif.Props
