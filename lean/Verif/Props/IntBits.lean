import Verif.Props.IntShift
import Verif.Props.IntCmp
/-!
# C15, C16: bit queries and byte extraction

`pbit n x i` is bit `i` of the `n`-bit pattern of `x`.
-/
namespace Verif.Props
open Verif.Spec Verif.Model

/-- Bit `i` of the `n`-bit pattern of `x`: positions `≥ n` read as zero. -/
def pbit (n : Nat) (x : Int) (i : Nat) : Bool := decide (i < n) && ibit x i

/-! ## popcount -/

theorem bytePop_eq (w : Nat) : bytePop w = (List.range 8).countP (fun i => w.testBit i) := by
  unfold bytePop; rw [List.countP_eq_length_filter]

theorem countP_range_add (n k : Nat) (f : Nat → Bool) :
    (List.range (n + k)).countP f = (List.range n).countP f + (List.range k).countP (fun i => f (n + i)) := by
  rw [List.range_add, List.countP_append, List.countP_map]
  rfl

theorem countP_congr_range {n : Nat} {f g : Nat → Bool} (h : ∀ i, i < n → f i = g i) :
    (List.range n).countP f = (List.range n).countP g := by
  apply List.countP_congr
  intro i hi
  rw [h i (List.mem_range.1 hi)]

theorem popcount_words {v : List Nat} (h : Bytes v) (k : Nat) (hk : k ≤ v.length) :
    ((v.take k).map bytePop).sum = (List.range (8 * k)).countP (fun i => (value v).testBit i) := by
  induction k with
  | zero => simp
  | succ k ih =>
    rw [show 8 * (k + 1) = 8 * k + 8 by ring, countP_range_add, ← ih (by omega), List.take_succ_eq_append_getElem (by omega),
      List.map_append, List.sum_append]
    congr 1
    simp only [List.map_cons, List.map_nil, List.sum_cons, List.sum_nil, Nat.add_zero]
    rw [bytePop_eq]
    apply countP_congr_range
    intro i hi
    rw [testBit_value h, show (8 * k + i) / 8 = k by omega, show (8 * k + i) % 8 = i by omega,
      List.getD_eq_getElem?_getD, List.getElem?_eq_getElem (by omega), Option.getD_some]

theorem scPopcount_eq {v : List Nat} (h : Bytes v) {n : Nat} (hn : n ≤ 8 * v.length) :
    scPopcount v n = (List.range n).countP (fun i => (value v).testBit i) := by
  have hsplit : n = 8 * (n / 8) + n % 8 := by omega
  have hc : (List.range n).countP (fun i => (value v).testBit i) =
      (List.range (8 * (n / 8))).countP (fun i => (value v).testBit i) +
      (List.range (n % 8)).countP (fun i => (v.getD (n / 8) 0).testBit i) := by
    conv_lhs => rw [hsplit]
    rw [countP_range_add]
    congr 1
    apply countP_congr_range
    intro i hi
    rw [testBit_value h, show (8 * (n / 8) + i) / 8 = n / 8 by omega, show (8 * (n / 8) + i) % 8 = i by omega]
  rw [hc]
  unfold scPopcount
  simp only
  rw [popcount_words h _ (by omega)]
  split
  · congr 1
    rw [bytePop_eq]
    rw [show List.range 8 = List.range (n % 8 + (8 - n % 8)) by congr 1; omega, countP_range_add]
    have z : (List.range (8 - n % 8)).countP (fun i => (v.getD (n / 8) 0 &&& maxDigit (n % 8)).testBit (n % 8 + i)) = 0 := by
      rw [List.countP_eq_zero]
      intro i _
      rw [Nat.testBit_and, maxDigit_testBit (by omega)]; simp
    rw [z, Nat.add_zero]
    apply countP_congr_range
    intro i hi
    rw [Nat.testBit_and, maxDigit_testBit (by omega)]; simp [hi]
  · next hz =>
    have : n % 8 = 0 := by omega
    rw [this]; simp

/-- C15: `get_tarval_popcount` counts the one bits of the pattern. -/
theorem tarval_popcount_spec {E : TvEnv} {a : TarVal} {md : Mode} {x : Int} (ha : Denotes E a md x) :
    getTarvalPopcount a = some ((List.range md.bits).countP (fun i => ibit x i)) := by
  have ok := ha.ok
  have hlt := modeOk_lt ok
  obtain ⟨p, rfl, lp, bp, sp⟩ := ha.repr
  unfold getTarvalPopcount
  simp only [ok.twos, if_true]
  rw [scPopcount_eq bp (by omega)]
  congr 1
  apply countP_congr_range
  intro i hi
  rw [← sp, ibit_of_buf ok lp bp hi]

/-! ## C16: bytes of the pattern -/

theorem subBits_testBit {E : TvEnv} {md : Mode} {p : List Nat} {x : Int} (ha : Denotes E (.int md p) md x) (h8 : md.bits % 8 = 0)
    (k i : Nat) (hi : i < 8) : (scSubBits p md.bits k).testBit i = pbit md.bits x (8 * k + i) := by
  have ok := ha.ok
  have hlt := modeOk_lt ok
  obtain ⟨p', e, lp, bp, sp⟩ := ha.repr
  cases e
  unfold scSubBits pbit
  split
  · next h =>
    have : ¬ 8 * k + i < md.bits := by omega
    simp [this]
  · next h =>
    have hk : 8 * k + i < md.bits := by omega
    simp only [h8, ne_eq, not_true_eq_false, if_false, ite_self, hk, decide_true, Bool.true_and]
    rw [← sp, ibit_of_buf ok lp bp hk, testBit_value bp, show (8 * k + i) / 8 = k by omega, show (8 * k + i) % 8 = i by omega]

/-- C16: byte `k` of the pattern. Partial: for sizes that are not a multiple
of eight see `sub_bits_odd_size_wrong`. -/
theorem tarval_sub_bits_partial {E : TvEnv} {a : TarVal} {md : Mode} {x : Int} (ha : Denotes E a md x) (h8 : md.bits % 8 = 0) (k : Nat) :
    ∃ v, getTarvalSubBits a k = some v ∧ v < 256 ∧ ∀ i, i < 8 → v.testBit i = pbit md.bits x (8 * k + i) := by
  obtain ⟨p, rfl, lp, bp, sp⟩ := ha.repr
  refine ⟨scSubBits p md.bits k, by unfold getTarvalSubBits; simp only [ha.ok.twos, if_true], ?_, fun i hi => subBits_testBit ha h8 k i hi⟩
  unfold scSubBits
  split
  · decide
  · simp only
    split
    · split
      · exact and_lt256 _ _ (bp.getD k)
      · exact bp.getD k
    · exact bp.getD k

/-- Finding: for the value `-1` of a signed 12-bit mode, byte 1 must be `0x0f`
but `sc_sub_bits` returns `0xff`, and byte 0 must be `0xff` but is `0x0f`:
the mask is applied to byte `len/8 - 1` instead of `len/8` (strcalc.c:574). -/
theorem sub_bits_odd_size_wrong :
    (newTarvalFromLong TvEnv.default (-1) ⟨40, .intNumber, 12, true, 12⟩).bind (fun t => getTarvalSubBits t 0) = some 15 ∧
    (newTarvalFromLong TvEnv.default (-1) ⟨40, .intNumber, 12, true, 12⟩).bind (fun t => getTarvalSubBits t 1) = some 255 := by
  decide +kernel

/-! ## highest, lowest bit -/

theorem byteLow_spec (f w : Nat) (hw : w ≠ 0) (hlt : w < 2 ^ f) :
    w.testBit (byteLow f w) = true ∧ ∀ j, j < byteLow f w → w.testBit j = false := by
  induction f generalizing w with
  | zero => simp at hlt; omega
  | succ f ih =>
    unfold byteLow
    by_cases h0 : w.testBit 0 = true
    · rw [if_pos h0]; exact ⟨h0, fun j hj => by omega⟩
    · rw [if_neg h0]
      have he : w % 2 = 0 := by
        rw [Nat.testBit_zero] at h0; simp at h0; omega
      have := ih (w / 2) (by omega) (by rw [Nat.pow_succ] at hlt; omega)
      rw [Nat.testBit_add_one]
      refine ⟨this.1, fun j hj => ?_⟩
      cases j with
      | zero => simpa using h0
      | succ j => rw [Nat.testBit_add_one]; exact this.2 j (by omega)

theorem testBit_log2 {w : Nat} (hw : w ≠ 0) : w.testBit (Nat.log2 w) = true ∧ ∀ j, Nat.log2 w < j → w.testBit j = false := by
  obtain ⟨h1, h2⟩ := log2_bounds hw
  constructor
  · rw [Nat.testBit_eq_decide_div_mod_eq]
    have : w / 2 ^ Nat.log2 w = 1 := by
      apply Nat.div_eq_of_lt_le <;> rw [Nat.pow_succ] at * <;> omega
    rw [this]; rfl
  · intro j hj
    apply Nat.testBit_lt_two_pow
    exact lt_of_lt_of_le h2 (Nat.pow_le_pow_right (by decide) hj)

theorem byte_zero_bits {w : Nat} (hw : w < 256) : w = 0 ↔ ∀ i, i < 8 → w.testBit i = false := by
  constructor
  · intro h i _; rw [h]; simp
  · intro h
    apply Nat.eq_of_testBit_eq
    intro i
    rw [Nat.zero_testBit]
    by_cases hi : i < 8
    · exact h i hi
    · exact testBit_byte_ge hw (by omega)

/-- Specification of "lowest one bit": `r` is `-1` if there is none below `n`,
else the least position. -/
def IsLowest (f : Nat → Bool) (n : Nat) (r : Int) : Prop :=
  (r = -1 ∧ ∀ i, i < n → f i = false) ∨ ∃ k : Nat, r = k ∧ k < n ∧ f k = true ∧ ∀ i, i < k → f i = false

/-- Specification of "highest one bit". -/
def IsHighest (f : Nat → Bool) (n : Nat) (r : Int) : Prop :=
  (r = -1 ∧ ∀ i, i < n → f i = false) ∨ ∃ k : Nat, r = k ∧ k < n ∧ f k = true ∧ ∀ i, k < i → i < n → f i = false

section
variable {E : TvEnv} {md : Mode} {p : List Nat} {x : Int}

theorem subBits_lt (ha : Denotes E (.int md p) md x) (k : Nat) : scSubBits p md.bits k < 256 := by
  obtain ⟨p', e, lp, bp, sp⟩ := ha.repr
  cases e
  unfold scSubBits
  split
  · decide
  · simp only
    split
    · split
      · exact and_lt256 _ _ (bp.getD k)
      · exact bp.getD k
    · exact bp.getD k

theorem lowestLoop_spec (ha : Denotes E (.int md p) md x) (h8 : md.bits % 8 = 0) :
    ∀ fuel i, i + fuel = md.bits / 8 → (∀ j, j < 8 * i → ibit x j = false) →
      IsLowest (ibit x) md.bits (lowestBitLoop p md.bits fuel i) := by
  intro fuel
  induction fuel with
  | zero =>
    intro i hi hz
    left
    exact ⟨rfl, fun j hj => hz j (by omega)⟩
  | succ fuel ih =>
    intro i hi hz
    unfold lowestBitLoop
    have hw := subBits_lt ha i
    have hb := subBits_testBit ha h8 i
    have hbit : ∀ j, j < 8 → (scSubBits p md.bits i).testBit j = ibit x (8 * i + j) := by
      intro j hj; rw [hb j hj]; unfold pbit; simp [show 8 * i + j < md.bits by omega]
    by_cases h0 : scSubBits p md.bits i = 0
    · simp only [h0, ne_eq, not_true_eq_false, if_false]
      apply ih (i + 1) (by omega)
      intro j hj
      by_cases hj2 : j < 8 * i
      · exact hz j hj2
      · have := hbit (j - 8 * i) (by omega)
        rw [h0, Nat.zero_testBit, show 8 * i + (j - 8 * i) = j by omega] at this
        exact this.symm
    · simp only [ne_eq, h0, not_false_eq_true, if_true]
      obtain ⟨g1, g2⟩ := byteLow_spec 8 _ h0 hw
      have hlt : byteLow 8 (scSubBits p md.bits i) < 8 := by
        by_contra hc
        rw [testBit_byte_ge hw (by omega)] at g1; cases g1
      right
      refine ⟨_, rfl, by omega, ?_, fun j hj => ?_⟩
      · rw [← g1, hbit _ hlt]; congr 1; omega
      · by_cases hj2 : j < 8 * i
        · exact hz j hj2
        · rw [show j = 8 * i + (j - 8 * i) by omega, ← hbit _ (by omega)]
          exact g2 _ (by omega)

theorem highestLoop_spec (ha : Denotes E (.int md p) md x) (h8 : md.bits % 8 = 0) :
    ∀ n, n ≤ md.bits / 8 → (∀ j, 8 * n ≤ j → j < md.bits → ibit x j = false) →
      IsHighest (ibit x) md.bits (highestBitLoop p md.bits n) := by
  intro n
  induction n with
  | zero =>
    intro _ hz
    left
    exact ⟨rfl, fun j hj => hz j (by omega) hj⟩
  | succ i ih =>
    intro hi hz
    unfold highestBitLoop
    have hw := subBits_lt ha i
    have hb := subBits_testBit ha h8 i
    have hbit : ∀ j, j < 8 → (scSubBits p md.bits i).testBit j = ibit x (8 * i + j) := by
      intro j hj; rw [hb j hj]; unfold pbit; simp [show 8 * i + j < md.bits by omega]
    by_cases h0 : scSubBits p md.bits i = 0
    · simp only [h0, ne_eq, not_true_eq_false, if_false]
      apply ih (by omega)
      intro j hj hjn
      by_cases hj2 : 8 * (i + 1) ≤ j
      · exact hz j hj2 hjn
      · have := hbit (j - 8 * i) (by omega)
        rw [h0, Nat.zero_testBit, show 8 * i + (j - 8 * i) = j by omega] at this
        exact this.symm
    · simp only [ne_eq, h0, not_false_eq_true, if_true]
      obtain ⟨g1, g2⟩ := testBit_log2 h0
      have hlt : byteHigh (scSubBits p md.bits i) < 8 := by
        by_contra hc
        unfold byteHigh at hc
        rw [testBit_byte_ge hw (by omega)] at g1; cases g1
      unfold byteHigh at hlt ⊢
      right
      refine ⟨_, rfl, by omega, ?_, fun j hj hjn => ?_⟩
      · rw [← g1, hbit _ hlt]; congr 1; omega
      · by_cases hj2 : 8 * (i + 1) ≤ j
        · exact hz j hj2 hjn
        · rw [show j = 8 * i + (j - 8 * i) by omega, ← hbit _ (by omega)]
          exact g2 _ (by omega)
end

/-- C15: `get_tarval_lowest_bit`. Partial: sizes that are a multiple of eight. -/
theorem tarval_lowest_bit_partial {E : TvEnv} {a : TarVal} {md : Mode} {x : Int} (ha : Denotes E a md x) (h8 : md.bits % 8 = 0) :
    ∃ r, getTarvalLowestBit a = some r ∧ IsLowest (ibit x) md.bits r := by
  obtain ⟨p, rfl, lp, bp, sp⟩ := ha.repr
  refine ⟨_, by unfold getTarvalLowestBit; simp only [ha.ok.twos, if_true, h8, ne_eq, not_true_eq_false, if_false]; rfl, ?_⟩
  apply lowestLoop_spec ha h8
  · unfold Mode.sizeBytes; simp [h8]
  · intro j hj; omega

/-- C15: `get_tarval_highest_bit`. Partial: sizes that are a multiple of eight. -/
theorem tarval_highest_bit_partial {E : TvEnv} {a : TarVal} {md : Mode} {x : Int} (ha : Denotes E a md x) (h8 : md.bits % 8 = 0) :
    ∃ r, getTarvalHighestBit a = some r ∧ IsHighest (ibit x) md.bits r := by
  obtain ⟨p, rfl, lp, bp, sp⟩ := ha.repr
  refine ⟨_, by unfold getTarvalHighestBit; simp only [ha.ok.twos, if_true, h8, ne_eq, not_true_eq_false, if_false]; rfl, ?_⟩
  apply highestLoop_spec ha h8
  · unfold Mode.sizeBytes; simp [h8]
  · unfold Mode.sizeBytes; simp only [h8, ne_eq, not_true_eq_false, if_false]; intro j hj hj2; omega

/-- Finding: for a 12-bit mode both queries answer `-1` for the value 1,
because `get_mode_size_bytes` is `-1` for such modes. -/
theorem lowest_bit_odd_size_wrong :
    (newTarvalFromLong TvEnv.default 1 ⟨40, .intNumber, 12, true, 12⟩).bind getTarvalLowestBit = some (-1) ∧
    (newTarvalFromLong TvEnv.default 1 ⟨40, .intNumber, 12, true, 12⟩).bind getTarvalHighestBit = some (-1) := by
  decide +kernel

/-! ## the predicates -/

/-- C15: `tarval_is_null`, `tarval_is_one`, `tarval_is_all_one`. -/
theorem tarval_is_null_spec {E : TvEnv} {a : TarVal} {md : Mode} {x : Int} (ha : Denotes E a md x) :
    (tarvalIsNull E a = true ↔ x = 0) ∧ ((md.signed = true → 2 ≤ md.bits) → (tarvalIsOne E a = true ↔ x = 1)) ∧
    (tarvalIsAllOne E a = true ↔ ∀ i, i < md.bits → ibit x i = true) := by
  obtain ⟨h0, h1, z, hz, hzb⟩ := mode_null_one_spec (E := E) ha.ok
  have hne : a ≠ .bad := by obtain ⟨p, rfl, _⟩ := ha.repr; simp
  have hmode : a.mode = md := by obtain ⟨p, rfl, _⟩ := ha.repr; rfl
  have heq : ∀ {t : TarVal} {y : Int}, Denotes E t md y → (a = t ↔ x = y) := by
    intro t y ht
    exact ⟨fun e => by rw [e] at ha; exact denotes_fun ha ht, fun e => by rw [e] at ha; exact denotes_unique ha ht⟩
  unfold tarvalIsNull tarvalIsOne tarvalIsAllOne
  simp only [hmode, hne, ne_eq, not_false_eq_true, and_true, decide_eq_true_eq]
  refine ⟨heq h0, fun h2 => heq (h1 h2), ?_⟩
  rw [heq hz]
  constructor
  · intro e; rw [e]; exact hzb
  · intro h
    apply inRange_inj ha.ok.pos ha.inRange hz.inRange
    apply emod_eq_of_ibit
    intro i hi
    rw [h i hi, hzb i hi]

/-! ## magnitude (C57) -/

/-- `x` (the signed reading) is reconstructed from its low `k` bits by sign extension. -/
def SignExtends (k : Nat) (x : Int) : Prop := 1 ≤ k ∧ -2 ^ (k - 1) ≤ x ∧ x < 2 ^ (k - 1)

theorem ediv_pow_eq_of_bits {n t : Nat} (hn : 0 < n) {x : Int} (h : ∀ i, t ≤ i → i < n → ibit x i = ibit x (n - 1)) :
    wrap true n x / 2 ^ t = if ibit x (n - 1) then -1 else 0 := by
  apply ibit_ext
  intro i
  rw [ibit_floor_shift hn]
  have hc : ibit x (min (i + t) (n - 1)) = ibit x (n - 1) := by
    by_cases hi : i + t < n
    · rw [Nat.min_eq_left (by omega)]; exact h _ (by omega) hi
    · rw [Nat.min_eq_right (by omega)]
  rw [hc]
  cases ibit x (n - 1) with
  | true => rw [if_pos rfl, ibit_ge_neg (by decide) (by have : (0:Int) < 2 ^ i := by positivity
                                                        omega)]
  | false => rw [if_neg (by decide), ibit_ge_nonneg (by decide) (by positivity)]

theorem signExtends_of_bits {n t : Nat} (hn : 0 < n) {x : Int} (h : ∀ i, t ≤ i → i < n → ibit x i = ibit x (n - 1)) :
    SignExtends (t + 1) (wrap true n x) := by
  have hd := ediv_pow_eq_of_bits hn h
  have hp : (0:Int) < 2 ^ t := by positivity
  have h1 := Int.emod_nonneg (wrap true n x) (by omega : (2:Int) ^ t ≠ 0)
  have h2 := Int.emod_lt_of_pos (wrap true n x) hp
  have h3 := Int.emod_add_mul_ediv (wrap true n x) (2 ^ t)
  refine ⟨by omega, ?_⟩
  rw [Nat.add_sub_cancel]
  cases hb : ibit x (n - 1) with
  | true => rw [hb] at hd; simp only [if_true] at hd; rw [hd] at h3; constructor <;> omega
  | false => rw [hb] at hd; simp only [Bool.false_eq_true, if_false] at hd; rw [hd] at h3; constructor <;> omega

theorem not_signExtends_of_bit {n t : Nat} {x : Int} (ht : t < n) (h : ibit x t ≠ ibit x (n - 1)) {k : Nat} (hk : k < t + 2) :
    ¬ SignExtends k (wrap true n x) := by
  rintro ⟨h1, h2, h3⟩
  have hp : (2:Int) ^ (k - 1) ≤ 2 ^ t := pow_le_pow_right₀ (by decide) (by omega)
  have hp2 : (2:Int) ^ (k - 1) ≤ 2 ^ (n - 1) := pow_le_pow_right₀ (by decide) (by omega)
  rw [← ibit_wrap_lt (s := true) (b := n) (i := t) (by omega), ← ibit_wrap_lt (s := true) (b := n) (i := n - 1) (by omega)] at h
  apply h
  by_cases hn : wrap true n x < 0
  · rw [ibit_ge_neg hn (by omega), ibit_ge_neg hn (by omega)]
  · rw [ibit_ge_nonneg (by omega) (by omega), ibit_ge_nonneg (by omega) (by omega)]

theorem magnitudeLoop_spec {E : TvEnv} {md : Mode} {p : List Nat} {x : Int} (ha : Denotes E (.int md p) md x) (h8 : md.bits % 8 = 0) :
    ∀ n, n ≤ md.bits / 8 → (∀ j, 8 * n ≤ j → j < md.bits → ibit x j = ibit x (md.bits - 1)) →
      SignExtends (magnitudeLoop p md.bits (if ibit x (md.bits - 1) then 255 else 0) n) (wrap true md.bits x) ∧
      ∀ k, k < magnitudeLoop p md.bits (if ibit x (md.bits - 1) then 255 else 0) n → ¬ SignExtends k (wrap true md.bits x) := by
  have hpos := ha.ok.pos
  generalize hext : (if ibit x (md.bits - 1) = true then 255 else 0) = ext
  have hextb : ∀ j, j < 8 → ext.testBit j = ibit x (md.bits - 1) := by
    intro j hj; rw [← hext]
    cases ibit x (md.bits - 1)
    · simp
    · simp only [if_true]; rw [testBit_255]; simpa using hj
  have hextlt : ext < 256 := by rw [← hext]; split <;> decide
  intro n
  induction n with
  | zero =>
    intro _ hz
    unfold magnitudeLoop
    exact ⟨signExtends_of_bits (t := 0) hpos (fun j _ hj => hz j (by omega) hj), fun k hk h => by have := h.1; omega⟩
  | succ i ih =>
    intro hi hz
    unfold magnitudeLoop
    have hw := subBits_lt ha i
    have hb := subBits_testBit ha h8 i
    have hbit : ∀ j, j < 8 → (scSubBits p md.bits i).testBit j = ibit x (8 * i + j) := by
      intro j hj; rw [hb j hj]; unfold pbit; simp [show 8 * i + j < md.bits by omega]
    have hxlt : scSubBits p md.bits i ^^^ ext < 256 := xor_lt256 _ _ hw hextlt
    by_cases h0 : scSubBits p md.bits i = ext
    · simp only [h0, ne_eq, not_true_eq_false, if_false]
      apply ih (by omega)
      intro j hj hjn
      by_cases hj2 : 8 * (i + 1) ≤ j
      · exact hz j hj2 hjn
      · have := hbit (j - 8 * i) (by omega)
        rw [h0, hextb _ (by omega), show 8 * i + (j - 8 * i) = j by omega] at this
        exact this.symm
    · simp only [ne_eq, h0, not_false_eq_true, if_true]
      have hx0 : scSubBits p md.bits i ^^^ ext ≠ 0 := by
        intro h; exact h0 (by have h2 := congrArg (· ^^^ ext) h; simpa [Nat.xor_assoc] using h2)
      obtain ⟨g1, g2⟩ := testBit_log2 hx0
      generalize hL : Nat.log2 (scSubBits p md.bits i ^^^ ext) = L at *
      have hlt : L < 8 := by
        by_contra hc
        rw [testBit_byte_ge hxlt (by omega)] at g1; cases g1
      rw [Nat.testBit_xor, hbit _ hlt, hextb _ hlt] at g1
      have key := signExtends_of_bits (t := 8 * i + L + 1) hpos (x := x) (by
        intro j hj hjn
        by_cases hj2 : 8 * (i + 1) ≤ j
        · exact hz j hj2 hjn
        · have := g2 (j - 8 * i) (by omega)
          rw [Nat.testBit_xor, hbit _ (by omega), hextb _ (by omega), show 8 * i + (j - 8 * i) = j by omega] at this
          simpa using this)
      rw [show i * 8 + (L + 1) + 1 = 8 * i + L + 1 + 1 by ring]
      refine ⟨key, fun k hk => not_signExtends_of_bit (t := 8 * i + L) (by omega) ?_ (by omega)⟩
      intro h; rw [h] at g1; simp at g1

/-- C57: `get_tarval_magnitude` is the least number of bits from which the
value is reconstructed by sign extension. Partial: sizes that are a multiple of eight
(for others `get_mode_size_bytes` is `(unsigned)-1` and the loop starts there). -/
theorem tarval_magnitude_partial {E : TvEnv} {a : TarVal} {md : Mode} {x : Int} (ha : Denotes E a md x) (h8 : md.bits % 8 = 0) :
    ∃ k, getTarvalMagnitude a = some k ∧ SignExtends k (wrap true md.bits x) ∧ ∀ j, j < k → ¬ SignExtends j (wrap true md.bits x) := by
  have ok := ha.ok
  have hpos := ok.pos
  obtain ⟨p, rfl, lp, bp, sp⟩ := ha.repr
  refine ⟨_, by unfold getTarvalMagnitude; simp only [ha.ok.twos, h8, Bool.true_and, beq_self_eq_true, if_true]; rfl, ?_⟩
  have hbit : scGetBitAt p (md.bits - 1) = ibit x (md.bits - 1) := by
    rw [scGetBitAt_eq bp, ← sp, ibit_of_buf ok lp bp (by omega)]
  have hsz : md.sizeBytes = md.bits / 8 := by unfold Mode.sizeBytes; simp [h8]
  rw [hbit, hsz]
  exact magnitudeLoop_spec ha h8 _ (le_refl _) (fun j hj hj2 => by omega)

example : (newTarvalFromLong TvEnv.default (-129) modeIs).bind getTarvalMagnitude = some 9 := by decide +kernel

/-- non-vacuity -/
example : getTarvalPopcount (.int modeBu (200 :: scZero 33)) = some 3 ∧ getTarvalLowestBit (.int modeBu (200 :: scZero 33)) = some 3 ∧
    getTarvalHighestBit (.int modeBu (200 :: scZero 33)) = some 7 ∧ getTarvalSubBits (.int modeBu (200 :: scZero 33)) 0 = some 200 ∧
    tarvalIsNull TvEnv.default (.int modeBu (200 :: scZero 33)) = false := by decide +kernel

example : ∃ r, getTarvalHighestBit (.int modeBu (200 :: scZero 33)) = some r ∧ IsHighest (ibit 200) 8 r :=
  tarval_highest_bit_partial denotes_example (by decide)

/-- `sc_is_all_one`: the lowest `k` bits are all set -/
theorem sc_is_all_one_iff {v : List Nat} (h : Bytes v) {k : Nat} (hk : k ≤ 8 * v.length) :
    scIsAllOne v k = true ↔ ∀ i, i < k → (value v).testBit i = true := by
  unfold scIsAllOne
  simp only []
  have hm8 : k % 8 < 8 := by omega
  have hword := scWordsAre_iff 255 v (k := k / 8) (by omega)
  have hz : ∀ x : Nat, x < 256 → ((∀ j, j < 8 → x.testBit j = true) ↔ x = 255) := by
    intro x hx
    constructor
    · intro hj
      apply Nat.eq_of_testBit_eq
      intro j
      rw [show (255 : Nat) = 2 ^ 8 - 1 from rfl, Nat.testBit_two_pow_sub_one]
      by_cases h8 : j < 8
      · rw [hj j h8]; simp [h8]
      · rw [testBit_byte_ge hx (by omega)]; simp [h8]
    · rintro rfl j hj
      rw [show (255 : Nat) = 2 ^ 8 - 1 from rfl, Nat.testBit_two_pow_sub_one]; simp [hj]
  have hmask : (maxDigit (k % 8) == 0 || (v.getD (k / 8) 0 &&& maxDigit (k % 8)) == maxDigit (k % 8)) = true ↔
      ∀ j, j < k % 8 → (v.getD (k / 8) 0).testBit j = true := by
    have : (maxDigit (k % 8) == 0 || (v.getD (k / 8) 0 &&& maxDigit (k % 8)) == maxDigit (k % 8)) = true ↔
        (v.getD (k / 8) 0 &&& maxDigit (k % 8)) = maxDigit (k % 8) := by
      by_cases h0 : maxDigit (k % 8) = 0 <;> simp [h0]
    rw [this]
    constructor
    · intro hh j hj
      have := congrArg (fun w => Nat.testBit w j) hh
      simp only [Nat.testBit_and, maxDigit_testBit hm8] at this
      simpa [hj] using this
    · intro hh
      apply Nat.eq_of_testBit_eq
      intro j
      rw [Nat.testBit_and, maxDigit_testBit hm8]
      by_cases hjk : j < k % 8
      · rw [hh j hjk]; rfl
      · simp [hjk]
  by_cases hw : scWordsAre 255 v (k / 8) = true
  · rw [if_pos hw, hmask]
    rw [hword] at hw
    constructor
    · intro hh i hi
      rw [testBit_value h]
      by_cases hi8 : i / 8 < k / 8
      · rw [hw _ hi8]; exact (hz 255 (by omega)).2 rfl _ (by omega)
      · have : i / 8 = k / 8 := by omega
        rw [this]; exact hh _ (by omega)
    · intro hh j hj
      have := hh (8 * (k / 8) + j) (by omega)
      rw [testBit_value h] at this
      have e1 : (8 * (k / 8) + j) / 8 = k / 8 := by omega
      have e2 : (8 * (k / 8) + j) % 8 = j := by omega
      rwa [e1, e2] at this
  · rw [if_neg hw]
    rw [hword] at hw
    simp only [Bool.false_eq_true, false_iff]
    intro hh
    apply hw
    intro i hi
    rw [← hz _ (h.getD i)]
    intro j hj
    have := hh (8 * i + j) (by omega)
    rw [testBit_value h] at this
    have e1 : (8 * i + j) / 8 = i := by omega
    have e2 : (8 * i + j) % 8 = j := by omega
    rwa [e1, e2] at this

example : scIsAllOne [255, 7, 0] 11 = true ∧ scIsAllOne [255, 7, 0] 12 = false := by decide

theorem lowestLoop_bytes {v : List Nat} (h : Bytes v) (c : Nat) :
    (value v = 0 ∧ scLowestLoop v c = -1) ∨
    ∃ k : Nat, scLowestLoop v c = ((8 * c + k : Nat) : Int) ∧ (value v).testBit k = true ∧ ∀ j, j < k → (value v).testBit j = false := by
  induction v generalizing c with
  | nil => left; exact ⟨rfl, rfl⟩
  | cons w ws ih =>
    have hw : w < 256 := h w (by simp)
    have hbs : Bytes ws := fun x hx => h x (by simp [hx])
    unfold scLowestLoop
    by_cases h0 : w ≠ 0
    · rw [if_pos h0]
      right
      obtain ⟨h1, h2⟩ := byteLow_spec 8 w h0 hw
      have hl : byteLow 8 w < 8 := by
        apply Classical.byContradiction; intro hc
        rw [testBit_byte_ge hw (by omega)] at h1; cases h1
      refine ⟨byteLow 8 w, by congr 1; omega, ?_, fun j hj => ?_⟩
      · rw [testBit_value h, show byteLow 8 w / 8 = 0 by omega, show byteLow 8 w % 8 = byteLow 8 w by omega]; exact h1
      · rw [testBit_value h, show j / 8 = 0 by omega, show j % 8 = j by omega]; exact h2 j hj
    · rw [if_neg h0]
      have w0 : w = 0 := by omega
      subst w0
      rcases ih hbs (c + 1) with ⟨h1, h2⟩ | ⟨k, h1, h2, h3⟩
      · left; exact ⟨by simp [value, h1], h2⟩
      · right
        refine ⟨8 + k, by rw [h1]; congr 1; omega, ?_, fun j hj => ?_⟩
        · rw [testBit_value h, show (8 + k) / 8 = k / 8 + 1 by omega, show (8 + k) % 8 = k % 8 by omega]
          rw [testBit_value hbs] at h2; exact h2
        · rw [testBit_value h]
          by_cases hj8 : j < 8
          · rw [show j / 8 = 0 by omega]; simp
          · have := h3 (j - 8) (by omega)
            rw [testBit_value hbs] at this
            rw [show j / 8 = (j - 8) / 8 + 1 by omega, show j % 8 = (j - 8) % 8 by omega]; exact this

/-- `sc_get_lowest_set_bit`: `-1` for zero, else the position of the lowest set bit -/
theorem sc_lowest_set_bit_spec {v : List Nat} (h : Bytes v) :
    (value v = 0 ∧ scLowestSetBit v = -1) ∨
    ∃ k : Nat, scLowestSetBit v = k ∧ (value v).testBit k = true ∧ ∀ j, j < k → (value v).testBit j = false := by
  have := lowestLoop_bytes h 0
  simpa [scLowestSetBit] using this

example : scLowestSetBit [0, 8, 255] = 11 := by decide

/-- `tarval_is_uint64`: modes of at most eight bytes, and the values of wider modes below `2^64` (also all negative ones) -/
theorem tarval_is_uint64_iff {E : TvEnv} (env : EnvOk E) {a : TarVal} {md : Mode} {x : Int} (ha : Denotes E a md x) :
    tarvalIsUint64 E a = true ↔ md.sizeBytes ≤ 8 ∨ x < 2 ^ 64 := by
  have hm : 5 ≤ E.m := env
  have htw : md.twos = true := ha.ok.twos
  obtain ⟨p, rfl, lp, bp, sp⟩ := ha.repr
  unfold tarvalIsUint64
  simp only [htw, Bool.not_true, Bool.false_eq_true, if_false]
  by_cases h8 : md.sizeBytes ≤ 8
  · rw [if_pos h8]; simp [h8]
  · rw [if_neg h8]
    have l1 := scMaxFromBits_length (2 * E.m) 64 false
    have b1 := scMaxFromBits_bytes (2 * E.m) 64 false
    have v1 := scMaxFromBits_value (n := 2 * E.m) (k := 64) (s := false) (by omega)
    have hbig : 2 ^ 64 ≤ 2 ^ (8 * (2 * E.m) - 1) := Nat.pow_le_pow_right (by decide) (by omega)
    have s1 : svalue (scMaxFromBits (2 * E.m) 64 false) = 2 ^ 64 - 1 := by
      rw [svalue_of_nonneg (by omega) (by rw [v1, l1]; simp; omega), v1]; rfl
    rw [scComp_eq (by omega) bp b1 (by omega), sp, s1]
    simp only [h8, false_or]
    by_cases e1 : x = 2 ^ 64 - 1
    · rw [if_pos e1]; simp only [decide_eq_true_eq]; constructor
      · intro _; omega
      · intro _; decide
    · rw [if_neg e1]
      by_cases e2 : x > 2 ^ 64 - 1
      · rw [if_pos e2]; simp only [decide_eq_true_eq]; constructor
        · intro h; exact absurd h (by decide)
        · intro _; omega
      · rw [if_neg e2]; simp only [decide_eq_true_eq]; constructor
        · intro _; omega
        · intro _; decide

end Verif.Props
