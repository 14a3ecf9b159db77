import Verif.Model.UpperBits
/-! # Lemmas about narrow integers in registers -/
namespace Verif.Lemmas.UpperBits
open Verif.Spec.NarrowIR Verif.Model.UpperBits

theorem ext_congr {m : Mode} {x y : BitVec 32} (h : x.setWidth m.bits = y.setWidth m.bits) :
    ext m x = ext m y := by simp [ext, h]

theorem low_ext (m : Mode) (x : BitVec 32) (n : Nat) (h : n ≤ m.bits) (hm : m.bits ≤ 32) :
    (ext m x).setWidth n = x.setWidth n := by
  unfold ext
  split
  · ext i hi
    have h1 : i < m.bits := by omega
    simp [BitVec.getElem_setWidth, BitVec.getLsbD_signExtend, BitVec.getLsbD_setWidth, h1]
    omega
  · ext i hi
    have h1 : i < m.bits := by omega
    simp [BitVec.getElem_setWidth, BitVec.getLsbD_setWidth, h1]
    intro; omega

theorem ext_32 (m : Mode) (x : BitVec 32) (h : m.bits = 32) : ext m x = x := by
  obtain ⟨s, b⟩ := m
  simp only at h
  subst h
  simp [ext]

theorem ext_ext (m : Mode) (x : BitVec 32) (hm : m.bits ≤ 32) : ext m (ext m x) = ext m x :=
  ext_congr (low_ext m x _ (Nat.le_refl _) hm)

theorem low_le {x y : BitVec 32} {n k : Nat} (h : x.setWidth n = y.setWidth n) (hk : k ≤ n) :
    x.setWidth k = y.setWidth k := by
  ext i hi
  have := congrArg (fun z => z.getLsbD i) h
  simp only [BitVec.getLsbD_setWidth] at this
  have h1 : i < n := by omega
  simpa [BitVec.getElem_setWidth, h1] using this

theorem toNat_mod_of_low {x y : BitVec 32} {n : Nat} (h : x.setWidth n = y.setWidth n) (hn : 5 ≤ n) :
    x.toNat % 32 = y.toNat % 32 := by
  have := congrArg BitVec.toNat (low_le h hn)
  simpa [BitVec.toNat_setWidth] using this

/-! ### Skipping conversions -/

theorem clean_skip (many : Node → Bool) (a : Node) (m : Mode) :
    clean (skipDownconv many a) m = clean a m := by
  induction a with
  | conv dest a ih =>
    simp only [skipDownconv]
    split
    · rfl
    · split
      · rfl
      · rename_i h
        have h' : a.mode.bits ≥ dest.bits := by omega
        rw [ih]
        simp [clean, h']
  | _ => rfl

theorem clean_skipSame (many : Node → Bool) (a : Node) (m : Mode) :
    clean (skipSameconv many a) m = clean a m := by
  induction a with
  | conv dest a ih =>
    simp only [skipSameconv]
    split
    · rfl
    · split
      · rfl
      · rename_i h
        have h' : a.mode.bits ≥ dest.bits := by simp at h; omega
        rw [ih]
        simp [clean, h']
  | _ => rfl

theorem reg_skipDownconv (many : Node → Bool) (a : Node) :
    reg many (skipDownconv many a) = reg many a := by
  induction a with
  | conv dest a ih =>
    simp only [skipDownconv]
    split
    · rfl
    · split
      · rfl
      · rename_i h
        have h' : a.mode.bits ≥ dest.bits := by omega
        rw [ih]
        simp [reg, regs, h']
  | _ => rfl

theorem mode_skipSame (many : Node → Bool) (a : Node) :
    (skipSameconv many a).mode.bits = a.mode.bits := by
  induction a with
  | conv dest a ih =>
    simp only [skipSameconv]
    split
    · rfl
    · split
      · rfl
      · rename_i h
        rw [ih]
        simp at h
        simp [Node.mode, h]
  | _ => rfl

/-- A shift to the left found below conversions of the same width. -/
theorem skipSame_shl (many : Node → Bool) (a : Node) {m : Mode} {x k : Node}
    (h : skipSameconv many a = .shl m x k) (hw : wf a = true) (hg : good a = true) :
    (regs many a).left = reg many x ∧ sizeOf x < sizeOf a ∧ sizeOf k < sizeOf a ∧ wf x = true
      ∧ wf k = true ∧ good x = true ∧ good k = true ∧ x.mode.bits = a.mode.bits
      ∧ m.bits = a.mode.bits ∧ shifted a = some x
      ∧ (eval a).setWidth m.bits
          = (eval x <<< ((eval k).toNat % 32)).setWidth m.bits := by
  induction a with
  | conv dest a ih =>
    simp only [skipSameconv] at h
    split at h
    · simp at h
    · split at h
      · simp at h
      · rename_i hb
        simp at hb
        simp only [wf, good, Bool.and_eq_true] at hw hg
        obtain ⟨h1, h2, h3, h4, h5, h6, h7, h8, h9, h10, h11⟩ := ih h hw.2 hg.1
        refine ⟨by simpa [regs] using h1, by simp; omega, by simp; omega, h4, h5, h6, h7,
          h8.trans hb.symm, h9.trans hb.symm, by simpa [shifted] using h10, ?_⟩
        rw [← h11]
        simp only [eval]
        refine low_ext dest _ _ (by omega) ?_
        have := hw.1
        simp [Mode.ok] at this
        omega
  | shl m' a' k' =>
    simp only [skipSameconv, Node.shl.injEq] at h
    obtain ⟨rfl, rfl, rfl⟩ := h
    simp only [wf, good, Bool.and_eq_true, beq_iff_eq] at hw hg
    refine ⟨rfl, by simp; omega, by simp; omega, hw.1.1.2, hw.1.2, hg.1, hg.2, hw.2, rfl, rfl, ?_⟩
    simp only [eval]
    refine low_ext m' _ _ (Nat.le_refl _) ?_
    have := hw.1.1.1
    simp [Mode.ok] at this
    omega
  | _ => simp [skipSameconv] at h

theorem i2i_eq (many : Node → Bool) (src : Mode) (a : Node) (r : BitVec 32)
    (h : clean a src = true → r = ext src r) : i2i many src a r = ext src r := by
  unfold i2i
  rw [clean_skip]
  split
  · rename_i hc
    exact h hc
  · rfl

/-! ### Clean registers -/

theorem clean_unsigned {n : Nat} {x : BitVec 32} (hn : n ≤ 32) :
    x = ext ⟨false, n⟩ x ↔ x.toNat < 2 ^ n := by
  have hp : 2 ^ n ≤ 2 ^ 32 := Nat.pow_le_pow_right (by decide) hn
  have hpos : 0 < 2 ^ n := Nat.pow_pos (by decide)
  simp only [ext, Bool.false_eq_true, if_false]
  rw [← BitVec.toNat_inj]
  simp only [BitVec.toNat_setWidth]
  have h1 : x.toNat % 2 ^ n < 2 ^ n := Nat.mod_lt _ hpos
  rw [Nat.mod_eq_of_lt (Nat.lt_of_lt_of_le h1 hp)]
  constructor
  · intro h; omega
  · intro h; exact (Nat.mod_eq_of_lt h).symm

theorem clean_signed {n : Nat} {x : BitVec 32} (h0 : 0 < n) (hn : n ≤ 32) :
    x = ext ⟨true, n⟩ x ↔ -2 ^ (n - 1) ≤ x.toInt ∧ x.toInt < 2 ^ (n - 1) := by
  simp only [ext, if_true]
  rw [← BitVec.toInt_inj, BitVec.toInt_signExtend_of_le hn]
  have hr1 := BitVec.le_toInt (x.setWidth n)
  have hr2 := BitVec.toInt_lt (x := x.setWidth n)
  constructor
  · intro h
    rw [h]
    exact ⟨hr1, hr2⟩
  · rintro ⟨h1, h2⟩
    rw [BitVec.toInt_setWidth]
    have e : (x.toNat : Int).bmod (2 ^ n) = x.toInt.bmod (2 ^ n) := by
      rw [BitVec.toInt_eq_toNat_bmod]
      rw [Int.bmod_bmod_of_dvd]
      exact_mod_cast Nat.pow_dvd_pow 2 hn
    rw [e]
    have hp : ((2 ^ n : Nat) : Int) = 2 * 2 ^ (n - 1) := by
      obtain ⟨k, rfl⟩ : ∃ k, n = k + 1 := ⟨n - 1, by omega⟩
      simp [Int.pow_succ]
      omega
    rw [Int.bmod_eq_of_le] <;> omega

/-- Clean registers are those which equal the extension of their low bits. -/
def Clean (m : Mode) (x : BitVec 32) : Prop := x = ext m x

theorem clean_congr_and {m : Mode} {x y : BitVec 32} (hx : Clean m x) (hy : Clean m y) :
    Clean m (x &&& y) := by
  unfold Clean at *
  have : ext m (x &&& y) = ext m x &&& ext m y := by
    unfold ext; split <;> simp
  rw [this, ← hx, ← hy]

theorem clean_congr_or {m : Mode} {x y : BitVec 32} (hx : Clean m x) (hy : Clean m y) :
    Clean m (x ||| y) := by
  unfold Clean at *
  have : ext m (x ||| y) = ext m x ||| ext m y := by
    unfold ext; split <;> simp
  rw [this, ← hx, ← hy]

theorem clean_congr_xor {m : Mode} {x y : BitVec 32} (hx : Clean m x) (hy : Clean m y) :
    Clean m (x ^^^ y) := by
  unfold Clean at *
  have : ext m (x ^^^ y) = ext m x ^^^ ext m y := by
    unfold ext; split <;> simp
  rw [this, ← hx, ← hy]

theorem clean_and_left {n : Nat} {x : BitVec 32} (hn : n ≤ 32) (hx : Clean ⟨false, n⟩ x)
    (y : BitVec 32) : Clean ⟨false, n⟩ (x &&& y) := by
  unfold Clean at *
  rw [clean_unsigned hn] at *
  rw [BitVec.toNat_and]
  exact Nat.lt_of_le_of_lt Nat.and_le_left hx

theorem clean_and_right {n : Nat} {x : BitVec 32} (hn : n ≤ 32) (hx : Clean ⟨false, n⟩ x)
    (y : BitVec 32) : Clean ⟨false, n⟩ (y &&& x) := by
  rw [BitVec.and_comm]
  exact clean_and_left hn hx y

theorem clean_of_narrow {m l : Mode} {x : BitVec 32} (h0 : 0 < l.bits) (hl : l.bits ≤ m.bits)
    (hm : m.bits ≤ 32) (hs : l.signed = m.signed) (h : Clean l x) : Clean m x := by
  obtain ⟨s, n⟩ := l
  obtain ⟨s', k⟩ := m
  simp only at *
  subst hs
  unfold Clean at *
  cases s
  · rw [clean_unsigned (by omega)] at *
    exact Nat.lt_of_lt_of_le h (Nat.pow_le_pow_right (by decide) hl)
  · rw [clean_signed (by omega) (by omega)] at *
    have : (2 : Int) ^ (n - 1) ≤ 2 ^ (k - 1) := by
      exact_mod_cast Nat.pow_le_pow_right (by decide : 0 < 2) (by omega : n - 1 ≤ k - 1)
    omega

theorem clean_const {v : Int} {m cm : Mode} (h0 : 0 < m.bits) (hm : m.bits ≤ 32)
    (hc : cm.ok = true) (hv : cm.has v = true) (h : constClean v m = true) :
    Clean m (BitVec.ofInt 32 v) := by
  obtain ⟨s, n⟩ := m
  simp only at *
  have hb : -2 ^ 31 ≤ v ∧ v < 2 ^ 32 := by
    obtain ⟨t, b⟩ := cm
    simp only [Mode.ok, Bool.or_eq_true, beq_iff_eq] at hc
    unfold Mode.has at hv
    cases t <;> rcases hc with (rfl | rfl) | rfl <;> simp at hv <;> omega
  unfold Clean
  unfold constClean at h
  cases s
  · rw [clean_unsigned hm]
    simp only [Bool.false_eq_true, if_false, beq_iff_eq, Nat.shiftRight_eq_div_pow] at h
    rw [Nat.div_div_eq_div_mul, ← Nat.pow_succ] at h
    have e : n - 1 + 1 = n := by omega
    rw [Nat.succ_eq_add_one, e] at h
    have hlt := (Nat.div_eq_zero_iff_lt (Nat.pow_pos (by decide))).mp h
    have hp : 2 ^ n ≤ 2 ^ 32 := Nat.pow_le_pow_right (by decide) hm
    have hv0 : 0 ≤ v := by
      apply Classical.byContradiction
      intro hneg
      have : (v % 2 ^ 64).toNat ≥ 2 ^ 32 := by omega
      omega
    have : (v % 2 ^ 64).toNat = v.toNat := by omega
    rw [this] at hlt
    rw [BitVec.toNat_ofInt]
    have : (v % ((2 ^ 32 : Nat) : Int)).toNat = v.toNat := by omega
    omega
  · rw [clean_signed h0 hm]
    simp only [if_true, Bool.or_eq_true, beq_iff_eq, Int.shiftRight_eq_div_pow] at h
    have hpos : (0 : Int) < 2 ^ (n - 1) := by
      exact_mod_cast Nat.pow_pos (by decide : 0 < 2)
    have hp : (2 : Int) ^ (n - 1) ≤ 2 ^ 31 := by
      exact_mod_cast Nat.pow_le_pow_right (by decide : 0 < 2) (by omega : n - 1 ≤ 31)
    have hr : -2 ^ (n - 1) ≤ v ∧ v < 2 ^ (n - 1) := by
      rw [Int.natCast_pow] at h
      have hd := Int.mul_ediv_add_emod v (2 ^ (n - 1))
      have h1 := Int.emod_nonneg v (Int.ne_of_gt hpos)
      have h2 := Int.emod_lt_of_pos v hpos
      simp only [Int.cast_ofNat_Int] at h
      rcases h with h | h
      · rw [h] at hd; constructor <;> omega
      · rw [h] at hd; constructor <;> omega
    have : (BitVec.ofInt 32 v).toInt = v := by
      rw [BitVec.toInt_ofInt]
      rw [Int.bmod_eq_of_le] <;> omega
    rw [this]
    exact hr

theorem low_shl {x y : BitVec 32} {n : Nat} (k : Nat) (hn : n ≤ 32)
    (h : x.setWidth n = y.setWidth n) : (x <<< k).setWidth n = (y <<< k).setWidth n := by
  ext i hi
  have := congrArg (fun z => z.getLsbD (i - k)) h
  simp only [BitVec.getLsbD_setWidth] at this
  have h1 : i - k < n := by omega
  have h2 : i < 32 := by omega
  simp only [h1, decide_true, Bool.true_and] at this
  simp only [BitVec.getElem_setWidth, BitVec.getLsbD_shiftLeft, this]

theorem low_bin {x y x' y' : BitVec 32} {n : Nat} (o : BinOp) (hn : n ≤ 32)
    (hx : x.setWidth n = x'.setWidth n) (hy : y.setWidth n = y'.setWidth n) :
    (o.on x y).setWidth n = (o.on x' y').setWidth n := by
  cases o <;> simp only [BinOp.on]
  · rw [BitVec.setWidth_add _ _ hn, BitVec.setWidth_add _ _ hn, hx, hy]
  · rw [BitVec.sub_eq_add_neg, BitVec.sub_eq_add_neg, BitVec.setWidth_add _ _ hn,
      BitVec.setWidth_add _ _ hn, BitVec.setWidth_neg_of_le hn, BitVec.setWidth_neg_of_le hn, hx, hy]
  · rw [BitVec.setWidth_mul _ _ hn, BitVec.setWidth_mul _ _ hn, hx, hy]
  · rw [BitVec.setWidth_and, BitVec.setWidth_and, hx, hy]
  · rw [BitVec.setWidth_or, BitVec.setWidth_or, hx, hy]
  · rw [BitVec.setWidth_xor, BitVec.setWidth_xor, hx, hy]

theorem low_un {x x' : BitVec 32} {n : Nat} (o : UnOp) (hn : n ≤ 32)
    (hx : x.setWidth n = x'.setWidth n) :
    (o.on x).setWidth n = (o.on x').setWidth n := by
  cases o <;> simp only [UnOp.on]
  · rw [BitVec.setWidth_neg_of_le hn, BitVec.setWidth_neg_of_le hn, hx]
  · rw [BitVec.setWidth_not hn, BitVec.setWidth_not hn, hx]

theorem rol_one : ∀ k : Fin 32,
    (BitVec.ofInt 32 (-2)).rotateLeft k.val = ~~~ ((1 : BitVec 32) <<< k.val) := by decide +kernel

theorem ror_top : ∀ k : Fin 32, (BitVec.ofInt 32 0x7FFFFFFF).rotateRight k.val
    = ~~~ ((0x80000000 : BitVec 32) >>> k.val) := by decide +kernel

theorem and_ff (x : BitVec 32) : ext ⟨false, 8⟩ x = x &&& BitVec.ofInt 32 0xFF := by
  simp only [ext]
  ext i hi
  have : (BitVec.ofInt 32 0xFF).getLsbD i = decide (i < 8) := by
    have : ∀ i : Fin 32, (BitVec.ofInt 32 0xFF).getLsbD i.val = decide (i.val < 8) := by
      decide +kernel
    exact this ⟨i, hi⟩
  simp only [Bool.false_eq_true, if_false, ← BitVec.getLsbD_eq_getElem, BitVec.getLsbD_setWidth,
    BitVec.getLsbD_and, this, hi, decide_true, Bool.true_and]
  exact Bool.and_comm _ _

theorem and_ffff (x : BitVec 32) : ext ⟨false, 16⟩ x = x &&& BitVec.ofInt 32 0xFFFF := by
  simp only [ext]
  ext i hi
  have : (BitVec.ofInt 32 0xFFFF).getLsbD i = decide (i < 16) := by
    have : ∀ i : Fin 32, (BitVec.ofInt 32 0xFFFF).getLsbD i.val = decide (i.val < 16) := by
      decide +kernel
    exact this ⟨i, hi⟩
  simp only [Bool.false_eq_true, if_false, ← BitVec.getLsbD_eq_getElem, BitVec.getLsbD_setWidth,
    BitVec.getLsbD_and, this, hi, decide_true, Bool.true_and]
  exact Bool.and_comm _ _

/-- Shifting to the left and back is the extension of the low bits. -/
theorem shl_shrs (x : BitVec 32) (n : Nat) (hn : 0 < n) (h : n ≤ 32) :
    (x <<< (32 - n)).sshiftRight (32 - n) = ext ⟨true, n⟩ x := by
  simp only [ext, if_true]
  ext i hi
  have hmsb : ∀ y : BitVec 32, y.msb = y.getLsbD 31 := by
    intro y; simp [BitVec.msb_eq_getLsbD_last]
  have hmsb' : (x.setWidth n).msb = x.getLsbD (n - 1) := by
    rw [BitVec.msb_eq_getLsbD_last, BitVec.getLsbD_setWidth]
    simp only [show n - 1 < n by omega, decide_true, Bool.true_and]
  simp only [← BitVec.getLsbD_eq_getElem, BitVec.getLsbD_sshiftRight, BitVec.getLsbD_signExtend,
    BitVec.getLsbD_setWidth, hmsb', hmsb, BitVec.getLsbD_shiftLeft]
  have a1 : ¬ 32 ≤ i := by omega
  simp only [a1, hi, decide_true, decide_false, Bool.true_and, Bool.not_false, 
    show ¬ (31 < 32 - n) by omega, show 31 - (32 - n) = n - 1 by omega,
    show ¬ (32 - n + i < 32 - n) by omega, show 32 - n + i - (32 - n) = i by omega]
  by_cases hin : i < n
  · simp [hin, show 32 - n + i < 32 by omega]
  · simp [hin, show ¬ (32 - n + i < 32) by omega]

theorem reg_skipSame (many : Node → Bool) (a : Node) :
    reg many (skipSameconv many a) = reg many a := by
  induction a with
  | conv dest a ih =>
    simp only [skipSameconv]
    split
    · rfl
    · split
      · rfl
      · rename_i h
        have h' : a.mode.bits ≥ dest.bits := by simp at h; omega
        rw [ih]
        simp [reg, regs, h']
  | _ => rfl

theorem wf_mode {e : Node} (h : wf e = true) :
    e.mode.bits = 8 ∨ e.mode.bits = 16 ∨ e.mode.bits = 32 := by
  have : e.mode.ok = true := by
    cases e <;> simp only [wf, Bool.and_eq_true] at h <;> simp only [Node.mode] <;> simp [h]
  simp [Mode.ok] at this
  omega

/-- Values are extended. -/
theorem eval_ext (e : Node) (hw : wf e = true) : ext e.mode (eval e) = eval e := by
  have hb := wf_mode hw
  induction e with
  | mux m c a b junk iha ihb =>
    simp only [wf, Bool.and_eq_true, beq_iff_eq] at hw
    simp only [eval, Node.mode]
    cases c
    · rw [← hw.2]
      exact ihb hw.1.1.2 (wf_mode hw.1.1.2)
    · rw [← hw.1.2]
      exact iha hw.1.1.1.2 (wf_mode hw.1.1.1.2)
  | _ =>
    simp only [Node.mode] at hb
    exact ext_ext _ _ (by simp only [Node.mode]; omega)

theorem reg_bin (many : Node → Bool) (o : BinOp) (m : Mode) (a b : Node)
    (h8 : b = .const b.mode 0xFF → clean a ⟨false, 8⟩ = true → Clean ⟨false, 8⟩ (reg many a))
    (h16 : b = .const b.mode 0xFFFF → clean a ⟨false, 16⟩ = true → Clean ⟨false, 16⟩ (reg many a)) :
    reg many (.bin o m a b) = o.on (reg many a) (reg many b) := by
  cases o <;> try rfl
  show genAnd many a b (reg many a) (reg many b) = reg many a &&& reg many b
  unfold genAnd
  split
  · rename_i v hv
    cases b <;> simp only [constLong, reduceCtorEq, Option.some.injEq] at hv
    rename_i bm bv
    subst hv
    split
    · rename_i h
      simp only [beq_iff_eq] at h
      subst h
      rw [i2i_eq many _ _ _ (h8 rfl)]
      exact and_ff _
    · split
      · rename_i h
        simp only [beq_iff_eq] at h
        subst h
        rw [i2i_eq many _ _ _ (h16 rfl)]
        exact and_ffff _
      · rfl
  · rfl

theorem shl_one_add (x : BitVec 32) : x + x = x <<< 1 := by
  apply BitVec.eq_of_toNat_eq
  simp [BitVec.toNat_add, BitVec.toNat_shiftLeft, Nat.shiftLeft_eq]
  omega

theorem reg_shl (many : Node → Bool) (m : Mode) (a k : Node) :
    reg many (.shl m a k) = reg many a <<< ((reg many k).toNat % 32) := by
  show (if constLong k == some 1 then _ else _) = _
  split
  · rename_i h
    cases k <;> simp [constLong] at h
    subst h
    exact shl_one_add _
  · rfl

theorem shiftOperand_eq (many : Node → Bool) (s : Bool) (n : Nat) (a : Node)
    (hn : a.mode.bits = n) (r : BitVec 32)
    (h : n ≠ 32 → clean a ⟨s, n⟩ = true → Clean ⟨s, n⟩ r) :
    shiftOperand many s n a r = ext ⟨s, n⟩ r := by
  unfold shiftOperand
  split
  · rename_i h32
    simp at h32
    rw [ext_32 _ _ h32]
  · rename_i h32
    simp at h32
    rw [mode_skipSame, hn]
    refine i2i_eq many _ _ _ ?_
    rw [clean_skipSame]
    exact h h32

theorem has_top {m : Mode} {v : Int} (hm : m.bits = 8 ∨ m.bits = 16 ∨ m.bits = 32)
    (h : m.has v = true) (hv : v = 0x80000000 ∨ v = -0x80000000) : m.bits = 32 := by
  obtain ⟨s, b⟩ := m
  simp only at *
  unfold Mode.has at h
  cases s <;> rcases hm with rfl | rfl | rfl <;> simp at h ⊢ <;> omega

theorem reg_not (many : Node → Bool) (m : Mode) (a : Node) (hw : wf a = true) :
    reg many (.un .not m a) = ~~~ reg many a := by
  show genNot a (regs many a) = ~~~ reg many a
  unfold genNot
  split
  · rename_i n one k
    split
    · rename_i h
      cases one <;> simp [constLong] at h
      subst h
      rw [reg_shl]
      exact rol_one ⟨(reg many k).toNat % 32, Nat.mod_lt _ (by decide)⟩
    · rfl
  · rename_i n top k
    split
    · rename_i h
      cases top <;> simp [constLong] at h
      rename_i tm v
      simp only [wf, Bool.and_eq_true, beq_iff_eq, Node.mode] at hw
      have hb : tm.bits = 32 := by
        refine has_top ?_ hw.1.1.2.2 h
        have := hw.1.1.2.1
        simp [Mode.ok] at this
        omega
      have hr : reg many (.shr n (.const tm v) k)
          = (0x80000000 : BitVec 32) >>> ((reg many k).toNat % 32) := by
        show shiftOperand many false n.bits (.const tm v) (BitVec.ofInt 32 v)
          >>> ((reg many k).toNat % 32) = _
        rw [← hw.2, hb]
        rcases h with rfl | rfl <;> rfl
      rw [hr]
      exact ror_top ⟨(reg many k).toNat % 32, Nat.mod_lt _ (by decide)⟩
    · rfl
  · rfl

theorem reg_shrs (many : Node → Bool) (m : Mode) (a k : Node) (hw : wf (.shrs m a k) = true)
    (hg : good (.shrs m a k) = true)
    (hc : m.bits ≠ 32 → clean a ⟨true, m.bits⟩ = true → Clean ⟨true, m.bits⟩ (reg many a))
    (hx : ∀ x, sizeOf x < sizeOf a → wf x = true → good x = true → ∀ l : Mode, 0 < l.bits →
      l.bits ≤ x.mode.bits → askable x l = true → clean x l = true → Clean l (reg many x)) :
    reg many (.shrs m a k) = (ext ⟨true, m.bits⟩ (reg many a)).sshiftRight
      ((reg many k).toNat % 32) := by
  have hm := wf_mode hw
  simp only [Node.mode] at hm
  simp only [wf, good, Bool.and_eq_true, Bool.or_eq_true, beq_iff_eq] at hw hg
  obtain ⟨⟨⟨hok, hwa⟩, hwk⟩, hab⟩ := hw
  obtain ⟨⟨⟨hga, hgk⟩, h32⟩, hsh⟩ := hg
  show genShrs many m a k (regs many a) (reg many k) = _
  unfold genShrs
  have hconst : ∀ v : Int, 16 ≤ v → constLong k = some v → m.bits = 32 := by
    intro v hv hk
    rcases h32 with h32 | ⟨_, h32⟩
    · exact h32
    · cases k <;> simp [constLong] at hk
      subst hk
      simp [amountBelow] at h32
      omega
  split
  · rename_i h
    simp only [Bool.and_eq_true, beq_iff_eq] at h
    rw [ext_32 ⟨true, m.bits⟩ _ (hconst 31 (by decide) h.1)]
    cases k <;> simp [constLong] at h
    rw [h.1]
    rfl
  · split
    · rename_i src x hs
      unfold sextShift at hs
      split at hs
      · rename_i n x' k' hskip
        obtain ⟨h1, h2, h3, h4, h5, h6, h7, h8, h9, h10, -⟩ := skipSame_shl many a hskip hwa hga
        have hra : reg many a = reg many x' <<< ((reg many k').toNat % 32) := by
          rw [← reg_skipSame, hskip, reg_shl]
        split at hs
        · rename_i v v' hv hv'
          have ek : reg many k' = BitVec.ofInt 32 v' := by
            cases k' <;> simp [constLong] at hv'
            subst hv'
            rfl
          have ek2 : reg many k = BitVec.ofInt 32 v := by
            cases k <;> simp [constLong] at hv
            subst hv
            rfl
          rw [h10] at hsh
          simp only [Bool.and_eq_true] at hsh
          split at hs
          · rename_i hvv
            simp only [Bool.and_eq_true, beq_iff_eq] at hvv
            obtain ⟨rfl, rfl⟩ := hvv
            simp only [Option.some.injEq, Prod.mk.injEq] at hs
            obtain ⟨rfl, rfl⟩ := hs
            have hb := hconst _ (by decide) hv
            rw [i2i_eq, ext_32 ⟨true, m.bits⟩ _ hb, h1, hra, ek, ek2]
            · exact (shl_shrs _ 8 (by decide) (by decide)).symm
            · rw [h1]
              exact hx _ h2 h4 h6 ⟨true, 8⟩ (by decide) (by simp only; omega) hsh.1
          · split at hs
            · rename_i hvv
              simp only [Bool.and_eq_true, beq_iff_eq] at hvv
              obtain ⟨rfl, rfl⟩ := hvv
              simp only [Option.some.injEq, Prod.mk.injEq] at hs
              obtain ⟨rfl, rfl⟩ := hs
              have hb := hconst _ (by decide) hv
              rw [i2i_eq, ext_32 ⟨true, m.bits⟩ _ hb, h1, hra, ek, ek2]
              · exact (shl_shrs _ 16 (by decide) (by decide)).symm
              · rw [h1]
                exact hx _ h2 h4 h6 ⟨true, 16⟩ (by decide) (by simp only; omega) hsh.2
            · simp at hs
        · simp at hs
      · simp at hs
    · exact congrArg (fun z => z.sshiftRight ((reg many k).toNat % 32))
        (shiftOperand_eq many true m.bits a hab _ hc)

theorem clean_sshiftRight {n l : Nat} {s : Bool} {x : BitVec 32} (k : Nat) (h0 : 0 < l)
    (hl : l ≤ n) (hn : n ≤ 32) (hs : s = true ∨ l < n ∨ l = 32) (h : Clean ⟨s, l⟩ x) :
    Clean ⟨s, l⟩ ((ext ⟨true, n⟩ x).sshiftRight k) := by
  cases s
  · by_cases hl32 : l = 32
    · exact (ext_32 _ _ hl32).symm
    · have hln : l < n := by
        rcases hs with hs | hs | hs
        · simp at hs
        · exact hs
        · omega
      unfold Clean at *
      rw [clean_unsigned (by omega)] at *
      have hp : 2 ^ l ≤ 2 ^ (n - 1) := Nat.pow_le_pow_right (by decide) (by omega)
      have hp2 : 2 ^ (n - 1) ≤ 2 ^ 31 := Nat.pow_le_pow_right (by decide) (by omega)
      have hti : x.toInt = x.toNat := by
        rw [BitVec.toInt_eq_toNat_of_lt]; omega
      have : x = ext ⟨true, n⟩ x := by
        rw [clean_signed (by omega) hn, hti]
        have : ((2 ^ (n - 1) : Nat) : Int) = 2 ^ (n - 1) := by simp
        omega
      rw [← this]
      rw [BitVec.sshiftRight_eq_of_msb_false (by rw [BitVec.msb_eq_false_iff_two_mul_lt]; omega)]
      rw [BitVec.toNat_ushiftRight, Nat.shiftRight_eq_div_pow]
      exact Nat.lt_of_le_of_lt (Nat.div_le_self _ _) h
  · have h' : Clean ⟨true, n⟩ x := clean_of_narrow (l := ⟨true, l⟩) (m := ⟨true, n⟩) h0 hl hn rfl h
    unfold Clean at *
    rw [← h']
    rw [clean_signed h0 (by omega)] at *
    rw [BitVec.toInt_sshiftRight, Int.shiftRight_eq_div_pow]
    have hk : (0 : Int) < ((2 ^ k : Nat) : Int) := by
      exact_mod_cast Nat.pow_pos (by decide : 0 < 2)
    have hpos : (0 : Int) < 2 ^ (l - 1) := by
      exact_mod_cast Nat.pow_pos (by decide : 0 < 2)
    constructor
    · rw [Int.le_ediv_iff_mul_le hk]
      have : -2 ^ (l - 1) * ((2 ^ k : Nat) : Int) ≤ -2 ^ (l - 1) * 1 :=
        Int.mul_le_mul_of_nonpos_left (by omega) (by omega)
      omega
    · apply Int.ediv_lt_of_lt_mul hk
      have : (2 : Int) ^ (l - 1) * 1 ≤ 2 ^ (l - 1) * ((2 ^ k : Nat) : Int) :=
        Int.mul_le_mul_of_nonneg_left (by omega) (by omega)
      omega

/-- The registers of the expressions hold their values in the low bits, and clean registers hold
them extended. -/
theorem main (many : Node → Bool) : (e : Node) → wf e = true → good e = true →
    (reg many e).setWidth e.mode.bits = (eval e).setWidth e.mode.bits
    ∧ ∀ m : Mode, 0 < m.bits → m.bits ≤ e.mode.bits → askable e m = true → clean e m = true →
        Clean m (reg many e)
  | .const cm v, hw, _ => by
    have hb := wf_mode hw
    simp only [wf, Bool.and_eq_true] at hw
    simp only [Node.mode] at hb ⊢
    refine ⟨(low_ext cm _ _ (Nat.le_refl _) (by omega)).symm, ?_⟩
    intro m h0 hm _ hc
    exact clean_const h0 (by omega) hw.1 hw.2 hc
  | .load lm x, hw, _ => by
    have hb := wf_mode hw
    simp only [Node.mode] at hb ⊢
    have hr : reg many (.load lm x) = ext lm x := by
      show (if lm.bits < 32 then _ else x) = _
      split
      · rfl
      · rw [ext_32 _ _ (by omega)]
    rw [hr]
    refine ⟨rfl, ?_⟩
    intro m h0 hm _ hc
    simp [clean] at hc
    exact clean_of_narrow (l := lm) (by omega) hc.1 (by omega) hc.2 (ext_ext _ _ (by omega)).symm
  | .other om x, hw, _ => by
    have hb := wf_mode hw
    simp only [Node.mode] at hb ⊢
    refine ⟨(low_ext om _ _ (Nat.le_refl _) (by omega)).symm, ?_⟩
    intro m h0 hm _ hc
    simp [clean] at hc
  | .fconv fm x, hw, _ => by
    have hb := wf_mode hw
    simp only [Node.mode] at hb ⊢
    refine ⟨(low_ext fm _ _ (Nat.le_refl _) (by omega)).symm, ?_⟩
    intro m h0 hm ha _
    have : x = ext m x := by simpa [askable] using ha
    exact this
  | .bin o bm a b, hw, hg => by
    have hb := wf_mode hw
    simp only [Node.mode] at hb
    simp only [wf, good, Bool.and_eq_true, Bool.or_eq_true, beq_iff_eq, bne_iff_ne] at hw hg
    obtain ⟨⟨⟨⟨hok, hwa⟩, hwb⟩, hba⟩, hbb⟩ := hw
    obtain ⟨⟨⟨hga, hgb⟩, h8⟩, h16⟩ := hg
    obtain ⟨la, ca⟩ := main many a hwa hga
    obtain ⟨lb, cb⟩ := main many b hwb hgb
    have hr := reg_bin many o bm a b
      (fun hc hcl => ca ⟨false, 8⟩ (by decide) (by simp only; omega) (h8.resolve_left (fun h => h hc)) hcl)
      (fun hc hcl => by
        refine ca ⟨false, 16⟩ (by decide) ?_ (h16.resolve_left (fun h => h hc)) hcl
        simp only
        have : b.mode.bits ≠ 8 := by
          intro h
          rw [hc] at hwb
          simp only [wf, Bool.and_eq_true] at hwb
          have hh := hwb.2
          unfold Mode.has at hh
          rw [h] at hh
          split at hh <;> simp at hh
        omega)
    rw [hr]
    simp only [Node.mode]
    refine ⟨?_, ?_⟩
    · simp only [eval]
      rw [low_ext bm _ _ (Nat.le_refl _) (by omega)]
      rw [hba] at la
      rw [hbb] at lb
      exact low_bin o (by omega) la lb
    · intro m h0 hm ha hc
      simp only [askable, Bool.and_eq_true] at ha
      have ca' := ca m h0 (by omega) ha.1
      have cb' := cb m h0 (by omega) ha.2
      cases o <;> simp only [clean, Bool.false_eq_true] at hc
      · split at hc
        · rename_i hs
          obtain ⟨s, n⟩ := m
          simp only [Bool.not_eq_true'] at hs
          subst hs
          simp only [Bool.or_eq_true] at hc
          rcases hc with hc | hc
          · exact clean_and_left (by simp only at hm; omega) (ca' hc) _
          · exact clean_and_right (by simp only at hm; omega) (cb' hc) _
        · simp only [Bool.and_eq_true] at hc
          exact clean_congr_and (ca' hc.1) (cb' hc.2)
      · simp only [Bool.and_eq_true] at hc
        exact clean_congr_or (ca' hc.1) (cb' hc.2)
      · simp only [Bool.and_eq_true] at hc
        exact clean_congr_xor (ca' hc.1) (cb' hc.2)
  | .un o um a, hw, hg => by
    have hb := wf_mode hw
    simp only [Node.mode] at hb
    simp only [wf, good, Bool.and_eq_true, beq_iff_eq] at hw hg
    obtain ⟨⟨hok, hwa⟩, hba⟩ := hw
    obtain ⟨la, -⟩ := main many a hwa hg
    have hr : reg many (.un o um a) = o.on (reg many a) := by
      cases o
      · rfl
      · exact reg_not many um a hwa
    rw [hr]
    simp only [Node.mode]
    refine ⟨?_, ?_⟩
    · simp only [eval]
      rw [low_ext um _ _ (Nat.le_refl _) (by omega)]
      rw [hba] at la
      exact low_un o (by omega) la
    · intro m h0 hm ha hc
      simp [clean] at hc
  | .shl sm a k, hw, hg => by
    have hb := wf_mode hw
    simp only [Node.mode] at hb
    simp only [wf, good, Bool.and_eq_true, beq_iff_eq] at hw hg
    obtain ⟨⟨⟨hok, hwa⟩, hwk⟩, hba⟩ := hw
    obtain ⟨la, -⟩ := main many a hwa hg.1
    obtain ⟨lk, -⟩ := main many k hwk hg.2
    have hkb := wf_mode hwk
    rw [reg_shl]
    simp only [Node.mode]
    refine ⟨?_, ?_⟩
    · simp only [eval]
      rw [low_ext sm _ _ (Nat.le_refl _) (by omega), toNat_mod_of_low lk (by omega)]
      rw [hba] at la
      exact low_shl _ (by omega) la
    · intro m h0 hm ha hc
      simp [clean] at hc
  | .shr sm a k, hw, hg => by
    have hb := wf_mode hw
    simp only [Node.mode] at hb
    simp only [wf, good, Bool.and_eq_true, Bool.or_eq_true, beq_iff_eq] at hw hg
    obtain ⟨⟨⟨hok, hwa⟩, hwk⟩, hba⟩ := hw
    obtain ⟨⟨hga, hgk⟩, hask⟩ := hg
    obtain ⟨la, ca⟩ := main many a hwa hga
    obtain ⟨lk, -⟩ := main many k hwk hgk
    have hkb := wf_mode hwk
    have hr : reg many (.shr sm a k)
        = ext ⟨false, sm.bits⟩ (reg many a) >>> ((reg many k).toNat % 32) := by
      show shiftOperand many false sm.bits a (reg many a) >>> _ = _
      rw [shiftOperand_eq many false sm.bits a hba]
      · rfl
      · intro h32 hc
        exact ca ⟨false, sm.bits⟩ (by simp only; omega) (by simp only; omega)
          (hask.resolve_left h32) hc
    rw [hr]
    simp only [Node.mode]
    rw [hba] at la
    refine ⟨?_, ?_⟩
    · simp only [eval]
      rw [low_ext sm _ _ (Nat.le_refl _) (by omega), toNat_mod_of_low lk (by omega),
        ext_congr (m := ⟨false, sm.bits⟩) la]
    · intro m h0 hm ha hc
      obtain ⟨s, n⟩ := m
      simp only at h0 hm
      simp only [askable, Bool.and_eq_true, Bool.or_eq_true] at ha
      cases s
      · have hleft : clean a ⟨false, n⟩ = true → Clean ⟨false, n⟩
            (ext ⟨false, sm.bits⟩ (reg many a) >>> ((reg many k).toNat % 32)) := by
          intro hc
          have h1 := ca ⟨false, n⟩ h0 (by simp only; omega) ha.2 hc
          have h2 : Clean ⟨false, sm.bits⟩ (reg many a) :=
            clean_of_narrow (l := ⟨false, n⟩) h0 hm (by simp only; omega) rfl h1
          unfold Clean at *
          rw [← h2]
          rw [clean_unsigned (by omega)] at *
          rw [BitVec.toNat_ushiftRight, Nat.shiftRight_eq_div_pow]
          exact Nat.lt_of_le_of_lt (Nat.div_le_self _ _) h1
        simp only [clean, Bool.false_eq_true, if_false] at hc
        split at hc
        · rename_i v hv
          simp only [Bool.or_eq_true, decide_eq_true_eq] at hc
          rcases hc with hc | hc
          · cases k <;> simp only [constLong, Option.some.injEq, reduceCtorEq] at hv
            subst hv
            rename_i km kv
            have hlt : kv < 32 := by
              rcases ha.1 with h | h
              · simp at h
              · simpa [amountBelow] using h
            have hk : (reg many (.const km kv)).toNat % 32 = kv.toNat := by
              show (BitVec.ofInt 32 kv).toNat % 32 = _
              rw [BitVec.toNat_ofInt]
              omega
            rw [hk]
            unfold Clean
            rw [clean_unsigned (by omega)]
            rw [BitVec.toNat_ushiftRight, Nat.shiftRight_eq_div_pow]
            have hx := (ext ⟨false, sm.bits⟩ (reg many a)).isLt
            rw [Nat.div_lt_iff_lt_mul (Nat.pow_pos (by decide)), ← Nat.pow_add]
            exact Nat.lt_of_lt_of_le hx (Nat.pow_le_pow_right (by decide) (by omega))
          · exact hleft hc
        · exact hleft hc
      · simp [clean] at hc
  | .shrs sm a k, hw, hg => by
    have hb := wf_mode hw
    simp only [Node.mode] at hb
    have hw' := hw
    have hg' := hg
    simp only [wf, good, Bool.and_eq_true, Bool.or_eq_true, beq_iff_eq] at hw' hg'
    obtain ⟨⟨⟨hok, hwa⟩, hwk⟩, hba⟩ := hw'
    obtain ⟨⟨⟨hga, hgk⟩, hask⟩, -⟩ := hg'
    obtain ⟨la, ca⟩ := main many a hwa hga
    obtain ⟨lk, -⟩ := main many k hwk hgk
    have hkb := wf_mode hwk
    rw [reg_shrs many sm a k hw hg
      (fun h32 hc => ca ⟨true, sm.bits⟩ (by simp only; omega) (by simp only; omega)
        (hask.resolve_left h32).1 hc)
      (fun x hx hwx hgx => (main many x hwx hgx).2)]
    simp only [Node.mode]
    rw [hba] at la
    refine ⟨?_, ?_⟩
    · simp only [eval]
      rw [low_ext sm _ _ (Nat.le_refl _) (by omega), toNat_mod_of_low lk (by omega),
        ext_congr (m := ⟨true, sm.bits⟩) la]
    · intro m h0 hm ha hc
      simp only [askable, Bool.and_eq_true, Bool.or_eq_true, decide_eq_true_eq, beq_iff_eq] at ha
      simp only [clean] at hc
      have h1 := ca m h0 (by omega) ha.2 hc
      exact clean_sshiftRight (s := m.signed) (l := m.bits) _ h0 hm (by omega)
        (by rcases ha.1 with (h | h) | h <;> simp [h]) h1
  | .mux mm c a b junk, hw, hg => by
    have hb := wf_mode hw
    simp only [Node.mode] at hb
    simp only [wf, good, Bool.and_eq_true, beq_iff_eq] at hw hg
    obtain ⟨⟨⟨⟨hok, hwa⟩, hwb⟩, hba⟩, hbb⟩ := hw
    obtain ⟨la, ca⟩ := main many a hwa hg.1
    obtain ⟨lb, cb⟩ := main many b hwb hg.2
    rw [hba] at la ca
    rw [hbb] at lb cb
    simp only [Node.mode]
    have hsel : (if c then reg many a else reg many b).setWidth mm.bits
        = (eval (.mux mm c a b junk)).setWidth mm.bits := by
      simp only [eval]
      cases c
      · exact lb
      · exact la
    have hr : reg many (.mux mm c a b junk) = genMux mm c a b junk (reg many a) (reg many b) := rfl
    rw [hr]
    unfold genMux
    refine ⟨?_, ?_⟩
    · split
      · rename_i h
        simp only [Bool.and_eq_true, beq_iff_eq] at h
        rw [← hsel, h.2]
        ext i hi
        simp [BitVec.getElem_setWidth]
      · exact hsel
    · intro m h0 hm ha hc
      simp only [askable, Bool.and_eq_true] at ha
      simp only [clean] at hc
      split at hc
      · simp at hc
      · rename_i h
        rw [if_neg h]
        simp only [Bool.and_eq_true] at hc
        split
        · exact ca m h0 hm ha.1 hc.1
        · exact cb m h0 hm ha.2 hc.2
  | .conv dest a, hw, hg => by
    have hb := wf_mode hw
    simp only [Node.mode] at hb
    simp only [wf, good, Bool.and_eq_true, Bool.or_eq_true, decide_eq_true_eq] at hw hg
    obtain ⟨la, ca⟩ := main many a hw.2 hg.1
    have hab := wf_mode hw.2
    simp only [Node.mode]
    have hr : reg many (.conv dest a)
        = if a.mode.bits ≥ dest.bits then reg many a else i2i many a.mode a (reg many a) := rfl
    rw [hr]
    split
    · rename_i h
      refine ⟨?_, ?_⟩
      · simp only [eval]
        rw [low_ext dest _ _ (Nat.le_refl _) (by omega)]
        exact low_le la h
      · intro m h0 hm ha hc
        simp only [askable, Bool.or_eq_true, decide_eq_true_eq] at ha
        simp only [clean, h, if_true] at hc
        exact ca m h0 (by omega) (ha.resolve_left (by omega)) hc
    · rename_i h
      have hask := hg.2.resolve_left (by omega)
      rw [i2i_eq many a.mode a _ (fun hc => ca a.mode (by omega) (Nat.le_refl _) hask hc)]
      refine ⟨?_, ?_⟩
      · simp only [eval]
        rw [low_ext dest _ _ (Nat.le_refl _) (by omega), ext_congr la, eval_ext a hw.2]
      · intro m h0 hm ha hc
        simp [clean, h] at hc
        exact clean_of_narrow (l := a.mode) (by omega) hc.1 (by omega) hc.2
          (ext_ext _ _ (by omega)).symm
termination_by e => sizeOf e
decreasing_by all_goals (simp_wf; omega)

end Verif.Lemmas.UpperBits
