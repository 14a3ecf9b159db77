import Verif.Model.IrOptValue
import Verif.Lemmas.IrOptBase
/-!
# Lemmas for constant folding and equivalent nodes
-/
namespace Verif.Model.IrOpt
open Verif.Spec

variable {m k : IMode} {env : Env}

theorem convTo_getLsbD (m : IMode) (v : BitVec k.bits) {i : Nat} (hi : i < m.bits) :
    (BitVec.ofInt m.bits (k.num v)).getLsbD i = if i < k.bits then v.getLsbD i else (k.signed && v.msb) := by
  unfold IMode.num
  cases k.signed
  · simp only [Bool.false_eq_true, if_false, Bool.false_and]
    rw [BitVec.ofInt_natCast]
    rw [BitVec.getLsbD_ofNat]
    split
    · simp [hi, BitVec.testBit_toNat]
    · next h => simp [BitVec.testBit_toNat, BitVec.getLsbD_of_ge _ _ (Nat.le_of_not_lt h)]
  · simp only [if_true, Bool.true_and]
    have : BitVec.ofInt m.bits v.toInt = v.signExtend m.bits := rfl
    rw [this, BitVec.getLsbD_signExtend]
    simp [hi]

theorem sameNode_spec {a : Expr m} {s : Expr k} (h : sameNode a s = true) : ∃ e : k = m, e ▸ s = a := by
  unfold sameNode at h
  split at h
  · next e => exact ⟨e, by simpa using h⟩
  · cases h

theorem amt_one {m : IMode} (h : m.Valid) : m.amt 1 = 1 := by
  unfold IMode.amt
  obtain ⟨_, _, _, h | ⟨_, h, _⟩⟩ := h
  · rw [if_pos h]
  · rw [if_neg (by omega), Nat.mod_eq_of_lt h]

theorem const_eval {e : Expr m} {c : BitVec m.bits} (h : asConst e = some c) : e.eval env = c := by
  rw [asConst_iff] at h; subst h; rfl

theorem and_not_zero {w : Nat} {z o x y : BitVec w} {o' z' : BitVec w} (hx : Describes z o' x) (hy : Describes z' o y) (h : BitInfo.andnot z o = 0#w) :
    x &&& y = x ∧ x ||| y = y := by
  unfold BitInfo.andnot at h
  constructor <;> apply BitVec.eq_of_getLsbD_eq <;> intro i hi <;>
    have h := congrArg (·.getLsbD i) h <;> have h1 := hx i hi <;> have h2 := hy i hi <;>
    simp only [BitVec.getLsbD_and, BitVec.getLsbD_or, BitVec.getLsbD_not, BitVec.getLsbD_zero, hi, decide_true, Bool.true_and] at h ⊢ <;>
    cases e1 : x.getLsbD i <;> cases e2 : y.getLsbD i <;> cases e3 : z.getLsbD i <;> cases e4 : o.getLsbD i <;> simp_all

/-- constant shift counts -/
theorem oversize_amt {s : Expr k} (hm : m.Valid) (hc : k.Counts m) (h0 : ∀ c, asConst s = some c → 0 ≤ k.num c) (h : oversizeShift m s = true) :
    m.bits ≤ m.amt (s.eval env).toNat := by
  unfold oversizeShift at h
  split at h
  · cases h
  · next c hcst =>
    rw [const_eval hcst]
    have hc0 := h0 c hcst
    have hnum : k.num c = c.toNat := by
      unfold IMode.num at hc0 ⊢
      split at hc0
      · next hs =>
        rw [if_pos hs]
        exact BitVec.toInt_eq_toNat_of_msb (by
          cases hm : c.msb
          · rfl
          · have := BitVec.toInt_neg_of_msb_true hm; omega)
      · next hs => rw [if_neg hs]
    rw [hnum] at h
    split at h
    · cases h
    · next hmod =>
      unfold IMode.amt
      simp only [] at h
      by_cases hpos : m.modulo > 0
      · rw [if_neg (by omega)]
        simp only [if_pos hpos] at h
        have : ((c.toNat : Int).tmod m.modulo) = ((c.toNat % m.modulo : Nat) : Int) := by
          rw [← Int.ofNat_tmod]
        rw [this] at h
        split at h
        · simp only [Bool.or_eq_true, decide_eq_true_eq] at h
          omega
        · cases h
      · rw [if_pos (by omega)]
        simp only [if_neg hpos] at h
        split at h
        · simp only [Bool.or_eq_true, decide_eq_true_eq] at h
          omega
        · cases h

theorem num_nonneg_toNat {c : BitVec k.bits} (h : 0 ≤ k.num c) : k.num c = c.toNat := by
  unfold IMode.num at h ⊢
  split
  · next hs =>
    rw [if_pos hs] at h
    rw [BitVec.toInt_eq_toNat_cond]
    rw [BitVec.toInt_eq_toNat_cond] at h
    split
    · rfl
    · next h1 => rw [if_neg h1] at h; have := c.isLt; omega
  · rfl

theorem ofInt_lowestBit {w : Nat} {c : BitVec w} {j : Nat} (h : lowestBit c = j) (hj : j < w) : (BitVec.ofInt w (lowestBit c)).toNat = j := by
  rw [h, BitVec.toNat_ofInt]
  have : j < 2 ^ w := Nat.lt_of_lt_of_le hj (Nat.le_of_lt Nat.lt_two_pow_self)
  have e : ((j : Int) % ((2 ^ w : Nat) : Int)) = (j : Int) := Int.emod_eq_of_lt (by omega) (by exact_mod_cast this)
  rw [e]; rfl

theorem zeroWhenConverted_sound {e : Expr k} (he : e.Ok env) (h : zeroWhenConverted e m = true) :
    BitVec.ofInt m.bits (k.num (e.eval env)) = 0#m.bits := by
  unfold zeroWhenConverted at h
  simp only [Bool.and_eq_true, Bool.or_eq_true] at h
  obtain ⟨_, h⟩ := h
  rcases h with h | h
  · split at h
    · next a kc cc hs =>
      simp only [Bool.and_eq_true, decide_eq_true_eq] at h
      rw [num_nonneg_toNat (by omega)] at h
      have h : m.bits ≤ cc.toNat ∧ cc.toNat < k.modulo := by omega
      -- the low bits are zero
      have low : ∀ i < m.bits, (e.eval env).getLsbD i = false := by
        unfold shlConstLike at hs
        split at hs
        · next a' c' =>
          simp only [Option.some.injEq, Prod.mk.injEq] at hs
          obtain ⟨rfl, hs⟩ := hs
          cases hs
          intro i hi
          simp only [Expr.eval, IMode.amt]
          rw [if_neg (by omega), Nat.mod_eq_of_lt h.2, BitVec.getLsbD_shiftLeft]
          simp only [Bool.and_eq_false_iff, Bool.not_eq_false', decide_eq_false_iff_not, decide_eq_true_eq]
          left; right; omega
        · next a' c' =>
          split at hs
          · next hp =>
            simp only [Option.some.injEq, Prod.mk.injEq] at hs
            obtain ⟨rfl, hs⟩ := hs
            cases hs
            intro i hi
            simp only [Expr.eval]
            rcases lowestBit_cases c' with ⟨h1, h2⟩ | ⟨j, h1, h2, h3, h4⟩
            · rw [h2]; simp
            · rw [ofInt_lowestBit h1 h2] at h
              have hd : 2 ^ j ∣ c'.toNat := by
                apply Nat.dvd_of_mod_eq_zero
                apply Nat.eq_of_testBit_eq
                intro t
                rw [Nat.testBit_mod_two_pow, Nat.zero_testBit]
                by_cases ht : t < j
                · simp only [ht, decide_true, Bool.true_and]; exact h4 t ht
                · simp [ht]
              obtain ⟨q, hq⟩ := hd
              rw [BitVec.getLsbD, BitVec.toNat_mul, hq, Nat.testBit_mod_two_pow]
              simp only [Bool.and_eq_false_iff]
              right
              rw [show (Expr.eval env a').toNat * (2 ^ j * q) = 2 ^ j * ((Expr.eval env a').toNat * q) by rw [Nat.mul_left_comm], Nat.testBit_two_pow_mul]
              simp only [Bool.and_eq_false_iff, decide_eq_false_iff_not]
              left; omega
          · cases hs
        · cases hs
      apply BitVec.eq_of_getLsbD_eq
      intro i hi
      rw [convTo_getLsbD m _ hi, BitVec.getLsbD_zero]
      split
      · exact low i hi
      · next hk =>
        rw [BitVec.msb_eq_getLsbD_last, low _ (by omega), Bool.and_false]
    · cases h
  · split at h
    · next l r ha =>
      rw [asAnd_iff] at ha
      simp only at ha
      subst ha
      split at h
      · next c hc =>
        rw [asConst_iff] at hc
        subst hc
        replace h := of_decide_eq_true h
        unfold convTo at h
        simp only [Expr.eval]
        apply BitVec.eq_of_getLsbD_eq
        intro i hi
        have h' := congrArg (·.getLsbD i) h
        simp only [convTo_getLsbD m _ hi, BitVec.getLsbD_and, BitVec.getLsbD_zero, BitVec.msb_and] at h' ⊢
        split at h'
        · next hk => rw [if_pos hk, h']; simp
        · next hk =>
          rw [if_neg hk]
          cases hs : k.signed
          · rfl
          · rw [hs] at h'; simp only [Bool.true_and] at h' ⊢; rw [h']; simp
      · cases h
    · cases h

end Verif.Model.IrOpt
