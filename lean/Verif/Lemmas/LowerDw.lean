import Verif.Lemmas.LowerDwWords
import Verif.Lemmas.ConstBitsExpr
import Verif.Lemmas.IrOptBase
import Verif.Spec.LowerDw
/-!
# Lemmas about the lowering of double word operations
-/
namespace Verif.Model.LowerDw
open Verif.Spec Verif.Model.IrOpt

variable {P : Params} {m k : IMode} {env env' : Env}

theorem needs_bits (h : P.needs m = true) : m.bits = 2 * P.word := by
  unfold Params.needs at h
  simp only [Bool.and_eq_true, beq_iff_eq] at h
  exact h.2

theorem needs_bmode (P : Params) : P.needs bmode = false := by
  unfold Params.needs isInt
  simp

theorem Params.Ok.high (hP : P.Ok) (m : IMode) : (P.high m).Valid := hP.valid
theorem Params.Ok.pos (hP : P.Ok) : 0 < P.word := hP.valid.1

theorem num_wu (v : BitVec P.word) : P.wu.num v = v.toNat := rfl

theorem ofInt_num_high (m : IMode) (v : BitVec P.word) : BitVec.ofInt P.word ((P.high m).num v) = v := bv_of_num (m := P.high m) v

theorem createConv_eval (e : Expr k) : (createConv m e).eval env = BitVec.ofInt m.bits (k.num (e.eval env)) := by
  unfold createConv
  split
  · next h => subst h; exact (bv_of_num _).symm
  · rfl

theorem createConv_ok {e : Expr k} (h : e.Ok env) (hm : m.Valid) : (createConv m e).Ok env := by
  unfold createConv
  split
  · next h' => subst h'; exact h
  · exact ⟨h, hm⟩

theorem countNonneg_wu (e : Expr P.wu) : e.CountNonneg := by
  intro c _
  rw [num_wu]
  omega

/-! ## Constants -/

theorem lowerConst_right (hP : P.Ok) (hn : P.needs m = true) (hm : m.Valid) (v : BitVec m.bits) : (lowerConst P v).Right env' v := by
  refine ⟨hn, ?_, hP.valid, hP.high m⟩
  have hb := needs_bits hn
  have hw := hP.pos
  have ha : m.amt P.word = P.word := by
    unfold IMode.amt
    split
    · rfl
    · next h =>
      obtain ⟨h1, -⟩ := hm.2.2.2.resolve_left h
      exact Nat.mod_eq_of_lt (by omega)
  have h1 : (v.sshiftRight (m.amt P.word)).setWidth P.word = (v >>> P.word).setWidth P.word := by
    rw [ha]
    apply BitVec.eq_of_getLsbD_eq
    intro i hi
    simp only [BitVec.getLsbD_setWidth, hi, decide_true, Bool.true_and, getLsbD_sshiftRight', BitVec.getLsbD_ushiftRight]
    rw [if_pos (by omega), if_pos (by omega)]
  show Splits v (v.setWidth P.word) ((v.sshiftRight (m.amt P.word)).setWidth P.word)
  rw [h1]
  exact splits_self hb v

/-! ## Shifts -/

theorem countOf_right {r : Lowered P k} {c : Expr P.wu} {s : BitVec k.bits} {q : Nat} (hq : 2 * P.word = 2 ^ q) (hP : P.Ok)
    (hr : r.Right env' s) (h : countOf P r = some c) :
    (c.eval env').toNat % (2 * P.word) = s.toNat % (2 * P.word) ∧ c.Ok env' := by
  have hqw : q ≤ P.word := by
    have : q < 2 ^ q := Nat.lt_two_pow_self
    cases q with
    | zero => omega
    | succ q =>
      rw [Nat.pow_succ] at hq
      have : q < 2 ^ q := Nat.lt_two_pow_self
      omega
  have hd : 2 * P.word ∣ 2 ^ P.word := by rw [hq]; exact Nat.pow_dvd_pow 2 hqw
  cases r with
  | two l hh =>
    obtain ⟨hn, hs, h1, h2⟩ := hr
    simp only [countOf] at h
    split at h
    · cases h
    · cases h
      refine ⟨?_, h1⟩
      unfold Splits at hs
      obtain ⟨t, ht⟩ := hd
      have hs : s.toNat = (hh.eval env').toNat * 2 ^ P.word + (c.eval env').toNat := hs
      rw [hs, ht, show (hh.eval env').toNat * (2 * P.word * t) = 2 * P.word * (t * (hh.eval env').toNat) by
        rw [Nat.mul_comm, Nat.mul_assoc], Nat.mul_add_mod]
  | one e =>
    obtain ⟨hn, hs, h1⟩ := hr
    simp only [countOf] at h
    split at h
    · cases h
    · next hsg =>
      cases h
      refine ⟨?_, createConv_ok h1 hP.valid⟩
      rw [createConv_eval, hs]
      have : k.num s = (s.toNat : Int) := by unfold IMode.num; rw [if_neg hsg]
      rw [this, BitVec.ofInt_natCast, BitVec.toNat_ofNat, Nat.mod_mod_of_dvd _ hd]

/-- what the checks of the shift functions mean -/
theorem shiftOk_inv (hP : P.Ok) (hm : m.Valid) (hn : P.needs m = true) (h : shiftOk P m = true) :
    P.modulo = P.word ∧ m.modulo = 2 * P.word ∧ ∃ q, P.word = 2 ^ q := by
  have hb := needs_bits hn
  have hw := hP.pos
  unfold shiftOk at h
  simp only [Bool.and_eq_true, beq_iff_eq] at h
  obtain ⟨⟨⟨h1, h2⟩, -⟩, -⟩ := h
  have h2 : P.modulo * 2 = m.modulo := h2
  obtain ⟨-, -, q, hq⟩ := hm.2.2.2.resolve_left (by omega)
  refine ⟨by omega, by omega, ?_⟩
  cases q with
  | zero => omega
  | succ q => exact ⟨q, by rw [Nat.pow_succ] at hq; omega⟩

theorem and_twoPow_eq_zero (x q : Nat) : x &&& 2 ^ q = 0 ↔ x.testBit q = false := by
  constructor
  · intro h
    have := congrArg (fun t => t.testBit q) h
    simpa using this
  · intro h
    apply Nat.eq_of_testBit_eq
    intro i
    rw [Nat.testBit_and, Nat.testBit_two_pow, Nat.zero_testBit]
    by_cases hi : q = i
    · subst hi; simp [h]
    · simp [hi]

theorem countSmall_eval (hm : P.modulo = P.word) {q : Nat} (hq : P.word = 2 ^ q) (c : Expr P.wu) :
    (countSmall P c).eval env' = 1#1 ↔ (c.eval env').toNat % (2 * P.word) < P.word := by
  have hval : ((c.eval env' &&& BitVec.ofNat P.word P.modulo).toNat = 0) ↔ (c.eval env').toNat % (2 * P.word) < P.word := by
    rw [BitVec.toNat_and, BitVec.toNat_ofNat, hm, Nat.mod_eq_of_lt Nat.lt_two_pow_self, hq, and_twoPow_eq_zero, ← Nat.pow_succ',
      Nat.mod_pow_succ, Nat.testBit_eq_decide_div_mod_eq]
    have h1 : (c.eval env').toNat % 2 ^ q < 2 ^ q := Nat.mod_lt _ (Nat.two_pow_pos q)
    have h2 : (c.eval env').toNat / 2 ^ q % 2 < 2 := Nat.mod_lt _ (by omega)
    have h3 := Nat.two_pow_pos q
    generalize (c.eval env').toNat / 2 ^ q % 2 = b at *
    rcases (by omega : b = 0 ∨ b = 1) with rfl | rfl
    · simp [h1]
    · simp
  show BitVec.ofBool (relHolds Rel.equal (P.wu.num (c.eval env' &&& BitVec.ofNat P.word P.modulo)) (P.wu.num (0#P.word))) = 1#1 ↔ _
  rw [num_wu, num_wu, ← hval]
  simp only [relHolds, Rel.equal, BitVec.toNat_ofNat, Nat.zero_mod]
  generalize (c.eval env' &&& BitVec.ofNat P.word P.modulo).toNat = z
  by_cases h : z = 0
  · simp [h]
  · simp [h]

theorem not_mod {w q : Nat} (hq : w = 2 ^ q) (c : BitVec w) : (~~~c).toNat % w = w - 1 - c.toNat % w := by
  have hqw : q ≤ w := by have : q < 2 ^ q := Nat.lt_two_pow_self; omega
  have hw : 0 < w := by rw [hq]; exact Nat.two_pow_pos q
  obtain ⟨t, ht⟩ : w ∣ 2 ^ w := by
    have := Nat.pow_dvd_pow 2 hqw
    rw [← hq] at this
    exact this
  have hc := c.isLt
  rw [BitVec.toNat_not]
  have hdm := Nat.div_add_mod c.toNat w
  have hr := Nat.mod_lt c.toNat hw
  rw [ht] at hc
  have hlt : c.toNat / w < t := Nat.div_lt_of_lt_mul hc
  have he : 2 ^ w - 1 - c.toNat = w * (t - 1 - c.toNat / w) + (w - 1 - c.toNat % w) := by
    rw [ht, Nat.mul_sub, Nat.mul_sub]
    have h1 : w * (c.toNat / w + 1) ≤ w * t := Nat.mul_le_mul_left _ hlt
    rw [Nat.mul_add] at h1
    omega
  rw [he, Nat.mul_add_mod, Nat.mod_eq_of_lt (by omega)]

theorem eval_mux {sel : Expr bmode} {f t : Expr m} : (Expr.mux sel f t).eval env' = if sel.eval env' = 1#1 then t.eval env' else f.eval env' := rfl

/-- the counts of the shifts of words -/
theorem amt_word (hm : P.modulo = P.word) (hw : 0 < P.word) (m : IMode) (n : Nat) : (P.high m).amt n = n % P.word := by
  unfold IMode.amt
  rw [if_neg (by show ¬ P.modulo = 0; omega)]
  show n % P.modulo = _
  rw [hm]

theorem amt_wu (hm : P.modulo = P.word) (hw : 0 < P.word) (n : Nat) : P.wu.amt n = n % P.word := amt_word hm hw ⟨false, 0, 0⟩ n

theorem amt_double {a : Nat} (h : m.modulo = 2 * a) (ha : 0 < a) (n : Nat) : m.amt n = n % (2 * a) := by
  unfold IMode.amt
  rw [if_neg (by omega), h]

theorem mod_word_small {n w : Nat} (h : n % (2 * w) < w) : n % w = n % (2 * w) := by
  have := Nat.mod_mod_of_dvd n (Nat.dvd_mul_left w 2)
  rw [← this, Nat.mod_eq_of_lt h]

theorem mod_word_large {n w : Nat} (h : ¬ n % (2 * w) < w) : n % w = n % (2 * w) - w := by
  by_cases hw : w = 0
  · subst hw; simp
  have h1 := Nat.mod_mod_of_dvd n (Nat.dvd_mul_left w 2)
  have h2 : n % (2 * w) < 2 * w := Nat.mod_lt _ (by omega)
  rw [← h1, Nat.mod_eq_sub_mod (by omega), Nat.mod_eq_of_lt (by omega)]

theorem shift_ok {a : Expr m} {c : Expr P.wu} (hP : P.Ok) (hb : m.bits = P.word ∧ m.modulo = P.modulo) (ha : a.Ok env') (hc : c.Ok env') :
    (Expr.shl a c).Ok env' ∧ (Expr.shr a c).Ok env' ∧ (Expr.shrs a c).Ok env' := by
  have hcnt : P.wu.Counts m := by
    unfold IMode.Counts
    rw [hb.1, hb.2]
    exact hP.counts
  exact ⟨⟨ha, hc, hcnt, countNonneg_wu c⟩, ⟨ha, hc, hcnt, countNonneg_wu c⟩, ⟨ha, hc, hcnt, countNonneg_wu c⟩⟩

theorem countSmall_ok {c : Expr P.wu} (hP : P.Ok) (hc : c.Ok env') : (countSmall P c).Ok env' := ⟨⟨hc, hP.valid⟩, hP.valid⟩

theorem one_amt (hP : P.Ok) (hm : P.modulo = P.word) : (1#P.word).toNat % P.word = 1 := by
  have h := hP.counts.1
  have h : P.word < 2 ^ (P.word - 1) := h
  have hw : 1 < P.word := by
    rcases (by omega : P.word = 0 ∨ P.word = 1 ∨ 1 < P.word) with h1 | h1 | h1
    · exact absurd h1 (by have := hP.pos; omega)
    · rw [h1] at h; simp at h
    · exact h1
  have h2 : 1 < 2 ^ P.word := by
    have : P.word < 2 ^ P.word := Nat.lt_two_pow_self
    omega
  rw [BitVec.toNat_ofNat, Nat.mod_eq_of_lt h2, Nat.mod_eq_of_lt hw]

theorem lowerShl_right (hP : P.Ok) (hm : m.Valid) (hn : P.needs m = true) (hs : shiftOk P m = true) {l : Expr P.wu} {h : Expr (P.high m)}
    {c : Expr P.wu} {v : BitVec m.bits} {s : Nat} (hv : Splits v (l.eval env') (h.eval env')) (hl : l.Ok env') (hh : h.Ok env') (hc : c.Ok env')
    (hcs : (c.eval env').toNat % (2 * P.word) = s % (2 * P.word)) : (lowerShl P l h c).Right env' (v <<< m.amt s) := by
  obtain ⟨h1, h2, q, hq⟩ := shiftOk_inv hP hm hn hs
  have hw := hP.pos
  have hb := needs_bits hn
  have hone : (Expr.const 1#P.word : Expr P.wu).Ok env' := hP.valid
  have o1 := shift_ok hP (m := P.wu) ⟨rfl, rfl⟩ hl hc
  have o2 := shift_ok hP (m := P.high m) ⟨rfl, rfl⟩ hh hc
  have oc := createConv_ok hl (hP.high m)
  have o3 := shift_ok hP (m := P.high m) ⟨rfl, rfl⟩ oc hone
  have o4 := shift_ok hP (m := P.high m) ⟨rfl, rfl⟩ o3.2.1 (c := .not c) hc
  have o5 := shift_ok hP (m := P.high m) ⟨rfl, rfl⟩ oc hc
  refine ⟨hn, ?_, ⟨countSmall_ok hP hc, hP.valid, o1.1⟩, ⟨countSmall_ok hP hc, o5.1, ⟨o2.1, o4.2.1⟩⟩⟩
  rw [eval_mux, eval_mux, amt_double h2 hw, ← hcs]
  simp only [countSmall_eval h1 hq]
  have hconv : (createConv (P.high m) l).eval env' = l.eval env' := by
    rw [createConv_eval]
    exact bv_of_num (m := P.wu) _
  split
  · next hlt =>
    simp only [Expr.eval]
    rw [amt_wu h1 hw, amt_word h1 hw, amt_word h1 hw, amt_word h1 hw, not_mod hq, mod_word_small hlt, one_amt hP h1, hconv]
    exact splits_shl_small hb hv hlt
  · next hge =>
    simp only [Expr.eval]
    rw [amt_word h1 hw, mod_word_large hge, hconv]
    exact splits_shl_large hb hv (by omega)

theorem lowerShr_right (hP : P.Ok) (hm : m.Valid) (hn : P.needs m = true) (hs : shiftOk P m = true) {l : Expr P.wu} {h : Expr (P.high m)}
    {c : Expr P.wu} {v : BitVec m.bits} {s : Nat} (hv : Splits v (l.eval env') (h.eval env')) (hl : l.Ok env') (hh : h.Ok env') (hc : c.Ok env')
    (hcs : (c.eval env').toNat % (2 * P.word) = s % (2 * P.word)) :
    (lowerShr P false l h c).Right env' (v >>> m.amt s) ∧ (lowerShr P true l h c).Right env' (v.sshiftRight (m.amt s)) := by
  obtain ⟨h1, h2, q, hq⟩ := shiftOk_inv hP hm hn hs
  have hw := hP.pos
  have hb := needs_bits hn
  have hone : (Expr.const 1#P.word : Expr P.wu).Ok env' := hP.valid
  have o1 := shift_ok hP (m := P.wu) ⟨rfl, rfl⟩ hl hc
  have o2 := shift_ok hP (m := P.high m) ⟨rfl, rfl⟩ hh hc
  have oc := createConv_ok hh hP.valid
  have o3 := shift_ok hP (m := P.wu) ⟨rfl, rfl⟩ oc hone
  have o4 := shift_ok hP (m := P.wu) ⟨rfl, rfl⟩ o3.1 (c := .not c) hc
  have o5 := shift_ok hP (m := P.wu) ⟨rfl, rfl⟩ oc hc
  have o6 := shift_ok hP (m := P.high m) ⟨rfl, rfl⟩ hh (show (Expr.const (BitVec.ofNat P.word (P.modulo - 1)) : Expr P.wu).Ok env' from hP.valid)
  have hconv : (createConv P.wu h).eval env' = h.eval env' := by
    rw [createConv_eval]
    exact bv_of_num (m := P.high m) _
  refine ⟨⟨hn, ?_, ⟨countSmall_ok hP hc, o5.2.1, ⟨o1.2.1, o4.1⟩⟩, ⟨countSmall_ok hP hc, hP.high m, o2.2.1⟩⟩,
    ⟨hn, ?_, ⟨countSmall_ok hP hc, o5.2.2, ⟨o1.2.1, o4.1⟩⟩, ⟨countSmall_ok hP hc, o6.2.2, o2.2.2⟩⟩⟩
  · rw [eval_mux, eval_mux, amt_double h2 hw, ← hcs]
    simp only [countSmall_eval h1 hq]
    split
    · next hlt =>
      simp only [Expr.eval, Bool.false_eq_true, if_false]
      rw [amt_wu h1 hw, amt_wu h1 hw, amt_word h1 hw, amt_wu h1 hw, not_mod hq, mod_word_small hlt, one_amt hP h1, hconv]
      exact splits_shr_small hb hv hlt
    · next hge =>
      simp only [Expr.eval, Bool.false_eq_true, if_false]
      rw [amt_wu h1 hw, mod_word_large hge, hconv]
      exact splits_shr_large hb hv (by omega)
  · rw [eval_mux, eval_mux, amt_double h2 hw, ← hcs]
    simp only [countSmall_eval h1 hq]
    split
    · next hlt =>
      simp only [Expr.eval, if_true]
      rw [amt_wu h1 hw, amt_wu h1 hw, amt_word h1 hw, amt_wu h1 hw, not_mod hq, mod_word_small hlt, one_amt hP h1, hconv]
      exact splits_sshr_small hb hv hlt
    · next hge =>
      simp only [Expr.eval, if_true]
      have hc : (BitVec.ofNat P.word (P.modulo - 1)).toNat % P.word = P.word - 1 := by
        rw [h1, BitVec.toNat_ofNat, Nat.mod_eq_of_lt (a := P.word - 1), Nat.mod_eq_of_lt (by omega)]
        have : P.word < 2 ^ P.word := Nat.lt_two_pow_self
        omega
      rw [amt_wu h1 hw, amt_word h1 hw, mod_word_large hge, hconv, hc]
      exact splits_sshr_large hb hw hv (by omega)

/-! ## Sums -/

theorem carry_eval {r : Rel} (a b : Expr P.wu) {p : Prop} [Decidable p]
    (h : relHolds r (a.eval env').toNat (b.eval env').toNat = true ↔ p) :
    (Expr.mux (.cmp r a b) (.const 0#P.word) (.const 1#P.word) : Expr (P.high m)).eval env' = if p then 1#P.word else 0#P.word := by
  rw [eval_mux]
  have : ((Expr.cmp r a b).eval env' = 1#1) ↔ p := by
    rw [← h]
    show BitVec.ofBool (relHolds r (P.wu.num (a.eval env')) (P.wu.num (b.eval env'))) = 1#1 ↔ _
    rw [num_wu, num_wu]
    cases relHolds r (a.eval env').toNat (b.eval env').toNat <;> simp
  by_cases hp : p
  · rw [if_pos (this.2 hp), if_pos hp]; rfl
  · rw [if_neg (fun h => hp (this.1 h)), if_neg hp]; rfl

theorem rel_less (x y : Nat) : relHolds Rel.less x y = true ↔ x < y := by simp [relHolds, Rel.less]
theorem rel_greater (x y : Nat) : relHolds Rel.greater x y = true ↔ y < x := by simp [relHolds, Rel.greater]

theorem lowerMinus_right (hP : P.Ok) (hn : P.needs m = true) {l : Expr P.wu} {h : Expr (P.high m)} {v : BitVec m.bits}
    (hv : Splits v (l.eval env') (h.eval env')) (hl : l.Ok env') (hh : h.Ok env') : (lowerMinus P l h).Right env' (-v) := by
  refine ⟨hn, ?_, hl, ⟨hh, ⟨hl, hP.valid⟩, hP.high m, hP.high m⟩⟩
  show Splits (-v) (-(l.eval env')) (-(h.eval env') - Expr.eval env' (.mux (.cmp Rel.greater (.minus l) (.const 0#P.word)) (.const 0#P.word) (.const 1#P.word) : Expr (P.high m)))
  rw [carry_eval (p := 0 < (-(l.eval env')).toNat)]
  · exact splits_neg (needs_bits hn) hv
  · rw [rel_greater]; simp [Expr.eval]

theorem lowerAdd_right (hP : P.Ok) (hn : P.needs m = true) {l l' : Expr P.wu} {h h' : Expr (P.high m)} {v v' : BitVec m.bits}
    (hv : Splits v (l.eval env') (h.eval env')) (hv' : Splits v' (l'.eval env') (h'.eval env')) (hl : l.Ok env') (hh : h.Ok env')
    (hl' : l'.Ok env') (hh' : h'.Ok env') : (lowerAdd P l h l' h').Right env' (v + v') := by
  refine ⟨hn, ?_, ⟨hl, hl'⟩, ⟨⟨hh, hh'⟩, ⟨⟨hl, hl'⟩, hl⟩, hP.high m, hP.high m⟩⟩
  show Splits (v + v') (l.eval env' + l'.eval env') (h.eval env' + h'.eval env' + Expr.eval env' (.mux (.cmp Rel.less (.add l l') l) (.const 0#P.word) (.const 1#P.word) : Expr (P.high m)))
  rw [carry_eval (p := (l.eval env' + l'.eval env').toNat < (l.eval env').toNat)]
  · exact splits_add (needs_bits hn) hv hv'
  · rw [rel_less]; rfl

theorem lowerSub_right (hP : P.Ok) (hn : P.needs m = true) {l l' : Expr P.wu} {h h' : Expr (P.high m)} {v v' : BitVec m.bits}
    (hv : Splits v (l.eval env') (h.eval env')) (hv' : Splits v' (l'.eval env') (h'.eval env')) (hl : l.Ok env') (hh : h.Ok env')
    (hl' : l'.Ok env') (hh' : h'.Ok env') : (lowerSub P l h l' h').Right env' (v - v') := by
  refine ⟨hn, ?_, ⟨hl, hl'⟩, ⟨⟨hh, hh'⟩, ⟨⟨hl, hl'⟩, hl⟩, hP.high m, hP.high m⟩⟩
  show Splits (v - v') (l.eval env' - l'.eval env') (h.eval env' - h'.eval env' - Expr.eval env' (.mux (.cmp Rel.greater (.sub l l') l) (.const 0#P.word) (.const 1#P.word) : Expr (P.high m)))
  rw [carry_eval (p := (l.eval env').toNat < (l.eval env' - l'.eval env').toNat)]
  · exact splits_sub (needs_bits hn) hv hv'
  · rw [rel_greater]; rfl

/-! ## Comparisons -/

theorem num_splits (hP : P.Ok) (hn : P.needs m = true) {l h : BitVec P.word} {v : BitVec m.bits} (hv : Splits v l h) :
    m.num v = (P.high m).num h * 2 ^ P.word + l.toNat := by
  unfold IMode.num
  show _ = (if m.signed then _ else _) * _ + _
  split
  · exact toInt_of_splits (needs_bits hn) hP.pos hv
  · unfold Splits at hv
    rw [hv]
    push_cast
    rfl

theorem relHolds_lex (r : Rel) {a b W : Int} {x y : Nat} (hx : (x : Int) < W) (hy : (y : Int) < W) :
    relHolds r (a * W + x) (b * W + y) = (relHolds (r &&& ~~~Rel.equal) a b || (relHolds r x y && relHolds Rel.equal a b)) := by
  unfold relHolds
  simp only [lex_lt hx hy, lex_lt hy hx, lex_eq hx hy, BitVec.getLsbD_and, BitVec.getLsbD_not, Rel.equal]
  rcases Int.lt_trichotomy a b with h | h | h
  · simp [h, show ¬ a = b by omega, show ¬ b < a by omega, show ¬ b = a by omega]
  · subst h; simp
  · simp [h, show ¬ a = b by omega, show ¬ a < b by omega, show ¬ b = a by omega]

theorem relHolds_xor (r : Rel) {x y x' y' : BitVec P.word} {v v' : BitVec m.bits} (hv : Splits v x y)
    (hv' : Splits v' x' y') (hr : r = Rel.equal ∨ r = Rel.lessGreater ∨ (r = Rel.greater ∧ m.signed = false ∧ v' = 0#m.bits)) :
    relHolds r (((x ^^^ x') ||| (y ^^^ y')).toNat : Int) 0 = relHolds r (m.num v) (m.num v') := by
  have h0 : ((x ^^^ x') ||| (y ^^^ y')).toNat = 0 ↔ m.num v = m.num v' := by
    rw [num_inj]
    constructor
    · intro h
      have h : (x ^^^ x') ||| (y ^^^ y') = 0#P.word := BitVec.eq_of_toNat_eq (by simpa using h)
      have hb : ∀ i < P.word, x.getLsbD i = x'.getLsbD i ∧ y.getLsbD i = y'.getLsbD i := by
        intro i hi
        have := congrArg (fun t => t.getLsbD i) h
        simp only [BitVec.getLsbD_or, BitVec.getLsbD_xor, BitVec.getLsbD_zero] at this
        revert this
        generalize x.getLsbD i = a; generalize x'.getLsbD i = b; generalize y.getLsbD i = c; generalize y'.getLsbD i = d
        revert a b c d; decide
      have e1 : x = x' := BitVec.eq_of_getLsbD_eq fun i hi => (hb i hi).1
      have e2 : y = y' := BitVec.eq_of_getLsbD_eq fun i hi => (hb i hi).2
      subst e1 e2
      unfold Splits at hv hv'
      exact BitVec.eq_of_toNat_eq (by rw [hv, hv'])
    · intro h
      subst h
      obtain ⟨rfl, rfl⟩ := splits_unique hv hv'
      simp
  generalize ((x ^^^ x') ||| (y ^^^ y')).toNat = z at *
  rcases hr with rfl | rfl | ⟨rfl, hsg, rfl⟩
  · simp only [relHolds, Rel.equal]
    by_cases h : z = 0
    · simp [h, h0.1 h]
    · simp [h, show ¬ m.num v = m.num v' from fun h' => h (h0.2 h')]
  · simp only [relHolds, Rel.lessGreater]
    by_cases h : z = 0
    · simp [h, h0.1 h]
    · have hne : ¬ m.num v = m.num v' := fun h' => h (h0.2 h')
      have : m.num v < m.num v' ∨ m.num v' < m.num v := by omega
      have hp : 0 < z := by omega
      rcases this with h1 | h1 <;> simp [h1, hp]
  · simp only [relHolds, Rel.greater]
    have hz : m.num (0#m.bits) = 0 := by unfold IMode.num; simp [hsg]
    have hpos : 0 ≤ m.num v := by unfold IMode.num; simp [hsg]
    rw [hz] at h0 ⊢
    by_cases h : z = 0
    · simp [h, h0.1 h]
    · have hne : ¬ m.num v = 0 := fun h' => h (h0.2 h')
      have hp : 0 < z := by omega
      simp [hp, show 0 < m.num v by omega]

theorem isEqualityCmp_inv {r : Rel} {b : Expr k} (h : isEqualityCmp r b = true) (env : Env) :
    r = Rel.equal ∨ r = Rel.lessGreater ∨ (r = Rel.greater ∧ k.signed = false ∧ b.eval env = 0#k.bits) := by
  unfold isEqualityCmp at h
  split at h
  · next h' => rcases h' with h' | h' <;> simp [h']
  · split at h
    · next v hv =>
      rw [asConst_iff] at hv
      subst hv
      simp only [Bool.and_eq_true, decide_eq_true_eq, Bool.not_eq_true'] at h
      exact Or.inr (Or.inr ⟨h.2, h.1.2, h.1.1⟩)
    · cases h

theorem lowerCmp_right (hP : P.Ok) (hn : P.needs k = true) {r : Rel} {l l' : Expr P.wu} {h h' : Expr (P.high k)} {v v' : BitVec k.bits} {eq : Bool}
    (heq : eq = true → r = Rel.equal ∨ r = Rel.lessGreater ∨ (r = Rel.greater ∧ k.signed = false ∧ v' = 0#k.bits))
    (hv : Splits v (l.eval env') (h.eval env')) (hv' : Splits v' (l'.eval env') (h'.eval env')) (hl : l.Ok env') (hh : h.Ok env')
    (hl' : l'.Ok env') (hh' : h'.Ok env') :
    (lowerCmp P eq r l h l' h').eval env' = BitVec.ofBool (relHolds r (k.num v) (k.num v')) ∧ (lowerCmp P eq r l h l' h').Ok env' := by
  unfold lowerCmp
  split
  · next he =>
    refine ⟨?_, ⟨⟨⟨⟨hl, hP.valid⟩, hl', hP.valid⟩, ⟨hh, hP.valid⟩, hh', hP.valid⟩, hP.valid⟩⟩
    show BitVec.ofBool (relHolds r (P.wu.num ((BitVec.ofInt P.word (P.wu.num (l.eval env')) ^^^ BitVec.ofInt P.word (P.wu.num (l'.eval env'))) |||
      (BitVec.ofInt P.word ((P.high k).num (h.eval env')) ^^^ BitVec.ofInt P.word ((P.high k).num (h'.eval env'))))) (P.wu.num (0#P.word))) = _
    have e1 := bv_of_num (m := P.wu) (l.eval env')
    have e2 := bv_of_num (m := P.wu) (l'.eval env')
    unfold IMode.bv at e1 e2
    rw [e1, e2, ofInt_num_high, ofInt_num_high, num_wu, num_wu]
    have := relHolds_xor r hv hv' (heq he)
    simp only [BitVec.toNat_ofNat, Nat.zero_mod]
    exact congrArg BitVec.ofBool this
  · refine ⟨?_, ⟨⟨hh, hh'⟩, ⟨hl, hl'⟩, hh, hh'⟩⟩
    show BitVec.ofBool (relHolds (r &&& ~~~Rel.equal) ((P.high k).num (h.eval env')) ((P.high k).num (h'.eval env'))) |||
      (BitVec.ofBool (relHolds r (P.wu.num (l.eval env')) (P.wu.num (l'.eval env'))) &&&
        BitVec.ofBool (relHolds Rel.equal ((P.high k).num (h.eval env')) ((P.high k).num (h'.eval env')))) = _
    rw [num_splits hP hn hv, num_splits hP hn hv', relHolds_lex r (by exact_mod_cast (l.eval env').isLt) (by exact_mod_cast (l'.eval env').isLt), num_wu, num_wu]
    generalize relHolds _ _ _ = a
    generalize relHolds _ _ _ = b
    generalize relHolds _ _ _ = c
    revert a b c
    decide

/-! ## Conversions -/

theorem ofInt_mod {w : Nat} {x y : Int} (h : x % 2 ^ w = y % 2 ^ w) : BitVec.ofInt w x = BitVec.ofInt w y := by
  apply BitVec.eq_of_toInt_eq
  rw [BitVec.toInt_ofInt, BitVec.toInt_ofInt, Int.bmod_def, Int.bmod_def]
  push_cast
  rw [h]

theorem lowerConv_right (hP : P.Ok) {r : Lowered P k} {r' : Lowered P m} {v : BitVec k.bits} (hk : P.Fits k) (hm : P.Fits m) (hmv : m.Valid)
    (hkv : k.Valid) (hr : r.Right env' v) (h : lowerConv P m r = some r') : r'.Right env' (BitVec.ofInt m.bits (k.num v)) := by
  have hw := hP.pos
  unfold lowerConv at h
  split at h
  · next hn =>
    have hb := needs_bits hn
    cases r with
    | two l hh =>
      obtain ⟨hkn, hs, h1, h2⟩ := hr
      simp only [lowerConvTo] at h
      cases h
      refine ⟨hn, ?_, h1, ⟨h2, hP.high m⟩⟩
      show Splits _ (l.eval env') (BitVec.ofInt P.word ((P.high k).num (hh.eval env')))
      rw [ofInt_num_high]
      unfold Splits at hs ⊢
      rw [← hs]
      have hkb := needs_bits hkn
      have : (BitVec.ofInt m.bits (k.num v)).toNat = v.toNat := by
        rw [hb, ← hkb]
        exact congrArg BitVec.toNat (bv_of_num v)
      exact this
    | one e =>
      obtain ⟨hkn, hs, h1⟩ := hr
      simp only [lowerConvTo] at h
      split at h
      · cases h
      · next hi =>
        cases h
        have hi : isInt k = true := by simpa using hi
        have hkb : k.bits ≤ P.word := by
          rcases hk with h | h
          · exact h
          · unfold Params.needs at hkn
            rw [hi] at hkn
            simp [h] at hkn
        have ho : (createConv P.wu e).eval env' = BitVec.ofInt P.word (k.num v) := by rw [createConv_eval, hs]
        refine ⟨hn, ?_, createConv_ok h1 hP.valid, ?_⟩
        · rw [ho]
          by_cases hsg : k.signed = true
          · rw [if_pos hsg]
            have e1 : (Expr.shrs (createConv (P.high m) (createConv P.wu e)) (.const (BitVec.ofNat P.word (P.word - 1)) : Expr P.wu)).eval env' =
                (BitVec.ofInt P.word (k.num v)).sshiftRight (P.word - 1) := by
              show ((createConv (P.high m) (createConv P.wu e)).eval env').sshiftRight ((P.high m).amt (BitVec.ofNat P.word (P.word - 1)).toNat) = _
              rw [createConv_eval, ho]
              have hc : (P.high m).amt (BitVec.ofNat P.word (P.word - 1)).toNat = P.word - 1 := by
                rw [BitVec.toNat_ofNat, Nat.mod_eq_of_lt (by have : P.word < 2 ^ P.word := Nat.lt_two_pow_self; omega)]
                unfold IMode.amt
                split
                · rfl
                · next hz =>
                  have := (hP.valid.2.2.2.resolve_left hz).1
                  have : P.word ≤ P.modulo := this
                  exact Nat.mod_eq_of_lt (by show P.word - 1 < P.modulo; omega)
              rw [hc]
              have := bv_of_num (m := P.wu) (BitVec.ofInt P.word (k.num v))
              unfold IMode.bv at this
              exact congrArg (fun t => BitVec.sshiftRight t (P.word - 1)) this
            rw [e1]
            have hnum : k.num v = v.toInt := by unfold IMode.num; rw [if_pos hsg]
            rw [hnum]
            apply splits_of_getLsbD hb
            intro i hi2
            have hk0 := hkv.1
            show (v.signExtend m.bits).getLsbD i = if i < P.word then (v.signExtend P.word).getLsbD i
              else ((v.signExtend P.word).sshiftRight (P.word - 1)).getLsbD (i - P.word)
            have hmsb : v.msb = v.getLsbD (k.bits - 1) := BitVec.msb_eq_getLsbD_last v
            have hlast : ∀ j, j = P.word - 1 → (v.signExtend P.word).getLsbD j = v.msb := by
              intro j hj
              rw [BitVec.getLsbD_signExtend, hj]
              simp only [show P.word - 1 < P.word by omega, decide_true, Bool.true_and]
              split
              · rw [hmsb, show P.word - 1 = k.bits - 1 by omega]
              · rfl
            rw [getLsbD_sshiftRight']
            by_cases hiw : i < P.word
            · rw [if_pos hiw, BitVec.getLsbD_signExtend, BitVec.getLsbD_signExtend]; simp only [hiw, show i < m.bits by omega]
            · rw [if_neg hiw, if_pos (show i - P.word < P.word by omega), BitVec.getLsbD_signExtend, if_neg (show ¬ i < k.bits by omega)]
              split
              · rw [hlast _ (by omega)]; simp [show i < m.bits by omega]
              · rw [hlast _ rfl]; simp [show i < m.bits by omega]
          · rw [if_neg hsg]
            have hnum : k.num v = (v.toNat : Int) := by unfold IMode.num; rw [if_neg hsg]
            rw [hnum]
            show Splits (BitVec.ofInt m.bits (v.toNat : Int)) (BitVec.ofInt P.word (v.toNat : Int)) 0#P.word
            rw [BitVec.ofInt_natCast, BitVec.ofInt_natCast]
            refine splits_of_nat hb (x := v.toNat) (BitVec.toNat_ofNat _ _) (BitVec.toNat_ofNat _ _) ?_
            have h1 := v.isLt
            have h2 : 2 ^ k.bits ≤ 2 ^ P.word := Nat.pow_le_pow_right (by omega) hkb
            rw [Nat.div_eq_of_lt (by omega)]
            simp
        · split
          · exact (shift_ok hP (m := P.high m) ⟨rfl, rfl⟩ (createConv_ok (createConv_ok h1 hP.valid) (hP.high m))
              (c := .const (BitVec.ofNat P.word (P.word - 1))) (by exact hP.valid)).2.2
          · exact hP.high m
  · next hn =>
    have hn : P.needs m = false := by simpa using hn
    cases r with
    | one e =>
      obtain ⟨hkn, hs, h1⟩ := hr
      cases h
      refine ⟨hn, ?_, ⟨h1, hmv⟩⟩
      show BitVec.ofInt m.bits (k.num (e.eval env')) = _
      rw [hs]
    | two l hh =>
      obtain ⟨hkn, hs, h1, h2⟩ := hr
      simp only at h
      split at h
      · next hi =>
        cases h
        refine ⟨hn, ?_, ⟨h1, hmv⟩⟩
        have hmb : m.bits ≤ P.word := by
          rcases hm with h | h
          · exact h
          · unfold Params.needs at hn
            rw [hi] at hn
            simp [h] at hn
        show BitVec.ofInt m.bits (P.wu.num (l.eval env')) = _
        rw [num_wu, num_splits hP hkn hs]
        apply ofInt_mod
        obtain ⟨t, ht⟩ := Nat.pow_dvd_pow 2 hmb
        have ht : (2 : Int) ^ P.word = 2 ^ m.bits * t := by exact_mod_cast ht
        rw [ht, Int.mul_comm, Int.mul_assoc, Int.add_comm, Int.add_mul_emod_self_left]
      · cases h

/-! ## Expressions -/

theorem lift2_right {m' : IMode} {g : Expr P.wu → Expr (P.high m) → Expr P.wu → Expr (P.high m) → Option (Lowered P m')} {f : Expr m → Expr m → Expr m'}
    {a b : Option (Lowered P m)} {r : Lowered P m'} {v v' : BitVec m.bits} {u : BitVec m'.bits}
    (h : lift2 P f g a b = some r)
    (hf : ∀ x y, P.needs m = false → x.eval env' = v → y.eval env' = v' → x.Ok env' → y.Ok env' → P.needs m' = false ∧ (f x y).eval env' = u ∧ (f x y).Ok env')
    (hg : ∀ l h l' h' r, P.needs m = true → Splits v (l.eval env') (h.eval env') → Splits v' (l'.eval env') (h'.eval env') → l.Ok env' →
      h.Ok env' → l'.Ok env' → h'.Ok env' → g l h l' h' = some r → r.Right env' u)
    (ha : ∀ x, a = some x → x.Right env' v) (hb : ∀ x, b = some x → x.Right env' v') : r.Right env' u := by
  unfold lift2 at h
  split at h
  · cases h
    obtain ⟨h1, h2, h3⟩ := ha _ rfl
    obtain ⟨h4, h5, h6⟩ := hb _ rfl
    exact hf _ _ h1 h2 h5 h3 h6
  · obtain ⟨h1, h2, h3, h4⟩ := ha _ rfl
    obtain ⟨h5, h6, h7, h8⟩ := hb _ rfl
    exact hg _ _ _ _ _ h1 h2 h6 h3 h4 h7 h8 h
  · cases h

theorem liftShift_right {g : Expr P.wu → Expr (P.high m) → Expr P.wu → Lowered P m} {f : Expr m → Expr k → Expr m}
    {a : Option (Lowered P m)} {b : Option (Lowered P k)} {r : Lowered P m} {v : BitVec m.bits} {s : BitVec k.bits} {u : BitVec m.bits} (hP : P.Ok)
    (hmv : m.Valid) (h : liftShift P f g a b = some r)
    (hf : ∀ x y, x.eval env' = v → y.eval env' = s → x.Ok env' → y.Ok env' → b = some (.one y) → (f x y).eval env' = u ∧ (f x y).Ok env')
    (hg : ∀ l h c, P.needs m = true → shiftOk P m = true → Splits v (l.eval env') (h.eval env') → l.Ok env' →
      h.Ok env' → c.Ok env' → (c.eval env').toNat % (2 * P.word) = s.toNat % (2 * P.word) → (g l h c).Right env' u)
    (ha : ∀ x, a = some x → x.Right env' v) (hb : ∀ x, b = some x → x.Right env' s) : r.Right env' u := by
  unfold liftShift at h
  split at h
  · cases h
    obtain ⟨h1, h2, h3⟩ := ha _ rfl
    obtain ⟨h4, h5, h6⟩ := hb _ rfl
    exact ⟨h1, hf _ _ h2 h5 h3 h6 rfl⟩
  · obtain ⟨h1, h2, h3, h4⟩ := ha _ rfl
    split at h
    · next hs =>
      obtain ⟨-, -, q, hq⟩ := shiftOk_inv hP hmv h1 hs
      rw [Option.map_eq_some_iff] at h
      obtain ⟨c, hc, rfl⟩ := h
      have := countOf_right (q := q + 1) (by rw [Nat.pow_succ]; omega) hP (hb _ rfl) hc
      exact hg _ _ _ h1 hs h2 h3 h4 this.2 this.1
    · cases h
  · cases h

theorem lift2_const {m' : IMode} {g : Expr P.wu → Expr (P.high m) → Expr P.wu → Expr (P.high m) → Option (Lowered P m')} {f : Expr m → Expr m → Expr m'}
    {a b : Option (Lowered P m)} {c : BitVec m'.bits} (hf : ∀ x y, f x y ≠ .const c) (hg : ∀ l h l' h', g l h l' h' ≠ some (.one (.const c))) :
    lift2 P f g a b ≠ some (.one (.const c)) := by
  unfold lift2
  split
  · intro h
    rw [Option.some.injEq, Lowered.one.injEq] at h
    exact hf _ _ h
  · exact hg _ _ _ _
  · simp

theorem liftShift_const {g : Expr P.wu → Expr (P.high m) → Expr P.wu → Lowered P m} {f : Expr m → Expr k → Expr m}
    {a : Option (Lowered P m)} {b : Option (Lowered P k)} {c : BitVec m.bits} (hf : ∀ x y, f x y ≠ .const c)
    (hg : ∀ l h s, g l h s ≠ .one (.const c)) : liftShift P f g a b ≠ some (.one (.const c)) := by
  unfold liftShift
  split
  · intro h
    rw [Option.some.injEq, Lowered.one.injEq] at h
    exact hf _ _ h
  · split
    · intro h
      rw [Option.map_eq_some_iff] at h
      obtain ⟨s, -, h⟩ := h
      exact hg _ _ _ h
    · simp
  · simp

/-- only a constant becomes a constant -/
theorem lower_const {N : Names} {e : Expr m} {c : BitVec m.bits} (h : lower P N e = some (.one (.const c))) : e = .const c := by
  revert h
  cases e with
  | leaf => intro h; simp only [lower] at h; split at h <;> cases h
  | const => intro h; simp only [lower] at h; split at h <;> cases h; rfl
  | minus => intro h; simp only [lower] at h; split at h <;> cases h
  | not => intro h; simp only [lower] at h; split at h <;> cases h
  | add => exact fun h => absurd h (lift2_const (by simp) (by simp [lowerAdd]))
  | sub => exact fun h => absurd h (lift2_const (by simp) (by simp [lowerSub]))
  | mul => exact fun h => absurd h (lift2_const (by simp) (by simp))
  | div => exact fun h => absurd h (lift2_const (by simp) (by simp))
  | mod => exact fun h => absurd h (lift2_const (by simp) (by simp))
  | and => exact fun h => absurd h (lift2_const (by simp) (by simp))
  | or => exact fun h => absurd h (lift2_const (by simp) (by simp))
  | eor => exact fun h => absurd h (lift2_const (by simp) (by simp))
  | shl => exact fun h => absurd h (liftShift_const (by simp) (by simp [lowerShl]))
  | shr => exact fun h => absurd h (liftShift_const (by simp) (by simp [lowerShr]))
  | shrs => exact fun h => absurd h (liftShift_const (by simp) (by simp [lowerShr]))
  | conv k a =>
    intro h
    simp only [lower] at h
    split at h
    · unfold lowerConv at h
      split at h
      · unfold lowerConvTo at h
        split at h
        · cases h
        · split at h <;> cases h
      · split at h
        · cases h
        · split at h <;> cases h
    · cases h
  | cmp r a b =>
    refine fun h => absurd h (lift2_const (by simp) ?_)
    intro l h l' h'
    unfold lowerCmp
    split <;> simp
  | mux s f t =>
    intro h
    simp only [lower] at h
    split at h
    · exact absurd h (lift2_const (by simp) (by simp))
    · cases h
  | confirm => exact fun h => absurd h (lift2_const (by simp) (by simp))

theorem lower_right {N : Names} (hP : P.Ok) (hA : Agrees P N env env') : {m : IMode} → (e : Expr m) → {r : Lowered P m} → lower P N e = some r →
    e.Ok env → SizesOk P e → r.Right env' (e.eval env)
  | _, .leaf m i, r, h, ho, _ => by
    simp only [lower, Option.some.injEq] at h
    split at h
    · next hn => subst h; exact ⟨hn, hA.two m i hn, hP.valid, hP.high m⟩
    · next hn => subst h; exact ⟨by simpa using hn, hA.keep m i (by simpa using hn), ho⟩
  | m, .const v, r, h, ho, _ => by
    simp only [lower, Option.some.injEq] at h
    split at h
    · next hn => subst h; exact lowerConst_right hP hn ho v
    · next hn => subst h; exact ⟨by simpa using hn, rfl, ho⟩
  | m, .minus a, r, h, ho, hs => by
    have ih := fun r h => lower_right hP hA a (r := r) h ho hs
    simp only [lower] at h
    split at h
    · next h' => cases h; obtain ⟨h1, h2, h3⟩ := ih _ h'; exact ⟨h1, congrArg _ h2, h3⟩
    · next h' => cases h; obtain ⟨h1, h2, h3, h4⟩ := ih _ h'; exact lowerMinus_right hP h1 h2 h3 h4
    · cases h
  | m, .not a, r, h, ho, hs => by
    have ih := fun r h => lower_right hP hA a (r := r) h ho hs
    simp only [lower] at h
    split at h
    · next h' => cases h; obtain ⟨h1, h2, h3⟩ := ih _ h'; exact ⟨h1, congrArg _ h2, h3⟩
    · next h' => cases h; obtain ⟨h1, h2, h3, h4⟩ := ih _ h'; exact ⟨h1, splits_not (needs_bits h1) h2, h3, h4⟩
    · cases h
  | m, .add a b, r, h, ho, hs => by
    refine lift2_right h (fun x y hn hx hy h1 h2 => ⟨hn, by simp only [Expr.eval]; rw [hx, hy], h1, h2⟩) ?_
      (fun x hx => lower_right hP hA a hx ho.1 hs.1) (fun x hx => lower_right hP hA b hx ho.2 hs.2)
    intro l h l' h' r hn h1 h2 h3 h4 h5 h6 hr
    cases hr
    exact lowerAdd_right hP hn h1 h2 h3 h4 h5 h6
  | m, .sub a b, r, h, ho, hs => by
    refine lift2_right h (fun x y hn hx hy h1 h2 => ⟨hn, by simp only [Expr.eval]; rw [hx, hy], h1, h2⟩) ?_
      (fun x hx => lower_right hP hA a hx ho.1 hs.1) (fun x hx => lower_right hP hA b hx ho.2 hs.2)
    intro l h l' h' r hn h1 h2 h3 h4 h5 h6 hr
    cases hr
    exact lowerSub_right hP hn h1 h2 h3 h4 h5 h6
  | m, .mul a b, r, h, ho, hs =>
    lift2_right h (fun x y hn hx hy h1 h2 => ⟨hn, by simp only [Expr.eval]; rw [hx, hy], h1, h2⟩) (fun _ _ _ _ _ _ _ _ _ _ _ _ hr => by cases hr)
      (fun x hx => lower_right hP hA a hx ho.1 hs.1) (fun x hx => lower_right hP hA b hx ho.2 hs.2)
  | m, .div a b, r, h, ho, hs =>
    lift2_right h (fun x y hn hx hy h1 h2 => ⟨hn, by simp only [Expr.eval]; rw [hx, hy], h1, h2, by rw [hy]; exact ho.2.2⟩)
      (fun _ _ _ _ _ _ _ _ _ _ _ _ hr => by cases hr)
      (fun x hx => lower_right hP hA a hx ho.1 hs.1) (fun x hx => lower_right hP hA b hx ho.2.1 hs.2)
  | m, .mod a b, r, h, ho, hs =>
    lift2_right h (fun x y hn hx hy h1 h2 => ⟨hn, by simp only [Expr.eval]; rw [hx, hy], h1, h2, by rw [hy]; exact ho.2.2⟩)
      (fun _ _ _ _ _ _ _ _ _ _ _ _ hr => by cases hr)
      (fun x hx => lower_right hP hA a hx ho.1 hs.1) (fun x hx => lower_right hP hA b hx ho.2.1 hs.2)
  | m, .and a b, r, h, ho, hs => by
    refine lift2_right h (fun x y hn hx hy h1 h2 => ⟨hn, by simp only [Expr.eval]; rw [hx, hy], h1, h2⟩) ?_
      (fun x hx => lower_right hP hA a hx ho.1 hs.1) (fun x hx => lower_right hP hA b hx ho.2 hs.2)
    intro l h l' h' r hn h1 h2 h3 h4 h5 h6 hr
    cases hr
    exact ⟨hn, splits_and (needs_bits hn) h1 h2, ⟨h3, h5⟩, ⟨h4, h6⟩⟩
  | m, .or a b, r, h, ho, hs => by
    refine lift2_right h (fun x y hn hx hy h1 h2 => ⟨hn, by simp only [Expr.eval]; rw [hx, hy], h1, h2⟩) ?_
      (fun x hx => lower_right hP hA a hx ho.1 hs.1) (fun x hx => lower_right hP hA b hx ho.2 hs.2)
    intro l h l' h' r hn h1 h2 h3 h4 h5 h6 hr
    cases hr
    exact ⟨hn, splits_or (needs_bits hn) h1 h2, ⟨h3, h5⟩, ⟨h4, h6⟩⟩
  | m, .eor a b, r, h, ho, hs => by
    refine lift2_right h (fun x y hn hx hy h1 h2 => ⟨hn, by simp only [Expr.eval]; rw [hx, hy], h1, h2⟩) ?_
      (fun x hx => lower_right hP hA a hx ho.1 hs.1) (fun x hx => lower_right hP hA b hx ho.2 hs.2)
    intro l h l' h' r hn h1 h2 h3 h4 h5 h6 hr
    cases hr
    exact ⟨hn, splits_xor (needs_bits hn) h1 h2, ⟨h3, h5⟩, ⟨h4, h6⟩⟩
  | m, .shl a b, r, h, ho, hs =>
    liftShift_right hP (ok_valid a ho.1) h
      (fun x y hx hy h1 h2 hb => ⟨by simp only [Expr.eval]; rw [hx, hy], h1, h2, ho.2.2.1, fun c hc => ho.2.2.2 c (lower_const (by rw [hb, hc]))⟩)
      (fun l hh c hn hok h1 h2 h3 h4 h5 => lowerShl_right hP (ok_valid a ho.1) hn hok h1 h2 h3 h4 h5)
      (fun x hx => lower_right hP hA a hx ho.1 hs.1) (fun x hx => lower_right hP hA b hx ho.2.1 hs.2)
  | m, .shr a b, r, h, ho, hs =>
    liftShift_right hP (ok_valid a ho.1) h
      (fun x y hx hy h1 h2 hb => ⟨by simp only [Expr.eval]; rw [hx, hy], h1, h2, ho.2.2.1, fun c hc => ho.2.2.2 c (lower_const (by rw [hb, hc]))⟩)
      (fun l hh c hn hok h1 h2 h3 h4 h5 => (lowerShr_right hP (ok_valid a ho.1) hn hok h1 h2 h3 h4 h5).1)
      (fun x hx => lower_right hP hA a hx ho.1 hs.1) (fun x hx => lower_right hP hA b hx ho.2.1 hs.2)
  | m, .shrs a b, r, h, ho, hs =>
    liftShift_right hP (ok_valid a ho.1) h
      (fun x y hx hy h1 h2 hb => ⟨by simp only [Expr.eval]; rw [hx, hy], h1, h2, ho.2.2.1, fun c hc => ho.2.2.2 c (lower_const (by rw [hb, hc]))⟩)
      (fun l hh c hn hok h1 h2 h3 h4 h5 => (lowerShr_right hP (ok_valid a ho.1) hn hok h1 h2 h3 h4 h5).2)
      (fun x hx => lower_right hP hA a hx ho.1 hs.1) (fun x hx => lower_right hP hA b hx ho.2.1 hs.2)
  | _, .conv m a, r, h, ho, hs => by
    simp only [lower] at h
    split at h
    · next h' => exact lowerConv_right hP hs.2.1 hs.2.2 ho.2 (ok_valid a ho.1) (lower_right hP hA a h' ho.1 hs.1) h
    · cases h
  | _, .cmp c a b, r, h, ho, hs => by
    refine lift2_right h (fun x y hn hx hy h1 h2 => ⟨needs_bmode P, by simp only [Expr.eval]; rw [hx, hy], h1, h2⟩) ?_
      (fun x hx => lower_right hP hA a hx ho.1 hs.1) (fun x hx => lower_right hP hA b hx ho.2 hs.2)
    intro l h l' h' r hn h1 h2 h3 h4 h5 h6 hr
    cases hr
    exact ⟨needs_bmode P, lowerCmp_right hP hn (fun he => isEqualityCmp_inv he env) h1 h2 h3 h4 h5 h6⟩
  | _, .mux s a b, r, h, ho, hs => by
    simp only [lower] at h
    split at h
    · next hs' =>
      obtain ⟨-, e1, o1⟩ := lower_right hP hA s hs' ho.1 hs.1
      refine lift2_right h (fun x y hn hx hy h1 h2 => ⟨hn, by simp only [Expr.eval]; rw [hx, hy, e1], o1, h1, h2⟩) ?_
        (fun x hx => lower_right hP hA a hx ho.2.1 hs.2.1) (fun x hx => lower_right hP hA b hx ho.2.2 hs.2.2)
      intro l h l' h' r hn h1 h2 h3 h4 h5 h6 hr
      cases hr
      refine ⟨hn, ?_, ⟨o1, h3, h5⟩, ⟨o1, h4, h6⟩⟩
      simp only [Expr.eval]
      rw [e1]
      split
      · exact h2
      · exact h1
    · cases h
  | m, .confirm a c b, r, h, ho, hs =>
    lift2_right h (fun x y hn hx hy h1 h2 => ⟨hn, by simp only [Expr.eval]; exact hx, h1, h2, by rw [hx, hy]; exact ho.2.2⟩)
      (fun _ _ _ _ _ _ _ _ _ _ _ _ hr => by cases hr)
      (fun x hx => lower_right hP hA a hx ho.1 hs.1) (fun x hx => lower_right hP hA b hx ho.2.1 hs.2)

/-! ## What is lowered -/

/-- two words for double words, one node for other values -/
def Lowered.Shape : Lowered P m → Prop
  | .one _ => P.needs m = false
  | .two _ _ => P.needs m = true

theorem lift2_some {m' : IMode} {g : Expr P.wu → Expr (P.high m) → Expr P.wu → Expr (P.high m) → Option (Lowered P m')} {f : Expr m → Expr m → Expr m'}
    {a b : Option (Lowered P m)} (ha : ∃ r, a = some r ∧ r.Shape) (hb : ∃ r, b = some r ∧ r.Shape) (h1 : P.needs m = false → P.needs m' = false)
    (h2 : P.needs m = true → ∀ l h l' h', ∃ r, g l h l' h' = some r ∧ r.Shape) : ∃ r, lift2 P f g a b = some r ∧ r.Shape := by
  obtain ⟨r1, rfl, s1⟩ := ha
  obtain ⟨r2, rfl, s2⟩ := hb
  cases r1 with
  | one e =>
    cases r2 with
    | one e' => exact ⟨_, rfl, h1 s1⟩
    | two l h => simp only [Lowered.Shape] at s1 s2; rw [s1] at s2; cases s2
  | two l h =>
    cases r2 with
    | one e' => simp only [Lowered.Shape] at s1 s2; rw [s1] at s2; cases s2
    | two l' h' => exact h2 s1 l h l' h'

theorem shiftOk_of {k : IMode} (hn : P.needs m = true) (h : Supported.ShiftSupported P m k) : shiftOk P m = true ∧ k.signed = false := by
  unfold Supported.ShiftSupported at h
  rw [if_pos hn] at h
  obtain ⟨h1, h2, h3, q, hq⟩ := h
  have hb := needs_bits hn
  refine ⟨?_, h1⟩
  unfold shiftOk
  simp only [Bool.and_eq_true, beq_iff_eq, decide_eq_true_eq]
  refine ⟨⟨⟨h2, ?_⟩, ?_⟩, ?_⟩
  · show P.modulo * 2 = m.modulo
    omega
  · rw [show m.modulo = 2 ^ (q + 1) by rw [Nat.pow_succ]; omega, Nat.and_two_pow_sub_one_eq_mod, Nat.mod_self]
  · rw [h3, hq, Nat.and_two_pow_sub_one_eq_mod, Nat.mod_self]

theorem liftShift_some {g : Expr P.wu → Expr (P.high m) → Expr P.wu → Lowered P m} {f : Expr m → Expr k → Expr m}
    {a : Option (Lowered P m)} {b : Option (Lowered P k)} (ha : ∃ r, a = some r ∧ r.Shape) (hb : ∃ r, b = some r ∧ r.Shape)
    (hs : Supported.ShiftSupported P m k) (hg : P.needs m = true → ∀ l h c, (g l h c).Shape) : ∃ r, liftShift P f g a b = some r ∧ r.Shape := by
  obtain ⟨r1, rfl, s1⟩ := ha
  obtain ⟨r2, rfl, s2⟩ := hb
  cases r1 with
  | one e =>
    cases r2 with
    | one e' => exact ⟨_, rfl, s1⟩
    | two l h =>
      simp only [Lowered.Shape] at s1 s2
      unfold Supported.ShiftSupported at hs
      rw [s1] at hs
      simp [s2] at hs
  | two l h =>
    obtain ⟨h1, h2⟩ := shiftOk_of s1 hs
    simp only [liftShift]
    rw [if_pos h1]
    cases r2 with
    | one e' => exact ⟨_, by simp only [countOf, h2]; rfl, hg s1 _ _ _⟩
    | two l' h' => exact ⟨_, by simp only [countOf, h2]; rfl, hg s1 _ _ _⟩

theorem lower_some {N : Names} : {m : IMode} → (e : Expr m) → Supported P e → ∃ r, lower P N e = some r ∧ r.Shape
  | _, .leaf m i, _ => by
    by_cases hn : P.needs m = true
    · simp only [lower]; rw [if_pos hn]; exact ⟨_, rfl, hn⟩
    · simp only [lower]; rw [if_neg hn]; exact ⟨_, rfl, by simpa [Lowered.Shape] using hn⟩
  | m, .const v, _ => by
    by_cases hn : P.needs m = true
    · simp only [lower]; rw [if_pos hn]; exact ⟨_, rfl, hn⟩
    · simp only [lower]; rw [if_neg hn]; exact ⟨_, rfl, by simpa [Lowered.Shape] using hn⟩
  | m, .minus a, h => by
    obtain ⟨r, hr, hs⟩ := lower_some (N := N) a h
    cases r with
    | one e => exact ⟨.one (.minus e), by simp only [lower, hr], hs⟩
    | two l h => exact ⟨lowerMinus P l h, by simp only [lower, hr], hs⟩
  | m, .not a, h => by
    obtain ⟨r, hr, hs⟩ := lower_some (N := N) a h
    cases r with
    | one e => exact ⟨.one (.not e), by simp only [lower, hr], hs⟩
    | two l h => exact ⟨.two (.not l) (.not h), by simp only [lower, hr], hs⟩
  | _, .add a b, h => lift2_some (lower_some a h.1) (lower_some b h.2) id fun hn _ _ _ _ => ⟨_, rfl, hn⟩
  | _, .sub a b, h => lift2_some (lower_some a h.1) (lower_some b h.2) id fun hn _ _ _ _ => ⟨_, rfl, hn⟩
  | _, .mul a b, h => lift2_some (lower_some a h.1) (lower_some b h.2.1) id fun hn => absurd hn (by simp [h.2.2])
  | _, .div a b, h => lift2_some (lower_some a h.1) (lower_some b h.2.1) id fun hn => absurd hn (by simp [h.2.2])
  | _, .mod a b, h => lift2_some (lower_some a h.1) (lower_some b h.2.1) id fun hn => absurd hn (by simp [h.2.2])
  | _, .and a b, h => lift2_some (lower_some a h.1) (lower_some b h.2) id fun hn _ _ _ _ => ⟨_, rfl, hn⟩
  | _, .or a b, h => lift2_some (lower_some a h.1) (lower_some b h.2) id fun hn _ _ _ _ => ⟨_, rfl, hn⟩
  | _, .eor a b, h => lift2_some (lower_some a h.1) (lower_some b h.2) id fun hn _ _ _ _ => ⟨_, rfl, hn⟩
  | _, .shl a b, h => liftShift_some (lower_some a h.1) (lower_some b h.2.1) h.2.2 fun hn _ _ _ => hn
  | _, .shr a b, h => liftShift_some (lower_some a h.1) (lower_some b h.2.1) h.2.2 fun hn _ _ _ => hn
  | _, .shrs a b, h => liftShift_some (lower_some a h.1) (lower_some b h.2.1) h.2.2 fun hn _ _ _ => hn
  | _, .conv (k := k) m a, h => by
    obtain ⟨r, hr, hs⟩ := lower_some (N := N) a h.1
    simp only [lower, hr, lowerConv]
    by_cases hn : P.needs m = true
    · rw [if_pos hn]
      have hi := (h.2 (Or.inr hn)).1
      cases r with
      | one e => simp only [lowerConvTo, hi, Bool.not_true, Bool.false_eq_true, if_false]; exact ⟨_, rfl, hn⟩
      | two l h => exact ⟨_, rfl, hn⟩
    · rw [if_neg hn]
      cases r with
      | one e => exact ⟨_, rfl, by simpa [Lowered.Shape] using hn⟩
      | two l h' =>
        have hi := (h.2 (Or.inl hs)).2
        simp only [hi, if_true]; exact ⟨_, rfl, by simpa [Lowered.Shape] using hn⟩
  | _, .cmp c a b, h => lift2_some (lower_some a h.1) (lower_some b h.2) (fun _ => needs_bmode P) fun _ _ _ _ _ => ⟨_, rfl, needs_bmode P⟩
  | _, .mux s a b, h => by
    obtain ⟨r, hr, hs⟩ := lower_some (N := N) s h.1
    cases r with
    | one e =>
      simp only [lower, hr]
      exact lift2_some (lower_some a h.2.1) (lower_some b h.2.2) id fun hn _ _ _ _ => ⟨_, rfl, hn⟩
    | two l h => simp only [Lowered.Shape] at hs; rw [needs_bmode] at hs; cases hs
  | _, .confirm a c b, h => lift2_some (lower_some a h.1) (lower_some b h.2.1) id fun hn => absurd hn (by simp [h.2.2])

end Verif.Model.LowerDw
