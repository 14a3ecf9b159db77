import Verif.Model.IrOptMux
import Verif.Lemmas.IrOptCmp
import Verif.Lemmas.ConstBitsExpr
/-!
# Lemmas about the transformation of selections
-/
namespace Verif.Model.IrOpt
open Verif.Spec

variable {m k : IMode} {env : Env} {C : Ctx}

/-! ## counts, conversions, sign bits -/

theorem amt_small (hv : m.Valid) {n : Nat} (h : n < m.bits) : m.amt n = n := by
  unfold IMode.amt
  split
  · rfl
  · next h0 =>
    rcases hv.2.2.2 with h1 | h1
    · exact absurd h1 h0
    · exact Nat.mod_eq_of_lt (by omega)

theorem modeIu_counts (hv : m.Valid) : modeIu.Counts m := by
  have h1 := hv.2.1
  have h2 := hv.2.2.1
  exact ⟨h1, h2⟩

theorem countIu_ok (n : Int) : (countIu n).Ok env := by
  unfold countIu; simp only [Expr.Ok]; exact modeIu_valid
theorem countIu_nonneg (n : Int) : (countIu n).CountNonneg := by
  intro c _
  exact Int.natCast_nonneg _

theorem countIu_amt (hv : m.Valid) {n : Nat} (h : n < m.bits) : m.amt ((countIu (n : Int)).eval env).toNat = n := by
  have h1 := hv.2.1
  have : ((countIu (n : Int)).eval env).toNat = n := by
    change (BitVec.ofInt 32 (n : Int)).toNat = n
    rw [BitVec.ofInt_natCast, BitVec.toNat_ofNat]
    exact Nat.mod_eq_of_lt (by omega)
  rw [this]
  exact amt_small hv h

theorem convUnless_eval (e : Expr k) : (convUnless m e).eval env = BitVec.ofInt m.bits (k.num (e.eval env)) := by
  unfold convUnless
  split
  · next h => subst h; exact (bv_of_num _).symm
  · rfl

theorem convUnless_ok {e : Expr k} (he : e.Ok env) (hv : m.Valid) : (convUnless m e).Ok env := by
  unfold convUnless
  split
  · next h => subst h; exact he
  · exact ⟨he, hv⟩

/-- the truth value as a number -/
def bit01 (w : Nat) (c : Bool) : BitVec w := if c then 1#w else 0#w

theorem bit01_getLsbD {w : Nat} (c : Bool) (i : Nat) : (bit01 w c).getLsbD i = (c && decide (i = 0) && decide (0 < w)) := by
  cases c
  · simp [bit01]
  · simp only [bit01, if_true, Bool.true_and]
    rw [BitVec.getLsbD_one]
    simp [Bool.and_comm]

theorem shr_msb01 {w : Nat} (x : BitVec w) : x >>> (w - 1) = bit01 w x.msb := by
  apply BitVec.eq_of_getLsbD_eq
  intro i hi
  rw [BitVec.getLsbD_ushiftRight, bit01_getLsbD, BitVec.msb_eq_getLsbD_last]
  by_cases h : i = 0
  · subst h; simp [show 0 < w by omega]
  · simp only [h, decide_false, Bool.and_false, Bool.false_and]
    exact BitVec.getLsbD_of_ge _ _ (by omega)

theorem sshr_fill {w : Nat} (x : BitVec w) : x.sshiftRight (w - 1) = if x.msb then BitVec.allOnes w else 0#w := by
  apply BitVec.eq_of_getLsbD_eq
  intro i hi
  rw [BitVec.getLsbD_sshiftRight]
  by_cases h : i = 0
  · subst h
    have : x.getLsbD (w - 1) = x.msb := by rw [BitVec.msb_eq_getLsbD_last]
    simp only [Nat.add_zero, this]
    cases x.msb <;> simp [hi, show ¬ w = 0 by omega]
  · rw [if_neg (by omega)]
    cases x.msb <;> simp [hi] 

theorem signFill_eval (hv : m.Valid) (e : Expr m) : (signFill e).eval env = if (e.eval env).msb then BitVec.allOnes m.bits else 0#m.bits := by
  have h := countIu_amt (env := env) hv (n := m.bits - 1) (by have := hv.1; omega)
  have e1 : ((m.bits - 1 : Nat) : Int) = (m.bits : Int) - 1 := by have := hv.1; omega
  rw [e1] at h
  unfold signFill
  simp only [Expr.eval]
  rw [h, sshr_fill]

theorem signFill_ok {e : Expr m} (he : e.Ok env) : (signFill e).Ok env :=
  ⟨he, countIu_ok _, modeIu_counts (ok_valid _ he), countIu_nonneg _⟩

theorem notIf_ok {c : Bool} {e : Expr m} (he : e.Ok env) : (notIf c e).Ok env := by cases c <;> exact he

theorem signBit_eval (hv : m.Valid) (c : Bool) (e : Expr m) : (signBit c e).eval env = bit01 m.bits (c ^^ (e.eval env).msb) := by
  have h0 := hv.1
  have h := countIu_amt (env := env) hv (n := m.bits - 1) (by omega)
  have e1 : ((m.bits - 1 : Nat) : Int) = (m.bits : Int) - 1 := by omega
  rw [e1] at h
  unfold signBit
  simp only [Expr.eval]
  rw [h, shr_msb01]
  congr 1
  cases c
  · simp [notIf]
  · simp only [notIf, if_true, Expr.eval]
    rw [BitVec.msb_not]
    simp [h0]

theorem signBit_ok {c : Bool} {e : Expr m} (he : e.Ok env) : (signBit c e).Ok env :=
  ⟨notIf_ok he, countIu_ok _, modeIu_counts (ok_valid _ he), countIu_nonneg _⟩

/-- conversion of a truth value to a mode that is not larger -/
theorem bit01_narrow (h : m.bits ≤ k.bits) (c : Bool) : BitVec.ofInt m.bits (k.num (bit01 k.bits c)) = bit01 m.bits c := by
  apply BitVec.eq_of_getLsbD_eq
  intro i hi
  rw [convTo_getLsbD m _ hi, if_pos (by omega), bit01_getLsbD, bit01_getLsbD]
  congr 1
  simp; omega

/-- conversion of a truth value from a mode in which one is positive -/
theorem bit01_conv (hk : k.signed = true → 1 < k.bits) (h0 : 0 < k.bits) (c : Bool) : BitVec.ofInt m.bits (k.num (bit01 k.bits c)) = bit01 m.bits c := by
  apply BitVec.eq_of_getLsbD_eq
  intro i hi
  rw [convTo_getLsbD m _ hi, bit01_getLsbD, bit01_getLsbD]
  split
  · have : 0 < m.bits := by omega
    simp [this, h0]
  · cases hs : k.signed
    · have e2 : i ≠ 0 := by omega
      simp [e2]
    · have := hk hs
      rw [BitVec.msb_eq_getLsbD_last, bit01_getLsbD]
      have e1 : k.bits - 1 ≠ 0 := by omega
      have e2 : i ≠ 0 := by omega
      simp [e1, e2]

/-! ## the absolute value -/

theorem skipUpconv_num : {m : IMode} → (e : Expr m) → e.Ok env →
    (skipUpconv e).1.num ((skipUpconv e).2.eval env) = m.num (e.eval env) := by
  intro m e he
  induction e with
  | @conv k m a ih =>
    by_cases h : smallerI k m = true
    · have e1 : skipUpconv (.conv m a) = skipUpconv a := by simp only [skipUpconv]; rw [if_pos h]
      rw [e1, ih he.1]
      simp only [Expr.eval]
      exact (smallerI_num (ok_pos he.1) h _).symm
    · have e1 : skipUpconv (.conv m a) = ⟨m, .conv m a⟩ := by simp only [skipUpconv]; rw [if_neg h]
      rw [e1]
  | _ => rfl

/-- the operand that is compared is one of the two values -/
theorem sameNode_num {e : Expr m} {l : Expr k} (he : e.Ok env) (h : sameNode (skipUpconv e).2 l = true) : k.num (l.eval env) = m.num (e.eval env) := by
  rw [← skipUpconv_num e he]
  obtain ⟨h1, h2⟩ := sameNode_spec h
  subst h1
  have h2 : l = (skipUpconv e).2 := h2
  rw [h2]

theorem rel_less {r : Rel} (x y : Int) (h : x < y) : relHolds r x y = decide (r &&& Rel.less ≠ 0#4) := by
  have h1 : ∀ r : BitVec 4, decide (r &&& Rel.less ≠ 0#4) = r.getLsbD 1 := by decide
  rw [h1]
  unfold relHolds
  simp [h, show x ≠ y by omega, show ¬ y < x by omega]
theorem rel_greater {r : Rel} (x y : Int) (h : y < x) : relHolds r x y = decide (r &&& Rel.greater ≠ 0#4) := by
  have h1 : ∀ r : BitVec 4, decide (r &&& Rel.greater ≠ 0#4) = r.getLsbD 2 := by decide
  rw [h1]
  unfold relHolds
  simp [h, show x ≠ y by omega, show ¬ x < y by omega]

/-- what the shifts, Eors and Subs compute -/
theorem abs_value {w : Nat} (x : BitVec w) :
    (x ^^^ (if x.msb then BitVec.allOnes w else 0#w)) - (if x.msb then BitVec.allOnes w else 0#w) = (if x.msb then -x else x) ∧
    (if x.msb then BitVec.allOnes w else 0#w) - (x ^^^ (if x.msb then BitVec.allOnes w else 0#w)) = (if x.msb then x else -x) := by
  cases x.msb
  · simp
  · simp only [if_true]
    rw [BitVec.xor_allOnes, BitVec.not_eq_neg_add, ← BitVec.neg_one_eq_allOnes]
    constructor <;> grind

theorem msb_num {x : BitVec m.bits} (h : m.signed = true ∨ m.num x < ((2 ^ (m.bits - 1) : Nat) : Int)) : x.msb = decide (m.num x < 0) := by
  rw [Bool.eq_iff_iff, decide_eq_true_eq]
  unfold IMode.num at h ⊢
  cases hs : m.signed
  · rw [hs] at h
    simp only [Bool.false_eq_true, if_false, false_or] at h ⊢
    rw [BitVec.msb_eq_decide, decide_eq_true_eq]
    omega
  · simp only [if_true]
    rw [BitVec.msb_eq_toInt, decide_eq_true_eq]

theorem num_lt_pow (v : BitVec k.bits) : k.num v < ((2 ^ k.bits : Nat) : Int) := by
  have h1 := v.isLt
  unfold IMode.num
  split
  · rw [BitVec.toInt_eq_toNat_cond]
    split <;> omega
  · omega

/-- the result of the selection does not depend on the case of a zero -/
theorem abs_select {rel : Rel} {N : Int} {x y : BitVec m.bits} (hb : ¬(rel &&& Rel.less ≠ 0#4 ∧ rel &&& Rel.greater ≠ 0#4)) (h0 : N = 0 → x = y)
    (hg : rel &&& Rel.lessGreater ≠ 0#4) :
    (if relHolds rel N 0 then x else y) = if rel &&& Rel.less ≠ 0#4 then (if N < 0 then x else y) else (if N < 0 then y else x) := by
  have hg' : rel &&& Rel.less ≠ 0#4 ∨ rel &&& Rel.greater ≠ 0#4 := by
    have : ∀ r : BitVec 4, r &&& Rel.lessGreater ≠ 0#4 → r &&& Rel.less ≠ 0#4 ∨ r &&& Rel.greater ≠ 0#4 := by decide
    exact this rel hg
  rcases lt_trichotomy N 0 with h | h | h
  · rw [rel_less _ _ h]
    by_cases hl : rel &&& Rel.less ≠ 0#4
    · rw [if_pos hl, if_pos h, if_pos (by simpa using hl)]
    · rw [if_neg hl, if_pos h, if_neg (by simpa using hl)]
  · rw [h0 h]; simp
  · rw [rel_greater _ _ h]
    have h' : ¬ N < 0 := by omega
    simp only [h', if_false]
    by_cases hl : rel &&& Rel.less ≠ 0#4
    · have : ¬ (rel &&& Rel.greater ≠ 0#4) := fun hh => hb ⟨hl, hh⟩
      rw [if_pos hl, if_neg (by simpa using this)]
    · have := hg'.resolve_left hl
      rw [if_neg hl, if_pos (by simpa using this)]

theorem mux_cmp_eval (rel : Rel) (l r : Expr k) (f t : Expr m) : (Expr.mux (.cmp rel l r) f t).eval env =
    if relHolds rel (k.num (l.eval env)) (k.num (r.eval env)) then t.eval env else f.eval env := by
  change (if BitVec.ofBool (relHolds rel (k.num (l.eval env)) (k.num (r.eval env))) = 1#1 then t.eval env else f.eval env) = _
  cases relHolds rel (k.num (l.eval env)) (k.num (r.eval env)) <;> simp

theorem muxAbs_ok (rel : Rel) (l r : Expr k) (f t : Expr m)
    (hrel : isNegatedValue t f = true → isNull r = true → ¬(rel &&& Rel.less ≠ 0#4 ∧ rel &&& Rel.greater ≠ 0#4))
    (hsg : isNegatedValue t f = true → isNull r = true → m.signed = true ∨ k.bits < m.bits) :
    RuleOk env (.mux (.cmp rel l r) f t) (muxAbs rel l r f t) := by
  intro e' he ho
  obtain ⟨⟨hl, hr⟩, hf, ht⟩ := ho
  have hv := ok_valid _ hf
  unfold muxAbs at he
  rw [Option.ite_none_right_eq_some, Bool.and_eq_true] at he
  obtain ⟨⟨_, hne⟩, he⟩ := he
  rw [decide_eq_true_eq] at hne
  have hlg : rel &&& Rel.lessGreater ≠ 0#4 := by intro h; exact hne (by simp [muxIsAbs, h])
  have hneg : isNegatedValue t f = true := by
    by_contra h; exact hne (by simp [muxIsAbs, h])
  have hnull : isNull r = true := by
    by_contra h; exact hne (by simp [muxIsAbs, h])
  have hb := hrel hneg hnull
  have hz : k.num (r.eval env) = 0 := by
    have : r = .const 0#k.bits := by simpa [isNull, asConst_iff] using hnull
    rw [this]; exact num_zero k
  have hft : f.eval env = -(t.eval env) := isNegatedValue_sound hneg
  have key : ∀ (op other : Expr m), op.Ok env → other.eval env = -(op.eval env) → k.num (l.eval env) = m.num (op.eval env) →
      ((.sub (.eor op (signFill op)) (signFill op) : Expr m).eval env = (if k.num (l.eval env) < 0 then other.eval env else op.eval env) ∧
       (.sub (signFill op) (.eor op (signFill op)) : Expr m).eval env = (if k.num (l.eval env) < 0 then op.eval env else other.eval env)) := by
    intro op other hop hoth hnum
    have hmsb : (op.eval env).msb = decide (k.num (l.eval env) < 0) := by
      rw [hnum]
      apply msb_num
      rcases hsg hneg hnull with h | h
      · exact .inl h
      · right
        rw [← hnum]
        have h1 := num_lt_pow (l.eval env)
        have h2 : 2 ^ k.bits ≤ 2 ^ (m.bits - 1) := Nat.pow_le_pow_right (by decide) (by omega)
        omega
    have h3 := abs_value (op.eval env)
    simp only [Expr.eval]
    rw [signFill_eval hv, h3.1, h3.2, hmsb, hoth]
    simp
  have hN0 : ∀ op : Expr m, k.num (l.eval env) = m.num (op.eval env) → k.num (l.eval env) = 0 → op.eval env = -(op.eval env) := by
    intro op h1 h2
    have : op.eval env = 0#m.bits := by rw [← num_inj, num_zero, ← h1, h2]
    rw [this]; simp
  have hsel : (Expr.mux (.cmp rel l r) f t).eval env = if relHolds rel (k.num (l.eval env)) 0 then t.eval env else f.eval env := by
    rw [← hz]
    exact mux_cmp_eval ..
  rw [hsel]
  by_cases h1 : sameNode (skipUpconv f).2 l = true
  · have hnum := sameNode_num hf h1
    have hk := key f t hf (by rw [hft]; simp) hnum
    have hop : absOp l f t = f := by simp [absOp, h1]
    have h0 : k.num (l.eval env) = 0 → t.eval env = f.eval env := by
      intro h; rw [hN0 f hnum h, hft]; simp
    rw [abs_select hb h0 hlg]
    have habs : muxIsAbs rel l r f t = if rel &&& Rel.less ≠ 0#4 then 1 else -1 := by
      simp [muxIsAbs, hlg, hneg, hnull, h1]
    rw [habs, hop] at he
    by_cases h2 : rel &&& Rel.less ≠ 0#4
    · rw [if_pos h2, if_pos (by decide)] at he
      cases he
      exact ⟨by rw [if_pos h2, hk.1], ⟨hf, signFill_ok hf⟩, signFill_ok hf⟩
    · rw [if_neg h2, if_neg (by decide)] at he
      cases he
      exact ⟨by rw [if_neg h2, hk.2], signFill_ok hf, hf, signFill_ok hf⟩
  · have h1' : sameNode (skipUpconv t).2 l = true := by
      by_contra h; exact hne (by simp [muxIsAbs, h1, h])
    have hnum := sameNode_num ht h1'
    have hk := key t f ht hft hnum
    have hop : absOp l f t = t := by simp [absOp, h1]
    have h0 : k.num (l.eval env) = 0 → t.eval env = f.eval env := by
      intro h; rw [hft]; exact hN0 t hnum h
    rw [abs_select hb h0 hlg]
    have habs : muxIsAbs rel l r f t = if rel &&& Rel.less ≠ 0#4 then -1 else 1 := by
      simp [muxIsAbs, hlg, hneg, hnull, h1, h1']
    rw [habs, hop] at he
    by_cases h2 : rel &&& Rel.less ≠ 0#4
    · rw [if_pos h2, if_neg (by decide)] at he
      cases he
      exact ⟨by rw [if_pos h2, hk.2], signFill_ok ht, ht, signFill_ok ht⟩
    · rw [if_neg h2, if_pos (by decide)] at he
      cases he
      exact ⟨by rw [if_neg h2, hk.1], ⟨ht, signFill_ok ht⟩, signFill_ok ht⟩

/-! ## Mux(c, 0, 1) -/

/-- the specification of the replacement of `Mux(l rel r, 0, t)` -/
def SetOk (env : Env) (rel : Rel) (l r : Expr k) (t : BitVec m.bits) (o : Option (Expr m)) : Prop :=
  ∀ e', o = some e' → e'.eval env = (if relHolds rel (k.num (l.eval env)) (k.num (r.eval env)) then t else 0#m.bits) ∧ e'.Ok env

theorem setOk_or {rel : Rel} {l r : Expr k} {t : BitVec m.bits} {a b : Option (Expr m)} (ha : SetOk env rel l r t a) (hb : SetOk env rel l r t b) :
    SetOk env rel l r t (a <|> b) := by
  intro e' he
  rcases orElse_some he with h | h
  · exact ha e' h
  · exact hb e' h

theorem rel_eq_cases {rel : Rel} {l r : Expr k} (S : C.Sound env) (hl : l.Ok env) (hr : r.Ok env)
    (h : complementaryRel Rel.equal rel (possibleRel C l r) ≠ Rel.false) :
    relHolds rel (k.num (l.eval env)) (k.num (r.eval env)) =
      (decide (complementaryRel Rel.equal rel (possibleRel C l r) = Rel.lessGreater) ^^ decide (l.eval env = r.eval env)) := by
  rw [complementaryRel_sound h (possibleRel_sound S hl hr)]
  rcases complementaryRel_cases rel (possibleRel C l r) with h1 | h1 | h1
  · rw [h1, relHolds_equal]
    simp [num_inj, show Rel.equal ≠ Rel.lessGreater by decide]
  · rw [h1, relHolds_lessGreater]
    simp [num_inj]
  · exact absurd h1 h

/-- a mask of at most one bit -/
theorem one_bit {w : Nat} {z : BitVec w} (h : lowestBit z = highestBit z) :
    (lowestBit z = -1 ∧ z = 0#w) ∨ ∃ j : Nat, j < w ∧ lowestBit z = j ∧ ∀ i, i ≠ j → z.getLsbD i = false := by
  rcases lowestBit_cases z with h1 | ⟨j, hj, h1, h2, h3⟩
  · exact .inl h1
  · rcases highestBit_cases z with h4 | ⟨j', hj', h4, h5, h6⟩
    · omega
    · have : j = j' := by omega
      subst this
      exact .inr ⟨j, h1, hj, fun i hi => (Nat.lt_or_gt_of_ne hi).elim (h3 i) (h6 i)⟩

theorem eor_bit {w j : Nat} (hj : j < w) {x y : BitVec w} (hx : ∀ i, i ≠ j → x.getLsbD i = false) (hy : ∀ i, i ≠ j → y.getLsbD i = false) :
    (x ^^^ y) >>> j = bit01 w (decide (x ≠ y)) := by
  apply BitVec.eq_of_getLsbD_eq
  intro i hi
  rw [BitVec.getLsbD_ushiftRight, BitVec.getLsbD_xor, bit01_getLsbD]
  by_cases h0 : i = 0
  · subst h0
    simp only [Nat.add_zero, decide_true, Bool.and_true, hi]
    by_cases hxy : x = y
    · subst hxy; simp
    · have : x.getLsbD j ≠ y.getLsbD j := by
        intro h
        apply hxy
        apply BitVec.eq_of_getLsbD_eq
        intro i _
        by_cases hij : i = j
        · rw [hij, h]
        · rw [hx i hij, hy i hij]
      simp only [ne_eq, hxy, not_false_eq_true, decide_true]
      cases hxx : x.getLsbD j <;> cases hyy : y.getLsbD j <;> simp_all
  · rw [hx _ (by omega), hy _ (by omega)]
    simp [h0]

theorem describes_bit {w : Nat} {z o v : BitVec w} (h : Describes z o v) {i : Nat} (hz : z.getLsbD i = false) : v.getLsbD i = false := by
  have h1 := (describes_iff.1 h).1
  rw [← h1, BitVec.getLsbD_and, hz, Bool.and_false]

theorem setBits_ok (S : C.Sound env) (rel : Rel) (l r : Expr k) (hl : l.Ok env) (hr : r.Ok env) (hm : m.Valid) (h1 : k.signed = true → 1 < k.bits) :
    SetOk env rel l r (1#m.bits) (setBits C rel l r m) := by
  intro e' he
  unfold setBits at he
  rw [Option.ite_none_right_eq_some] at he
  obtain ⟨hq, he⟩ := he
  have hv := ok_valid _ hl
  rw [rel_eq_cases S hl hr (by rw [hq]; decide), hq]
  cases hbl : C.bi l with
  | none => simp [hbl] at he
  | some bl =>
    cases hbr : C.bi r with
    | none => simp [hbl, hbr] at he
    | some br =>
      simp only [hbl, hbr, Option.ite_none_right_eq_some, Bool.and_eq_true, Bool.or_eq_true, decide_eq_true_eq, Option.some.injEq] at he
      obtain ⟨⟨⟨hL, hR⟩, hc⟩, rfl⟩ := he
      refine ⟨?_, convUnless_ok ⟨⟨hl, hr⟩, countIu_ok _, modeIu_counts hv, countIu_nonneg _⟩ hm⟩
      rw [convUnless_eval]
      have hdl := S.bi l bl hl hbl
      have hdr := S.bi r br hr hbr
      have key : (Expr.shr (.eor l r) (countIu (max (lowestBit bl.z) (lowestBit br.z)))).eval env = bit01 k.bits (decide (l.eval env ≠ r.eval env)) := by
        simp only [Expr.eval]
        rcases one_bit hL with ⟨a1, a2⟩ | ⟨a, ha, a1, a2⟩ <;> rcases one_bit hR with ⟨b1, b2⟩ | ⟨b, hb, b1, b2⟩
        · have e1 : l.eval env = 0#k.bits := by
            apply BitVec.eq_of_getLsbD_eq; intro i _; rw [describes_bit hdl (by rw [a2]; simp)]; simp
          have e2 : r.eval env = 0#k.bits := by
            apply BitVec.eq_of_getLsbD_eq; intro i _; rw [describes_bit hdr (by rw [b2]; simp)]; simp
          rw [e1, e2]; simp [bit01]
        · rw [a1, b1, show max (-1 : Int) (b : Int) = b by omega, countIu_amt hv hb]
          exact eor_bit hb (fun i _ => describes_bit hdl (by rw [a2]; simp)) (fun i hi => describes_bit hdr (b2 i hi))
        · rw [a1, b1, show max (a : Int) (-1) = a by omega, countIu_amt hv ha]
          exact eor_bit ha (fun i hi => describes_bit hdl (a2 i hi)) (fun i _ => describes_bit hdr (by rw [b2]; simp))
        · have : a = b := by omega
          subst this
          rw [a1, b1, show max (a : Int) (a : Int) = a by omega, countIu_amt hv ha]
          exact eor_bit ha (fun i hi => describes_bit hdl (a2 i hi)) (fun i hi => describes_bit hdr (b2 i hi))
      rw [key, bit01_conv h1 hv.1]
      simp [bit01]

theorem bitAt_eval (hv : m.Valid) (e : Expr m) {j : Nat} (hj : j < m.bits) : (bitAt e (j : Int)).eval env = bit01 m.bits ((e.eval env).getLsbD j) := by
  unfold bitAt
  simp only [Expr.eval]
  rw [countIu_amt hv hj]
  apply BitVec.eq_of_getLsbD_eq
  intro i hi
  rw [BitVec.getLsbD_and, BitVec.getLsbD_ushiftRight, bit01_getLsbD, BitVec.getLsbD_one]
  by_cases h0 : i = 0
  · subst h0; simp [hi]
  · simp [h0]

theorem bitAt_ok {e : Expr m} (he : e.Ok env) (n : Int) : (bitAt e n).Ok env :=
  ⟨⟨he, countIu_ok _, modeIu_counts (ok_valid _ he), countIu_nonneg _⟩, ok_valid _ he⟩

theorem notIf_bit (c : Bool) (e : Expr m) {j : Nat} (hj : j < m.bits) : ((notIf c e).eval env).getLsbD j = (c ^^ (e.eval env).getLsbD j) := by
  cases c
  · simp [notIf]
  · simp [notIf, Expr.eval, hj]

theorem and_twoPow_zero {w j : Nat} (x : BitVec w) (hj : j < w) : x &&& BitVec.twoPow w j = 0#w ↔ x.getLsbD j = false := by
  constructor
  · intro h
    have := congrArg (·.getLsbD j) h
    simpa [hj] using this
  · intro h
    rw [BitVec.and_twoPow, h]; simp

theorem highestBit_twoPow {w j : Nat} (hj : j < w) : highestBit (BitVec.twoPow w j) = j := by
  rcases highestBit_cases (BitVec.twoPow w j) with ⟨_, h⟩ | ⟨i, h1, h2, h3, _⟩
  · have := congrArg (·.getLsbD j) h
    simp [hj] at this
  · rw [h1]
    have : (BitVec.twoPow w j).getLsbD i = true := h3
    rw [BitVec.getLsbD_twoPow] at this
    simp at this; omega

theorem setAnd_ok (S : C.Sound env) (rel : Rel) (l r : Expr k) (hl : l.Ok env) (hr : r.Ok env) (hm : m.Valid) :
    SetOk env rel l r (1#m.bits) (setAnd C rel l r m) := by
  intro e' he
  simp only [setAnd, irrule] at he
  obtain ⟨a, b, rfl, tv, rfl, ⟨⟨hq, hr0⟩, hpc⟩, he⟩ := he
  subst hr0
  obtain ⟨j, hj, _, rfl⟩ := popcount_one hpc
  have hv := ok_valid _ hl
  rw [rel_eq_cases S hl hr hq]
  rw [highestBit_twoPow hj] at he
  have hsel : decide ((Expr.and a (.const (BitVec.twoPow k.bits j))).eval env = (Expr.const 0#k.bits).eval env) = !(a.eval env).getLsbD j := by
    rw [Bool.eq_iff_iff, decide_eq_true_eq]
    change (a.eval env &&& BitVec.twoPow k.bits j = 0#k.bits) ↔ _
    rw [and_twoPow_zero _ hj]
    simp
  rw [hsel]
  generalize hQ : complementaryRel Rel.equal rel (possibleRel C (Expr.and a (.const (BitVec.twoPow k.bits j))) (.const 0#k.bits)) = q at *
  have hqq : decide (q = Rel.lessGreater) = !decide (q = Rel.equal) := by
    rcases complementaryRel_cases rel (possibleRel C (Expr.and a (.const (BitVec.twoPow k.bits j))) (.const 0#k.bits)) with h | h | h
    · rw [hQ] at h; subst h; decide
    · rw [hQ] at h; subst h; decide
    · rw [hQ] at h; exact absurd h hq
  rw [hqq]
  have hfin : ∀ x : Bool, (if ((!decide (q = Rel.equal)) ^^ !x) = true then 1#m.bits else 0#m.bits) = bit01 m.bits (decide (q = Rel.equal) ^^ x) := by
    intro x; unfold bit01; congr 1; cases decide (q = Rel.equal) <;> cases x <;> rfl
  rw [hfin]
  split at he
  · next hlt =>
    cases he
    refine ⟨?_, bitAt_ok (notIf_ok (show (Expr.conv m a).Ok env from ⟨hl.1, hm⟩)) _⟩
    rw [bitAt_eval hm _ (by omega), notIf_bit _ _ (by omega)]
    simp only [Expr.eval]
    rw [convTo_getLsbD m _ (by omega), if_pos hj]
  · next hlt =>
    cases he
    refine ⟨?_, convUnless_ok (bitAt_ok (notIf_ok hl.1) _) hm⟩
    rw [convUnless_eval, bitAt_eval hv _ hj, notIf_bit _ _ hj, bit01_narrow (by omega)]

theorem toInt_ofInt_range {w : Nat} {n : Int} (hw : 0 < w) (h1 : -((2 ^ (w - 1) : Nat) : Int) ≤ n) (h2 : n < ((2 ^ (w - 1) : Nat) : Int)) :
    (BitVec.ofInt w n).toInt = n := by
  rw [BitVec.toInt_ofInt]
  have h3 : 2 ^ w = 2 * 2 ^ (w - 1) := by rw [← Nat.pow_succ']; congr 1; omega
  apply Int.bmod_eq_of_le <;> omega

theorem num_abs_diff (hk : 0 < k.bits) (x y : BitVec k.bits) : -((2 ^ k.bits : Nat) : Int) < k.num x - k.num y ∧ k.num x - k.num y < ((2 ^ k.bits : Nat) : Int) := by
  have h1 := x.isLt
  have h2 := y.isLt
  unfold IMode.num
  split
  · have a1 := BitVec.toInt_lt (x := x)
    have a2 := BitVec.le_toInt (x := x)
    have b1 := BitVec.toInt_lt (x := y)
    have b2 := BitVec.le_toInt (x := y)
    have h3 : 2 ^ k.bits = 2 * 2 ^ (k.bits - 1) := by rw [← Nat.pow_succ']; congr 1; omega
    have h4 : ((2 ^ (k.bits - 1) : Nat) : Int) = 2 ^ (k.bits - 1) := by push_cast; rfl
    rw [← h4] at a1 a2 b1 b2
    omega
  · omega

/-- the sign of a difference that does not overflow -/
theorem diff_msb (hk : 0 < k.bits) (h : k.bits < m.bits) (x y : BitVec k.bits) :
    (BitVec.ofInt m.bits (k.num x) - BitVec.ofInt m.bits (k.num y)).msb = decide (k.num x < k.num y) := by
  obtain ⟨h1, h2⟩ := num_abs_diff hk x y
  have h3 : 2 ^ k.bits ≤ 2 ^ (m.bits - 1) := Nat.pow_le_pow_right (by decide) (by omega)
  have e1 : BitVec.ofInt m.bits (k.num x) - BitVec.ofInt m.bits (k.num y) = BitVec.ofInt m.bits (k.num x - k.num y) := by
    rw [Int.sub_eq_add_neg, BitVec.ofInt_add, BitVec.ofInt_neg, BitVec.sub_eq_add_neg]
  rw [e1, BitVec.msb_eq_toInt, toInt_ofInt_range (by omega) (by omega) (by omega)]
  rw [Bool.eq_iff_iff, decide_eq_true_eq, decide_eq_true_eq]
  omega

theorem setDiff_ok {a b : Expr k} (c : Bool) (ha : a.Ok env) (hb : b.Ok env) (hm : m.Valid)
    (h : m.bits ≤ k.bits → (a.eval env - b.eval env).msb = decide (k.num (a.eval env) < k.num (b.eval env))) :
    (setDiff a b c m).eval env = bit01 m.bits (c ^^ decide (k.num (a.eval env) < k.num (b.eval env))) ∧ (setDiff a b c m).Ok env := by
  have hv := ok_valid _ ha
  unfold setDiff
  split
  · next hlt =>
    refine ⟨?_, signBit_ok ⟨⟨ha, hm⟩, hb, hm⟩⟩
    rw [signBit_eval hm]
    simp only [Expr.eval]
    rw [diff_msb hv.1 hlt]
  · next hlt =>
    refine ⟨?_, convUnless_ok (signBit_ok ⟨ha, hb⟩) hm⟩
    rw [convUnless_eval, signBit_eval hv, bit01_narrow (by omega)]
    simp only [Expr.eval]
    rw [h (by omega)]

theorem setOrder_ok (S : C.Sound env) (rel : Rel) (l r : Expr k) (hl : l.Ok env) (hr : r.Ok env) (hm : m.Valid)
    (hp : m.bits ≤ k.bits → isAllOne r = true → (possibleRel C l r).getLsbD 0 = true) :
    SetOk env rel l r (1#m.bits) (setOrder C rel l r m) := by
  intro e' he
  have hv := ok_valid _ hl
  have hps := possibleRel_sound S hl hr
  unfold setOrder at he
  simp only [Option.ite_none_right_eq_some] at he
  obtain ⟨hfit, he⟩ := he
  generalize hP : possibleRel C l r = p at *
  split at he
  · next hlt =>
    cases he
    have hs := complementaryRel_sound hlt hps
    have hc : relHolds (complementaryRel Rel.less rel p) (k.num (l.eval env)) (k.num (r.eval env)) =
        (decide (complementaryRel Rel.less rel p = Rel.greaterEqual) ^^ decide (k.num (l.eval env) < k.num (r.eval env))) := by
      have : ∀ rel p : BitVec 4, complementaryRel Rel.less rel p = Rel.less ∨ complementaryRel Rel.less rel p = Rel.greaterEqual ∨
        complementaryRel Rel.less rel p = Rel.false := by decide
      rcases this rel p with h | h | h
      · rw [h, relHolds_less]; simp [show Rel.less ≠ Rel.greaterEqual by decide]
      · rw [h, relHolds_greaterEqual]; simp
        rw [← decide_not]; congr 1; simp
      · exact absurd h hlt
    rw [hs, hc]
    apply setDiff_ok _ hl hr hm
    intro hle
    unfold diffFits at hfit
    rw [if_pos hle] at hfit
    simp only [Bool.and_eq_true, Bool.or_eq_true, decide_eq_true_eq] at hfit
    obtain ⟨⟨hsg, _⟩, ⟨_, h0⟩ | ⟨hgt, h1⟩⟩ := hfit
    · have : r = .const 0#k.bits := by simpa [isNull, asConst_iff] using h0
      subst this
      have e1 : (Expr.const 0#k.bits).eval env = 0#k.bits := rfl
      rw [e1, num_zero, BitVec.sub_zero]
      exact msb_num (.inl hsg)
    · have hp0 := hp hle h1
      have : ∀ rel p : BitVec 4, p.getLsbD 0 = true → complementaryRel Rel.less rel p ≠ Rel.false → complementaryRel Rel.greater rel p ≠ Rel.false →
          p &&& Rel.lessGreater = 0#4 := by decide
      have h2 := this rel p hp0 hlt hgt
      have h3 : k.num (l.eval env) = k.num (r.eval env) := by
        by_contra hne
        have h4 : relHolds (p &&& Rel.lessGreater) (k.num (l.eval env)) (k.num (r.eval env)) = true := by
          rw [relHolds_and, hps, relHolds_lessGreater]; simp [hne]
        rw [h2] at h4
        exact absurd h4 (by simp [relHolds])
      rw [h3, num_inj.1 h3]
      simp
  · next hlt =>
    split at he
    · next hgt =>
      cases he
      have hs := complementaryRel_sound hgt hps
      have hc : relHolds (complementaryRel Rel.greater rel p) (k.num (l.eval env)) (k.num (r.eval env)) =
          (decide (complementaryRel Rel.greater rel p = Rel.lessEqual) ^^ decide (k.num (r.eval env) < k.num (l.eval env))) := by
        have : ∀ rel p : BitVec 4, complementaryRel Rel.greater rel p = Rel.greater ∨ complementaryRel Rel.greater rel p = Rel.lessEqual ∨
          complementaryRel Rel.greater rel p = Rel.false := by decide
        rcases this rel p with h | h | h
        · rw [h, relHolds_greater]; simp [show Rel.greater ≠ Rel.lessEqual by decide]
        · rw [h, relHolds_lessEqual]; simp
          rw [← decide_not]; congr 1; simp
        · exact absurd h hgt
      rw [hs, hc]
      apply setDiff_ok _ hr hl hm
      intro hle
      unfold diffFits at hfit
      rw [if_pos hle] at hfit
      simp only [Bool.and_eq_true, Bool.or_eq_true, decide_eq_true_eq] at hfit
      obtain ⟨⟨hsg, _⟩, ⟨h2, h0⟩ | ⟨_, h1⟩⟩ := hfit
      · exact absurd h2 hlt
      · have : r = .const (BitVec.allOnes k.bits) := by simpa [isAllOne, asConst_iff] using h1
        subst this
        have e1 : (Expr.const (BitVec.allOnes k.bits)).eval env = BitVec.allOnes k.bits := rfl
        have e2 : k.num (BitVec.allOnes k.bits) = -1 := by
          unfold IMode.num; rw [if_pos hsg, BitVec.toInt_allOnes]; simp [hv.1]
        rw [e1, e2]
        have e3 : BitVec.allOnes k.bits - l.eval env = ~~~(l.eval env) := by
          rw [BitVec.not_eq_neg_add, ← BitVec.neg_one_eq_allOnes]; grind
        rw [e3, BitVec.msb_not, msb_num (.inl hsg)]
        rw [Bool.eq_iff_iff]; simp [hv.1]; omega
    · cases he

theorem muxSet_ok (S : C.Sound env) (rel : Rel) (l r : Expr k) (hl : l.Ok env) (hr : r.Ok env) (hm : m.Valid) (h1 : k.signed = true → 1 < k.bits)
    (hp : m.bits ≤ k.bits → isAllOne r = true → (possibleRel C l r).getLsbD 0 = true) :
    SetOk env rel l r (1#m.bits) (muxSet C rel l r m) :=
  setOk_or (setBits_ok S rel l r hl hr hm h1) (setOk_or (setAnd_ok S rel l r hl hr hm) (setOrder_ok S rel l r hl hr hm hp))

/-! ## other selections of zero -/

theorem fill_conv (hk : k.signed = true) (h0 : 0 < k.bits) (c : Bool) : BitVec.ofInt m.bits (k.num (if c then BitVec.allOnes k.bits else 0#k.bits)) =
    if c then BitVec.allOnes m.bits else 0#m.bits := by
  apply BitVec.eq_of_getLsbD_eq
  intro i hi
  rw [convTo_getLsbD m _ hi, hk]
  cases c
  · simp
  · simp [hi, BitVec.msb_allOnes h0]

theorem muxAllOne_ok (S : C.Sound env) (rel : Rel) (l r : Expr k) (hl : l.Ok env) (hr : r.Ok env) (hm : m.Valid) :
    SetOk env rel l r (BitVec.allOnes m.bits) (muxAllOne C rel l r m) := by
  intro e' he
  have hv := ok_valid _ hl
  have hps := possibleRel_sound S hl hr
  unfold muxAllOne at he
  simp only [Option.ite_none_right_eq_some, Bool.and_eq_true, Option.some.injEq] at he
  obtain ⟨⟨h0, hsg⟩, hlt, rfl⟩ := he
  have : r = .const 0#k.bits := by simpa [isNull, asConst_iff] using h0
  subst this
  generalize possibleRel C l (.const 0#k.bits) = p at *
  refine ⟨?_, convUnless_ok (signFill_ok (notIf_ok hl)) hm⟩
  rw [convUnless_eval, signFill_eval hv, fill_conv hsg hv.1, complementaryRel_sound hlt hps]
  have e1 : (Expr.const 0#k.bits).eval env = 0#k.bits := rfl
  rw [e1, num_zero]
  have : ∀ rel p : BitVec 4, complementaryRel Rel.less rel p = Rel.less ∨ complementaryRel Rel.less rel p = Rel.greaterEqual ∨
        complementaryRel Rel.less rel p = Rel.false := by decide
  congr 1
  rcases this rel p with h | h | h
  · rw [h, relHolds_less]
    simp only [notIf, show Rel.less ≠ Rel.greaterEqual by decide, decide_false, Bool.false_eq_true, if_false]
    rw [msb_num (.inl hsg)]
  · rw [h, relHolds_greaterEqual]
    simp only [notIf, decide_true, if_true, Expr.eval]
    rw [BitVec.msb_not, msb_num (.inl hsg)]
    simp [hv.1]
  · exact absurd h hlt

/-- the comparison is not decided by the possible relations -/
def Undecided (rel p : Rel) : Prop := p &&& rel ≠ Rel.false ∧ p &&& ~~~rel ≠ Rel.false

theorem undecided_of_cv {rel : Rel} {l r : Expr k} (h : cvCmp C rel l r = none) : Undecided rel (possibleRel C l r) := by
  unfold cvCmp at h
  constructor
  · intro h1; simp [h1] at h
  · intro h1
    simp only [h1, if_true] at h
    split at h <;> cases h

theorem undecided_negated {rel p : Rel} (h : Undecided rel p) : Undecided rel.negated p := by
  have : ∀ rel p : BitVec 4, p &&& rel ≠ Rel.false → p &&& ~~~rel ≠ Rel.false → p &&& Rel.negated rel ≠ Rel.false ∧ p &&& ~~~(Rel.negated rel) ≠ Rel.false := by decide
  exact this rel p h.1 h.2

def RLe (a b : Rel) : Prop := a &&& ~~~b = 0#4
instance (a b : Rel) : Decidable (RLe a b) := by unfold RLe; infer_instance
theorem rle_and {a b c : Rel} (h : RLe a c) : RLe (a &&& b) c := by
  have : ∀ a b c : BitVec 4, a &&& ~~~c = 0#4 → (a &&& b) &&& ~~~c = 0#4 := by decide
  exact this a b c h
theorem rle_self (a b : Rel) : RLe (a &&& b) b := by
  have : ∀ a b : BitVec 4, (a &&& b) &&& ~~~b = 0#4 := by decide
  exact this a b
theorem rle_trans {a b c : Rel} (h : RLe a b) (h' : RLe b c) : RLe a c := by
  have : ∀ a b c : BitVec 4, a &&& ~~~b = 0#4 → b &&& ~~~c = 0#4 → a &&& ~~~c = 0#4 := by decide
  exact this a b c h h'
theorem rle_ite {q : Prop} [Decidable q] {a b c : Rel} (h : RLe a c) : RLe (if q then a &&& b else a) c := by
  split
  · exact rle_and h
  · exact h

theorem possibleRel_bi {l r : Expr k} {bl br : BitInfo k.bits} (hc : asConst l = none) (hl : C.bi l = some bl) (hr : C.bi r = some br) :
    RLe (possibleRel C l r) (biRelations k bl br) ∧ RLe (possibleRel C l r) (~~~Rel.unordered) := by
  unfold possibleRel
  simp only [hc, hl, hr]
  constructor
  · exact rle_and (rle_and (rle_ite (rle_ite (rle_and (rle_self _ _)))))
  · exact rle_and (rle_and (rle_ite (rle_ite (rle_and (rle_and (rle_ite (rle_ite (rle_ite (rle_ite (rle_self _ _))))))))))

theorem num_one (h1 : k.signed = true → 1 < k.bits) (h0 : 0 < k.bits) : k.num 1#k.bits = 1 := by
  unfold IMode.num
  split
  · next h => rw [BitVec.toInt_eq_toNat_of_msb]
              · rw [BitVec.toNat_one h0]; rfl
              · rw [BitVec.msb_eq_getLsbD_last, BitVec.getLsbD_one]
                have := h1 h
                simp; omega
  · rw [BitVec.toNat_one h0]; rfl

theorem and_one_min (h1 : k.signed = true → 1 < k.bits) (h0 : 0 < k.bits) : 1#k.bits &&& minOf k = 0#k.bits := by
  unfold minOf
  split
  · next h =>
    have := h1 h
    apply BitVec.eq_of_getLsbD_eq
    intro i hi
    rw [BitVec.getLsbD_and, BitVec.getLsbD_one, BitVec.getLsbD_intMin]
    simp; omega
  · simp

theorem tvCmp_less {x y : BitVec k.bits} (h : k.num y ≤ k.num x) : BitInfo.tvCmp k.signed x y &&& Rel.less = 0#4 := by
  unfold BitInfo.tvCmp
  rw [← num_eq, ← num_eq]
  split
  · decide
  · rw [if_neg (by omega)]; decide
theorem tvCmp_greater {x y : BitVec k.bits} (h : k.num x ≤ k.num y) : BitInfo.tvCmp k.signed x y &&& Rel.greater = 0#4 := by
  unfold BitInfo.tvCmp
  rw [← num_eq, ← num_eq]
  split
  · decide
  · rw [if_pos (by omega)]; decide

theorem and_one_cases {w : Nat} (x : BitVec w) : x &&& 1#w = 0#w ∨ x &&& 1#w = 1#w := by
  rw [BitVec.and_one_eq_setWidth_ofBool_getLsbD]
  cases x.getLsbD 0
  · left; simp
  · right; apply BitVec.eq_of_toNat_eq; simp

/-- the bit test of a selection that is not decided can be expressed as a test for equality -/
theorem mux_assert (K : ConstBits C) {rel : Rel} {l r : Expr k} (hu : Undecided rel (possibleRel C l r)) (hi : isInt k = true) (h0 : 0 < k.bits)
    (h1 : k.signed = true → 1 < k.bits) (S : C.Sound env) (hl : l.Ok env) (h : muxBitApplies C l r = true) :
    complementaryRel Rel.equal rel (possibleRel C l r) ≠ Rel.false := by
  unfold muxBitApplies at h
  rw [Bool.and_eq_true] at h
  obtain ⟨hr, hb⟩ := h
  cases hbl : C.bi l with
  | none => simp [hbl] at hb
  | some bl =>
    simp only [hbl, decide_eq_true_eq] at hb
    have hd := S.bi l bl hl hbl
    have hone : bl.o = 0#k.bits ∨ bl.o = 1#k.bits := by
      have h2 := (describes_iff.1 hd)
      have h3 : bl.o &&& 1#k.bits = bl.o := by
        rw [← hb]
        have : bl.o &&& l.eval env = bl.o := by
          rw [← h2.2]; apply BitVec.eq_of_getLsbD_eq; intro i _; simp only [BitVec.getLsbD_and, BitVec.getLsbD_or]; cases bl.o.getLsbD i <;> simp
        rw [← this, BitVec.and_assoc, h2.1]
      rw [← h3]
      exact and_one_cases _
    cases hc : asConst l with
    | some x =>
      exfalso
      unfold Undecided possibleRel at hu
      have : ∃ y, asConst r = some y := by
        simp only [isNull, isOne, Bool.or_eq_true, decide_eq_true_eq] at hr
        rcases hr with h | h
        · exact ⟨_, h⟩
        · exact ⟨_, h⟩
      obtain ⟨y, hy⟩ := this
      simp only [hc, hy] at hu
      unfold BitInfo.tvCmp at hu
      have h5 : ∀ r : BitVec 4, ¬(Rel.equal &&& r ≠ Rel.false ∧ Rel.equal &&& ~~~r ≠ Rel.false) := by decide
      have h6 : ∀ r : BitVec 4, ¬(Rel.less &&& r ≠ Rel.false ∧ Rel.less &&& ~~~r ≠ Rel.false) := by decide
      have h7 : ∀ r : BitVec 4, ¬(Rel.greater &&& r ≠ Rel.false ∧ Rel.greater &&& ~~~r ≠ Rel.false) := by decide
      split at hu
      · exact h5 _ hu
      · split at hu
        · exact h6 _ hu
        · exact h7 _ hu
    | none =>
      have hcond : RLe (possibleRel C l r) (~~~Rel.less) ∨ RLe (possibleRel C l r) (~~~Rel.greater) := by
        simp only [isNull, isOne, Bool.or_eq_true, decide_eq_true_eq, asConst_iff] at hr
        have hn1 := num_one h1 h0
        have hn0 := num_zero k
        rcases hr with rfl | rfl
        · left
          have hbr := K k l bl 0#k.bits hbl
          refine rle_trans (possibleRel_bi hc hbl hbr).1 ?_
          have : BitInfo.tvCmp k.signed (bl.o ||| (bl.z &&& minOf k)) (0#k.bits &&& (0#k.bits ||| ~~~minOf k)) &&& Rel.less = 0#4 := by
            apply tvCmp_less
            rw [hb, and_one_min h1 h0]
            rcases hone with h | h <;> rw [h] <;> simp only [BitVec.or_zero, BitVec.zero_and] <;> omega
          unfold biRelations
          simp only [hi, this, Bool.true_and]
          exact rle_ite (rle_self _ _)
        · right
          have hbr := K k l bl 1#k.bits hbl
          refine rle_trans (possibleRel_bi hc hbl hbr).1 ?_
          have : BitInfo.tvCmp k.signed (bl.z &&& (bl.o ||| ~~~minOf k)) (1#k.bits ||| (1#k.bits &&& minOf k)) &&& Rel.greater = 0#4 := by
            apply tvCmp_greater
            rw [hb, and_one_min h1 h0, BitVec.or_zero, hn1]
            rcases and_one_cases (bl.o ||| ~~~minOf k) with h | h <;> rw [BitVec.and_comm, h] <;> omega
          unfold biRelations
          simp only [hi, this, Bool.true_and]
          exact rle_ite (rle_ite (rle_self _ _))
      have hun : RLe (possibleRel C l r) (~~~Rel.unordered) := by
        simp only [isNull, isOne, Bool.or_eq_true, decide_eq_true_eq, asConst_iff] at hr
        rcases hr with rfl | rfl
        · exact (possibleRel_bi hc hbl (K k l bl _ hbl)).2
        · exact (possibleRel_bi hc hbl (K k l bl _ hbl)).2
      generalize possibleRel C l r = p at *
      have : ∀ rel p : BitVec 4, (p &&& rel ≠ Rel.false ∧ p &&& ~~~rel ≠ Rel.false) → (p &&& ~~~(~~~Rel.less) = 0#4 ∨ p &&& ~~~(~~~Rel.greater) = 0#4) →
        p &&& ~~~(~~~Rel.unordered) = 0#4 → complementaryRel Rel.equal rel p ≠ Rel.false := by decide
      exact this rel p hu hcond hun

theorem zero_one {w : Nat} {b : BitInfo w} {v : BitVec w} (h : Describes b.z b.o v) (hz : b.z = 1#w) : v = 0#w ∨ v = 1#w := by
  have h1 := (describes_iff.1 h).1
  rw [hz] at h1
  rw [← h1]
  exact and_one_cases v

theorem muxBit_ok (S : C.Sound env) (rel : Rel) (l r : Expr k) (t : Expr m) (hl : l.Ok env) (hr : r.Ok env) (ht : t.Ok env) (h1 : k.signed = true → 1 < k.bits)
    (ha : muxBitApplies C l r = true → complementaryRel Rel.equal rel (possibleRel C l r) ≠ Rel.false) :
    SetOk env rel l r (t.eval env) (muxBit C rel l r t) := by
  intro e' he
  have hv := ok_valid _ hl
  have hm := ok_valid _ ht
  unfold muxBit at he
  rw [Option.ite_none_right_eq_some] at he
  obtain ⟨hap, he⟩ := he
  have hq := ha hap
  rw [rel_eq_cases S hl hr hq]
  unfold muxBitApplies at hap
  rw [Bool.and_eq_true] at hap
  obtain ⟨hr01, hb⟩ := hap
  have hlv : l.eval env = bit01 k.bits (decide (l.eval env = 1#k.bits)) := by
    cases hbl : C.bi l with
    | none => simp [hbl] at hb
    | some bl =>
      simp only [hbl, decide_eq_true_eq] at hb
      rcases zero_one (S.bi l bl hl hbl) hb with h | h
      · rw [h]
        have : 0#k.bits ≠ 1#k.bits := by
          intro hh
          have := congrArg BitVec.toNat hh
          rw [BitVec.toNat_one hv.1] at this; simp at this
        simp [bit01, this]
      · rw [h]; simp [bit01]
  have hconv : (convUnless m l).eval env = bit01 m.bits (decide (l.eval env = 1#k.bits)) := by
    rw [convUnless_eval]
    conv_lhs => rw [hlv]
    exact bit01_conv h1 hv.1 _
  have hne : (1#k.bits) ≠ 0#k.bits := by
    intro hh
    have := congrArg BitVec.toNat hh
    rw [BitVec.toNat_one hv.1] at this; simp at this
  have hqq : complementaryRel Rel.equal rel (possibleRel C l r) = Rel.equal ∨ complementaryRel Rel.equal rel (possibleRel C l r) = Rel.lessGreater := by
    rcases complementaryRel_cases rel (possibleRel C l r) with h | h | h
    · exact .inl h
    · exact .inr h
    · exact absurd h hq
  have hc01 : convUnless m l = convUnless m l := rfl
  generalize complementaryRel Rel.equal rel (possibleRel C l r) = q at *
  have hminus : ∀ c : Bool, -(bit01 m.bits c) &&& t.eval env = if c then t.eval env else 0#m.bits := by
    intro c; cases c
    · simp [bit01]
    · simp only [bit01, if_true]; rw [BitVec.neg_one_eq_allOnes]; simp
  have hsub : ∀ c : Bool, (bit01 m.bits c - 1#m.bits) &&& t.eval env = if c then 0#m.bits else t.eval env := by
    intro c; cases c
    · simp only [bit01, Bool.false_eq_true, if_false]
      rw [BitVec.zero_sub, BitVec.neg_one_eq_allOnes]; simp
    · simp [bit01]
  have hr' : r = .const 0#k.bits ∨ r = .const 1#k.bits := by
    simpa [isNull, isOne, asConst_iff] using hr01
  have hok1 : (Expr.and (.minus (convUnless m l)) t).Ok env := ⟨convUnless_ok hl hm, ht⟩
  have hok2 : (Expr.and (.sub (convUnless m l) (.const 1#m.bits)) t).Ok env := ⟨⟨convUnless_ok hl hm, hm⟩, ht⟩
  have hn0 : isNull (Expr.const 1#k.bits) = false := by simp [isNull, asConst, hne]
  have hn1 : isOne (Expr.const 0#k.bits) = false := by simp [isOne, asConst, hne.symm]
  have hz : isNull (Expr.const 0#k.bits) = true := by simp [isNull, asConst]
  have ho : isOne (Expr.const 1#k.bits) = true := by simp [isOne, asConst]
  have hc1 : (decide (l.eval env = (Expr.const 1#k.bits).eval env)) = decide (l.eval env = 1#k.bits) := rfl
  have hc0 : (decide (l.eval env = (Expr.const 0#k.bits).eval env)) = !decide (l.eval env = 1#k.bits) := by
    change decide (l.eval env = 0#k.bits) = _
    rw [hlv]
    cases decide (l.eval env = 1#k.bits)
    · simp [bit01, hne.symm]
    · simp [bit01, hne]
  have hd1 : decide (Rel.equal = Rel.lessGreater) = false := by decide
  have hd2 : decide (Rel.lessGreater = Rel.lessGreater) = true := by decide
  have hd3 : ¬ (Rel.lessGreater = Rel.equal) := by decide
  have hv1 : (Expr.and (.minus (convUnless m l)) t).eval env = if decide (l.eval env = 1#k.bits) then t.eval env else 0#m.bits := by
    simp only [Expr.eval]; rw [hconv, hminus]
  have hv2 : (Expr.and (.sub (convUnless m l) (.const 1#m.bits)) t).eval env = if decide (l.eval env = 1#k.bits) then 0#m.bits else t.eval env := by
    simp only [Expr.eval]; rw [hconv, hsub]
  generalize decide (l.eval env = 1#k.bits) = b at *
  simp only at he
  rcases hr' with rfl | rfl <;> rcases hqq with rfl | rfl
  · rw [if_pos rfl, hn1, if_neg Bool.false_ne_true] at he
    cases he
    refine ⟨?_, hok2⟩
    rw [hv2, hc0, hd1]; cases b <;> simp
  · rw [if_neg hd3, hz, if_pos rfl] at he
    cases he
    refine ⟨?_, hok1⟩
    rw [hv1, hc0, hd2]; cases b <;> simp
  · rw [if_pos rfl, ho, if_pos rfl] at he
    cases he
    refine ⟨?_, hok1⟩
    rw [hv1, hc1, hd1]; cases b <;> simp
  · rw [if_neg hd3, hn0, if_neg Bool.false_ne_true] at he
    cases he
    refine ⟨?_, hok2⟩
    rw [hv2, hc1, hd2]; cases b <;> simp

/-- the cases in which the code is right (see the counterexamples in `Props/IrOptMux.lean`): an absolute value is recognised only from an
order relation, in a signed mode or a mode with more bits than the compared value; a signed mode with a single bit does not occur; a value that is compared
with -1 is not known to be different from -1 -/
structure MuxSafe (C : Ctx) (rel : Rel) (l r : Expr k) (f t : Expr m) : Prop where
  absRel : isNegatedValue t f = true → isNull r = true → ¬(rel &&& Rel.less ≠ 0#4 ∧ rel &&& Rel.greater ≠ 0#4)
  absSigned : isNegatedValue t f = true → isNull r = true → m.signed = true ∨ k.bits < m.bits
  bits : k.signed = true → 1 < k.bits
  minusOne : m.bits ≤ k.bits → isAllOne r = true → (possibleRel C l r).getLsbD 0 = true

theorem muxZero_ok (S : C.Sound env) (K : ConstBits C) (rel : Rel) (l r : Expr k) (f t : Expr m) (hu : Undecided rel (possibleRel C l r))
    (h1 : k.signed = true → 1 < k.bits) (hp : m.bits ≤ k.bits → isAllOne r = true → (possibleRel C l r).getLsbD 0 = true) :
    RuleOk env (.mux (.cmp rel l r) f t) (muxZero C rel l r f t) := by
  intro e' he ho
  obtain ⟨⟨hl, hr⟩, hf, ht⟩ := ho
  have hm := ok_valid _ hf
  unfold muxZero at he
  simp only [Option.ite_none_right_eq_some, Bool.and_eq_true] at he
  obtain ⟨⟨⟨hf0, _⟩, hik⟩, he⟩ := he
  have hf0' : f = .const 0#m.bits := by simpa [isNull, asConst_iff] using hf0
  subst hf0'
  rw [mux_cmp_eval]
  rcases orElse_some he with h | h
  · split at h
    · next h2 =>
      have : t = .const 1#m.bits := by simpa [isOne, asConst_iff] using h2
      subst this
      exact muxSet_ok S rel l r hl hr hm h1 hp e' h
    · split at h
      · next h2 =>
        have : t = .const (BitVec.allOnes m.bits) := by simpa [isAllOne, asConst_iff] using h2
        subst this
        exact muxAllOne_ok S rel l r hl hr hm e' h
      · cases h
  · exact muxBit_ok S rel l r t hl hr ht h1 (mux_assert K hu hik (ok_pos hl) h1 S hl) e' h

theorem muxSingleBit_ok (S : C.Sound env) (rel : Rel) (l r : Expr k) (f t : Expr m) : RuleOk env (.mux (.cmp rel l r) f t) (muxSingleBit C rel l r f t) := by
  intro e' he ho
  obtain ⟨⟨hl, hr⟩, hf, ht⟩ := ho
  unfold muxSingleBit at he
  split at he
  · next h =>
    subst h
    split at he
    · next x y hxy =>
      rw [asAnd_iff] at hxy
      simp only at hxy
      simp only [Option.ite_none_right_eq_some, Bool.and_eq_true, decide_eq_true_eq, Bool.or_eq_true, ne_eq] at he
      obtain ⟨⟨⟨⟨⟨hq, hr0⟩, rfl⟩, hxt⟩, hs⟩, he⟩ := he
      have hr0' : f = .const 0#k.bits := by simpa [isNull, asConst_iff] using hr0
      obtain ⟨j, hj, htv⟩ := isSingleBit_sound ht hs
      rw [mux_cmp_eval, rel_eq_cases S hl hr hq]
      have hfv : f.eval env = 0#k.bits := by rw [hr0']; rfl
      have hlv : l.eval env = 0#k.bits ∨ l.eval env = t.eval env := by
        rw [hxy]
        have key : ∀ v : BitVec k.bits, v &&& BitVec.twoPow k.bits j = 0#k.bits ∨ v &&& BitVec.twoPow k.bits j = BitVec.twoPow k.bits j := by
          intro v; rw [BitVec.and_twoPow]; split
          · exact .inr rfl
          · exact .inl rfl
        simp only [Expr.eval]
        rcases hxt with rfl | rfl
        · rw [htv, BitVec.and_comm]; exact key _
        · rw [htv]; exact key _
      have hne : BitVec.twoPow k.bits j ≠ 0#k.bits := by
        intro h
        have := congrArg (·.getLsbD j) h
        simp [hj] at this
      rw [hfv]
      have hqq := complementaryRel_cases rel (possibleRel C l f)
      generalize complementaryRel Rel.equal rel (possibleRel C l f) = q at *
      rcases (or_assoc.2 hqq).resolve_right hq with rfl | rfl
      · rw [if_pos rfl] at he
        cases he
        refine ⟨?_, hl, ht⟩
        simp only [Expr.eval]
        rcases hlv with h | h <;> rw [h, htv] <;> simp [hne, show ¬ (Rel.equal = Rel.lessGreater) by decide]
      · rw [if_neg (by decide)] at he
        cases he
        refine ⟨?_, hl⟩
        rcases hlv with h | h <;> rw [h] <;> simp [htv, hne]
    · cases he
  · cases he

theorem mux_swap (rel : Rel) (l r : Expr k) (f t : Expr m) : Replaces env (.mux (.cmp rel.negated l r) t f) (.mux (.cmp rel l r) f t) := by
  intro ho
  refine ⟨?_, ho.1, ho.2.2, ho.2.1⟩
  rw [mux_cmp_eval, mux_cmp_eval, relHolds_negated]
  cases relHolds rel (k.num (l.eval env)) (k.num (r.eval env)) <;> simp

theorem muxCmp_ok (S : C.Sound env) (K : ConstBits C) (rel : Rel) (l r : Expr k) (f t : Expr m) (hu : Undecided rel (possibleRel C l r))
    (h1 : k.signed = true → 1 < k.bits) (hp : m.bits ≤ k.bits → isAllOne r = true → (possibleRel C l r).getLsbD 0 = true) :
    RuleOk env (.mux (.cmp rel l r) f t) (muxCmp C rel l r f t) := by
  have hrules : ∀ (rel : Rel) (f t : Expr m), Undecided rel (possibleRel C l r) → RuleOk env (.mux (.cmp rel l r) f t) (muxRules C rel l r f t) :=
    fun rel f t hu => ruleOk_or (muxZero_ok S K rel l r f t hu h1 hp) (muxSingleBit_ok S rel l r f t)
  unfold muxCmp
  split
  · refine ruleOk_or ?_ (ruleOk_some (mux_swap rel l r f t))
    intro e' he
    exact Replaces.trans (hrules _ _ _ (undecided_negated hu) e' he) (mux_swap rel l r f t)
  · exact hrules _ _ _ hu

theorem mux_eval (s : Expr bmode) (f t : Expr m) : (Expr.mux s f t).eval env = if s.eval env = 1#1 then t.eval env else f.eval env := rfl

theorem bool_cases (v : BitVec 1) : v = 0#1 ∨ v = 1#1 := by
  revert v; decide

theorem muxTrueMux_ok (sel : Expr bmode) (f t : Expr m) : RuleOk env (.mux sel f t) (muxTrueMux sel f t) := by
  intro e' he ho
  simp only [muxTrueMux, irrule] at he
  obtain ⟨c1, f1, t1, rfl, he⟩ := he
  obtain ⟨h1, h2, h3⟩ := ho
  split at he
  · next h =>
    subst h
    cases he
    refine ⟨?_, ⟨h1, h3.1⟩, h3.2.1, h3.2.2⟩
    simp only [mux_eval, Expr.eval]
    rcases bool_cases (sel.eval env) with a | a <;> rcases bool_cases (c1.eval env) with b | b <;> simp [a, b]
  · split at he
    · next h =>
      subst h
      cases he
      refine ⟨?_, ⟨h1, h3.1⟩, h3.2.2, h3.2.1⟩
      simp only [mux_eval, Expr.eval]
      rcases bool_cases (sel.eval env) with a | a <;> rcases bool_cases (c1.eval env) with b | b <;> simp [a, b]
    · cases he

theorem muxFalseMux_ok (sel : Expr bmode) (f t : Expr m) : RuleOk env (.mux sel f t) (muxFalseMux sel f t) := by
  intro e' he ho
  simp only [muxFalseMux, irrule] at he
  obtain ⟨c1, f1, t1, rfl, he⟩ := he
  obtain ⟨h1, h2, h3⟩ := ho
  split at he
  · cases he
  · split at he
    · next h =>
      subst h
      cases he
      refine ⟨?_, ⟨h1, h2.1⟩, h2.2.1, h2.2.2⟩
      simp only [mux_eval, Expr.eval]
      rcases bool_cases (sel.eval env) with a | a <;> rcases bool_cases (c1.eval env) with b | b <;> simp [a, b]
    · split at he
      · next h =>
        subst h
        cases he
        refine ⟨?_, ⟨h1, h2.1⟩, h2.2.2, h2.2.1⟩
        simp only [mux_eval, Expr.eval]
        rcases bool_cases (sel.eval env) with a | a <;> rcases bool_cases (c1.eval env) with b | b <;> simp [a, b]
      · cases he

theorem muxB_ok (sel f t : Expr bmode) (hne : t ≠ f) : RuleOk env (.mux sel f t) (muxB sel f t) := by
  intro e' he ho
  obtain ⟨h1, h2, h3⟩ := ho
  unfold muxB at he
  split at he
  · next tv fv ht hf =>
    rw [asConst_iff] at ht hf
    subst ht hf
    rw [Option.ite_none_right_eq_some] at he
    obtain ⟨rfl, he⟩ := he
    cases he
    refine ⟨?_, h1⟩
    simp only [mux_eval, Expr.eval]
    rcases bool_cases fv with rfl | rfl
    · rcases bool_cases (sel.eval env) with a | a <;> simp [a]
    · exact absurd rfl hne
  · next tv ht hf =>
    rw [asConst_iff] at ht
    subst ht
    rw [Option.ite_none_right_eq_some] at he
    obtain ⟨rfl, he⟩ := he
    cases he
    refine ⟨?_, h1, h2⟩
    simp only [mux_eval, Expr.eval]
    rcases bool_cases (sel.eval env) with a | a <;> rcases bool_cases (f.eval env) with b | b <;> simp [a, b]
  · next fv ht hf =>
    rw [asConst_iff] at hf
    subst hf
    split at he
    · next h =>
      subst h
      cases he
      refine ⟨?_, h1, h3⟩
      simp only [mux_eval, Expr.eval]
      rcases bool_cases (sel.eval env) with a | a <;> rcases bool_cases (t.eval env) with b | b <;> simp [a, b]
    · next h =>
      rcases bool_cases fv with rfl | rfl
      · cases he
        refine ⟨?_, h1, h3⟩
        simp only [mux_eval, Expr.eval]
        rcases bool_cases (sel.eval env) with a | a <;> rcases bool_cases (t.eval env) with b | b <;> simp [a, b]
      · exact absurd rfl h
  · cases he

end Verif.Model.IrOpt
