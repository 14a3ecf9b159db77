import Verif.Lemmas.IrOptValue
/-!
# C64: constant folding and equivalent nodes preserve the value

`Replaces env e' e`: when `e` is well-formed and has no undefined behaviour, then `e'` has the same value and no
undefined behaviour either.
-/
namespace Verif.Props
open Verif.Spec Verif.Model Verif.Model.IrOpt

variable {m k : IMode} {env : Env}

theorem cv_add {a b : Expr m} {v} (h : cvAdd a b = some v) : (Expr.add a b).eval env = v := by
  unfold cvAdd at h
  simp only [Expr.eval]
  split at h
  · next x y h1 h2 => cases h; rw [const_eval h1, const_eval h2]
  · split at h
    · next hc => cases h; rw [complementValues_sound hc, BitVec.add_not_self]
    · split at h
      · next hc =>
        simp only [Bool.and_eq_true] at hc
        cases h
        rw [isNegatedValue_sound hc.1, BitVec.add_right_neg]
      · cases h

theorem cv_sub {a b : Expr m} {v} (h : cvSub a b = some v) : (Expr.sub a b).eval env = v := by
  unfold cvSub at h
  simp only [Expr.eval]
  split at h
  · next hc => simp only [Bool.and_eq_true, decide_eq_true_eq] at hc; cases h; rw [hc.1, BitVec.sub_self]
  · split at h
    · next x y h1 h2 => cases h; rw [const_eval h1, const_eval h2]
    · cases h

theorem cv_minus {a : Expr m} {v} (h : cvMinus a = some v) : (Expr.minus a).eval env = v := by
  unfold cvMinus at h
  simp only [Option.map_eq_some_iff] at h
  obtain ⟨x, h1, rfl⟩ := h
  simp only [Expr.eval, const_eval h1]

theorem cv_not {a : Expr m} {v} (h : cvNot a = some v) : (Expr.not a).eval env = v := by
  unfold cvNot at h
  simp only [Option.map_eq_some_iff] at h
  obtain ⟨x, h1, rfl⟩ := h
  simp only [Expr.eval, const_eval h1]

theorem cv_mul {a b : Expr m} {v} (h : cvMul a b = some v) : (Expr.mul a b).eval env = v := by
  unfold cvMul at h
  simp only [Expr.eval]
  split at h
  · next x y h1 h2 => cases h; rw [const_eval h1, const_eval h2]
  · split at h
    · next hc => rw [hc] at h; cases h; rw [const_eval hc, BitVec.zero_mul]
    · split at h
      · next hc => rw [hc] at h; cases h; rw [const_eval hc, BitVec.mul_zero]
      · cases h

theorem cv_and {a b : Expr m} {v} (h : cvAnd a b = some v) : (Expr.and a b).eval env = v := by
  unfold cvAnd at h
  simp only [Expr.eval]
  split at h
  · next x y h1 h2 => cases h; rw [const_eval h1, const_eval h2]
  · split at h
    · next hc => rw [hc] at h; cases h; rw [const_eval hc, BitVec.zero_and]
    · split at h
      · next hc => rw [hc] at h; cases h; rw [const_eval hc, BitVec.and_zero]
      · split at h
        · next hc => cases h; rw [complementValues_sound hc]; ext i hi; simp
        · cases h

theorem cv_or {a b : Expr m} {v} (h : cvOr a b = some v) : (Expr.or a b).eval env = v := by
  unfold cvOr at h
  simp only [Expr.eval]
  split at h
  · next x y h1 h2 => cases h; rw [const_eval h1, const_eval h2]
  · split at h
    · next hc => rw [hc] at h; cases h; rw [const_eval hc, BitVec.allOnes_or]
    · split at h
      · next hc => rw [hc] at h; cases h; rw [const_eval hc, BitVec.or_allOnes]
      · split at h
        · next hc => cases h; rw [complementValues_sound hc]; ext i hi; simp
        · cases h

theorem cv_eor {a b : Expr m} {v} (h : cvEor a b = some v) : (Expr.eor a b).eval env = v := by
  unfold cvEor at h
  simp only [Expr.eval]
  split at h
  · next hc => cases h; rw [hc, BitVec.xor_self]
  · split at h
    · next hc => cases h; rw [complementValues_sound hc]; ext i hi; simp
    · split at h
      · next x y h1 h2 => cases h; rw [const_eval h1, const_eval h2]
      · cases h

theorem cv_shl {a : Expr m} {s : Expr k} {v} (he : (Expr.shl a s).Ok env) (h : cvShl a s = some v) : (Expr.shl a s).eval env = v := by
  unfold cvShl at h
  simp only [Expr.eval]
  split at h
  · next x y h1 h2 =>
    simp only [Option.map_eq_some_iff, countOf] at h
    obtain ⟨n, h3, rfl⟩ := h
    split at h3
    · cases h3; rw [const_eval h1, const_eval h2]
    · cases h3
  · split at h
    · next ho =>
      cases h
      exact BitVec.shiftLeft_eq_zero (oversize_amt (ok_valid a he.1) he.2.2.1 (fun c hc => he.2.2.2 c ((asConst_iff _ _).1 hc)) ho)
    · cases h

theorem shr_self {w : Nat} (x : BitVec w) : x >>> x.toNat = 0#w := by
  apply BitVec.eq_of_toNat_eq
  rw [BitVec.toNat_ushiftRight, Nat.shiftRight_eq_div_pow, BitVec.toNat_ofNat, Nat.zero_mod]
  exact Nat.div_eq_of_lt Nat.lt_two_pow_self

theorem cv_shr {a : Expr m} {s : Expr k} {v} (he : (Expr.shr a s).Ok env) (hss : m.modulo = 0 ∨ sameNode a s = false)
    (h : cvShr a s = some v) : (Expr.shr a s).eval env = v := by
  unfold cvShr at h
  simp only [Expr.eval]
  split at h
  · next x y h1 h2 =>
    simp only [Option.map_eq_some_iff, countOf] at h
    obtain ⟨n, h3, rfl⟩ := h
    split at h3
    · cases h3; rw [const_eval h1, const_eval h2]
    · cases h3
  · split at h
    · next ho =>
      cases h
      simp only [Bool.or_eq_true] at ho
      rcases ho with ho | ho
      · rcases hss with hss | hss
        · obtain ⟨rfl, rfl⟩ := sameNode_spec ho
          simp only [IMode.amt, hss, if_true]
          exact shr_self _
        · rw [hss] at ho; cases ho
      · exact BitVec.ushiftRight_eq_zero (oversize_amt (ok_valid a he.1) he.2.2.1 (fun c hc => he.2.2.2 c ((asConst_iff _ _).1 hc)) ho)
    · cases h

theorem cv_shrs {a : Expr m} {s : Expr k} {v} (h : cvShrs a s = some v) : (Expr.shrs a s).eval env = v := by
  unfold cvShrs at h
  simp only [Expr.eval]
  split at h
  · next x y h1 h2 =>
    simp only [Option.map_eq_some_iff, countOf] at h
    obtain ⟨n, h3, rfl⟩ := h
    split at h3
    · cases h3; rw [const_eval h1, const_eval h2]
    · cases h3
  · cases h

theorem cv_conv {a : Expr k} {v} (he : a.Ok env) (h : cvConv m a = some v) : (Expr.conv m a).eval env = v := by
  unfold cvConv at h
  simp only [Expr.eval]
  split at h
  · next c h1 => cases h; rw [const_eval h1]; rfl
  · split at h
    · next hz => cases h; exact zeroWhenConverted_sound he hz
    · cases h

theorem cv_mux {sel : Expr bmode} {f t : Expr m} {v} (h : cvMux sel f t = some v) : (Expr.mux sel f t).eval env = v := by
  unfold cvMux at h
  simp only [Expr.eval]
  split at h
  · next hc => rw [const_eval hc, if_pos rfl, const_eval h]
  · split at h
    · next hc => rw [const_eval hc, if_neg (by decide), const_eval h]
    · cases h

theorem cv_confirm {C : Ctx} (S : C.Sound env) {a b : Expr m} {r v} (he : (Expr.confirm a r b).Ok env) (h : cvConfirm C a r b = some v) :
    (Expr.confirm a r b).eval env = v := by
  unfold cvConfirm at h
  simp only [Expr.eval]
  simp only [] at h
  split at h
  · cases h
  · split at h
    · next hc =>
      simp only [Bool.and_eq_true, decide_eq_true_eq] at hc
      have hp := possibleRel_sound S he.1 he.2.1
      have : relHolds (possibleRel C a b &&& r) (m.num (a.eval env)) (m.num (b.eval env)) = true := by
        rw [relHolds_and, hp, he.2.2]; rfl
      rw [hc.1, relHolds_equal] at this
      simp only [decide_eq_true_eq, num_inj] at this
      rw [this, const_eval h]
    · exact const_eval h

theorem cv_cmp {C : Ctx} (S : C.Sound env) {a b : Expr k} {r v} (he : (Expr.cmp r a b).Ok env) (h : cvCmp C r a b = some v) :
    (Expr.cmp r a b).eval env = v := by
  unfold cvCmp at h
  simp only [Expr.eval]
  simp only [] at h
  have hp := possibleRel_sound S he.1 he.2
  split at h
  · next hc =>
    cases h
    have : relHolds (possibleRel C a b &&& r) (k.num (a.eval env)) (k.num (b.eval env)) = false := by
      rw [hc, relHolds_false]
    rw [relHolds_and, hp, Bool.true_and] at this
    rw [this]; rfl
  · split at h
    · next hc =>
      cases h
      have : relHolds (possibleRel C a b &&& ~~~r) (k.num (a.eval env)) (k.num (b.eval env)) = false := by
        rw [hc, relHolds_false]
      rw [relHolds_and, hp, Bool.true_and, relHolds_not, Bool.not_eq_false'] at this
      rw [this]; rfl
    · split at h
      · next hc =>
        cases h
        simp only [Bool.and_eq_true, decide_eq_true_eq, isNull_iff] at hc
        obtain ⟨⟨h1, h2⟩, h3⟩ := hc
        have h0 := valueNotNull_sound S a he.1 h3
        rw [complementaryRel_sound h1 hp, h2]
        simp only [Expr.eval]
        have hne : ¬ (k.num (a.eval env) = k.num 0#k.bits) := by rw [num_inj]; exact h0
        rcases complementaryRel_cases r (possibleRel C a b) with h | h | h
        · subst h2
          rw [h, relHolds_equal]; simp [hne]
        · subst h2
          rw [h, relHolds_lessGreater]; simp [hne]; decide
        · exact absurd h h1
      · simp only [Option.map_eq_some_iff] at h
        obtain ⟨c, h1, rfl⟩ := h
        rw [S.confirm a b r c he.1 he.2 h1]

theorem divBV_self {x : BitVec m.bits} (hw : 0 < m.bits) (h : x ≠ 0#m.bits) : divBV m x x = 1#m.bits := by
  unfold divBV
  split
  · rw [BitVec.sdiv_self]; simp [h]
  · rw [show x.udiv x = x / x from rfl, BitVec.udiv_self]; simp [h]

theorem cv_div {C : Ctx} (S : C.Sound env) {a b : Expr m} {v} (he : (Expr.div a b).Ok env) (h : cvDiv C a b = some v) :
    (Expr.div a b).eval env = v := by
  unfold cvDiv at h
  simp only [Expr.eval]
  split at h
  · next hc =>
    simp only [Bool.and_eq_true, isNull_iff] at hc
    cases h
    rw [hc.1.1]
    simp [Expr.eval, divBV]
  · split at h
    · next hc =>
      simp only [Bool.and_eq_true, decide_eq_true_eq] at hc
      cases h
      rw [hc.1]
      exact divBV_self (ok_pos he.1) he.2.2
    · split at h
      · next x y h1 h2 =>
        split at h
        · cases h
        · cases h; rw [const_eval h1, const_eval h2]
      · cases h

theorem cv_mod {C : Ctx} (S : C.Sound env) {a b : Expr m} {v} (he : (Expr.mod a b).Ok env) (h : cvMod C a b = some v) :
    (Expr.mod a b).eval env = v := by
  unfold cvMod at h
  simp only [Expr.eval]
  split at h
  · next hc =>
    simp only [Bool.and_eq_true, Bool.or_eq_true, isOne_iff, isAllOne_iff] at hc
    cases h
    rcases hc with hc | ⟨hs, hc⟩
    · rw [hc]; simp [Expr.eval, modBV]
    · rw [hc]; simp only [Expr.eval, modBV, hs, if_true]
      apply BitVec.srem_zero_of_dvd
      rw [BitVec.toInt_allOnes, if_pos (ok_pos he.1)]
      exact ⟨-(a.eval env).toInt, by omega⟩
  · split at h
    · next x y h1 h2 =>
      split at h
      · cases h
      · cases h; rw [const_eval h1, const_eval h2]
    · split at h
      · next hc =>
        simp only [Bool.and_eq_true, Bool.or_eq_true, isNull_iff, decide_eq_true_eq] at hc
        cases h
        rcases hc.1 with h1 | h1
        · rw [h1]; simp [Expr.eval, modBV]
        · rw [h1]; simp [modBV]
      · cases h

/-- the restriction: not `x >> x` with modulo-shift -/
def NotSelfShift : {m : IMode} → Expr m → Prop
  | m, .shr a s => m.modulo = 0 ∨ sameNode a s = false
  | _, _ => True

/-- C64: a value computed by `computed_value` is the value of the node.  Missing for the full claim: `x >> x` for
modes with modulo-shift (false, see `shr_self_wrong`). -/
theorem computed_value_sound_partial {C : Ctx} (S : C.Sound env) (e : Expr m) (v : BitVec m.bits) (he : e.Ok env) (hs : NotSelfShift e)
    (h : computedValue C e = some v) : e.eval env = v := by
  cases e with
  | leaf => cases h
  | const => cases h; rfl
  | minus => exact cv_minus h
  | not => exact cv_not h
  | add => exact cv_add h
  | sub => exact cv_sub h
  | mul => exact cv_mul h
  | div => exact cv_div S he h
  | mod => exact cv_mod S he h
  | and => exact cv_and h
  | or => exact cv_or h
  | eor => exact cv_eor h
  | shl => exact cv_shl he h
  | shr => exact cv_shr he hs h
  | shrs => exact cv_shrs h
  | conv => exact cv_conv he.1 h
  | cmp => exact cv_cmp S he h
  | mux => exact cv_mux h
  | confirm => exact cv_confirm S he h

/-! ## equivalent nodes -/

theorem eq_neutral {op : Expr m → Expr m → Expr m} {n : BitVec m.bits} (hop : ∀ x y : Expr m, (op x y).Ok env → x.Ok env ∧ y.Ok env)
    (hr : ∀ x : Expr m, (op x (.const n)).eval env = x.eval env) (hl : ∀ x : Expr m, (op (.const n) x).eval env = x.eval env) (a b : Expr m) :
    RuleOk env (op a b) (eqNeutral n a b) := by
  intro e' h hok
  unfold eqNeutral at h
  split at h
  · next hc => cases h; rw [asConst_iff] at hc; subst hc; exact ⟨(hr _).symm, (hop _ _ hok).1⟩
  · split at h
    · next hc => cases h; rw [asConst_iff] at hc; subst hc; exact ⟨(hl _).symm, (hop _ _ hok).2⟩
    · cases h

theorem eq_eor {C : Ctx} (S : C.Sound env) (a b : Expr m) : RuleOk env (.eor a b) (eqEor C a b) := by
  unfold eqEor
  apply ruleOk_or
  · exact eq_neutral (m := m) (env := env) (op := .eor) (fun _ _ h => ⟨h.1, h.2⟩) (fun x => by simp [Expr.eval]) (fun x => by simp [Expr.eval]) a b
  · intro e' h hok
    split at h
    · next l r hl =>
      obtain ⟨h1, h2, h3⟩ := eorLike_sound S hok.1 hl
      simp only [Expr.eval, h3]
      rcases otherOp_some h with ⟨rfl, rfl⟩ | ⟨rfl, rfl⟩
      · refine ⟨?_, h2⟩
        rw [BitVec.xor_comm, ← BitVec.xor_assoc, BitVec.xor_self, BitVec.zero_xor]
      · refine ⟨?_, h1⟩
        rw [BitVec.xor_assoc, BitVec.xor_self, BitVec.xor_zero]
    · split at h
      · next l r hl =>
        obtain ⟨h1, h2, h3⟩ := eorLike_sound S hok.2 hl
        simp only [Expr.eval, h3]
        rcases otherOp_some h with ⟨rfl, rfl⟩ | ⟨rfl, rfl⟩
        · refine ⟨?_, h2⟩
          rw [← BitVec.xor_assoc, BitVec.xor_self, BitVec.zero_xor]
        · refine ⟨?_, h1⟩
          rw [BitVec.xor_comm, BitVec.xor_assoc, BitVec.xor_self, BitVec.xor_zero]
      · cases h

theorem eq_add (a b : Expr m) : RuleOk env (.add a b) (eqAdd a b) := by
  unfold eqAdd
  apply ruleOk_or
  · exact eq_neutral (m := m) (env := env) (op := .add) (fun _ _ h => ⟨h.1, h.2⟩) (fun x => by simp [Expr.eval]) (fun x => by simp [Expr.eval]) a b
  · apply ruleOk_or
    · intro e' h hok
      simp only [Option.bind_eq_bind, Option.bind_eq_some_iff] at h
      obtain ⟨⟨x, y⟩, h1, h2⟩ := h
      rw [asSub_iff] at h1
      split at h2
      · next hy => cases h2; subst h1; subst hy; exact ⟨by simp [Expr.eval, BitVec.sub_add_cancel], hok.1.1⟩
      · cases h2
    · intro e' h hok
      simp only [Option.bind_eq_bind, Option.bind_eq_some_iff] at h
      obtain ⟨⟨x, y⟩, h1, h2⟩ := h
      rw [asSub_iff] at h1
      split at h2
      · next hy =>
        cases h2; subst h1; subst hy
        exact ⟨by simp only [Expr.eval]; rw [BitVec.add_comm, BitVec.sub_add_cancel], hok.2.1⟩
      · cases h2

theorem eq_shl (a : Expr m) (s : Expr k) : RuleOk env (.shl a s) (eqRightZero a s) := by
  intro e' h hok
  unfold eqRightZero at h
  split at h
  · next hc => cases h; rw [isNull_iff] at hc; subst hc; exact ⟨by simp [Expr.eval, IMode.amt], hok.1⟩
  · cases h
theorem eq_shr (a : Expr m) (s : Expr k) : RuleOk env (.shr a s) (eqRightZero a s) := by
  intro e' h hok
  unfold eqRightZero at h
  split at h
  · next hc => cases h; rw [isNull_iff] at hc; subst hc; exact ⟨by simp [Expr.eval, IMode.amt], hok.1⟩
  · cases h
theorem eq_shrs (a : Expr m) (s : Expr k) : RuleOk env (.shrs a s) (eqRightZero a s) := by
  intro e' h hok
  unfold eqRightZero at h
  split at h
  · next hc => cases h; rw [isNull_iff] at hc; subst hc; exact ⟨by simp [Expr.eval, IMode.amt], hok.1⟩
  · cases h

/-- `0xF…FE - (x | 0x7F…F)` is `x | 0x7F…F` -/
theorem sub_or_half {w : Nat} (x : BitVec w) :
    BitVec.allOnes w <<< 1 - (x ||| BitVec.allOnes w >>> 1) = x ||| BitVec.allOnes w >>> 1 := by
  rcases Nat.eq_zero_or_pos w with hw | hw
  · subst hw; exact Subsingleton.elim _ _
  have hsh : BitVec.allOnes w >>> 1 = BitVec.intMax w := by
    apply BitVec.eq_of_getLsbD_eq
    intro i hi
    rw [BitVec.getLsbD_ushiftRight, BitVec.getLsbD_intMax, BitVec.getLsbD_allOnes]
    simp; omega
  have hx : x ||| BitVec.intMax w = BitVec.intMax w ∨ x ||| BitVec.intMax w = BitVec.allOnes w := by
    cases hm : x.msb
    · left
      apply BitVec.eq_of_getLsbD_eq
      intro i hi
      rw [BitVec.getLsbD_or, BitVec.getLsbD_intMax]
      by_cases h : i + 1 < w
      · simp [h]
      · have : i = w - 1 := by omega
        subst this
        rw [← BitVec.msb_eq_getLsbD_last, hm]; simp
    · right
      apply BitVec.eq_of_getLsbD_eq
      intro i hi
      rw [BitVec.getLsbD_or, BitVec.getLsbD_intMax, BitVec.getLsbD_allOnes]
      by_cases h : i + 1 < w
      · simp [h, hi]
      · have : i = w - 1 := by omega
        subst this
        rw [← BitVec.msb_eq_getLsbD_last, hm]; simp [hi]
  have ha : BitVec.allOnes w <<< 1 = -1#w - 1#w := by
    rw [BitVec.shiftLeft_eq_mul_twoPow, ← BitVec.neg_one_eq_allOnes]
    have : BitVec.twoPow w 1 = 1#w + 1#w := by
      apply BitVec.eq_of_toNat_eq
      simp only [BitVec.toNat_twoPow, BitVec.toNat_add, BitVec.toNat_ofNat]
      rw [Nat.add_mod]
      simp
    rw [this, BitVec.mul_add, BitVec.mul_one, BitVec.sub_eq_add_neg]
  have h2 : BitVec.intMin w + BitVec.intMin w = 0#w := by
    rw [← xor_intMin, BitVec.xor_self]
  rw [hsh, ha]
  rcases hx with h | h
  · rw [h]
    have e : BitVec.intMax w = BitVec.intMin w - 1#w := by rw [← BitVec.intMax_add_one, BitVec.add_sub_cancel]
    rw [e]
    grind
  · rw [h, ← BitVec.neg_one_eq_allOnes]
    grind

theorem eq_sub (a b : Expr m) : RuleOk env (.sub a b) (eqSub a b) := by
  unfold eqSub
  apply ruleOk_or
  · intro e' h hok
    split at h
    · next hc => cases h; rw [isNull_iff] at hc; subst hc; exact ⟨by simp [Expr.eval], hok.1⟩
    · cases h
  · intro e' h hok
    simp only [Option.bind_eq_bind, Option.bind_eq_some_iff, irview] at h
    obtain ⟨ta, rfl, ⟨x, y⟩, rfl, tb, h2, h3⟩ := h
    simp only at h2
    subst h2
    split at h3
    · next hc =>
      cases h3
      refine ⟨?_, hok.2⟩
      rw [amt_one (ok_valid _ hok.1)] at hc
      simp only [Expr.eval, hc.1, hc.2, sub_or_half]
    · cases h3

/-- a value whose bits below the highest are zero is its own negation -/
theorem neg_eq_self {w : Nat} {v : BitVec w} (h : v <<< 1 = 0#w) : -v = v := by
  have : v + v = 0#w := by
    rw [← h, BitVec.shiftLeft_eq_mul_twoPow]
    have : BitVec.twoPow w 1 = 1#w + 1#w := by
      apply BitVec.eq_of_toNat_eq
      simp only [BitVec.toNat_twoPow, BitVec.toNat_add, BitVec.toNat_ofNat]
      rw [Nat.add_mod]
      simp
    rw [this]; grind
  grind

theorem eq_minus {C : Ctx} (S : C.Sound env) (a : Expr m) : RuleOk env (.minus a) (eqMinus C a) := by
  unfold eqMinus
  apply ruleOk_or
  · intro e' h hok
    rw [asMinus_iff] at h
    subst h
    exact ⟨by simp [Expr.eval], hok⟩
  · apply ruleOk_ite
    · intro _
      split
      · next b hb =>
        apply ruleOk_ite
        · intro hz
          apply ruleOk_some
          intro hok
          refine ⟨?_, hok⟩
          simp only [Expr.eval]
          refine (neg_eq_self ?_).symm
          rw [amt_one (ok_valid _ hok)] at hz
          have hd := S.bi a b hok hb
          apply BitVec.eq_of_getLsbD_eq
          intro i hi
          have hz := congrArg (·.getLsbD i) hz
          simp only [BitVec.getLsbD_shiftLeft, BitVec.getLsbD_zero, hi, decide_true, Bool.true_and] at hz ⊢
          by_cases h1 : i < 1
          · simp [h1]
          · simp only [h1, decide_false, Bool.not_false, Bool.true_and] at hz ⊢
            cases hv : (a.eval env).getLsbD (i - 1)
            · rfl
            · rw [(hd (i - 1) (by omega)).1 hv] at hz; cases hz
        · intro _; exact ruleOk_none _
      · exact ruleOk_none _
    · intro _; exact ruleOk_none _

theorem eq_not (a : Expr m) : RuleOk env (.not a) (eqNot a) := by
  intro e' h hok
  unfold eqNot at h
  rw [asNot_iff] at h
  subst h
  exact ⟨by simp [Expr.eval], hok⟩

theorem eq_mul (a b : Expr m) : RuleOk env (.mul a b) (eqMul a b) :=
  eq_neutral (m := m) (env := env) (op := .mul) (fun _ _ h => ⟨h.1, h.2⟩) (fun x => by simp [Expr.eval]) (fun x => by simp [Expr.eval]) a b

theorem andWith_or {e x : Expr m} (h : andWith e x = true) : e.eval env ||| x.eval env = x.eval env := by
  unfold andWith at h
  split at h
  · next l r he =>
    rw [asAnd_iff] at he
    subst he
    rw [Option.isSome_iff_exists] at h
    obtain ⟨y, hy⟩ := h
    simp only [Expr.eval]
    rcases otherOp_some hy with ⟨rfl, _⟩ | ⟨rfl, _⟩ <;> ext i hi <;> simp only [BitVec.getElem_or, BitVec.getElem_and] <;> grind
  · cases h

theorem orWith_and {C : Ctx} (S : C.Sound env) {e x : Expr m} (he : e.Ok env) (h : orWith C e x = true) : e.eval env &&& x.eval env = x.eval env := by
  unfold orWith at h
  split at h
  · next l r hl =>
    obtain ⟨h1, h2, h3⟩ := orLike_sound S he hl
    rw [Option.isSome_iff_exists] at h
    obtain ⟨y, hy⟩ := h
    rw [h3]
    rcases otherOp_some hy with ⟨rfl, _⟩ | ⟨rfl, _⟩ <;> ext i hi <;> simp only [BitVec.getElem_or, BitVec.getElem_and] <;> grind
  · cases h

theorem eq_or {C : Ctx} (S : C.Sound env) (a b : Expr m) : RuleOk env (.or a b) (eqOr C a b) := by
  unfold eqOr
  apply ruleOk_or
  · apply ruleOk_ite
    · intro h; subst h; exact ruleOk_some fun hok => ⟨by simp [Expr.eval], hok.1⟩
    · intro _; exact ruleOk_none _
  apply ruleOk_or
  · split
    · next ba bb ha hb =>
      apply ruleOk_ite
      · intro h
        refine ruleOk_some fun hok => ⟨?_, hok.2⟩
        exact (and_not_zero (S.bi a ba hok.1 ha) (S.bi b bb hok.2 hb) h).2.symm
      · intro _
        apply ruleOk_ite
        · intro h
          refine ruleOk_some fun hok => ⟨?_, hok.1⟩
          simp only [Expr.eval]
          rw [BitVec.or_comm]
          exact (and_not_zero (S.bi b bb hok.2 hb) (S.bi a ba hok.1 ha) h).2.symm
        · intro _; exact ruleOk_none _
    · exact ruleOk_none _
  apply ruleOk_or
  · exact eq_neutral (m := m) (env := env) (op := .or) (fun _ _ h => ⟨h.1, h.2⟩) (fun x => by simp [Expr.eval]) (fun x => by simp [Expr.eval]) a b
  apply ruleOk_or
  · apply ruleOk_ite
    · intro h; exact ruleOk_some fun hok => ⟨(andWith_or h).symm, hok.2⟩
    · intro _; exact ruleOk_none _
  · apply ruleOk_ite
    · intro h
      exact ruleOk_some fun hok => ⟨by simp only [Expr.eval]; rw [BitVec.or_comm]; exact (andWith_or h).symm, hok.1⟩
    · intro _; exact ruleOk_none _

theorem eq_and {C : Ctx} (S : C.Sound env) (a b : Expr m) : RuleOk env (.and a b) (eqAnd C a b) := by
  unfold eqAnd
  apply ruleOk_or
  · split
    · next ba bb ha hb =>
      apply ruleOk_ite
      · intro h
        refine ruleOk_some fun hok => ⟨?_, hok.2⟩
        simp only [Expr.eval]
        rw [BitVec.and_comm]
        exact (and_not_zero (S.bi b bb hok.2 hb) (S.bi a ba hok.1 ha) h).1.symm
      · intro _
        apply ruleOk_ite
        · intro h
          refine ruleOk_some fun hok => ⟨?_, hok.1⟩
          exact (and_not_zero (S.bi a ba hok.1 ha) (S.bi b bb hok.2 hb) h).1.symm
        · intro _; exact ruleOk_none _
    · exact ruleOk_none _
  apply ruleOk_or
  · apply ruleOk_ite
    · intro h; subst h; exact ruleOk_some fun hok => ⟨by simp [Expr.eval], hok.1⟩
    · intro _; exact ruleOk_none _
  apply ruleOk_or
  · exact eq_neutral (m := m) (env := env) (op := .and) (fun _ _ h => ⟨h.1, h.2⟩) (fun x => by simp [Expr.eval]) (fun x => by simp [Expr.eval]) a b
  apply ruleOk_or
  · apply ruleOk_ite
    · intro h; exact ruleOk_some fun hok => ⟨(orWith_and S hok.1 h).symm, hok.2⟩
    · intro _; exact ruleOk_none _
  · apply ruleOk_ite
    · intro h
      exact ruleOk_some fun hok => ⟨by simp only [Expr.eval]; rw [BitVec.and_comm]; exact (orWith_and S hok.2 h).symm, hok.1⟩
    · intro _; exact ruleOk_none _

theorem conv_self (v : BitVec m.bits) : BitVec.ofInt m.bits (m.num v) = v := by
  apply BitVec.eq_of_getLsbD_eq
  intro i hi
  rw [convTo_getLsbD m v hi, if_pos hi]

/-- a conversion to a mode that is at least as wide and back changes nothing -/
theorem conv_wide (hk : m.bits ≤ k.bits) (v : BitVec m.bits) : BitVec.ofInt m.bits (k.num (BitVec.ofInt k.bits (m.num v))) = v := by
  apply BitVec.eq_of_getLsbD_eq
  intro i hi
  rw [convTo_getLsbD m _ hi, if_pos (by omega), convTo_getLsbD k _ (by omega), if_pos hi]

theorem eq_conv {C : Ctx} (S : C.Sound env) (m : IMode) (a : Expr k) : RuleOk env (.conv m a) (eqConv C m a) := by
  intro e' h hok
  unfold eqConv at h
  split at h
  · next hk => subst hk; cases h; exact ⟨(conv_self _).symm, hok.1⟩
  · next hk =>
    split at h
    · cases h
    · next kb b hb =>
      rw [asConv_iff] at hb
      simp only at hb
      subst hb
      split at h
      · next hkb =>
        subst hkb
        have hok' : b.Ok env := hok.1.1
        split at h
        · next hv =>
          cases h
          refine ⟨?_, hok'⟩
          simp only [Expr.eval]
          refine (conv_wide ?_ _).symm
          unfold valuesIn at hv
          simp only [Bool.or_eq_true, decide_eq_true_eq] at hv
          rcases hv with hv | hv
          · rw [hv]
          · split at hv
            · next hbm => have := hok.1.2.1; rw [hbm]; exact this
            · simp only [Bool.and_eq_true, decide_eq_true_eq] at hv; exact hv.2
        · split at h
          · next bb hbb =>
            split at h
            · next hc =>
              cases h
              refine ⟨?_, hok'⟩
              simp only [Bool.and_eq_true, decide_eq_true_eq] at hc
              simp only [Expr.eval]
              have hd := S.bi b bb hok' hbb
              have hkpos : 0 < k.bits := hok.1.2.1
              apply BitVec.eq_of_getLsbD_eq
              intro i hi
              have hlow : ∀ j : Nat, highestBit bb.z < (j : Int) → (b.eval env).getLsbD j = false := by
                intro j hj
                have h1 : highestBit bb.z < ((highestBit bb.z + 1).toNat : Int) := by have := highestBit_ge bb.z; omega
                have := (highestBit_lt bb.z).1 h1 j (by have := highestBit_ge bb.z; omega)
                cases hv : (b.eval env).getLsbD j
                · rfl
                · by_cases hjw : j < kb.bits
                  · rw [(hd j hjw).1 hv] at this; cases this
                  · rw [BitVec.getLsbD_of_ge _ _ (by omega)] at hv; cases hv
              rw [convTo_getLsbD kb _ hi]
              split
              · next hik => rw [convTo_getLsbD k _ hik, if_pos hi]
              · next hik =>
                have hi0 : (b.eval env).getLsbD i = false := by
                  apply hlow
                  have := hc.2
                  unfold isSext at this
                  split at this <;> omega
                rw [hi0]
                cases hs : k.signed
                · rfl
                · have hc2 := hc.2
                  simp only [isSext, hs, if_true] at hc2
                  rw [BitVec.msb_eq_getLsbD_last, convTo_getLsbD k _ (by omega)]
                  rw [if_pos (by omega), hlow _ (by omega)]; rfl
            · cases h
          · cases h
      · cases h

theorem eq_div (a b : Expr m) : RuleOk env (.div a b) (eqDiv a b) := by
  intro e' h hok
  unfold eqDiv at h
  split at h
  · next hc =>
    cases h; rw [isOne_iff] at hc; subst hc
    exact ⟨by simp [Expr.eval, divBV], hok.1⟩
  · cases h

theorem ofBool_eq_one (b : Bool) : (BitVec.ofBool b = 1#1) ↔ b = true := by cases b <;> decide

theorem muxCond_sound {C : Ctx} (S : C.Sound env) {sel : Expr bmode} {c} (hok : sel.Ok env) (h : muxCond C sel = some c) : sel.eval env = c := by
  unfold muxCond at h
  split at h
  · next c' hc => cases h; exact const_eval hc
  · split at h
    · next hcmp =>
      rw [asCmp_iff] at hcmp
      simp only at hcmp
      subst hcmp
      exact cv_cmp S hok h
    · cases h

/-- the facts about the relation that `equivalent_node_Mux` uses -/
structure MuxRel (isEq isNe : Bool) (r : Rel) (x y : Int) : Prop where
  eq : isEq = true → (relHolds r x y = true ↔ x = y)
  ne : isNe = true → (relHolds r x y = true ↔ ¬x = y)

theorem eq_mux_same {isEq isNe : Bool} {r : Rel} {cl cr : Expr k} {f t : Expr m}
    (hr : MuxRel isEq isNe r (k.num (cl.eval env)) (k.num (cr.eval env))) : RuleOk env (.mux (.cmp r cl cr) f t) (eqMuxSame isEq isNe cl cr f t) := by
  unfold eqMuxSame
  apply ruleOk_ite
  · intro h
    simp only [Bool.or_eq_true, Bool.and_eq_true] at h
    have hft : ∃ _ : k = m, (k.num (cl.eval env) = k.num (cr.eval env) ↔ t.eval env = f.eval env) := by
      rcases h with ⟨h1, h2⟩ | ⟨h1, h2⟩
      · obtain ⟨rfl, h1⟩ := sameNode_spec h1
        obtain ⟨_, h2⟩ := sameNode_spec h2
        simp only at h1 h2
        subst h1; subst h2
        exact ⟨rfl, num_inj⟩
      · obtain ⟨rfl, h1⟩ := sameNode_spec h1
        obtain ⟨_, h2⟩ := sameNode_spec h2
        simp only at h1 h2
        subst h1; subst h2
        exact ⟨rfl, num_inj.trans eq_comm⟩
    obtain ⟨rfl, hft⟩ := hft
    apply ruleOk_ite
    · intro he
      refine ruleOk_some fun hok => ⟨?_, hok.2.1⟩
      simp only [Expr.eval, ofBool_eq_one, hr.eq he, hft]
      split
      · next h => exact h.symm
      · rfl
    · intro _
      apply ruleOk_ite
      · intro he
        refine ruleOk_some fun hok => ⟨?_, hok.2.2⟩
        simp only [Expr.eval, ofBool_eq_one, hr.ne he, hft]
        split
        · rfl
        · next h => exact Decidable.not_not.1 h
      · intro _; exact ruleOk_none _
  · intro _; exact ruleOk_none _

theorem eq_mux_diff {isEq isNe isNe' : Bool} {r : Rel} {cl cr : Expr k} {f t : Expr m} (hi : isNe' = true → isNe = true)
    (hr : MuxRel isEq isNe r (k.num (cl.eval env)) (k.num (cr.eval env))) : RuleOk env (.mux (.cmp r cl cr) f t) (eqMuxDiff isNe' cl cr f t) := by
  unfold eqMuxDiff
  apply ruleOk_ite
  · intro h
    simp only [Bool.and_eq_true, isNull_iff] at h
    obtain ⟨⟨rfl, h2⟩, h3⟩ := h
    split
    · next tl tr ht =>
      apply ruleOk_ite
      · intro h
        refine ruleOk_some fun hok => ⟨?_, hok.2.2⟩
        have ht : (t.eval env = tl.eval env ^^^ tr.eval env) ∨ (t.eval env = tl.eval env - tr.eval env) := by
          cases t <;> simp only [asEorSub, reduceCtorEq, Option.some.injEq, Prod.mk.injEq] at ht
          · right; obtain ⟨rfl, rfl⟩ := ht; rfl
          · left; obtain ⟨rfl, rfl⟩ := ht; rfl
        have hz : k.num (cl.eval env) = k.num (cr.eval env) → t.eval env = 0#m.bits := by
          intro he
          rw [num_inj] at he
          have : tl.eval env = tr.eval env := by
            simp only [Bool.or_eq_true, Bool.and_eq_true] at h
            rcases h with ⟨h1, h2⟩ | ⟨h1, h2⟩
            · obtain ⟨rfl, h1⟩ := sameNode_spec h1
              obtain ⟨_, h2⟩ := sameNode_spec h2
              simp only at h1 h2
              subst h1; subst h2; exact he
            · obtain ⟨rfl, h1⟩ := sameNode_spec h1
              obtain ⟨_, h2⟩ := sameNode_spec h2
              simp only at h1 h2
              subst h1; subst h2; exact he.symm
          rcases ht with ht | ht
          · rw [ht, this, BitVec.xor_self]
          · rw [ht, this, BitVec.sub_self]
        simp only [Expr.eval, ofBool_eq_one, hr.ne (hi h2)]
        split
        · rfl
        · next h => exact hz (Decidable.not_not.1 h)
      · intro _; exact ruleOk_none _
    · exact ruleOk_none _
  · intro _; exact ruleOk_none _

theorem eq_mux_neg {isEq isNe : Bool} {r : Rel} {cl cr : Expr k} {f t : Expr m}
    (hr : MuxRel isEq isNe r (k.num (cl.eval env)) (k.num (cr.eval env))) : RuleOk env (.mux (.cmp r cl cr) f t) (eqMuxNeg isEq isNe cl cr f t) := by
  unfold eqMuxNeg
  apply ruleOk_ite
  · intro h
    simp only [Bool.and_eq_true, isNull_iff, decide_eq_true_eq, asMinus_iff] at h
    obtain ⟨⟨h1, rfl⟩, rfl⟩ := h
    obtain ⟨rfl, h1⟩ := sameNode_spec h1
    simp only at h1
    subst h1
    have hz : m.num (t.eval env) = m.num 0#m.bits → -(t.eval env) = t.eval env := by
      intro h; rw [num_inj] at h; rw [h, BitVec.neg_zero]
    apply ruleOk_ite
    · intro he
      refine ruleOk_some fun hok => ⟨?_, hok.2.1⟩
      have := hr.eq he
      simp only [Expr.eval] at this
      simp only [Expr.eval, ofBool_eq_one, this]
      split
      · next h => exact hz h
      · rfl
    · intro _
      apply ruleOk_ite
      · intro he
        refine ruleOk_some fun hok => ⟨?_, hok.2.2⟩
        have := hr.ne he
        simp only [Expr.eval] at this
        simp only [Expr.eval, ofBool_eq_one, this]
        split
        · rfl
        · next h => exact (hz (Decidable.not_not.1 h)).symm
      · intro _; exact ruleOk_none _
  · intro _; exact ruleOk_none _

theorem eq_mux_negzero {isEq isNe : Bool} {r : Rel} {cl cr : Expr k} {f t : Expr m}
    (hr : MuxRel isEq isNe r (k.num (cl.eval env)) (k.num (cr.eval env))) : RuleOk env (.mux (.cmp r cl cr) f t) (eqMuxNegZero isEq cl cr f t) := by
  unfold eqMuxNegZero
  apply ruleOk_ite
  · intro h
    simp only [Bool.and_eq_true, isNull_iff] at h
    obtain ⟨⟨rfl, he⟩, rfl⟩ := h
    split
    · next x hx =>
      rw [asMinus_iff] at hx
      subst hx
      apply ruleOk_ite
      · intro h1
        obtain ⟨rfl, h1⟩ := sameNode_spec h1
        simp only at h1
        subst h1
        refine ruleOk_some fun hok => ⟨?_, hok.2.1⟩
        have := hr.eq he
        simp only [Expr.eval] at this
        simp only [Expr.eval, ofBool_eq_one, this]
        split
        · next h => rw [num_inj] at h; rw [h, BitVec.neg_zero]
        · rfl
      · intro _; exact ruleOk_none _
    · exact ruleOk_none _
  · intro _; exact ruleOk_none _

theorem eq_mux {C : Ctx} (S : C.Sound env) (sel : Expr bmode) (f t : Expr m) : RuleOk env (.mux sel f t) (eqMux C sel f t) := by
  unfold eqMux
  apply ruleOk_or
  · split
    · next c hc =>
      apply ruleOk_ite
      · intro h1
        refine ruleOk_some fun hok => ⟨?_, hok.2.2⟩
        simp only [Expr.eval]
        rw [muxCond_sound S hok.1 hc, if_pos h1]
      · intro h1
        refine ruleOk_some fun hok => ⟨?_, hok.2.1⟩
        simp only [Expr.eval]
        rw [muxCond_sound S hok.1 hc, if_neg h1]
    · exact ruleOk_none _
  apply ruleOk_or
  · apply ruleOk_ite
    · intro h; subst h; exact ruleOk_some fun hok => ⟨by simp [Expr.eval], hok.2.1⟩
    · intro _; exact ruleOk_none _
  · split
    · exact ruleOk_none _
    · next k' r cl cr hcmp =>
      rw [asCmp_iff] at hcmp
      simp only at hcmp
      subst hcmp
      simp only []
      intro e' h hok
      have hp := possibleRel_sound S hok.1.1 hok.1.2
      have hr : MuxRel (isRelation Rel.equal r (possibleRel C cl cr))
          (isRelation Rel.lessGreater r (possibleRel C cl cr) || isRelation (Rel.lessGreater ||| Rel.unordered) r (possibleRel C cl cr))
          r (k'.num (cl.eval env)) (k'.num (cr.eval env)) := by
        constructor
        · intro h; rw [isRelation_sound h hp, relHolds_equal]; simp
        · intro h
          rw [Bool.or_eq_true] at h
          rcases h with h | h
          · rw [isRelation_sound h hp, relHolds_lessGreater]; simp
          · rw [isRelation_sound h hp, relHolds_or, relHolds_unordered, Bool.or_false, relHolds_lessGreater]; simp
      refine ruleOk_or (eq_mux_same hr) (ruleOk_or (eq_mux_diff (by intro h; rw [h]; rfl) hr) (ruleOk_or (eq_mux_neg hr) (eq_mux_negzero hr))) e' h hok

theorem skipConfirms_sound {m : IMode} {env : Env} (r : Rel) : (v n : Expr m) → v.Ok env → n.Ok env → n.eval env = v.eval env →
    (skipConfirms r v n).eval env = v.eval env ∧ (skipConfirms r v n).Ok env
  | .confirm v r' b, n, hv, hn, he => by
    unfold skipConfirms
    split
    · exact skipConfirms_sound r v (.confirm v r' b) hv.1 hv rfl
    · exact ⟨he, hn⟩
  | .leaf _ _, n, _, hn, he => ⟨he, hn⟩
  | .const _, n, _, hn, he => ⟨he, hn⟩
  | .minus _, n, _, hn, he => ⟨he, hn⟩
  | .not _, n, _, hn, he => ⟨he, hn⟩
  | .add _ _, n, _, hn, he => ⟨he, hn⟩
  | .sub _ _, n, _, hn, he => ⟨he, hn⟩
  | .mul _ _, n, _, hn, he => ⟨he, hn⟩
  | .div _ _, n, _, hn, he => ⟨he, hn⟩
  | .mod _ _, n, _, hn, he => ⟨he, hn⟩
  | .and _ _, n, _, hn, he => ⟨he, hn⟩
  | .or _ _, n, _, hn, he => ⟨he, hn⟩
  | .eor _ _, n, _, hn, he => ⟨he, hn⟩
  | .shl _ _, n, _, hn, he => ⟨he, hn⟩
  | .shr _ _, n, _, hn, he => ⟨he, hn⟩
  | .shrs _ _, n, _, hn, he => ⟨he, hn⟩
  | .conv _ _, n, _, hn, he => ⟨he, hn⟩
  | .cmp _ _ _, n, _, hn, he => ⟨he, hn⟩
  | .mux _ _ _, n, _, hn, he => ⟨he, hn⟩

theorem eq_confirm (v : Expr m) (r : Rel) (b : Expr m) : RuleOk env (.confirm v r b) (eqConfirm v r b) := by
  unfold eqConfirm
  apply ruleOk_ite
  · intro _; exact ruleOk_some fun hok => ⟨rfl, hok.1⟩
  · intro _; exact ruleOk_some fun hok => skipConfirms_sound r v _ hok.1 hok rfl

/-- C64: the node returned by `equivalent_node` has the same value and no undefined behaviour. -/
theorem equivalent_node_sound {C : Ctx} (S : C.Sound env) (e : Expr m) : RuleOk env e (equivalentNode C e) := by
  cases e with
  | leaf => exact ruleOk_none _
  | const => exact ruleOk_none _
  | minus a => exact eq_minus S a
  | not a => exact eq_not a
  | add a b => exact eq_add a b
  | sub a b => exact eq_sub a b
  | mul a b => exact eq_mul a b
  | div a b => exact eq_div a b
  | mod a b => exact ruleOk_none _
  | and a b => exact eq_and S a b
  | or a b => exact eq_or S a b
  | eor a b => exact eq_eor S a b
  | shl a s => exact eq_shl a s
  | shr a s => exact eq_shr a s
  | shrs a s => exact eq_shrs a s
  | conv m a => exact eq_conv S m a
  | cmp => exact ruleOk_none _
  | mux s f t => exact eq_mux S s f t
  | confirm v r b => exact eq_confirm v r b

/-- C65: the outcome of the comparison of two nodes is among the relations of `ir_get_possible_cmp_relations`. -/
theorem possible_cmp_relations_sound {C : Ctx} (S : C.Sound env) (l r : Expr m) (hl : l.Ok env) (hr : r.Ok env) :
    relHolds (possibleRel C l r) (m.num (l.eval env)) (m.num (r.eval env)) = true := possibleRel_sound S hl hr

/-- C65: `value_not_null` is right. -/
theorem value_not_null_sound {C : Ctx} (S : C.Sound env) (e : Expr m) (he : e.Ok env) (h : valueNotNull C e = true) : e.eval env ≠ 0#m.bits :=
  valueNotNull_sound S e he h

/-! ## surroundings for the examples and witnesses -/

/-- an 8-bit mode and a 32-bit mode, shift counts modulo 32 as for all standard modes up to 32 bits (ir/ir/irmode.c:451-456) -/
abbrev mBu : IMode := ⟨false, 8, 32⟩
abbrev mIu : IMode := ⟨false, 32, 32⟩
abbrev mIs : IMode := ⟨true, 32, 32⟩

theorem mBu_valid : mBu.Valid := ⟨by decide, by decide, by decide, Or.inr ⟨by decide, by decide, 5, rfl⟩⟩
theorem mIu_valid : mIu.Valid := ⟨by decide, by decide, by decide, Or.inr ⟨by decide, by decide, 5, rfl⟩⟩
theorem mIs_valid : mIs.Valid := ⟨by decide, by decide, by decide, Or.inr ⟨by decide, by decide, 5, rfl⟩⟩
theorem mIu_counts : mIu.Counts mIu := ⟨by decide, by decide⟩
theorem mIs_counts : mIs.Counts mBu := ⟨by decide, by decide⟩

/-- surroundings that know nothing -/
def ctx0 : Ctx where
  bi _ := none
  vrpCmp _ _ := Rel.true
  cmpConfirm _ _ _ := none
  one _ := true
  normal _ _ := true
  archDep := true
  norm2 := true
  modebLowered := false

theorem ctx0_sound (env : Env) : ctx0.Sound env where
  bi _ _ _ h := by cases h
  vrp _ _ _ _ := relHolds_true _ _
  confirm _ _ _ _ _ _ h := by cases h

/-- surroundings that know the bits of constants and of Ands with constants -/
def ctx1 : Ctx where
  bi e := match e with
    | .const c => some ⟨c, c⟩
    | .and _ (.const c) => some ⟨c, 0⟩
    | _ => none
  vrpCmp _ _ := Rel.true
  cmpConfirm _ _ _ := none
  one _ := true
  normal _ _ := true
  archDep := true
  norm2 := true
  modebLowered := false

theorem ctx1_sound (env : Env) : ctx1.Sound env where
  bi e b _ h := by
    simp only [ctx1] at h
    split at h
    · cases h; exact describes_refl _
    · cases h; intro i hi; simp only [Expr.eval, BitVec.getLsbD_and]; simp
    · cases h
  vrp _ _ _ _ := relHolds_true _ _
  confirm _ _ _ _ _ _ h := by cases h

/-- `(x & 0xF0) ^ ((x & 0xF0) ^ y)` is `y`; `0xFFFFFFFE - (x | 0x7FFFFFFF)` is the second operand; a Mux of a comparison
with known bits -/
example : equivalentNode ctx1 (.eor (.and (.leaf mBu 0) (.const 0xF0#8)) (.eor (.and (.leaf mBu 0) (.const 0xF0#8)) (.leaf mBu 1))) = some (.leaf mBu 1) := by
  decide +kernel
example : equivalentNode ctx1 (.sub (.const 0xFFFFFFFE#32) (.or (.leaf mIu 0) (.const 0x7FFFFFFF#32))) =
    some (.or (.leaf mIu 0) (.const 0x7FFFFFFF#32)) := by decide +kernel
example : equivalentNode ctx1 (.mux (.cmp Rel.less (.and (.leaf mBu 0) (.const 0x0F#8)) (.const 0x10#8)) (.leaf mBu 1) (.leaf mBu 2)) = some (.leaf mBu 2) := by
  decide +kernel
example : computedValue ctx1 (.conv mBu (.shl (.leaf mIu 0) (.const (m := mIu) 8#32))) = some 0#8 := by decide +kernel

/-- C64 fails for `x >> x` with modulo-shift: iropt.c:537 folds it to 0, but for `x = 32` the count is reduced to 0
and the result is 32. -/
theorem shr_self_wrong : ∃ (env : Env) (e : Expr mIu) (v : BitVec 32), ctx0.Sound env ∧ e.Ok env ∧ computedValue ctx0 e = some v ∧ e.eval env ≠ v :=
  ⟨fun m _ => BitVec.ofNat m.bits 32, .shr (.leaf mIu 0) (.leaf mIu 0), 0#32, ctx0_sound _, ⟨mIu_valid, mIu_valid, mIu_counts, by intro c h; cases h⟩, by decide +kernel, by decide +kernel⟩

/-- C64 fails for a negative constant count and a modulo-shift greater than the number of bits (such counts are excluded by
`Expr.Ok`): iropt.c:494-504 takes the negative remainder for an oversize count, but the count is one. -/
theorem oversize_wrong : computedValue ctx0 (.shl (.leaf mBu 0) (.const (m := mIs) (BitVec.ofInt 32 (-31)))) = some 0#8 ∧
    (Expr.shl (.leaf mBu 0) (.const (m := mIs) (BitVec.ofInt 32 (-31)))).eval (fun m _ => BitVec.ofNat m.bits 1) = 2#8 := by decide +kernel

end Verif.Props
