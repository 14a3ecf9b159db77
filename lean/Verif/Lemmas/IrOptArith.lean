import Verif.Model.IrOptArith
import Verif.Lemmas.IrOptShift
import Verif.Lemmas.IrOptBitRules
/-!
# Lemmas about the rules for arithmetic
-/
namespace Verif.Model.IrOpt
open Verif.Spec

variable {m k : IMode} {env : Env} {C : Ctx}

theorem ruleOk_or' {old : Expr m} {a b : Option (Expr m)} (ha : RuleOk env old a) (hb : a = none → RuleOk env old b) :
    RuleOk env old (a <|> b) := by
  cases a with
  | none => exact hb rfl
  | some x => exact ha

/-- a rule that gives a constant -/
theorem ruleOk_const {old : Expr m} {o : Option (BitVec m.bits)} (h : ∀ c, old.Ok env → o = some c → old.eval env = c) :
    RuleOk env old (do let c ← o; some (.const c)) := by
  intro e' he ho
  simp only [irrule] at he
  obtain ⟨c, hc, rfl⟩ := he
  exact ⟨(h c ho hc).symm, ok_valid _ ho⟩

/-! ### Add -/

theorem num_range (m : IMode) (hw : 0 < m.bits) (v : BitVec m.bits) :
    (m.signed = true ∧ -(2 ^ (m.bits - 1) : Nat) ≤ m.num v ∧ m.num v < (2 ^ (m.bits - 1) : Nat)) ∨
    (m.signed = false ∧ 0 ≤ m.num v ∧ m.num v < (2 ^ m.bits : Nat)) := by
  unfold IMode.num
  cases hs : m.signed
  · right; simp only [Bool.false_eq_true, if_false, true_and]; have := v.isLt; omega
  · left
    simp only [if_true, true_and]
    have h1 := BitVec.le_toInt v
    have h2 := BitVec.toInt_lt (x := v)
    push_cast
    exact ⟨h1, h2⟩

theorem num_max (m : IMode) (hw : 0 < m.bits) :
    m.num (maxOf m) = if m.signed then ((2 ^ (m.bits - 1) : Nat) : Int) - 1 else ((2 ^ m.bits : Nat) : Int) - 1 := by
  unfold IMode.num maxOf
  have := Nat.two_pow_pos m.bits
  split
  · rw [BitVec.toInt_intMax]; push_cast; rfl
  · simp only [BitVec.toNat_allOnes]; omega

/-- the number of a sum is the sum of the numbers, up to a multiple of the number of values -/
theorem num_add (m : IMode) (x y : BitVec m.bits) : ∃ q : Int, m.num (x + y) = m.num x + m.num y + q * (2 ^ m.bits : Nat) := by
  unfold IMode.num
  split
  · rw [BitVec.toInt_add]
    refine ⟨-((x.toInt + y.toInt).bdiv (2 ^ m.bits)), ?_⟩
    have := Int.bmod_add_bdiv (x.toInt + y.toInt) (2 ^ m.bits)
    have h2 : (2 ^ m.bits : Nat) * (x.toInt + y.toInt).bdiv (2 ^ m.bits) = (x.toInt + y.toInt).bdiv (2 ^ m.bits) * (2 ^ m.bits : Nat) := Int.mul_comm _ _
    rw [h2] at this
    rw [Int.neg_mul]; omega
  · refine ⟨-(((x.toNat + y.toNat) / 2 ^ m.bits : Nat) : Int), ?_⟩
    rw [BitVec.toNat_add]
    have := Nat.mod_add_div (x.toNat + y.toNat) (2 ^ m.bits)
    have h2 : 2 ^ m.bits * ((x.toNat + y.toNat) / 2 ^ m.bits) = ((x.toNat + y.toNat) / 2 ^ m.bits) * 2 ^ m.bits := Nat.mul_comm _ _
    rw [h2] at this
    rw [Int.neg_mul]
    generalize (x.toNat + y.toNat) / 2 ^ m.bits = d at *
    have h3 : ((d * 2 ^ m.bits : Nat) : Int) = (d : Int) * (2 ^ m.bits : Nat) := by push_cast; rfl
    omega

/-- adding a constant to values up to a bound keeps the order if the bound is smaller than the difference of the maximum and the
constant: either no value wraps around or all of them do -/
theorem confirm_add {v b t : BitVec m.bits} (hw : 0 < m.bits) (hv : m.num v ≤ m.num b) (hb : m.num b < m.num (maxOf m - t)) :
    m.num (v + t) ≤ m.num (b + t) := by
  have hpow : (2 : Nat) ^ m.bits = 2 * 2 ^ (m.bits - 1) := by
    rw [← Nat.pow_succ']; congr 1; omega
  obtain ⟨q1, h1⟩ := num_add m v t
  obtain ⟨q2, h2⟩ := num_add m b t
  obtain ⟨q3, h3⟩ := num_add m (maxOf m - t) t
  rw [BitVec.sub_add_cancel] at h3
  have hm := num_max m hw
  have r1 := num_range m hw v
  have r2 := num_range m hw b
  have r3 := num_range m hw t
  have r4 := num_range m hw (v + t)
  have r5 := num_range m hw (b + t)
  have r6 := num_range m hw (maxOf m - t)
  have hP := Nat.two_pow_pos (m.bits - 1)
  rw [hpow] at h1 h2 h3 r1 r2 r3 r4 r5 r6 hm
  generalize m.num (v + t) = nvt at *
  generalize m.num (b + t) = nbt at *
  generalize m.num (maxOf m - t) = nmt at *
  generalize m.num (maxOf m) = nm at *
  generalize m.num v = nv at *
  generalize m.num b = nb at *
  generalize m.num t = nt at *
  generalize 2 ^ (m.bits - 1) = P at *
  have key : ∀ q : Int, (q = 0) ∨ (q = 1) ∨ (q = -1) ∨ q ≤ -2 ∨ 2 ≤ q := by intro q; omega
  have big : ∀ q : Int, 2 ≤ q → q * ((2 * P : Nat) : Int) ≥ 4 * P := by
    intro q hq
    have := Int.mul_le_mul_of_nonneg_right hq (show (0 : Int) ≤ ((2 * P : Nat) : Int) by omega)
    push_cast at *; omega
  have small : ∀ q : Int, q ≤ -2 → q * ((2 * P : Nat) : Int) ≤ -(4 * P) := by
    intro q hq
    have := Int.mul_le_mul_of_nonneg_right hq (show (0 : Int) ≤ ((2 * P : Nat) : Int) by omega)
    push_cast at *; omega
  have e0 : (0 : Int) * ((2 * P : Nat) : Int) = 0 := by omega
  have e1 : (1 : Int) * ((2 * P : Nat) : Int) = 2 * P := by omega
  have e2 : (-1 : Int) * ((2 * P : Nat) : Int) = -(2 * P) := by omega
  cases hs : m.signed <;> simp only [hs, Bool.false_eq_true, false_and, true_and, or_false, false_or, if_true, if_false, reduceCtorEq] at *
  all_goals
    rcases key q1 with rfl | rfl | rfl | k1 | k1 <;> rcases key q2 with rfl | rfl | rfl | k2 | k2 <;>
      rcases key q3 with rfl | rfl | rfl | k3 | k3 <;>
      first
      | omega
      | (simp only [e0, e1, e2] at *
         first
         | omega
         | (have b1 := big; have s1 := small
            first
            | (have := small _ k1; omega)
            | (have := big _ k1; omega)
            | (have := small _ k2; omega)
            | (have := big _ k2; omega)
            | (have := small _ k3; omega)
            | (have := big _ k3; omega)))

theorem addConfirm_ok (a b : Expr m) : RuleOk env (.add a b) (addConfirm a b) := by
  intro e' he ho
  simp only [addConfirm, irrule] at he
  obtain ⟨tb, rfl, v, rel, bound, rfl, tbound, rfl, ⟨rfl, hlt⟩, rfl⟩ := he
  obtain ⟨⟨hv, hbd, hr⟩, hb⟩ := ho
  have hw := ok_pos hv
  refine ⟨rfl, ?_⟩
  simp only [Expr.Ok]
  refine ⟨⟨hv, hb⟩, ok_valid _ hv, ?_⟩
  rw [relHolds_lessEqual, decide_eq_true_eq] at hr ⊢
  simp only [Expr.eval] at hr ⊢
  have h := relHolds_tvCmp m tbound (maxOf m - tb)
  rw [hlt, relHolds_less, decide_eq_true_eq] at h
  exact confirm_add hw hr h

theorem addSubConst_ok (a b : Expr m) : RuleOk env (.add a b) (addSubConst a b) := by
  intro e' he ho
  simp only [addSubConst, irrule] at he
  obtain ⟨tb, rfl, l, x, rfl, ts, rfl, rfl⟩ := he
  obtain ⟨⟨hl, hx⟩, hb⟩ := ho
  refine ⟨?_, ?_⟩
  · simp only [Expr.eval]; grind
  · simp only [Expr.Ok]; exact ⟨ok_valid _ hx, hx⟩

theorem modeIu_valid : modeIu.Valid := ⟨by decide, by decide, by decide, Or.inr ⟨by decide, by decide, 5, rfl⟩⟩

theorem counts_modeIu (hm : m.Valid) : modeIu.Counts m := ⟨hm.2.1, hm.2.2.1⟩

theorem addSame_ok (a b : Expr m) : RuleOk env (.add a b) (addSame C a b) := by
  unfold addSame
  refine ruleOk_ite (fun h => ?_) (fun _ => ruleOk_none _)
  subst h
  refine ruleOk_ite (fun _ => ruleOk_some ?_) (fun _ => ruleOk_some ?_)
  · intro ho
    refine ⟨?_, ?_⟩
    · simp only [Expr.eval]; grind
    · simp only [Expr.Ok]; exact ⟨ho.1, ok_valid _ ho.1⟩
  · intro ho
    have hv := ok_valid _ ho.1
    refine ⟨?_, ?_⟩
    · simp only [Expr.eval]
      rw [show (1#32 : BitVec 32).toNat = 1 from rfl, amt_one hv, BitVec.shiftLeft_eq_mul_twoPow]
      have : BitVec.twoPow m.bits 1 = 1#m.bits + 1#m.bits := by
        apply BitVec.eq_of_toNat_eq
        simp [BitVec.toNat_twoPow]
      rw [this]; grind
    · simp only [Expr.Ok]
      refine ⟨ho.1, modeIu_valid, counts_modeIu hv, ?_⟩
      intro c hc
      cases hc
      decide

theorem addMinus_ok (a b : Expr m) : RuleOk env (.add a b) (addMinus a b) := by
  unfold addMinus
  refine ruleOk_or ?_ ?_ <;>
  · intro e' he ho
    simp only [irrule] at he
    obtain ⟨x, rfl, rfl⟩ := he
    simp only [Expr.Ok] at ho ⊢
    exact ⟨by simp only [Expr.eval]; grind, by tauto⟩

theorem addNot_ok (a b : Expr m) : RuleOk env (.add a b) (addNot a b) := by
  intro e' he ho
  simp only [addNot, irrule] at he
  obtain ⟨x, rfl, c, rfl, rfl⟩ := he
  simp only [Expr.Ok] at ho ⊢
  refine ⟨?_, ho.2, ho.1⟩
  simp only [Expr.eval]; rw [BitVec.not_eq_neg_add]; grind

theorem or_sub_and {w : Nat} (x c : BitVec w) : (x ||| c) - c = x &&& ~~~c := by
  have h : x ||| c = (x &&& ~~~c) + c := by
    rw [BitVec.add_eq_or_of_and_eq_zero]
    · bitwise
    · bitwise
  rw [h]; grind

theorem addOr_ok (a b : Expr m) : RuleOk env (.add a b) (addOr a b) := by
  intro e' he ho
  simp only [addOr, irrule] at he
  obtain ⟨x, y, rfl, tb, rfl, tab, rfl, h, rfl⟩ := he
  simp only [Expr.Ok] at ho ⊢
  refine ⟨?_, ho.1⟩
  simp only [Expr.eval]
  rw [← or_sub_and]
  have : tb = -tab := by grind
  rw [this]; grind

theorem addMulMul_ok (a b : Expr m) : RuleOk env (.add a b) (addMulMul a b) := by
  intro e' he ho
  simp only [addMulMul, irrule] at he
  obtain ⟨al, ar, rfl, bl, br, rfl, he⟩ := he
  simp only [Expr.Ok] at ho
  cases hz : otherOp bl br al with
  | none => simp only [hz] at he; cases he
  | some z =>
    simp only [hz, Option.some.injEq] at he
    subst he
    simp only [Expr.Ok, Expr.eval]
    rcases otherOp_some hz with ⟨rfl, rfl⟩ | ⟨rfl, rfl⟩
    · exact ⟨by grind, by tauto⟩
    · exact ⟨by grind, by tauto⟩

theorem addMul_ok (a b : Expr m) : RuleOk env (.add a b) (addMul C a b) := by
  unfold addMul
  refine ruleOk_ite (fun _ => ruleOk_or ?_ (ruleOk_or (addMulMul_ok a b) ?_)) (fun _ => ruleOk_none _)
  · intro e' he ho
    simp only [irrule] at he
    obtain ⟨al, ar, rfl, y, hy, _, rfl⟩ := he
    simp only [Expr.Ok] at ho ⊢
    simp only [Expr.eval]
    rcases otherOp_some hy with ⟨rfl, rfl⟩ | ⟨rfl, rfl⟩
    · exact ⟨by grind, ho.2, ho.1.2, ok_valid _ ho.2⟩
    · exact ⟨by grind, ho.2, ho.1.1, ok_valid _ ho.2⟩
  · intro e' he ho
    simp only [irrule] at he
    obtain ⟨bl, br, rfl, y, hy, rfl⟩ := he
    simp only [Expr.Ok] at ho ⊢
    simp only [Expr.eval]
    rcases otherOp_some hy with ⟨rfl, rfl⟩ | ⟨rfl, rfl⟩
    · exact ⟨by grind, ho.1, ho.2.2, ok_valid _ ho.1⟩
    · exact ⟨by grind, ho.1, ho.2.1, ok_valid _ ho.1⟩

theorem notSelfCmp_of_int (hm : m ≠ bmode) (b : Expr m) : b.NotSelfCmp := by
  cases b with
  | cmp r x y => exact absurd rfl hm
  | _ => trivial

theorem foldAssoc_none {r : Root} {f g : BitVec m.bits → BitVec m.bits → BitVec m.bits} {a b : Expr m} (h : foldAssoc r f a b = none) :
    foldAssoc r g a b = none := by
  unfold foldAssoc at h ⊢
  cases hb : asConst b with
  | none => rfl
  | some c1 =>
    simp only [hb, Option.bind_eq_bind, Option.bind_some] at h ⊢
    cases ha : r.view a with
    | none => rfl
    | some p =>
      simp only [ha, Option.bind_some] at h ⊢
      cases hp : asConst p.2 with
      | none => simp
      | some c => rw [hp] at h; cases h

/-! ### Sub -/

theorem max_or {w : Nat} {a : BitVec w} (h : a &&& (BitVec.allOnes w >>> 1) = BitVec.allOnes w >>> 1) :
    a = BitVec.allOnes w ∨ a = BitVec.allOnes w >>> 1 := by
  rw [max_eq] at h ⊢
  have hb : ∀ i, i < w → i + 1 ≠ w → a.getLsbD i = true := by
    intro i hi h1
    have := congrArg (·.getLsbD i) h
    simp only [BitVec.getLsbD_and, BitVec.getLsbD_not, BitVec.getLsbD_intMin, hi, h1, decide_true, decide_false, Bool.not_false, Bool.and_true] at this
    exact this
  by_cases ht : a.getLsbD (w - 1) = true
  · left
    apply BitVec.eq_of_getLsbD_eq; intro i hi
    by_cases h1 : i + 1 = w
    · rw [show i = w - 1 by omega, ht]; simp; omega
    · rw [hb i hi h1]; simp [hi]
  · right
    apply BitVec.eq_of_getLsbD_eq; intro i hi
    rw [BitVec.getLsbD_not, BitVec.getLsbD_intMin]
    by_cases h1 : i + 1 = w
    · rw [show i = w - 1 by omega]
      have : decide (w - 1 + 1 = w) = true := by simp; omega
      simp only [this, Bool.not_true, Bool.and_false]
      simpa using ht
    · rw [hb i hi h1]; simp [hi, h1]

theorem subOnes_ok (a b : Expr m) : RuleOk env (.sub a b) (subOnes a b) := by
  intro e' he ho
  simp only [subOnes, irrule] at he
  obtain ⟨ta, rfl, he⟩ := he
  simp only [Expr.Ok] at ho
  split at he
  · next h =>
    cases he; subst h
    simp only [Expr.Ok, Expr.eval]
    exact ⟨by rw [BitVec.not_eq_neg_add, ← BitVec.neg_one_eq_allOnes]; grind, ho.2⟩
  · next h1 =>
    simp only [irrule] at he
    obtain ⟨h, rfl⟩ := he
    simp only [Expr.Ok, Expr.eval]
    refine ⟨?_, ho.2, ho.1⟩
    rcases max_or h with h | h
    · exact absurd h h1
    · rw [h, xor_max]

theorem subConst_ok (a b : Expr m) : RuleOk env (.sub a b) (subConst a b) := by
  intro e' he ho
  simp only [subConst, irrule] at he
  obtain ⟨c, rfl, rfl⟩ := he
  simp only [Expr.Ok] at ho ⊢
  exact ⟨by simp only [Expr.eval]; grind, ho⟩

theorem subAddConst_ok (a b : Expr m) : RuleOk env (.sub a b) (subAddConst a b) := by
  intro e' he ho
  simp only [subAddConst, irrule] at he
  obtain ⟨ta, rfl, x, y, rfl, tr, rfl, rfl⟩ := he
  simp only [Expr.Ok] at ho ⊢
  exact ⟨by simp only [Expr.eval]; grind, by tauto⟩

theorem subMinus_ok (a b : Expr m) : RuleOk env (.sub a b) (subMinus C a b) := by
  unfold subMinus
  refine ruleOk_or ?_ (ruleOk_or ?_ ?_) <;>
  · intro e' he ho
    simp only [irrule] at he
    first
    | obtain ⟨x, rfl, _, rfl⟩ := he
    | obtain ⟨x, rfl, rfl⟩ := he
    | obtain ⟨x, y, rfl, rfl⟩ := he
    simp only [Expr.Ok] at ho ⊢
    exact ⟨by simp only [Expr.eval]; grind, by tauto⟩

theorem subZero_ok (a b : Expr m) : RuleOk env (.sub a b) (subZero a b) := by
  intro e' he ho
  simp only [subZero, irrule] at he
  obtain ⟨rfl, rfl⟩ := he
  simp only [Expr.Ok] at ho ⊢
  exact ⟨by simp only [Expr.eval]; grind, ho.2⟩

theorem subAddL_ok (S : C.Sound env) (a b : Expr m) : RuleOk env (.sub a b) (subAddL C a b) := by
  intro e' he ho
  simp only [subAddL, irrule] at he
  obtain ⟨l, r, hl, he⟩ := he
  obtain ⟨hl', hr', hv⟩ := addLike_sound S ho.1 hl
  split at he
  · next h => cases he; subst h; exact ⟨by simp only [Expr.eval]; rw [hv]; grind, hr'⟩
  · simp only [irrule] at he
    obtain ⟨rfl, rfl⟩ := he
    exact ⟨by simp only [Expr.eval]; rw [hv]; grind, hl'⟩

theorem subAddR_ok (S : C.Sound env) (a b : Expr m) : RuleOk env (.sub a b) (subAddR C a b) := by
  intro e' he ho
  simp only [subAddR, irrule] at he
  obtain ⟨l, r, hl, he⟩ := he
  obtain ⟨hl', hr', hv⟩ := addLike_sound S ho.2 hl
  split at he
  · next h => cases he; subst h; exact ⟨by simp only [Expr.eval]; rw [hv]; grind, hr'⟩
  · simp only [irrule] at he
    obtain ⟨rfl, rfl⟩ := he
    exact ⟨by simp only [Expr.eval]; rw [hv]; grind, hl'⟩

theorem subMul_ok (a b : Expr m) : RuleOk env (.sub a b) (subMul a b) := by
  intro e' he ho
  simp only [subMul, irrule] at he
  obtain ⟨l, r, rfl, y, hy, rfl⟩ := he
  simp only [Expr.Ok] at ho ⊢
  simp only [Expr.eval]
  rcases otherOp_some hy with ⟨rfl, rfl⟩ | ⟨rfl, rfl⟩
  · exact ⟨by grind, ho.2, ho.1.2, ok_valid _ ho.2⟩
  · exact ⟨by grind, ho.2, ho.1.1, ok_valid _ ho.2⟩

theorem subSub_ok (a b : Expr m) : RuleOk env (.sub a b) (subSub a b) := by
  intro e' he ho
  simp only [subSub, irrule] at he
  obtain ⟨x, y, rfl, rfl⟩ := he
  simp only [Expr.Ok] at ho ⊢
  exact ⟨by simp only [Expr.eval]; grind, by tauto⟩

theorem subFromConst_ok (a b : Expr m) : RuleOk env (.sub a b) (subFromConst a b) := by
  unfold subFromConst
  refine ruleOk_or ?_ ?_
  · intro e' he ho
    simp only [irrule] at he
    obtain ⟨c, rfl, x, rfl, rfl⟩ := he
    simp only [Expr.Ok] at ho ⊢
    exact ⟨by simp only [Expr.eval]; rw [BitVec.not_eq_neg_add]; grind, by tauto⟩
  · intro e' he ho
    simp only [irrule] at he
    obtain ⟨c, rfl, l, r, rfl, o, hother, rfl⟩ := he
    simp only [Expr.Ok] at ho ⊢
    simp only [Expr.eval]
    have := or_sub_and (o.eval env) c
    rcases otherOp_some hother with ⟨rfl, rfl⟩ | ⟨rfl, rfl⟩
    · refine ⟨?_, ho.2.2, ho.1⟩
      rw [← this]; simp only [Expr.eval]; rw [BitVec.or_comm]; grind
    · refine ⟨?_, ho.2.1, ho.1⟩
      rw [← this]; simp only [Expr.eval]; grind

theorem subNot_ok (a b : Expr m) : RuleOk env (.sub a b) (subNot a b) := by
  intro e' he ho
  simp only [subNot, irrule] at he
  obtain ⟨x, rfl, rfl⟩ := he
  simp only [Expr.Ok] at ho ⊢
  exact ⟨by simp only [Expr.eval]; rw [BitVec.not_eq_neg_add, BitVec.not_eq_neg_add]; grind, ho⟩

theorem and_add_and_not {w : Nat} (x y : BitVec w) : (x &&& y) + (x &&& ~~~y) = x := by
  rw [BitVec.add_eq_or_of_and_eq_zero]
  · bitwise
  · bitwise

theorem neg_top {w : Nat} (x : BitVec w) : -(x &&& BitVec.intMin w) = x &&& BitVec.intMin w := by
  have h : x &&& BitVec.intMin w = 0#w ∨ x &&& BitVec.intMin w = BitVec.intMin w := by
    by_cases ht : x.getLsbD (w - 1) = true
    · right
      apply BitVec.eq_of_getLsbD_eq; intro i hi
      rw [BitVec.getLsbD_and, BitVec.getLsbD_intMin]
      by_cases h1 : i + 1 = w
      · rw [show i = w - 1 by omega, ht]; simp
      · simp [h1]
    · left
      apply BitVec.eq_of_getLsbD_eq; intro i hi
      rw [BitVec.getLsbD_and, BitVec.getLsbD_intMin]
      by_cases h1 : i + 1 = w
      · rw [show i = w - 1 by omega]; simp [ht]
      · simp [h1]
  rcases h with h | h <;> rw [h]
  · simp
  · exact BitVec.neg_intMin

theorem subAndMax_ok (a b : Expr m) : RuleOk env (.sub a b) (subAndMax a b) := by
  intro e' he ho
  simp only [subAndMax, irrule] at he
  obtain ⟨l, r, rfl, tv, rfl, ⟨rfl, rfl⟩, rfl⟩ := he
  simp only [Expr.Ok] at ho ⊢
  refine ⟨?_, ho.1⟩
  simp only [Expr.eval]
  rw [max_eq]
  have h1 := and_add_and_not (l.eval env) (BitVec.intMin m.bits)
  have h2 := neg_top (l.eval env)
  have h3 : ~~~(~~~BitVec.intMin m.bits) = BitVec.intMin m.bits := BitVec.not_not
  rw [h3]
  grind

theorem subAnd_ok (a b : Expr m) : RuleOk env (.sub a b) (subAnd a b) := by
  intro e' he ho
  simp only [subAnd, irrule] at he
  obtain ⟨l, r, rfl, y, hy, rfl⟩ := he
  simp only [Expr.Ok] at ho ⊢
  simp only [Expr.eval]
  have h := and_add_and_not (a.eval env) (y.eval env)
  rcases otherOp_some hy with ⟨rfl, rfl⟩ | ⟨rfl, rfl⟩
  · exact ⟨by grind, ho.1, ho.2.2⟩
  · exact ⟨by rw [BitVec.and_comm (l.eval env)]; grind, ho.1, ho.2.1⟩

/-! ### Minus -/

theorem shr_last {w : Nat} (x : BitVec w) : x >>> (w - 1) = if x.msb then 1#w else 0#w := by
  apply BitVec.eq_of_getLsbD_eq; intro i hi
  rw [BitVec.getLsbD_ushiftRight, BitVec.msb_eq_getLsbD_last]
  by_cases h : i = 0
  · subst h
    rw [Nat.add_zero]
    cases x.getLsbD (w - 1) <;> simp [hi]
  · rw [BitVec.getLsbD_of_ge _ _ (by omega)]
    split <;> simp [BitVec.getLsbD_one]
    omega

theorem sshr_last {w : Nat} (x : BitVec w) : x.sshiftRight (w - 1) = if x.msb then BitVec.allOnes w else 0#w := by
  apply BitVec.eq_of_getLsbD_eq; intro i hi
  rw [BitVec.getLsbD_sshiftRight]
  simp only [show ¬ w ≤ i by omega, decide_false, Bool.not_false, Bool.true_and]
  by_cases h : i = 0
  · subst h
    rw [if_pos (by omega), Nat.add_zero, BitVec.msb_eq_getLsbD_last]
    cases x.getLsbD (w - 1) <;> simp [hi]
  · rw [if_neg (by omega)]
    split <;> simp_all

theorem shr_top {w : Nat} (x : BitVec w) : -(x >>> (w - 1)) = x.sshiftRight (w - 1) := by
  rw [shr_last, sshr_last]
  split
  · exact BitVec.neg_one_eq_allOnes
  · simp

theorem sshr_top {w : Nat} (x : BitVec w) : -(x.sshiftRight (w - 1)) = x >>> (w - 1) := by
  rw [← shr_top, BitVec.neg_neg]

theorem negateCheaply_ok {e e' : Expr m} (he : e.Ok env) (h : negateCheaply e = some e') :
    e'.eval env = -(e.eval env) ∧ e'.Ok env := by
  unfold negateCheaply at h
  split at h
  · cases h; exact ⟨rfl, he⟩
  · cases h; exact ⟨by simp [Expr.eval], he⟩
  · cases h; exact ⟨by simp only [Expr.eval]; grind, he.2, he.1⟩
  · cases h; exact ⟨by simp only [Expr.eval]; grind, he⟩
  · cases h; exact ⟨by simp only [Expr.eval]; grind, he.2, he.1⟩
  · next x =>
    cases h
    exact ⟨by simp only [Expr.eval]; rw [BitVec.not_eq_neg_add]; grind, he, ok_valid x he⟩
  · next x s =>
    simp only [irrule] at h
    obtain ⟨hs, rfl⟩ := h
    refine ⟨?_, he⟩
    simp only [Expr.eval]
    rw [sizeMinus1_amt (ok_valid x he.1) hs, shr_top]
  · next x s =>
    simp only [irrule] at h
    obtain ⟨hs, rfl⟩ := h
    refine ⟨?_, he⟩
    simp only [Expr.eval]
    rw [sizeMinus1_amt (ok_valid x he.1) hs, sshr_top]
  · cases h

theorem minusAdd_ok (a : Expr m) : RuleOk env (.minus a) (minusAdd C a) := by
  intro e' he ho
  simp only [minusAdd, irrule] at he
  obtain ⟨l, r, rfl, _, he⟩ := he
  simp only [Expr.Ok] at ho
  split at he
  · next nl hn =>
    cases he
    obtain ⟨hv, hok⟩ := negateCheaply_ok ho.1 hn
    exact ⟨by simp only [Expr.eval]; rw [hv]; grind, hok, ho.2⟩
  · split at he
    · next nr hn =>
      cases he
      obtain ⟨hv, hok⟩ := negateCheaply_ok ho.2 hn
      exact ⟨by simp only [Expr.eval]; rw [hv]; grind, hok, ho.1⟩
    · cases he

theorem and_add_or {w : Nat} (x y : BitVec w) : (x &&& y) + (x ||| y) = x + y := by
  have h1 := and_add_and_not x y
  have h2 := or_sub_and x y
  grind

theorem minusAnd_ok (a : Expr m) : RuleOk env (.minus a) (minusAnd C a) := by
  intro e' he ho
  simp only [minusAnd, irrule] at he
  obtain ⟨l, r, rfl, ⟨_, h⟩, rfl⟩ := he
  refine ⟨?_, ho⟩
  simp only [Expr.eval]
  have := and_add_or (l.eval env) (r.eval env)
  rcases h with rfl | rfl <;> simp only [Expr.eval] at this ⊢ <;> grind

theorem minusOr_ok (a : Expr m) : RuleOk env (.minus a) (minusOr C a) := by
  intro e' he ho
  simp only [minusOr, irrule] at he
  obtain ⟨l, r, rfl, ⟨_, h⟩, rfl⟩ := he
  refine ⟨?_, ho⟩
  simp only [Expr.eval]
  have := and_add_or (l.eval env) (r.eval env)
  rcases h with rfl | rfl <;> simp only [Expr.eval] at this ⊢ <;> grind

theorem minusMul_ok (a : Expr m) : RuleOk env (.minus a) (minusMul C a) := by
  intro e' he ho
  simp only [minusMul, irrule] at he
  obtain ⟨l, r, rfl, _, he⟩ := he
  simp only [Expr.Ok] at ho
  split at he
  · next nl hn =>
    cases he
    obtain ⟨hv, hok⟩ := negateCheaply_ok ho.1 hn
    exact ⟨by simp only [Expr.eval]; rw [hv]; grind, hok, ho.2⟩
  · split at he
    · next nr hn =>
      cases he
      obtain ⟨hv, hok⟩ := negateCheaply_ok ho.2 hn
      exact ⟨by simp only [Expr.eval]; rw [hv]; grind, ho.1, hok⟩
    · cases he

theorem minusShl_ok (a : Expr m) : RuleOk env (.minus a) (minusShl C a) := by
  intro e' he ho
  simp only [minusShl, irrule] at he
  obtain ⟨k, l, r, rfl, nl, hn, _, rfl⟩ := he
  simp only [Expr.Ok] at ho
  obtain ⟨hv, hok⟩ := negateCheaply_ok ho.1 hn
  refine ⟨?_, hok, ho.2⟩
  simp only [Expr.eval]
  rw [hv, BitVec.shiftLeft_eq_mul_twoPow, BitVec.shiftLeft_eq_mul_twoPow]; grind

/-! ### Mul -/

theorem mulAddConst_ok (a b : Expr m) : RuleOk env (.mul a b) (mulAddConst C a b) := by
  intro e' he ho
  simp only [mulAddConst, irrule] at he
  obtain ⟨c1, rfl, x, y, rfl, c2, rfl, _, rfl⟩ := he
  simp only [Expr.Ok] at ho ⊢
  exact ⟨by simp only [Expr.eval]; grind, by tauto⟩

theorem mulByConst_ok (a b : Expr m) (hm : m.modulo ≠ 0) (ha : a.CountsReduced) : RuleOk env (.mul a b) (mulByConst C a b) := by
  intro e' he ho
  simp only [mulByConst, irrule] at he
  obtain ⟨c1, rfl, he⟩ := he
  split at he
  · next h =>
    cases he; subst h
    exact ⟨by simp only [Expr.eval]; rw [← BitVec.neg_one_eq_allOnes]; grind, ho.1⟩
  · simp only [irrule] at he
    refine shlShr_ok (.mul a (.const c1)) hm trivial ?_ e' he.2 ho
    intro x s hx
    simp only [shlConstLike, Option.ite_none_right_eq_some, Option.some.injEq, Prod.mk.injEq] at hx
    rw [← hx.2.1]; exact ha

theorem isBit_sound (S : C.Sound env) {e : Expr m} (he : e.Ok env) (h : isBit C e = true) : e.eval env = 0#m.bits ∨ e.eval env = 1#m.bits := by
  unfold isBit at h
  split at h
  · next b hb =>
    simp only [decide_eq_true_eq] at h
    have hd := S.bi e b he hb
    rw [h] at hd
    by_cases h0 : (e.eval env).getLsbD 0 = true
    · right
      apply BitVec.eq_of_getLsbD_eq; intro i hi
      by_cases h1 : i = 0
      · subst h1; rw [h0]; simp [hi]
      · have := (hd i hi).1
        simp only [BitVec.getLsbD_one, h1, decide_false, Bool.and_false] at this ⊢
        cases hv : (e.eval env).getLsbD i
        · rfl
        · exact absurd (this hv) (by simp)
    · left
      apply BitVec.eq_of_getLsbD_eq; intro i hi
      by_cases h1 : i = 0
      · subst h1; simpa using h0
      · have := (hd i hi).1
        simp only [BitVec.getLsbD_one, h1, decide_false, Bool.and_false] at this
        cases hv : (e.eval env).getLsbD i
        · simp
        · exact absurd (this hv) (by simp)
  · cases h

theorem mulBit_ok (S : C.Sound env) (a b : Expr m) : RuleOk env (.mul a b) (mulBit C a b) := by
  unfold mulBit
  refine ruleOk_ite (fun h => ruleOk_some fun ho => ⟨?_, ho.2, ho.1⟩)
    (fun _ => ruleOk_ite (fun h => ruleOk_some fun ho => ⟨?_, ho.1, ho.2⟩) (fun _ => ruleOk_none _))
  · simp only [Expr.eval]
    rcases isBit_sound S ho.1 h with h | h <;> rw [h]
    · simp
    · rw [BitVec.neg_one_eq_allOnes]; simp
  · simp only [Expr.eval]
    rcases isBit_sound S ho.2 h with h | h <;> rw [h]
    · simp
    · rw [BitVec.neg_one_eq_allOnes]; simp

theorem isZeroOrAllOne_sound {e : Expr m} (he : e.Ok env) (h : isZeroOrAllOne e = true) :
    e.eval env = 0#m.bits ∨ e.eval env = BitVec.allOnes m.bits := by
  unfold isZeroOrAllOne at h
  split at h
  · next k x s hs =>
    simp only [irrule] at hs
    subst hs
    simp only [Expr.eval]
    rw [sizeMinus1_amt (ok_valid x he.1) h, sshr_last]
    split
    · exact Or.inr rfl
    · exact Or.inl rfl
  · cases h

theorem mulMask_ok (a b : Expr m) : RuleOk env (.mul a b) (mulMask a b) := by
  unfold mulMask
  refine ruleOk_ite (fun h => ruleOk_some fun ho => ⟨?_, ho⟩) (fun _ => ruleOk_none _)
  simp only [Bool.or_eq_true] at h
  simp only [Expr.eval]
  rcases h with h | h
  · rcases isZeroOrAllOne_sound ho.1 h with h | h <;> rw [h]
    · simp
    · rw [BitVec.allOnes_and, ← BitVec.neg_one_eq_allOnes]; grind
  · rcases isZeroOrAllOne_sound ho.2 h with h | h <;> rw [h]
    · simp
    · rw [BitVec.and_allOnes, ← BitVec.neg_one_eq_allOnes]; grind

theorem mulMinus_ok (a b : Expr m) : RuleOk env (.mul a b) (mulMinus a b) := by
  unfold mulMinus
  refine ruleOk_or ?_ ?_
  · intro e' he ho
    simp only [irrule] at he
    obtain ⟨x, rfl, nb, hn, rfl⟩ := he
    obtain ⟨hv, hok⟩ := negateCheaply_ok ho.2 hn
    exact ⟨by simp only [Expr.eval]; rw [hv]; grind, ho.1, hok⟩
  · intro e' he ho
    simp only [irrule] at he
    obtain ⟨x, rfl, nb, hn, rfl⟩ := he
    obtain ⟨hv, hok⟩ := negateCheaply_ok ho.1 hn
    exact ⟨by simp only [Expr.eval]; rw [hv]; grind, hok, ho.2⟩

theorem one_shl_mul {w : Nat} (x : BitVec w) (n : Nat) : 1#w <<< n * x = x <<< n := by
  rw [BitVec.shiftLeft_eq_mul_twoPow, BitVec.shiftLeft_eq_mul_twoPow]; grind

theorem mulShl_ok (a b : Expr m) : RuleOk env (.mul a b) (mulShl a b) := by
  unfold mulShl
  split
  · next k l s hs =>
    simp only [irrule] at hs
    subst hs
    refine ruleOk_ite (fun h => ruleOk_some fun ho => ?_) (fun _ => ruleOk_none _)
    simp only [irrule] at h
    subst h
    exact ⟨by simp only [Expr.eval]; rw [one_shl_mul], ho.2, ho.1.2⟩
  · split
    · next k l s hs =>
      simp only [irrule] at hs
      subst hs
      refine ruleOk_ite (fun h => ruleOk_some fun ho => ?_) (fun _ => ruleOk_none _)
      simp only [irrule] at h
      subst h
      exact ⟨by simp only [Expr.eval]; rw [BitVec.mul_comm, one_shl_mul], ho.1, ho.2.2⟩
    · exact ruleOk_none _

theorem sdiv_ofInt {w : Nat} (x y : BitVec w) : x.sdiv y = BitVec.ofInt w (x.toInt.tdiv y.toInt) := by
  apply BitVec.eq_of_toInt_eq
  rw [BitVec.toInt_sdiv, BitVec.toInt_ofInt]

theorem srem_ofInt {w : Nat} (x y : BitVec w) : x.srem y = BitVec.ofInt w (x.toInt.tmod y.toInt) := by
  apply BitVec.eq_of_toInt_eq
  rw [← BitVec.toInt_srem, BitVec.ofInt_toInt]

/-- quotient and remainder belong together -/
theorem div_mul_mod (m : IMode) (x y : BitVec m.bits) : divBV m x y * y + modBV m x y = x := by
  unfold divBV modBV
  split
  · rw [sdiv_ofInt, srem_ofInt]
    conv => lhs; lhs; rhs; rw [← BitVec.ofInt_toInt (x := y)]
    rw [← BitVec.ofInt_mul, ← BitVec.ofInt_add, Int.mul_comm, Int.mul_tdiv_add_tmod, BitVec.ofInt_toInt]
  · apply BitVec.eq_of_toNat_eq
    have h1 : (BitVec.udiv x y).toNat = x.toNat / y.toNat := BitVec.toNat_udiv
    have h2 : (BitVec.umod x y).toNat = x.toNat % y.toNat := BitVec.toNat_umod
    rw [BitVec.toNat_add, BitVec.toNat_mul, h1, h2, Nat.mod_add_mod, Nat.mul_comm, Nat.div_add_mod, Nat.mod_eq_of_lt x.isLt]

theorem mulDivR_ok (a b : Expr m) : RuleOk env (.mul a b) (mulDivR C a b) := by
  intro e' he ho
  simp only [mulDivR, irrule] at he
  obtain ⟨x, y, rfl, ⟨rfl, _⟩, rfl⟩ := he
  simp only [Expr.Ok] at ho ⊢
  refine ⟨?_, ho.2.1, ho.2⟩
  simp only [Expr.eval]
  have := div_mul_mod m (x.eval env) (y.eval env)
  grind

theorem mulDiv_ok (a b : Expr m) : RuleOk env (.mul a b) (mulDiv C a b) := by
  unfold mulDiv
  split
  · next x y h =>
    simp only [irrule] at h
    subst h
    refine ruleOk_ite (fun h => ?_) (fun _ => mulDivR_ok _ b)
    subst h
    refine ruleOk_ite (fun h => ruleOk_some fun ho => ?_) (fun _ => ruleOk_none _)
    simp only [Expr.Ok] at ho ⊢
    refine ⟨?_, ho.1.1, ho.1⟩
    simp only [Expr.eval]
    have := div_mul_mod m (x.eval env) (y.eval env)
    grind
  · exact mulDivR_ok a b

/-! ### Div and Mod -/

theorem sdiv_allOnes {w : Nat} (x : BitVec w) : x.sdiv (BitVec.allOnes w) = -x := by
  rcases Nat.eq_zero_or_pos w with rfl | hw
  · exact Subsingleton.elim _ _
  · rw [sdiv_ofInt, BitVec.toInt_allOnes, if_pos hw, Int.tdiv_neg, Int.tdiv_one, BitVec.ofInt_neg, BitVec.ofInt_toInt]

theorem tmod_tmod {x c t : Int} (h : t ∣ c) : (x.tmod c).tmod t = x.tmod t := by
  by_cases hc : c = 0
  · rw [hc, Int.tmod_zero]
  · rcases Int.le_total 0 x with hx | hx
    · rw [Int.tmod_eq_emod_of_nonneg hx, Int.tmod_eq_emod_of_nonneg (Int.emod_nonneg _ hc), Int.tmod_eq_emod_of_nonneg hx,
        Int.emod_emod_of_dvd _ h]
    · obtain ⟨y, rfl⟩ : ∃ y, x = -y := ⟨-x, by omega⟩
      have hy : 0 ≤ y := by omega
      rw [Int.neg_tmod, Int.neg_tmod, Int.neg_tmod, Int.tmod_eq_emod_of_nonneg hy, Int.tmod_eq_emod_of_nonneg (Int.emod_nonneg _ hc),
        Int.tmod_eq_emod_of_nonneg hy, Int.emod_emod_of_dvd _ h]

theorem mod_mod (m : IMode) {x c t : BitVec m.bits} (h : modBV m c t = 0#m.bits) : modBV m (modBV m x c) t = modBV m x t := by
  unfold modBV at *
  split at h
  · next hs =>
    simp only [hs, if_true]
    apply BitVec.eq_of_toInt_eq
    rw [BitVec.toInt_srem, BitVec.toInt_srem, BitVec.toInt_srem]
    have := congrArg BitVec.toInt h
    rw [BitVec.toInt_srem, BitVec.toInt_zero] at this
    exact tmod_tmod (Int.dvd_of_tmod_eq_zero this)
  · next hs =>
    simp only [hs]
    apply BitVec.eq_of_toNat_eq
    have h2 : ∀ x y : BitVec m.bits, (BitVec.umod x y).toNat = x.toNat % y.toNat := fun x y => BitVec.toNat_umod
    have := congrArg BitVec.toNat h
    simp only [Bool.false_eq_true, if_false, h2, BitVec.toNat_ofNat, Nat.zero_mod] at this ⊢
    exact Nat.mod_mod_of_dvd _ (Nat.dvd_of_mod_eq_zero this)

theorem modMod_ok (a b : Expr m) : RuleOk env (.mod a b) (modMod C a b) := by
  intro e' he ho
  simp only [modMod, irrule] at he
  obtain ⟨tv, rfl, x, y, rfl, c1, rfl, ⟨_, h⟩, rfl⟩ := he
  simp only [Expr.Ok] at ho ⊢
  refine ⟨?_, ho.1.1, ho.2⟩
  simp only [Expr.eval]
  rw [mod_mod m h]

theorem tdiv_mono {a b c : Int} (hc : 0 < c) (h : a ≤ b) : a.tdiv c ≤ b.tdiv c := by
  rcases Int.le_total 0 a with ha | ha
  · rw [Int.tdiv_eq_ediv_of_nonneg ha, Int.tdiv_eq_ediv_of_nonneg (by omega)]
    exact Int.ediv_le_ediv hc h
  · obtain ⟨a', rfl⟩ : ∃ y, a = -y := ⟨-a, by omega⟩
    rw [Int.neg_tdiv, Int.tdiv_eq_ediv_of_nonneg (by omega : 0 ≤ a')]
    have h1 : 0 ≤ a' / c := Int.ediv_nonneg (by omega) (by omega)
    rcases Int.le_total 0 b with hb | hb
    · rw [Int.tdiv_eq_ediv_of_nonneg hb]
      have := Int.ediv_nonneg hb (by omega : 0 ≤ c)
      omega
    · obtain ⟨b', rfl⟩ : ∃ y, b = -y := ⟨-b, by omega⟩
      rw [Int.neg_tdiv, Int.tdiv_eq_ediv_of_nonneg (by omega : 0 ≤ b')]
      have := Int.ediv_le_ediv hc (show b' ≤ a' by omega)
      omega

theorem tdiv_between {o a z c : Int} (h1 : o ≤ a) (h2 : a ≤ z) (h : z.tdiv c = o.tdiv c) : a.tdiv c = z.tdiv c := by
  rcases Int.lt_trichotomy c 0 with hc | rfl | hc
  · obtain ⟨d, rfl⟩ : ∃ y, c = -y := ⟨-c, by omega⟩
    have h3 := tdiv_mono (show 0 < d by omega) h1
    have h4 := tdiv_mono (show 0 < d by omega) h2
    rw [Int.tdiv_neg, Int.tdiv_neg] at h ⊢
    omega
  · simp
  · have h3 := tdiv_mono hc h1
    have h4 := tdiv_mono hc h2
    omega

theorem div_between (m : IMode) {o a z c : BitVec m.bits} (h1 : m.num o ≤ m.num a) (h2 : m.num a ≤ m.num z)
    (h : divBV m z c = divBV m o c) : divBV m a c = divBV m z c := by
  unfold divBV IMode.num at *
  split at h
  · next hs =>
    simp only [hs, if_true] at h1 h2 ⊢
    by_cases hc : c = -1#m.bits
    · rw [hc, BitVec.neg_one_eq_allOnes, sdiv_allOnes, sdiv_allOnes] at h
      have : z = o := BitVec.neg_inj.1 h
      subst this
      rw [BitVec.eq_of_toInt_eq (show a.toInt = z.toInt by omega)]
    · have hd : ∀ x : BitVec m.bits, (x.sdiv c).toInt = x.toInt.tdiv c.toInt :=
        fun x => BitVec.toInt_sdiv_of_ne_or_ne x c (Or.inr hc)
      apply BitVec.eq_of_toInt_eq
      have h' := congrArg BitVec.toInt h
      rw [hd, hd] at h' ⊢
      exact tdiv_between h1 h2 h'
  · next hs =>
    simp only [hs] at h1 h2 ⊢
    simp only [Bool.false_eq_true, if_false] at h1 h2 ⊢
    have hd : ∀ x : BitVec m.bits, (BitVec.udiv x c).toNat = x.toNat / c.toNat := fun x => BitVec.toNat_udiv
    apply BitVec.eq_of_toNat_eq
    have h' := congrArg BitVec.toNat h
    rw [hd, hd] at h' ⊢
    have h3 : o.toNat ≤ a.toNat := by omega
    have h4 : a.toNat ≤ z.toNat := by omega
    have := Nat.div_le_div_right (c := c.toNat) h3
    have := Nat.div_le_div_right (c := c.toNat) h4
    omega

theorem modBits_ok (S : C.Sound env) (a b : Expr m) : RuleOk env (.mod a b) (modBits C a b) := by
  intro e' he ho
  simp only [modBits, irrule] at he
  obtain ⟨tv, rfl, ba, hba, ⟨⟨_, hd⟩, hs⟩, rfl⟩ := he
  simp only [Expr.Ok] at ho ⊢
  refine ⟨?_, ho.1, ho.2.1⟩
  have hw := ok_pos ho.1
  obtain ⟨h1, h2⟩ := biMax_le hw (S.bi a ba ho.1 hba)
  have hdesc := S.bi a ba ho.1 hba
  have hbit : ∀ i, i < m.bits → (minOf m).getLsbD i = true → ba.z.getLsbD i = ba.o.getLsbD i := by
    intro i hi hm
    have := congrArg (·.getLsbD i) hs
    simp only [BitVec.getLsbD_and, BitVec.getLsbD_xor, hm, Bool.and_true, BitVec.getLsbD_zero] at this
    simpa using this
  have e1 : ba.z &&& (ba.o ||| ~~~minOf m) = ba.z := by
    apply BitVec.eq_of_getLsbD_eq; intro i hi
    rw [BitVec.getLsbD_and, BitVec.getLsbD_or, BitVec.getLsbD_not]
    cases hm : (minOf m).getLsbD i
    · simp [hi]
    · rw [hbit i hi hm]; simp
  have e2 : ba.o ||| (ba.z &&& minOf m) = ba.o := by
    apply BitVec.eq_of_getLsbD_eq; intro i hi
    rw [BitVec.getLsbD_or, BitVec.getLsbD_and]
    cases hm : (minOf m).getLsbD i
    · simp
    · rw [hbit i hi hm]; simp
  rw [e1] at h1
  rw [e2] at h2
  have hdiv := div_between m h2 h1 hd
  simp only [Expr.eval]
  have := div_mul_mod m (a.eval env) tv
  rw [hdiv] at this
  grind

end Verif.Model.IrOpt
