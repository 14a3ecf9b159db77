import Verif.Lemmas.IrOptBits
/-!
# Lemmas about the rules for bitwise operations: the single rules
-/
namespace Verif.Model.IrOpt
open Verif.Spec

variable {m k : IMode} {env : Env} {C : Ctx} {old a b : Expr m}

theorem onBool2_isOp {f : Expr bmode → Expr bmode → Option (Expr bmode)} {r : Root} {P : {m : IMode} → Expr m → Prop}
    (h : ∀ old a b : Expr bmode, IsOp env r old a b → P b → RuleOk env old (f a b)) {old a b : Expr m} (H : IsOp env r old a b) (hb : P b) :
    RuleOk env old (onBool2 f a b) := by
  unfold onBool2
  split
  · next h' => subst h'; exact h old a b H hb
  · exact ruleOk_none _

/-! ### Or -/

theorem orNots_ok (H : IsOp env .or old a b) : RuleOk env old (orNots C a b) := by
  intro e' he ho
  simp only [orNots, irrule] at he
  obtain ⟨x, rfl, y, rfl, _, rfl⟩ := he
  refine ⟨?_, H.ok ho⟩
  rw [H.val ho]; simp only [Root.op, Expr.eval]; bitwise

theorem or_of_mask {w : Nat} {x y c k : BitVec w} (h : y &&& k = x &&& k) (hc : c ||| k = BitVec.allOnes w) : x ||| c = y ||| c := by
  apply BitVec.eq_of_getLsbD_eq; intro i hi
  have h1 := congrArg (fun v : BitVec w => v.getLsbD i) h
  have h2 := congrArg (fun v : BitVec w => v.getLsbD i) hc
  simp only [BitVec.getLsbD_and, BitVec.getLsbD_or, BitVec.getLsbD_allOnes, hi, decide_true] at *
  grind

theorem and_of_mask {w : Nat} {x y c k : BitVec w} (h : y &&& k = x &&& k) (hc : c &&& k = c) : x &&& c = y &&& c := by
  apply BitVec.eq_of_getLsbD_eq; intro i hi
  have h1 := congrArg (fun v : BitVec w => v.getLsbD i) h
  have h2 := congrArg (fun v : BitVec w => v.getLsbD i) hc
  simp only [BitVec.getLsbD_and] at *
  grind

theorem orMinus_ok (S : C.Sound env) (H : IsOp env .or old a b) : RuleOk env old (orMinus C a b) := by
  intro e' he ho
  simp only [orMinus, irrule] at he
  obtain ⟨x, rfl, c, rfl, ⟨_, hc⟩, rfl⟩ := he
  have hok := H.ok ho
  refine ⟨?_, hok⟩
  rw [H.val ho]; simp only [Root.op, Expr.eval]
  exact or_of_mask (minusMask_sound S hok.1) hc

theorem orEorL_ok (S : C.Sound env) (H : IsOp env .or old a b) : RuleOk env old (orEorL C a b) := by
  intro e' he ho
  simp only [orEorL, irrule] at he
  obtain ⟨l, r, hl, o, ho', rfl⟩ := he
  have hok := H.ok ho
  obtain ⟨okl, okr, hv⟩ := eorLike_sound S hok.1 hl
  rw [Expr.Ok, Expr.eval, H.val ho]; simp only [Root.op, hv]
  rcases otherOp_some ho' with ⟨rfl, rfl⟩ | ⟨rfl, rfl⟩
  · exact ⟨by bitwise, okr, okl⟩
  · exact ⟨by bitwise, okl, okr⟩

theorem orEorR_ok (S : C.Sound env) (H : IsOp env .or old a b) : RuleOk env old (orEorR C a b) := by
  intro e' he ho
  simp only [orEorR, irrule] at he
  obtain ⟨l, r, hl, o, ho', rfl⟩ := he
  have hok := H.ok ho
  obtain ⟨okl, okr, hv⟩ := eorLike_sound S hok.2 hl
  rw [Expr.Ok, Expr.eval, H.val ho]; simp only [Root.op, hv]
  rcases otherOp_some ho' with ⟨rfl, rfl⟩ | ⟨rfl, rfl⟩
  · exact ⟨by bitwise, okl, okr⟩
  · exact ⟨by bitwise, okr, okl⟩

theorem orShrs_ok (H : IsOp env .or old a b) : RuleOk env old (orShrs C a b) := by
  intro e' he ho
  simp only [orShrs, irrule] at he
  obtain ⟨c, rfl, s, hs, rfl⟩ := he
  have hok := H.ok ho
  obtain ⟨hs1, hs2⟩ := shrsToShr_sound hok.1 hs
  refine ⟨?_, hs1, hok.2⟩
  rw [H.val ho]; simp only [Root.op, Expr.eval]
  refine or_of_mask (k := ~~~c) hs2.symm ?_
  bitwise

/-- Or: every rule of `transform_node_Or_` -/
theorem transformOr__ok (S : C.Sound env) {r : Root} (hr : r = .or ∨ r = .add) (H : IsOp env .or (r.mk a b) a b) (hb : b.NotSelfCmp)
    (hfold : r = .add → foldAssoc .add (· ||| ·) a b = none) (hc : r = .add → distCarry .add a b = none)
    (hd : r = .add → disjoint C a b = true) : RuleOk env (r.mk a b) (transformOr_ C r a b) := by
  unfold transformOr_
  refine ruleOk_or ?_ (ruleOk_or (orNots_ok H) (ruleOk_or (orMinus_ok S H) (ruleOk_or (orEorL_ok S H) (ruleOk_or (orEorR_ok S H)
    (ruleOk_or ?_ (ruleOk_or ?_ (ruleOk_or (orShrs_ok H) (ruleOk_or ?_ (ruleOk_or (bitopChain_ok S _) (ruleOk_or ?_ ?_))))))))))
  · rcases hr with rfl | rfl
    · exact foldAssoc_ok .or a b
    · rw [hfold rfl]; exact ruleOk_none _
  · exact onBool2_isOp (P := Expr.NotSelfCmp) (fun old a b _ hb => cmpsSame_ok hb) H hb
  · exact onBool2_isOp (P := fun _ => True) (fun old a b H _ => cmpsEor_ok S (Or.inr ⟨rfl, rfl⟩) H) H trivial
  · exact binopMux_ok (r := r) a b _ H.ok H.val
  · rcases hr with rfl | rfl
    · exact distributive_ok (Or.inr (Or.inl rfl)) H
    · refine distributive_add_ok (isOp_mk .add a b) ⟨H.ok, fun ho => ?_⟩ (hc rfl)
      rw [H.val ho]
      exact (xor_eq_or_of_and_eq_zero (disjoint_sound S (H.ok ho).1 (H.ok ho).2 (hd rfl))).symm
  · refine bitopShift_ok ⟨isOp_mk r a b, ?_, fun _ _ => H, ?_, ?_⟩
    · rintro rfl
      refine ⟨H.ok, fun ho => ?_⟩
      rw [H.val ho]
      exact (xor_eq_or_of_and_eq_zero (disjoint_sound S (H.ok ho).1 (H.ok ho).2 (hd rfl))).symm
    · rcases hr with rfl | rfl <;> simp
    · rcases hr with rfl | rfl <;> simp

/-! ### Eor -/

theorem eorNots_ok (H : IsOp env .eor old a b) : RuleOk env old (eorNots C a b) := by
  unfold eorNots
  refine ruleOk_or ?_ ?_
  · intro e' he ho
    simp only [irrule] at he
    obtain ⟨x, rfl, _, rfl⟩ := he
    refine ⟨?_, H.ok ho⟩
    rw [H.val ho]; simp only [Root.op, Expr.eval]; bitwise
  · intro e' he ho
    simp only [irrule] at he
    obtain ⟨x, rfl, _, rfl⟩ := he
    refine ⟨?_, H.ok ho⟩
    rw [H.val ho]; simp only [Root.op, Expr.eval]; bitwise

theorem eorAllOne_ok (H : IsOp env .eor old a b) : RuleOk env old (eorAllOne a b) := by
  intro e' he ho
  simp only [eorAllOne, irrule] at he
  obtain ⟨rfl, rfl⟩ := he
  refine ⟨?_, (H.ok ho).1⟩
  rw [H.val ho]; simp only [Root.op, Expr.eval]; bitwise

theorem max_eq {w : Nat} : BitVec.allOnes w >>> 1 = ~~~BitVec.intMin w := by
  apply BitVec.eq_of_getLsbD_eq; intro i hi
  rw [BitVec.getLsbD_ushiftRight, BitVec.getLsbD_not, BitVec.getLsbD_intMin, BitVec.getLsbD_allOnes]
  simp only [hi, decide_true, Bool.true_and]
  by_cases h : i + 1 = w
  · simp [h]; omega
  · simp [h]; omega

theorem xor_max {w : Nat} (y : BitVec w) : y ^^^ (BitVec.allOnes w >>> 1) = (BitVec.allOnes w >>> 1) - y := by
  have h1 : y ^^^ ~~~BitVec.intMin w = ~~~(y ^^^ BitVec.intMin w) := by bitwise
  rw [max_eq, h1, xor_intMin, BitVec.not_eq_neg_add, BitVec.not_eq_neg_add]
  grind

theorem eorMaxAdd_ok (H : IsOp env .eor old a b) : RuleOk env old (eorMaxAdd a b) := by
  intro e' he ho
  simp only [eorMaxAdd, irrule] at he
  obtain ⟨tb, rfl, x, y, rfl, c, rfl, ⟨_, rfl⟩, rfl⟩ := he
  have hok := H.ok ho
  refine ⟨?_, valid_const hok.2 _, hok.1.1⟩
  rw [H.val ho]; simp only [Root.op, Expr.eval]
  rw [xor_max]; grind

theorem eorMaxSub_ok (H : IsOp env .eor old a b) : RuleOk env old (eorMaxSub a b) := by
  intro e' he ho
  simp only [eorMaxSub, irrule] at he
  obtain ⟨tb, rfl, x, y, rfl, c, rfl, ⟨_, rfl⟩, rfl⟩ := he
  have hok := H.ok ho
  refine ⟨?_, hok.1.2, valid_const hok.2 _⟩
  rw [H.val ho]; simp only [Root.op, Expr.eval]
  rw [xor_max]; grind

theorem popcount_shl {w : Nat} {v : BitVec w} (h : (popcount (v <<< 1) : Int) = (w : Int) - 1) : v = BitVec.allOnes w ∨ v = BitVec.allOnes w >>> 1 := by
  have hall : ∀ i, i + 1 < w → v.getLsbD i = true := by
    intro i hi
    by_contra hc
    have hlen := List.length_eq_length_filter_add (l := List.range w) (fun i => (v <<< 1).getLsbD i)
    rw [List.length_range] at hlen
    unfold popcount at h
    have h1 : ((List.range w).filter (fun i => !(v <<< 1).getLsbD i)).length = 1 := by omega
    obtain ⟨x, hx⟩ := List.length_eq_one_iff.1 h1
    have m0 : 0 ∈ (List.range w).filter (fun i => !(v <<< 1).getLsbD i) := by
      rw [List.mem_filter, List.mem_range]
      refine ⟨by omega, ?_⟩
      rw [BitVec.getLsbD_shiftLeft]; simp
    have mi : i + 1 ∈ (List.range w).filter (fun i => !(v <<< 1).getLsbD i) := by
      rw [List.mem_filter, List.mem_range]
      refine ⟨by omega, ?_⟩
      rw [BitVec.getLsbD_shiftLeft]; simp only [Bool.not_eq_true] at hc; simp [hc]
    rw [hx, List.mem_singleton] at m0 mi
    omega
  by_cases ht : v.getLsbD (w - 1) = true
  · left
    apply BitVec.eq_of_getLsbD_eq; intro i hi
    rw [BitVec.getLsbD_allOnes]
    by_cases h1 : i + 1 < w
    · rw [hall i h1]; simp [hi]
    · have : i = w - 1 := by omega
      rw [this, ht]; simp; omega
  · right
    apply BitVec.eq_of_getLsbD_eq; intro i hi
    rw [BitVec.getLsbD_ushiftRight, BitVec.getLsbD_allOnes]
    by_cases h1 : i + 1 < w
    · rw [hall i h1]; simp; omega
    · have : i = w - 1 := by omega
      rw [this]; simp only [Bool.not_eq_true] at ht
      rw [ht]; simp; omega

theorem eorMinus_ok (H : IsOp env .eor old a b) : RuleOk env old (eorMinus a b) := by
  intro e' he ho
  simp only [eorMinus, irrule] at he
  obtain ⟨tb, rfl, x, rfl, ⟨_, hp⟩, rfl⟩ := he
  have hok := H.ok ho
  refine ⟨?_, hok⟩
  rw [H.val ho]; simp only [Root.op, Expr.eval]
  rcases popcount_shl hp with h | h
  · rw [h, ← not_eq_xor, BitVec.not_eq_neg_add, ← BitVec.neg_one_eq_allOnes]; grind
  · rw [h, xor_max]; grind

theorem eorAnd_ok (H : IsOp env .eor old a b) : RuleOk env old (eorAnd C a b) := by
  unfold eorAnd
  refine ruleOk_or ?_ ?_
  · intro e' he ho
    simp only [irrule] at he
    obtain ⟨l, r, rfl, o, h, _, rfl⟩ := he
    have hok := H.ok ho
    rw [Expr.Ok, Expr.eval, H.val ho]
    rcases otherOp_some h with ⟨rfl, rfl⟩ | ⟨rfl, rfl⟩
    · refine ⟨?_, hok.1.2, hok.2⟩; simp only [Root.op, Expr.eval]; bitwise
    · refine ⟨?_, hok.1.1, hok.2⟩; simp only [Root.op, Expr.eval]; bitwise
  · intro e' he ho
    simp only [irrule] at he
    obtain ⟨l, r, rfl, o, h, _, rfl⟩ := he
    have hok := H.ok ho
    rw [Expr.Ok, Expr.eval, H.val ho]
    rcases otherOp_some h with ⟨rfl, rfl⟩ | ⟨rfl, rfl⟩
    · refine ⟨?_, hok.1, hok.2.2⟩; simp only [Root.op, Expr.eval]; bitwise
    · refine ⟨?_, hok.1, hok.2.1⟩; simp only [Root.op, Expr.eval]; bitwise

theorem eorOr_ok (H : IsOp env .eor old a b) : RuleOk env old (eorOr C a b) := by
  unfold eorOr
  refine ruleOk_or ?_ ?_
  · intro e' he ho
    simp only [irrule] at he
    obtain ⟨l, r, rfl, o, h, _, rfl⟩ := he
    have hok := H.ok ho
    rw [Expr.Ok, Expr.eval, H.val ho]
    rcases otherOp_some h with ⟨rfl, rfl⟩ | ⟨rfl, rfl⟩
    · refine ⟨?_, hok.1.2, hok.2⟩; simp only [Root.op, Expr.eval]; bitwise
    · refine ⟨?_, hok.1.1, hok.2⟩; simp only [Root.op, Expr.eval]; bitwise
  · intro e' he ho
    simp only [irrule] at he
    obtain ⟨l, r, rfl, o, h, _, rfl⟩ := he
    have hok := H.ok ho
    rw [Expr.Ok, Expr.eval, H.val ho]
    rcases otherOp_some h with ⟨rfl, rfl⟩ | ⟨rfl, rfl⟩
    · refine ⟨?_, hok.1, hok.2.2⟩; simp only [Root.op, Expr.eval]; bitwise
    · refine ⟨?_, hok.1, hok.2.1⟩; simp only [Root.op, Expr.eval]; bitwise

theorem eorOrAnd_ok (H : IsOp env .eor old a b) : RuleOk env old (eorOrAnd C a b) := by
  unfold eorOrAnd
  refine ruleOk_or ?_ ?_
  · intro e' he ho
    simp only [irrule] at he
    obtain ⟨al, ar, rfl, bl, br, rfl, ⟨_, h⟩, rfl⟩ := he
    refine ⟨?_, (H.ok ho).1⟩
    rw [H.val ho]; simp only [Root.op, Expr.eval]
    rcases h with ⟨rfl, rfl⟩ | ⟨rfl, rfl⟩ <;> bitwise
  · intro e' he ho
    simp only [irrule] at he
    obtain ⟨al, ar, rfl, bl, br, rfl, ⟨_, h⟩, rfl⟩ := he
    refine ⟨?_, (H.ok ho).1⟩
    rw [H.val ho]; simp only [Root.op, Expr.eval]
    rcases h with ⟨rfl, rfl⟩ | ⟨rfl, rfl⟩ <;> bitwise

/-- a value, possibly complemented -/
def xorAll {w : Nat} (x : BitVec w) (n : Bool) : BitVec w := if n then ~~~x else x

theorem skipNot_sound (a : Expr m) : a.eval env = xorAll ((skipNot C a).1.eval env) (skipNot C a).2 ∧ (a.Ok env → (skipNot C a).1.Ok env) := by
  unfold skipNot
  split
  · next x h =>
    rw [asNot_iff] at h
    subst h
    split
    · exact ⟨rfl, id⟩
    · exact ⟨rfl, id⟩
  · exact ⟨rfl, id⟩

theorem matchNot_sound {t l : Expr m} {n : Bool} (h : matchNot t l = some n) : l.eval env = xorAll (t.eval env) n := by
  unfold matchNot at h
  split at h
  · next h1 => cases h; rw [asNot_iff] at h1; subst h1; rfl
  · split at h
    · next h1 => cases h; rw [h1]; rfl
    · cases h

theorem matchSwap_cases (t l r : Expr m) : matchSwap t l r = (l, r) ∨ matchSwap t l r = (r, l) := by
  unfold matchSwap; split
  · exact Or.inr rfl
  · exact Or.inl rfl

theorem notIf_sound (b : Bool) (e : Expr m) : (notIf b e).eval env = xorAll (e.eval env) b ∧ (e.Ok env → (notIf b e).Ok env) := by
  unfold notIf xorAll; split <;> exact ⟨rfl, id⟩

theorem eorElim_ok {t o : Expr m} {nots : Bool} (hok : old.Ok env → t.Ok env ∧ o.Ok env)
    (hv : old.Ok env → old.eval env = xorAll (t.eval env ^^^ o.eval env) nots) : RuleOk env old (eorElim C t o nots) := by
  unfold eorElim
  refine ruleOk_or ?_ ?_
  · intro e' he ho
    simp only [irrule] at he
    obtain ⟨l, r, rfl, n, hn, _, rfl⟩ := he
    have hm := matchNot_sound (env := env) hn
    obtain ⟨_, h1, h2⟩ := hok ho
    have hsw : (matchSwap t l r).1.Ok env ∧ (matchSwap t l r).2.Ok env ∧
        (Expr.and l r).eval env = (matchSwap t l r).1.eval env &&& (matchSwap t l r).2.eval env := by
      rcases matchSwap_cases t l r with h | h <;> rw [h]
      · exact ⟨h1, h2, rfl⟩
      · exact ⟨h2, h1, BitVec.and_comm _ _⟩
    refine ⟨?_, (notIf_sound _ _).2 ⟨hsw.1, hsw.2.1⟩⟩
    rw [(notIf_sound _ _).1, hv ho, hsw.2.2]
    simp only [Expr.eval, hm]
    cases n <;> cases nots <;> simp only [xorAll, Bool.xor_true, Bool.xor_false, Bool.not_true, Bool.not_false, if_true, Bool.false_eq_true, if_false] <;> bitwise
  · intro e' he ho
    simp only [irrule] at he
    obtain ⟨l, r, rfl, n, hn, _, rfl⟩ := he
    have hm := matchNot_sound (env := env) hn
    obtain ⟨_, h1, h2⟩ := hok ho
    have hsw : (matchSwap t l r).1.Ok env ∧ (matchSwap t l r).2.Ok env ∧
        (Expr.or l r).eval env = (matchSwap t l r).1.eval env ||| (matchSwap t l r).2.eval env := by
      rcases matchSwap_cases t l r with h | h <;> rw [h]
      · exact ⟨h1, h2, rfl⟩
      · exact ⟨h2, h1, BitVec.or_comm _ _⟩
    refine ⟨?_, (notIf_sound _ _).2 ⟨hsw.1, hsw.2.1⟩⟩
    rw [(notIf_sound _ _).1, hv ho, hsw.2.2]
    simp only [Expr.eval, hm]
    cases n <;> cases nots <;> simp only [xorAll, Bool.xor_true, Bool.xor_false, Bool.not_true, Bool.not_false, if_true, Bool.false_eq_true, if_false] <;> bitwise

theorem eorElims_ok (H : IsOp env .eor old a b) : RuleOk env old (eorElims C a b) := by
  unfold eorElims
  have ha := skipNot_sound (C := C) (env := env) a
  have hb := skipNot_sound (C := C) (env := env) b
  refine ruleOk_or (eorElim_ok ?_ ?_) (ruleOk_ite (fun _ => ruleOk_none _) (fun _ => eorElim_ok ?_ ?_))
  · intro ho; exact ⟨ha.2 (H.ok ho).1, hb.2 (H.ok ho).2⟩
  · intro ho
    rw [H.val ho, ha.1, hb.1]
    cases (skipNot C a).2 <;> cases (skipNot C b).2 <;>
      simp only [Root.op, xorAll, Bool.xor_true, Bool.xor_false, Bool.not_true, Bool.not_false, if_true, Bool.false_eq_true, if_false] <;> bitwise
  · intro ho; exact ⟨hb.2 (H.ok ho).2, ha.2 (H.ok ho).1⟩
  · intro ho
    rw [H.val ho, ha.1, hb.1]
    cases (skipNot C a).2 <;> cases (skipNot C b).2 <;>
      simp only [Root.op, xorAll, Bool.xor_true, Bool.xor_false, Bool.not_true, Bool.not_false, if_true, Bool.false_eq_true, if_false] <;> bitwise

/-- Eor: every rule of `transform_node_Eor_` -/
theorem transformEor__ok (S : C.Sound env) {r : Root} (hr : r = .eor ∨ r = .add) (H : IsOp env .eor (r.mk a b) a b) (hb : b.NotSelfCmp)
    (hfold : r = .add → foldAssoc .add (· ^^^ ·) a b = none) (hc : r = .add → distCarry .add a b = none) :
    RuleOk env (r.mk a b) (transformEor_ C r a b) := by
  unfold transformEor_
  refine ruleOk_or ?_ (ruleOk_or ?_ (ruleOk_or ?_ (ruleOk_or (eorNots_ok H) (ruleOk_or (eorAllOne_ok H) (ruleOk_or (eorMaxAdd_ok H)
    (ruleOk_or (eorMaxSub_ok H) (ruleOk_or (eorMinus_ok H) (ruleOk_or (eorAnd_ok H) (ruleOk_or (eorOr_ok H) (ruleOk_or (eorOrAnd_ok H)
    (ruleOk_or (eorElims_ok H) (ruleOk_or (bitopChain_ok S _) (ruleOk_or ?_ ?_)))))))))))))
  · rcases hr with rfl | rfl
    · exact foldAssoc_ok .eor a b
    · rw [hfold rfl]; exact ruleOk_none _
  · exact onBool2_isOp (P := Expr.NotSelfCmp) (fun old a b _ hb => cmpsSame_ok hb) H hb
  · exact binopMux_ok (r := r) a b _ H.ok H.val
  · rcases hr with rfl | rfl
    · exact distributive_ok (Or.inr (Or.inr rfl)) H
    · exact distributive_add_ok (isOp_mk .add a b) H (hc rfl)
  · refine bitopShift_ok ⟨isOp_mk r a b, fun _ => H, fun _ hd => ?_, ?_, fun _ hd => ?_⟩
    · refine ⟨H.ok, fun ho => ?_⟩
      rw [H.val ho]
      exact xor_eq_or_of_and_eq_zero (disjoint_sound S (H.ok ho).1 (H.ok ho).2 hd)
    · rcases hr with rfl | rfl <;> simp
    · refine ⟨H.ok, fun ho => ?_⟩
      rw [H.val ho]
      exact xor_eq_or_of_and_eq_zero (disjoint_sound S (H.ok ho).1 (H.ok ho).2 hd)

/-! ### And -/

theorem andOr_ok (S : C.Sound env) (H : IsOp env .and old a b) : RuleOk env old (andOr C a b) := by
  intro e' he ho
  simp only [andOr, Option.bind_eq_bind, Option.bind_eq_some_iff, Prod.exists] at he
  obtain ⟨l, r, hl, he⟩ := he
  have hok := H.ok ho
  obtain ⟨okl, okr, hv⟩ := orLike_sound S hok.1 hl
  split at he
  · next hc =>
    cases he
    have hc := complementValues_sound (env := env) hc
    refine ⟨?_, okr, hok.2⟩
    rw [H.val ho]; simp only [Root.op, Expr.eval, hv, hc]; bitwise
  · split at he
    · next hc =>
      cases he
      have hc := complementValues_sound (env := env) hc
      refine ⟨?_, okl, hok.2⟩
      rw [H.val ho]; simp only [Root.op, Expr.eval, hv, hc]; bitwise
    · simp only [irrule] at he
      obtain ⟨x, rfl, p, q, rfl, ⟨rfl, rfl⟩, rfl⟩ := he
      refine ⟨?_, okl, okr⟩
      rw [H.val ho]; simp only [Root.op, Expr.eval, hv]; bitwise

theorem isOp_and_comm (H : IsOp env .and old a b) : IsOp env .and old b a :=
  ⟨fun ho => ⟨(H.ok ho).2, (H.ok ho).1⟩, fun ho => by rw [H.val ho]; exact BitVec.and_comm _ _⟩

theorem andEor_ok (S : C.Sound env) (H : IsOp env .and old a b) : RuleOk env old (andEor C a b) := by
  intro e' he ho
  simp only [andEor, irrule] at he
  obtain ⟨l, r, hl, o, ho', _, rfl⟩ := he
  have hok := H.ok ho
  obtain ⟨okl, okr, hv⟩ := eorLike_sound S hok.1 hl
  rw [Expr.Ok, Expr.eval, H.val ho]; simp only [Root.op, hv]
  rcases otherOp_some ho' with ⟨rfl, rfl⟩ | ⟨rfl, rfl⟩
  · exact ⟨by simp only [Expr.eval]; bitwise, okr, okl⟩
  · exact ⟨by simp only [Expr.eval]; bitwise, okl, okr⟩

theorem andNots_ok (H : IsOp env .and old a b) : RuleOk env old (andNots C a b) := by
  intro e' he ho
  simp only [andNots, irrule] at he
  obtain ⟨x, rfl, y, rfl, _, rfl⟩ := he
  refine ⟨?_, H.ok ho⟩
  rw [H.val ho]; simp only [Root.op, Expr.eval]; bitwise

theorem andMinus_ok (S : C.Sound env) (H : IsOp env .and old a b) : RuleOk env old (andMinus C a b) := by
  intro e' he ho
  simp only [andMinus, irrule] at he
  obtain ⟨x, rfl, c, rfl, ⟨_, hc⟩, rfl⟩ := he
  have hok := H.ok ho
  refine ⟨?_, hok⟩
  rw [H.val ho]; simp only [Root.op, Expr.eval]
  exact and_of_mask (minusMask_sound S hok.1) hc

theorem andShrs_ok (H : IsOp env .and old a b) : RuleOk env old (andShrs C a b) := by
  intro e' he ho
  simp only [andShrs, irrule] at he
  obtain ⟨c, rfl, s, hs, rfl⟩ := he
  have hok := H.ok ho
  obtain ⟨hs1, hs2⟩ := shrsToShr_sound hok.1 hs
  refine ⟨?_, hs1, hok.2⟩
  rw [H.val ho]; simp only [Root.op, Expr.eval]
  exact hs2

theorem isBitop_and (H : IsOp env .and old a b) : IsBitop C env .and old a b :=
  ⟨H, fun h => by simp at h, fun h => by simp at h, by simp, fun h => by simp at h⟩

theorem andDist_ok (H : IsOp env .and old a b) : RuleOk env old (andDist C a b) := by
  have hd := distributive_ok (C := C) (Or.inl rfl) H
  unfold andDist
  split
  · exact bitopShift_ok (isBitop_and H)
  · next n hn =>
    have hrep := hd n hn
    refine ruleOk_or ?_ (ruleOk_some hrep)
    split
    · next x y hxy =>
      rw [asAnd_iff] at hxy
      subst hxy
      intro e' he
      exact Replaces.trans (bitopShift_ok (isBitop_and (isOp_mk (env := env) .and x y)) e' he) hrep
    · exact ruleOk_none _

/-- And: every rule of `transform_node_And` -/
theorem transformAnd_ok (S : C.Sound env) (hb : b.NotSelfCmp) : RuleOk env (.and a b) (transformAnd C a b) := by
  have H : IsOp env .and (.and a b) a b := isOp_mk .and a b
  unfold transformAnd
  refine ruleOk_or (foldAssoc_ok .and a b) (ruleOk_or ?_ (ruleOk_or ?_ (ruleOk_or ?_ (ruleOk_or (andOr_ok S H) (ruleOk_or (andOr_ok S (isOp_and_comm H))
    (ruleOk_or (andEor_ok S H) (ruleOk_or (andEor_ok S (isOp_and_comm H)) (ruleOk_or (andNots_ok H) (ruleOk_or (andMinus_ok S H)
    (ruleOk_or (andShrs_ok H) (ruleOk_or (bitopChain_ok S _) (andDist_ok H))))))))))))
  · exact onBool2_isOp (P := Expr.NotSelfCmp) (fun old a b _ hb => cmpsSame_ok hb) H hb
  · exact onBool2_isOp (P := fun _ => True) (fun old a b H _ => cmpsEor_ok S (Or.inl ⟨rfl, rfl⟩) H) H trivial
  · exact binopMux_ok (r := .and) a b _ H.ok H.val

/-! ### Not -/

theorem notCmp_ok (a : Expr bmode) : RuleOk env (.not a) (notCmp a) := by
  intro e' he ho
  simp only [notCmp, irrule] at he
  obtain ⟨k, r, x, y, rfl, rfl⟩ := he
  refine ⟨?_, ho⟩
  simp only [Expr.eval, relHolds_negated]
  cases relHolds r (k.num (x.eval env)) (k.num (y.eval env)) <;> rfl

theorem notDeMorgan_ok : RuleOk env (.not a) (notDeMorgan C a) := by
  unfold notDeMorgan
  refine ruleOk_or ?_ (ruleOk_or ?_ (ruleOk_or ?_ ?_)) <;>
  · intro e' he ho
    simp only [irrule] at he
    obtain ⟨l, r, rfl, x, rfl, _, rfl⟩ := he
    refine ⟨?_, ho⟩
    simp only [Expr.eval]; bitwise

theorem notEor_ok (S : C.Sound env) : RuleOk env (.not a) (notEor C a) := by
  intro e' he ho
  simp only [notEor, irrule] at he
  obtain ⟨l, r, h, _, rfl⟩ := he
  have : l.Ok env ∧ r.Ok env ∧ a.eval env = l.eval env ^^^ r.eval env := by
    cases h1 : asEor a with
    | some p => rw [h1] at h; cases h; rw [asEor_iff] at h1; subst h1; exact ⟨ho.1, ho.2, rfl⟩
    | none => rw [h1] at h; have := orEorAdd_sound (e := a) S ho h; exact ⟨this.1, this.2.1, this.2.2.2.1⟩
  refine ⟨?_, this.1, this.2.1⟩
  simp only [Expr.eval, this.2.2]; bitwise

theorem notMinus_ok : RuleOk env (.not a) (notMinus a) := by
  intro e' he ho
  simp only [notMinus, irrule] at he
  obtain ⟨x, rfl, _, rfl⟩ := he
  refine ⟨?_, ho, valid_const ho _⟩
  simp only [Expr.eval]
  rw [BitVec.not_eq_neg_add, ← BitVec.neg_one_eq_allOnes]; grind

theorem notAdd_ok (S : C.Sound env) : RuleOk env (.not a) (notAdd C a) := by
  intro e' he ho
  simp only [notAdd, irrule] at he
  obtain ⟨l, r, h, c, rfl, _, rfl⟩ := he
  obtain ⟨h1, h2, h3⟩ := addLike_sound (e := a) S ho h
  refine ⟨?_, valid_const h1 _, h1⟩
  simp only [Expr.eval, h3]
  rw [BitVec.not_eq_neg_add, BitVec.not_eq_neg_add]; grind

theorem notSub_ok : RuleOk env (.not a) (notSub a) := by
  intro e' he ho
  simp only [notSub, irrule] at he
  obtain ⟨l, r, rfl, c, rfl, _, rfl⟩ := he
  refine ⟨?_, ho.2, valid_const ho.2 _⟩
  simp only [Expr.eval]
  rw [BitVec.not_eq_neg_add, BitVec.not_eq_neg_add]; grind

/-- Not: every rule of `transform_node_Not` -/
theorem transformNot_ok (S : C.Sound env) : RuleOk env (.not a) (transformNot C a) := by
  unfold transformNot
  refine ruleOk_or (unopMux_ok a _ id (fun _ => rfl)) (ruleOk_or (onBool_ok (g := fun a => .not a) notCmp_ok) (ruleOk_or notDeMorgan_ok
    (ruleOk_or (notEor_ok S) (ruleOk_or notMinus_ok (ruleOk_or (notAdd_ok S) (ruleOk_or notSub_ok (bitopChain_ok S _)))))))

end Verif.Model.IrOpt
