import Verif.Model.ConstBitsExpr
import Verif.Lemmas.ConstBits2
import Verif.Lemmas.IrOptBase
import Verif.Props.ConstBits
/-!
# Lemmas for the known-bits analysis of expressions
-/
namespace Verif.Model.IrOpt
open Verif.Spec Verif.Props

variable {m k : IMode} {env : Env}

theorem bv_of_num (v : BitVec m.bits) : m.bv (m.num v) = v := by
  unfold IMode.bv IMode.num
  split
  · exact BitVec.ofInt_toInt
  · simp

theorem num_in (hm : 0 < m.bits) (v : BitVec m.bits) : m.In (m.num v) := by
  unfold IMode.In InRange IMode.num
  split
  · exact ⟨BitVec.le_toInt v, BitVec.toInt_lt⟩
  · refine ⟨by omega, ?_⟩
    have := v.isLt
    exact_mod_cast this

theorem relHolds_holds (rel : Rel) (x y : Int) : Holds rel (intCmp.cmp x y) = relHolds rel x y := by
  unfold intCmp relHolds
  simp only []
  by_cases h : x = y
  · subst h; simp [Holds]
  · rw [if_neg h]
    by_cases h2 : x < y
    · rw [if_pos h2]; simp [Holds, h, h2, not_lt.2 (le_of_lt h2)]
    · rw [if_neg h2]
      have : y < x := by omega
      simp [Holds, h, h2, this]

theorem desc_strict1 {w v : Nat} (hw : 0 < w) {f : BitInfo w → BitInfo v} {a : BitInfo w} {x : BitVec w} {y : BitVec v} (ha : a.Desc x)
    (h : (f a).Desc y) : (BitInfo.strict1 f a).Desc y := by rw [strict1_sound hw f ha]; exact h

theorem desc_strict2 {w u v : Nat} (hw : 0 < w) (hu : 0 < u) {f : BitInfo w → BitInfo u → BitInfo v} {a : BitInfo w} {b : BitInfo u}
    {x : BitVec w} {x' : BitVec u} {y : BitVec v} (ha : a.Desc x) (hb : b.Desc x') (h : (f a b).Desc y) : (BitInfo.strict2 f a b).Desc y := by
  rw [strict2_sound hw hu f ha hb]; exact h

theorem mux_desc {c : BitInfo 1} {f t : BitInfo m.bits} {s : BitVec 1} {x y : BitVec m.bits} (hc : c.Desc s) (hf : f.Desc x) (ht : t.Desc y) :
    (BitInfo.mux c f t).Desc (if s = 1#1 then y else x) := by
  have h := constbits_mux (m := m) (c := c) (f := f) (t := t) (s := decide (s = 1#1)) (x := m.num x) (y := m.num y)
    (by revert hc; revert s; have : ∀ s : BitVec 1, BitVec.ofBool (decide (s = 1#1)) = s := by decide
        intro s hc; rw [this s]; exact hc)
    (fun _ => by unfold Knows; rw [bv_of_num]; exact hf) (fun _ => by unfold Knows; rw [bv_of_num]; exact ht)
  unfold Knows at h
  by_cases hs : s = 1#1
  · simp only [hs, decide_true, if_true, bv_of_num] at h; rw [if_pos hs]; exact h
  · simp only [hs, decide_false, Bool.false_eq_true, if_false, bv_of_num] at h; rw [if_neg hs]; exact h

theorem amt_eq (m : IMode) (n : Nat) : BitInfo.amt m.modulo n = m.amt n := rfl

theorem modulo_ok (h : m.Valid) : ModuloOk m.modulo := by
  rcases h.2.2.2 with h | ⟨_, _, h⟩
  · exact Or.inl h
  · exact Or.inr h

theorem log_lt {a : Nat} (h : m.bits = 2 ^ a) (hc : k.Counts m) : a < k.bits := by
  have h1 := hc.1
  rw [h] at h1
  have := (Nat.pow_lt_pow_iff_right (by decide : 1 < 2)).1 h1
  omega

theorem bitsWith_sound {σ : (m : IMode) → Nat → BitInfo m.bits} (e : Expr m) (hσ : ∀ k i, e.Uses k i → (σ k i).Desc (env k i)) (he : e.Ok env)
    (hr : regular e = true) : (bitsWith σ e).Desc (e.eval env) := by
  induction e with
  | leaf m i => exact hσ _ _ ⟨rfl, rfl⟩
  | const v => exact describes_refl _
  | minus a ih =>
    have ih := ih hσ
    exact desc_strict1 (ok_pos (e := a) he) (ih he hr) (minus_sound (ih he hr))
  | not a ih =>
    have ih := ih hσ
    exact desc_strict1 (ok_pos (e := a) he) (ih he hr) (not_sound (ih he hr))
  | add a b iha ihb =>
    have iha := iha fun k i h => hσ k i (Or.inl h)
    have ihb := ihb fun k i h => hσ k i (Or.inr h)
    simp only [regular, Bool.and_eq_true] at hr
    exact desc_strict2 (ok_pos he.1) (ok_pos he.1) (iha he.1 hr.1) (ihb he.2 hr.2) (add_sound (iha he.1 hr.1) (ihb he.2 hr.2))
  | sub a b iha ihb =>
    have iha := iha fun k i h => hσ k i (Or.inl h)
    have ihb := ihb fun k i h => hσ k i (Or.inr h)
    simp only [regular, Bool.and_eq_true] at hr
    exact desc_strict2 (ok_pos he.1) (ok_pos he.1) (iha he.1 hr.1) (ihb he.2 hr.2) (sub_sound (iha he.1 hr.1) (ihb he.2 hr.2))
  | mul a b iha ihb =>
    have iha := iha fun k i h => hσ k i (Or.inl h)
    have ihb := ihb fun k i h => hσ k i (Or.inr h)
    simp only [regular, Bool.and_eq_true] at hr
    exact desc_strict2 (ok_pos he.1) (ok_pos he.1) (iha he.1 hr.1) (ihb he.2 hr.2) (mul_sound (ok_pos he.1) (iha he.1 hr.1) (ihb he.2 hr.2))
  | div a b iha ihb =>
    have iha := iha fun k i h => hσ k i (Or.inl h)
    have ihb := ihb fun k i h => hσ k i (Or.inr h)
    simp only [regular, Bool.and_eq_true] at hr
    exact desc_strict2 (ok_pos he.1) (ok_pos he.1) (iha he.1 hr.1) (ihb he.2.1 hr.2) (describes_unknown _)
  | mod a b iha ihb =>
    have iha := iha fun k i h => hσ k i (Or.inl h)
    have ihb := ihb fun k i h => hσ k i (Or.inr h)
    simp only [regular, Bool.and_eq_true] at hr
    exact desc_strict2 (ok_pos he.1) (ok_pos he.1) (iha he.1 hr.1) (ihb he.2.1 hr.2) (describes_unknown _)
  | and a b iha ihb =>
    have iha := iha fun k i h => hσ k i (Or.inl h)
    have ihb := ihb fun k i h => hσ k i (Or.inr h)
    simp only [regular, Bool.and_eq_true] at hr
    exact desc_strict2 (ok_pos he.1) (ok_pos he.1) (iha he.1 hr.1) (ihb he.2 hr.2) (and_sound (iha he.1 hr.1) (ihb he.2 hr.2))
  | or a b iha ihb =>
    have iha := iha fun k i h => hσ k i (Or.inl h)
    have ihb := ihb fun k i h => hσ k i (Or.inr h)
    simp only [regular, Bool.and_eq_true] at hr
    exact desc_strict2 (ok_pos he.1) (ok_pos he.1) (iha he.1 hr.1) (ihb he.2 hr.2) (or_sound (iha he.1 hr.1) (ihb he.2 hr.2))
  | eor a b iha ihb =>
    have iha := iha fun k i h => hσ k i (Or.inl h)
    have ihb := ihb fun k i h => hσ k i (Or.inr h)
    simp only [regular, Bool.and_eq_true] at hr
    exact desc_strict2 (ok_pos he.1) (ok_pos he.1) (iha he.1 hr.1) (ihb he.2 hr.2) (eor_sound (iha he.1 hr.1) (ihb he.2 hr.2))
  | shl a s iha ihs =>
    have iha := iha fun k i h => hσ k i (Or.inl h)
    have ihs := ihs fun k i h => hσ k i (Or.inr h)
    simp only [regular, Bool.and_eq_true, decide_eq_true_eq] at hr
    obtain ⟨h1, h2, h3, h4⟩ := he
    exact desc_strict2 (ok_pos h1) (ok_pos h2) (iha h1 hr.1.1) (ihs h2 hr.1.2) (shift_sound hr.2 (log_lt hr.2 h3) (modulo_ok (ok_valid _ h1))
      (sh := fun x s => x <<< s) (fun h s => shl_describes h s) (iha h1 hr.1.1) (ihs h2 hr.1.2) (fun h => BitVec.shiftLeft_eq_zero h))
  | shr a s iha ihs =>
    have iha := iha fun k i h => hσ k i (Or.inl h)
    have ihs := ihs fun k i h => hσ k i (Or.inr h)
    simp only [regular, Bool.and_eq_true, decide_eq_true_eq] at hr
    obtain ⟨h1, h2, h3, h4⟩ := he
    exact desc_strict2 (ok_pos h1) (ok_pos h2) (iha h1 hr.1.1) (ihs h2 hr.1.2) (shift_sound hr.2 (log_lt hr.2 h3) (modulo_ok (ok_valid _ h1))
      (sh := fun x s => x >>> s) (fun h s => shr_describes h s) (iha h1 hr.1.1) (ihs h2 hr.1.2) (fun h => BitVec.ushiftRight_eq_zero h))
  | @shrs m k a s iha ihs =>
    have iha := iha fun k i h => hσ k i (Or.inl h)
    have ihs := ihs fun k i h => hσ k i (Or.inr h)
    simp only [regular, Bool.and_eq_true, Bool.or_eq_true, decide_eq_true_eq] at hr
    obtain ⟨h1, h2, h3, h4⟩ := he
    obtain ⟨⟨⟨r1, r2⟩, hw⟩, hk⟩ := hr
    refine desc_strict2 (ok_pos h1) (ok_pos h2) (iha h1 r1) (ihs h2 r2) ?_
    rcases hk with hk | hk
    · rw [Option.isSome_iff_exists] at hk
      obtain ⟨c, hc⟩ := hk
      rw [asConst_iff] at hc
      subst hc
      unfold BitInfo.shrs BitInfo.shift
      rw [if_pos (show (bitsWith σ (Expr.const c)).z = (bitsWith σ (Expr.const c)).o from rfl)]
      exact sshr_describes (iha h1 r1) _
    · refine shift_sound hw (log_lt hw h3) (modulo_ok (ok_valid _ h1))
        (sh := fun x s => x.sshiftRight s) (fun h s => sshr_describes h s) (iha h1 r1) (ihs h2 r2) (fun h => absurd h ?_)
      unfold BitInfo.amt
      have := ok_pos h1
      rw [hk, if_neg (by omega), not_le]
      exact Nat.mod_lt _ this
  | conv m a ih =>
    have ih := ih hσ
    exact desc_strict1 (ok_pos he.1) (ih he.1 hr) (conv_sound _ _ (ok_pos he.1) (ih he.1 hr))
  | @cmp k r a b iha ihb =>
    have iha := iha fun k i h => hσ k i (Or.inl h)
    have ihb := ihb fun k i h => hσ k i (Or.inr h)
    simp only [regular, Bool.and_eq_true] at hr
    have := constbits_cmp (m := k) (ok_pos he.1) r (x := k.num (a.eval env)) (y := k.num (b.eval env)) (l := bitsWith σ a) (r := bitsWith σ b)
      (num_in (ok_pos he.1) _) (num_in (ok_pos he.1) _)
      (by unfold Knows; rw [bv_of_num]; exact iha he.1 hr.1) (by unfold Knows; rw [bv_of_num]; exact ihb he.2 hr.2)
    rw [relHolds_holds] at this
    exact this
  | mux s f t ihs ihf iht =>
    have ihs := ihs fun k i h => hσ k i (Or.inl h)
    have ihf := ihf fun k i h => hσ k i (Or.inr (Or.inl h))
    have iht := iht fun k i h => hσ k i (Or.inr (Or.inr h))
    simp only [regular, Bool.and_eq_true] at hr
    have ds := ihs he.1 hr.1.1
    have df := ihf he.2.1 hr.1.2
    have dt := iht he.2.2 hr.2
    simp only [bitsWith, Expr.eval]
    rw [if_neg]
    · exact mux_desc ds df dt
    · simp only [Bool.or_eq_true, not_or]
      exact ⟨⟨fun h => not_describes_undefined (by decide) h _ ds, fun h => not_describes_undefined (ok_pos he.2.1) h _ df⟩,
        fun h => not_describes_undefined (ok_pos he.2.1) h _ dt⟩
  | @confirm m v r b ihv ihb =>
    have ihv := ihv fun k i h => hσ k i (Or.inl h)
    have ihb := ihb fun k i h => hσ k i (Or.inr h)
    simp only [regular, Bool.and_eq_true] at hr
    have := constbits_confirm (m := m) (ok_pos he.1) (rel := r) (x := m.num (v.eval env)) (y := m.num (b.eval env)) (a := bitsWith σ v) (b := bitsWith σ b)
      (by unfold Knows; rw [bv_of_num]; exact ihv he.1 hr.1) (by unfold Knows; rw [bv_of_num]; exact ihb he.2.1 hr.2)
      (by rw [relHolds_holds]; exact he.2.2)
    unfold Knows at this
    rw [bv_of_num] at this
    exact this

theorem bitsOf_sound (e : Expr m) (he : e.Ok env) (hr : regular e = true) : (bitsOf e).Desc (e.eval env) :=
  bitsWith_sound e (fun _ _ _ => describes_unknown _) he hr

end Verif.Model.IrOpt
