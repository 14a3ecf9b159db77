import Verif.Model.ConvOpt
import Verif.Lemmas.Bits
import Mathlib.Tactic.Ring
import Mathlib.Tactic.Positivity
import Mathlib.Tactic.NormNum
import Mathlib.Algebra.Order.Ring.Int
/-!
# Lemmas: conversion optimisation
-/
namespace Verif.Lemmas.ConvOpt

open Verif.Spec Verif.Spec.ConvTree Verif.Model.ConvOpt Verif.Model.IrOpt

theorem wrap_le {d m : IMode} (h : d.bits ≤ m.bits) (x : Int) : d.wrap (m.wrap x) = d.wrap x := wrap_wrap_of_le h x

theorem wrap_eq {d : IMode} {x y : Int} (h : x % 2 ^ d.bits = y % 2 ^ d.bits) : d.wrap x = d.wrap y := wrap_of_emod_eq h

theorem wrap_mod (d : IMode) (x : Int) : d.wrap x % 2 ^ d.bits = x % 2 ^ d.bits := wrap_emod _ _ _

theorem pattern_wrap (d : IMode) (x : Int) : d.pattern (d.wrap x) = d.pattern x := by
  unfold IMode.pattern; rw [wrap_mod]

theorem pattern_cast (d : IMode) (x : Int) : ((d.pattern x : Nat) : Int) = x % 2 ^ d.bits := by
  unfold IMode.pattern
  exact Int.toNat_of_nonneg (Int.emod_nonneg _ (by positivity))

theorem pattern_mod {d m : IMode} (h : d.bits ≤ m.bits) (x : Int) : m.pattern x % 2 ^ d.bits = d.pattern x := by
  have h1 : ((m.pattern x % 2 ^ d.bits : Nat) : Int) = ((d.pattern x : Nat) : Int) := by
    push_cast
    rw [pattern_cast, pattern_cast]
    exact Int.emod_emod_of_dvd _ (pow_dvd_pow 2 h)
  exact_mod_cast h1

theorem wrap_nat {d : IMode} {a b : Nat} (h : a % 2 ^ d.bits = b % 2 ^ d.bits) : d.wrap (a : Int) = d.wrap (b : Int) := by
  apply wrap_eq
  exact_mod_cast congrArg (Nat.cast : Nat → Int) h

theorem un_narrow (op : UnOp) {d m : IMode} (h : d.bits ≤ m.bits) (x : Int) : op.eval d (d.wrap x) = d.wrap (op.eval m x) := by
  cases op
  · show d.wrap (-(d.wrap x)) = d.wrap (m.wrap (-x))
    rw [wrap_le h]
    apply wrap_eq
    have := wrap_mod d x
    rw [Int.neg_emod_eq_sub_emod, Int.neg_emod_eq_sub_emod (a := x), Int.sub_emod, this, ← Int.sub_emod]
  · show d.wrap (-(d.wrap x) - 1) = d.wrap (m.wrap (-x - 1))
    rw [wrap_le h]
    apply wrap_eq
    have := wrap_mod d x
    have e1 : -(d.wrap x) - 1 = (-1) - d.wrap x := by ring
    have e2 : -x - 1 = (-1) - x := by ring
    rw [e1, e2, Int.sub_emod, this, ← Int.sub_emod]

theorem bin_narrow (op : BinOp) {d m : IMode} (h : d.bits ≤ m.bits) (x y : Int) :
    op.eval d (d.wrap x) (d.wrap y) = d.wrap (op.eval m x y) := by
  have hx := wrap_mod d x
  have hy := wrap_mod d y
  cases op
  · show d.wrap _ = d.wrap (m.wrap _)
    rw [wrap_le h]; apply wrap_eq
    rw [Int.add_emod, hx, hy, ← Int.add_emod]
  · show d.wrap _ = d.wrap (m.wrap _)
    rw [wrap_le h]; apply wrap_eq
    rw [Int.sub_emod, hx, hy, ← Int.sub_emod]
  · show d.wrap _ = d.wrap (m.wrap _)
    rw [wrap_le h]; apply wrap_eq
    rw [Int.mul_emod, hx, hy, ← Int.mul_emod]
  all_goals
    show d.wrap _ = d.wrap (m.wrap _)
    rw [wrap_le h, pattern_wrap, pattern_wrap]
    apply wrap_nat
    simp only [Nat.and_mod_two_pow, Nat.or_mod_two_pow, Nat.xor_mod_two_pow, pattern_mod h, pattern_mod (Nat.le_refl d.bits)]

theorem shift_narrow (op : ShOp) {d m : IMode} (h : d.bits ≤ m.bits) (hs : shiftOk op m d = true) (x : Int) (n : Nat) :
    op.eval d (d.wrap x) n = d.wrap (op.eval m x n) := by
  cases op
  · simp only [shiftOk, beq_iff_eq] at hs
    show d.wrap _ = d.wrap (m.wrap _)
    have ha : d.amt n = m.amt n := by unfold IMode.amt; rw [hs]
    rw [wrap_le h, ha]; apply wrap_eq
    rw [Int.mul_emod, wrap_mod d x, ← Int.mul_emod]
  · simp only [shiftOk, Bool.and_eq_true, beq_iff_eq] at hs
    show d.wrap _ = d.wrap (m.wrap _)
    have ha : d.amt n = m.amt n := by unfold IMode.amt; rw [hs.2]
    rw [wrap_le h, ha, wrap_mod, hs.1]
  · simp only [shiftOk, Bool.and_eq_true, beq_iff_eq] at hs
    show d.wrap _ = d.wrap (m.wrap _)
    have ha : d.amt n = m.amt n := by unfold IMode.amt; rw [hs.2]
    rw [wrap_le h, ha, ← hs.1]
    congr 2
    show Spec.wrap true d.bits (Spec.wrap d.signed d.bits x) = _
    exact wrap_wrap_of_le (Nat.le_refl _) x

theorem wf_bits : ∀ {t : Tree}, WF t → 0 < t.mode.bits
  | .const _ _, h => h.1
  | .leaf _ _ _, h => h
  | .un _ _ _ _, h => h.1
  | .bin _ _ _ _ _, h => h.1
  | .shift _ _ _ _ _, h => h.1
  | .phi _ _ _ _ _, h => h.1
  | .conv _ _ _, h => h.1

theorem wrap_in {m : IMode} (h : 0 < m.bits) (x : Int) : m.In (m.wrap x) := wrap_inRange _ h x

theorem wrap_of_in {m : IMode} (h : 0 < m.bits) {x : Int} (hx : m.In x) : m.wrap x = x := wrap_of_inRange h hx

/-- values are in the range of the mode -/
theorem eval_in {σ : Type} (W : World σ) (s : σ) (t : Tree) (h : WF t) : t.mode.In (eval W s t) := by
  induction t generalizing s with
  | const m v => exact h.2
  | leaf m _ id => exact wrap_in h _
  | un op m _ a => cases op <;> exact wrap_in h.1 _
  | bin op m _ a b => cases op <;> exact wrap_in h.1 _
  | shift op m _ a c => cases op <;> exact wrap_in h.1 _
  | phi m _ k n ops ih =>
    have := ih (W.pick s k n) (W.step s k) (h.2 _).2
    rw [(h.2 _).1] at this
    exact this
  | conv m _ a => exact wrap_in h.1 _

/-- a mode of which the middle conversion may be left out -/
theorem middle {m0 m1 m2 : IMode} (h0 : 0 < m0.bits) (h1 : 0 < m1.bits) (h : leaveOutMiddle m0 m1 m2 = true) {x : Int} (hx : m0.In x) :
    m2.wrap (m1.wrap x) = m2.wrap x := by
  unfold leaveOutMiddle at h
  by_cases h12 : m2.bits ≤ m1.bits
  · exact wrap_le h12 x
  · have hc : m0.bits < m1.bits ∧ (m0.signed = true → m1.signed = true) := by
      by_cases h3 : m1.bits ≤ m0.bits
      · rw [if_pos (by simp; omega)] at h; cases h
      · rw [if_neg (by simp; omega), if_neg (by omega)] at h
        refine ⟨by omega, fun hs => ?_⟩
        rw [hs] at h; simpa using h
    have : m1.wrap x = x := by
      apply wrap_of_in h1
      unfold IMode.In InRange at hx ⊢
      have hp : (2:Int) ^ m0.bits ≤ 2 ^ (m1.bits - 1) := pow_le_pow_right₀ (by norm_num) (by omega)
      have hq : (2:Int) ^ (m0.bits - 1) ≤ 2 ^ (m1.bits - 1) := pow_le_pow_right₀ (by norm_num) (by omega)
      have hr : (2:Int) ^ m0.bits ≤ 2 ^ m1.bits := pow_le_pow_right₀ (by norm_num) (by omega)
      have hpos : (0:Int) < 2 ^ (m1.bits - 1) := by positivity
      cases e0 : m0.signed
      · rw [e0] at hx
        simp only [Bool.false_eq_true, if_false] at hx
        split
        · exact ⟨by omega, by omega⟩
        · exact ⟨by omega, by omega⟩
      · rw [e0] at hx
        simp only [if_true] at hx
        rw [hc.2 e0, if_pos rfl]
        exact ⟨by omega, by omega⟩
    rw [this]

/-- what is required of the tree that replaces `t`, converted to `dest` -/
def Good {σ : Type} (W : World σ) (dest : IMode) (t t' : Tree) : Prop :=
  WF t' ∧ t'.mode = dest ∧ ∀ s, eval W s t' = dest.wrap (eval W s t)

theorem place_good {σ : Type} (W : World σ) {dest : IMode} (hd : 0 < dest.bits) {t : Tree} (h : WF t) : Good W dest t (place dest t) := by
  have hdef : Good W dest t (.conv dest false t) := ⟨⟨hd, h⟩, rfl, fun _ => rfl⟩
  cases t with
  | conv m s a =>
    rw [place]
    by_cases hl : leaveOutMiddle a.mode m dest = true
    · rw [if_pos hl]
      exact ⟨⟨hd, h.2⟩, rfl, fun s => (middle (wf_bits h.2) h.1 hl (eval_in W s a h.2)).symm⟩
    · rw [if_neg hl]; exact hdef
  | _ => exact hdef

theorem same_good {σ : Type} (W : World σ) {dest : IMode} {t : Tree} (h : WF t) (hm : t.mode = dest) : Good W dest t t :=
  ⟨h, hm, fun s => by
    have hb := wf_bits h
    have hi := eval_in W s t h
    rw [hm] at hb hi
    exact (wrap_of_in hb hi).symm⟩

theorem ite_good {σ : Type} {W : World σ} {dest : IMode} {t x y : Tree} {c : Prop} [Decidable c] (hx : Good W dest t x) (hy : Good W dest t y) :
    Good W dest t (if c then x else y) := by
  split
  · exact hx
  · exact hy

theorem transform_good {σ : Type} (W : World σ) (zero : Tree → IMode → Bool) {dest : IMode} (hd : 0 < dest.bits) (t : Tree) (h : WF t) :
    Good W dest t (transform zero dest t) := by
  induction t with
  | const m v =>
    unfold transform
    by_cases hm : m = dest
    · rw [if_pos hm]; exact same_good W h hm
    · rw [if_neg hm]; exact ⟨⟨hd, wrap_in hd _⟩, rfl, fun _ => rfl⟩
  | leaf m s id =>
    unfold transform
    by_cases hm : m = dest
    · rw [if_pos hm]; exact same_good W h hm
    · rw [if_neg hm]; exact place_good W hd h
  | un op m s a ih =>
    unfold transform
    by_cases hm : m = dest
    · rw [if_pos hm]; exact same_good W h hm
    rw [if_neg hm]
    by_cases hs : (s || !isDownconv m dest) = true
    · rw [if_pos hs]; exact place_good W hd h
    rw [if_neg hs]
    have hle : dest.bits ≤ m.bits := by simp [isDownconv] at hs; exact hs.2
    obtain ⟨g1, g2, g3⟩ := ite_good (c := costs zero dest a > 1) (place_good W hd h.2.2) (ih h.2.2)
    refine ⟨⟨hd, g2, g1⟩, rfl, fun s => ?_⟩
    show op.eval dest (eval W s _) = dest.wrap (op.eval m (eval W s a))
    rw [g3, un_narrow op hle]
  | bin op m s a b iha ihb =>
    unfold transform
    by_cases hm : m = dest
    · rw [if_pos hm]; exact same_good W h hm
    rw [if_neg hm]
    by_cases hs : (s || !isDownconv m dest) = true
    · rw [if_pos hs]; exact place_good W hd h
    rw [if_neg hs]
    have hle : dest.bits ≤ m.bits := by simp [isDownconv] at hs; exact hs.2
    obtain ⟨_, ha, hb, wa, wb⟩ := h
    obtain ⟨g1, g2, g3⟩ := ite_good (c := costs zero dest a > 1) (place_good W hd wa) (iha wa)
    obtain ⟨k1, k2, k3⟩ := ite_good (c := costs zero dest b > 1) (place_good W hd wb) (ihb wb)
    refine ⟨⟨hd, g2, k2, g1, k1⟩, rfl, fun s => ?_⟩
    show op.eval dest (eval W s _) (eval W s _) = dest.wrap (op.eval m (eval W s a) (eval W s b))
    rw [g3, k3, bin_narrow op hle]
  | shift op m s a c iha _ =>
    unfold transform
    by_cases hm : m = dest
    · rw [if_pos hm]; exact same_good W h hm
    rw [if_neg hm]
    by_cases hs : (s || !isDownconv m dest) = true
    · rw [if_pos hs]; exact place_good W hd h
    rw [if_neg hs]
    by_cases hk : (!shiftOk op m dest) = true
    · rw [if_pos hk]; exact place_good W hd h
    rw [if_neg hk]
    have hle : dest.bits ≤ m.bits := by simp [isDownconv] at hs; exact hs.2
    obtain ⟨_, ha, wa, wc⟩ := h
    obtain ⟨g1, g2, g3⟩ := ite_good (c := costs zero dest a > 1) (place_good W hd wa) (iha wa)
    refine ⟨⟨hd, g2, g1, wc⟩, rfl, fun s => ?_⟩
    show op.eval dest (eval W s _) _ = dest.wrap (op.eval m (eval W s a) _)
    rw [g3, shift_narrow op hle (by simpa using hk)]
  | phi m s k n ops ih =>
    unfold transform
    by_cases hm : m = dest
    · rw [if_pos hm]; exact same_good W h hm
    rw [if_neg hm]
    by_cases hs : (s || !isDownconv m dest) = true
    · rw [if_pos hs]; exact place_good W hd h
    rw [if_neg hs]
    have g : ∀ i, Good W dest (ops i) (if costs zero dest (ops i) > 1 then place dest (ops i) else transform zero dest (ops i)) :=
      fun i => ite_good (place_good W hd (h.2 i).2) (ih i (h.2 i).2)
    exact ⟨⟨hd, fun i => ⟨(g i).2.1, (g i).1⟩⟩, rfl, fun s => (g _).2.2 _⟩
  | conv m s a ih =>
    unfold transform
    by_cases hm : m = dest
    · rw [if_pos hm]; exact same_good W h hm
    rw [if_neg hm]
    by_cases hq : (isDownconv m dest && decide (a.mode = dest)) = true
    · rw [if_pos hq]
      simp only [isDownconv, Bool.and_eq_true, decide_eq_true_eq] at hq
      obtain ⟨g1, g2, g3⟩ := same_good W h.2 hq.2
      refine ⟨g1, g2, fun s => ?_⟩
      rw [g3]
      exact (wrap_le hq.1 _).symm
    rw [if_neg hq]
    by_cases hs : (s || !isDownconv m dest) = true
    · rw [if_pos hs]; exact place_good W hd h
    rw [if_neg hs]
    by_cases hk : smallerMode a.mode dest = true
    · rw [if_pos hk]
      have hle : dest.bits ≤ m.bits := by simp [isDownconv] at hs; exact hs.2
      obtain ⟨g1, g2, g3⟩ := ih h.2
      refine ⟨g1, g2, fun s => ?_⟩
      rw [g3]
      exact (wrap_le hle _).symm
    · rw [if_neg hk]; exact place_good W hd h

/-! ## the number of conversions -/

theorem place_convs (dest : IMode) (t : Tree) : convs (place dest t) ≤ convs t + 1 := by
  cases t with
  | conv m s a =>
    rw [place]
    split
    · show convs a + 1 ≤ convs a + 1 + 1; omega
    · exact Nat.le_refl _
  | _ => exact Nat.le_refl _

theorem sum_le {α : Type} (l : List α) (f g : α → Nat) (c : α → Int) (h : ∀ x, (f x : Int) ≤ g x + c x) :
    ((l.map f).sum : Int) ≤ (l.map g).sum + (l.map c).sum := by
  induction l with
  | nil => simp
  | cons a l ih =>
    simp only [List.map_cons, List.sum_cons]
    have := h a
    push_cast
    omega

theorem child_convs {zero : Tree → IMode → Bool} {dest : IMode} {a : Tree}
    (h : (convs (transform zero dest a) : Int) ≤ convs a + costs zero dest a) :
    (convs (if costs zero dest a > 1 then place dest a else transform zero dest a) : Int) ≤ convs a + min (costs zero dest a) 1 := by
  by_cases hc : costs zero dest a > 1
  · rw [if_pos hc]
    have := place_convs dest a
    omega
  · rw [if_neg hc]; omega

theorem transform_convs (dest : IMode) (t : Tree) :
    (convs (transform (fun _ _ => false) dest t) : Int) ≤ convs t + costs (fun _ _ => false) dest t := by
  induction t with
  | const m v => rw [transform, costs]; split <;> simp [convs]
  | leaf m s id =>
    rw [transform, costs]
    by_cases hm : m = dest
    · rw [if_pos hm, if_pos hm]; simp
    · rw [if_neg hm, if_neg hm]
      have := place_convs dest (.leaf m s id)
      simp; omega
  | un op m s a ih =>
    rw [transform, costs]
    by_cases hm : m = dest
    · rw [if_pos hm, if_pos hm]; simp
    rw [if_neg hm, if_neg hm]
    have hp := place_convs dest (.un op m s a)
    have hch := child_convs ih
    cases s <;> cases hdc : isDownconv m dest <;>
      simp only [Bool.not_true, Bool.not_false, Bool.or_true, Bool.or_false, Bool.false_eq_true, if_true, if_false] at hp hch ⊢ <;>
      first | omega | exact hch
  | bin op m s a b iha ihb =>
    rw [transform, costs]
    by_cases hm : m = dest
    · rw [if_pos hm, if_pos hm]; simp
    rw [if_neg hm, if_neg hm]
    have hp := place_convs dest (.bin op m s a b)
    have hch := child_convs iha
    have hch' := child_convs ihb
    cases s <;> cases hdc : isDownconv m dest <;>
      simp only [Bool.not_true, Bool.not_false, Bool.or_true, Bool.or_false, Bool.false_eq_true, if_true, if_false] at hp hch hch' ⊢ <;>
      first | omega | (simp only [convs] at *; push_cast; omega)
  | shift op m s a c iha _ =>
    rw [transform, costs]
    by_cases hm : m = dest
    · rw [if_pos hm, if_pos hm]; simp
    rw [if_neg hm, if_neg hm]
    have hp := place_convs dest (.shift op m s a c)
    have hch := child_convs iha
    cases s <;> cases hdc : isDownconv m dest <;> cases hk : shiftOk op m dest <;>
      simp only [Bool.not_true, Bool.not_false, Bool.or_true, Bool.or_false, Bool.false_eq_true, if_true, if_false] at hp hch ⊢ <;>
      first | omega | (simp only [convs] at *; push_cast; omega)
  | phi m s k n ops ih =>
    rw [transform, costs]
    by_cases hm : m = dest
    · rw [if_pos hm, if_pos hm]; simp
    rw [if_neg hm, if_neg hm]
    have hp := place_convs dest (.phi m s k n ops)
    have hs := sum_le (List.finRange (n + 1))
      (fun i => convs (if costs (fun _ _ => false) dest (ops i) > 1 then place dest (ops i) else transform (fun _ _ => false) dest (ops i)))
      (fun i => convs (ops i)) (fun i => min (costs (fun _ _ => false) dest (ops i)) 1) (fun i => child_convs (ih i))
    cases s <;> cases hdc : isDownconv m dest <;>
      simp only [Bool.not_true, Bool.not_false, Bool.or_true, Bool.or_false, Bool.false_eq_true, if_true, if_false] at hp ⊢ <;>
      first | omega | exact hs
  | conv m s a ih =>
    rw [transform, costs]
    by_cases hm : m = dest
    · rw [if_pos hm, if_pos hm]; simp
    rw [if_neg hm, if_neg hm]
    by_cases hq : (isDownconv m dest && decide (a.mode = dest)) = true
    · rw [if_pos hq, if_pos hq]; simp only [convs]; push_cast; omega
    rw [if_neg hq, if_neg hq]
    have hp := place_convs dest (.conv m s a)
    cases s <;> cases hdc : isDownconv m dest <;> cases hk : smallerMode a.mode dest <;> cases hl : leaveOutMiddle a.mode m dest <;>
      simp only [Bool.not_true, Bool.not_false, Bool.or_true, Bool.or_false, Bool.false_eq_true, if_true, if_false] at hp ⊢ <;>
      first | omega | (simp only [convs, place, hl, if_true] at *; push_cast; omega)

end Verif.Lemmas.ConvOpt
