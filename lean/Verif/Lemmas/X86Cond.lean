import Verif.Spec.X86Flags
import Verif.Model.X86Cond
/-!
# Lemmas for the condition codes
-/
namespace Verif.Lemmas.X86Cond
open Verif.Spec.X86 Verif.Model.X86Cond Verif.Props
open Verif.Model (Rel)

theorem toInt_range {w : Nat} (hw : 0 < w) (a : BitVec w) :
    -(2 ^ (w - 1) : Int) ≤ a.toInt ∧ a.toInt < 2 ^ (w - 1) := by
  have h1 := BitVec.le_toInt a
  have h2 := BitVec.toInt_lt (x := a)
  exact ⟨h1, h2⟩

theorem pow_split {w : Nat} (hw : 0 < w) : (2 ^ w : Int) = 2 * 2 ^ (w - 1) := by
  obtain ⟨k, rfl⟩ : ∃ k, w = k + 1 := ⟨w - 1, by omega⟩
  rw [Nat.add_sub_cancel, Int.pow_succ]; omega

theorem bmod_cases (x p : Int) (m : Nat) (hm : (m : Int) = 2 * p) (hp : 0 < p)
    (h1 : -(2 * p) ≤ x) (h2 : x < 2 * p) :
    x.bmod m = if x < -p then x + 2 * p else if p ≤ x then x - 2 * p else x := by
  rw [Int.bmod_def]
  have hm2 : ((m : Int) + 1) / 2 = p := by omega
  rw [hm2, hm]
  by_cases hx : 0 ≤ x
  · rw [Int.emod_eq_of_lt hx h2]
    split <;> split <;> (try split) <;> omega
  · have : x % (2 * p) = x + 2 * p := by
      rw [← Int.add_emod_right, Int.emod_eq_of_lt (by omega) (by omega)]
    rw [this]
    split <;> split <;> (try split) <;> omega

theorem toInt_sub_cases {w : Nat} (hw : 0 < w) (a b : BitVec w) :
    (a - b).toInt =
      if a.toInt - b.toInt < -(2 ^ (w - 1)) then a.toInt - b.toInt + 2 * 2 ^ (w - 1)
      else if (2 ^ (w - 1) : Int) ≤ a.toInt - b.toInt then a.toInt - b.toInt - 2 * 2 ^ (w - 1)
      else a.toInt - b.toInt := by
  rw [BitVec.toInt_sub]
  have ha := toInt_range hw a
  have hb := toInt_range hw b
  have hp : (0 : Int) < 2 ^ (w - 1) := Int.pow_pos (by decide)
  have := pow_split hw
  exact bmod_cases _ _ _ (by simpa using this) hp (by omega) (by omega)

/-- Sign and overflow differ iff the signed comparison says "less". -/
theorem less_iff {w : Nat} (a b : BitVec w) :
    ((subFlags a b).sf != (subFlags a b).of) = decide (a.toInt < b.toInt) := by
  rcases Nat.eq_zero_or_pos w with h | hw
  · subst h
    have ha : a = 0 := Subsingleton.elim _ _
    have hb : b = 0 := Subsingleton.elim _ _
    subst ha; subst hb; decide
  have hs := toInt_sub_cases hw a b
  have ha := toInt_range hw a
  have hb := toInt_range hw b
  have hp : (0 : Int) < 2 ^ (w - 1) := Int.pow_pos (by decide)
  simp only [subFlags, BitVec.msb_eq_toInt]
  generalize (2 ^ (w - 1) : Int) = p at *
  rw [hs]
  by_cases h1 : a.toInt - b.toInt < -p
  · rw [if_pos h1]
    simp only [bne_iff_ne, ne_eq, Bool.beq_eq_decide_eq, bne, decide_not]
    have e1 : decide (a.toInt - b.toInt + 2 * p < 0) = false := by simp; omega
    have e2 : decide (a.toInt - b.toInt + 2 * p = a.toInt - b.toInt) = false := by simp; omega
    have e3 : decide (a.toInt < b.toInt) = true := by simp; omega
    rw [e1, e2, e3]; rfl
  · rw [if_neg h1]
    by_cases h2 : p ≤ a.toInt - b.toInt
    · rw [if_pos h2]
      have e1 : decide (a.toInt - b.toInt - 2 * p < 0) = true := by simp; omega
      have e2 : decide (a.toInt - b.toInt - 2 * p ≠ a.toInt - b.toInt) = true := by simp; omega
      have e3 : decide (a.toInt < b.toInt) = false := by simp; omega
      rw [e1, e2, e3]; rfl
    · rw [if_neg h2]
      have e2 : decide (a.toInt - b.toInt ≠ a.toInt - b.toInt) = false := by simp
      rw [e2]
      have : (a.toInt - b.toInt < 0) ↔ a.toInt < b.toInt := by omega
      simp [this]

theorem zf_iff {w : Nat} (a b : BitVec w) : (subFlags a b).zf = decide (a = b) := by
  have : a - b = 0 ↔ a = b := by
    constructor
    · intro h
      have h2 : a - b + b = 0 + b := by rw [h]
      rw [BitVec.sub_add_cancel] at h2; rw [h2]; exact BitVec.zero_add b
    · rintro rfl; exact BitVec.sub_self _
  simp only [subFlags]
  exact decide_eq_decide.mpr this

theorem cf_iff {w : Nat} (a b : BitVec w) :
    (subFlags a b).cf = decide (a.toNat < b.toNat) := rfl

theorem eq_iff_toInt {w : Nat} (a b : BitVec w) : a = b ↔ a.toInt = b.toInt :=
  BitVec.toInt_inj.symm

theorem eq_iff_toNat {w : Nat} (a b : BitVec w) : a = b ↔ a.toNat = b.toNat :=
  BitVec.toNat_inj.symm

/-- The three flags that matter, for each outcome of the signed comparison. -/
theorem signed_flags {w : Nat} (a b : BitVec w) :
    (subFlags a b).zf = (outcome true a b == .eq) ∧
    ((subFlags a b).sf != (subFlags a b).of) = (outcome true a b == .lt) := by
  rw [zf_iff, less_iff]
  simp only [outcome, if_true]
  by_cases h : a.toInt = b.toInt
  · have := (eq_iff_toInt a b).mpr h
    rw [if_pos h]; subst this; simp
  · have hab : a ≠ b := fun e => h ((eq_iff_toInt a b).mp e)
    rw [if_neg h]
    by_cases hl : a.toInt < b.toInt
    · rw [if_pos hl]; simp only [hl, hab]; decide
    · rw [if_neg hl]; simp only [hl, hab]; decide

theorem unsigned_flags {w : Nat} (a b : BitVec w) :
    (subFlags a b).zf = (outcome false a b == .eq) ∧
    (subFlags a b).cf = (outcome false a b == .lt) := by
  rw [zf_iff, cf_iff]
  simp only [outcome, Bool.false_eq_true, if_false]
  by_cases h : a.toNat = b.toNat
  · have := (eq_iff_toNat a b).mpr h
    subst this; simp
  · have hab : a ≠ b := fun e => h ((eq_iff_toNat a b).mp e)
    have h' : ¬ (a.toNat : Int) = b.toNat := by omega
    rw [if_neg h']
    by_cases hl : a.toNat < b.toNat
    · have : (a.toNat : Int) < b.toNat := by omega
      rw [if_pos this]; simp only [hl, hab]; decide
    · have : ¬ (a.toNat : Int) < b.toNat := by omega
      rw [if_neg this]; simp only [hl, hab]; decide

theorem outcome_ne_un {w : Nat} (s : Bool) (a b : BitVec w) : outcome s a b ≠ .un := by
  unfold outcome
  dsimp only
  split <;> split <;> simp <;> split <;> simp

theorem outcome_swap {w : Nat} (s : Bool) (a b : BitVec w) :
    outcome s b a = (outcome s a b).swap := by
  unfold outcome
  dsimp only
  generalize (if s = true then a.toInt else (a.toNat : Int)) = x
  generalize (if s = true then b.toInt else (b.toNat : Int)) = y
  by_cases h : x = y
  · subst h; simp [Outcome.swap]
  · have h' : y ≠ x := fun e => h e.symm
    rw [if_neg h, if_neg h']
    by_cases hl : x < y
    · have : ¬ y < x := by omega
      rw [if_pos hl, if_neg this]; rfl
    · have : y < x := by omega
      rw [if_neg hl, if_pos this]; rfl

end Verif.Lemmas.X86Cond
