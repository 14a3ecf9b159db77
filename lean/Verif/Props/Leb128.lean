import Verif.Model.Leb128
import Mathlib.Tactic.Ring
import Mathlib.Tactic.Linarith
import Mathlib.Tactic.Positivity
/-!
# C52: size of LEB128 numbers
-/
namespace Verif.Props
open Verif.Model.Leb128

/-! ## Specification: the encodings of DWARF (a list of 7-bit groups, least significant first) -/

def groupsValue : List Nat → Nat
  | [] => 0
  | d :: ds => d + 128 * groupsValue ds

/-- `ds` is an unsigned LEB128 encoding of `v` -/
def UlebEnc (v : Nat) (ds : List Nat) : Prop := ds ≠ [] ∧ (∀ d ∈ ds, d < 128) ∧ groupsValue ds = v

/-- `ds` is a signed LEB128 encoding of `v`: bit 6 of the last group is the sign -/
def SlebEnc (v : Int) (ds : List Nat) : Prop :=
  ∃ h : ds ≠ [], (∀ d ∈ ds, d < 128) ∧ (groupsValue ds : Int) - (if 64 ≤ ds.getLast h then 128 ^ ds.length else 0) = v

theorem groups_lt {ds : List Nat} (h : ∀ d ∈ ds, d < 128) : groupsValue ds < 128 ^ ds.length := by
  induction ds with
  | nil => simp [groupsValue]
  | cons d ds ih =>
    have h1 := h d (by simp)
    have h2 := ih (fun e he => h e (List.mem_cons_of_mem _ he))
    rw [groupsValue, List.length_cons, Nat.pow_succ]
    omega

theorem groups_exist (n : Nat) : ∀ v, v < 128 ^ n → ∃ ds : List Nat, ds.length = n ∧ (∀ d ∈ ds, d < 128) ∧ groupsValue ds = v := by
  induction n with
  | zero =>
    intro v h
    have : v = 0 := by simpa using h
    exact ⟨[], rfl, by simp, by simp [groupsValue, this]⟩
  | succ n ih =>
    intro v h
    rw [Nat.pow_succ] at h
    obtain ⟨ds, h1, h2, h3⟩ := ih (v / 128) (by omega)
    refine ⟨v % 128 :: ds, by simp [h1], ?_, ?_⟩
    · intro d hd
      rcases List.mem_cons.1 hd with rfl | hd
      · omega
      · exact h2 d hd
    · rw [groupsValue, h3]
      omega

theorem ulebSize_spec (v : Nat) : 0 < ulebSize v ∧ v < 128 ^ ulebSize v ∧ (1 < ulebSize v → 128 ^ (ulebSize v - 1) ≤ v) := by
  induction v using Nat.strongRecOn with
  | ind v ih =>
    rw [ulebSize]
    split
    · rename_i h
      exact ⟨by omega, by omega, by omega⟩
    · rename_i h
      obtain ⟨h1, h2, h3⟩ := ih (v / 128) (by omega)
      generalize ulebSize (v / 128) = k at *
      refine ⟨by omega, ?_, ?_⟩
      · rw [Nat.pow_add]
        omega
      · intro _
        have e : 1 + k - 1 = k := by omega
        rw [e]
        rcases Nat.lt_or_ge 1 k with hk | hk
        · have := h3 hk
          obtain ⟨j, rfl⟩ : ∃ j, k = j + 1 := ⟨k - 1, by omega⟩
          rw [Nat.pow_succ]
          have e2 : j + 1 - 1 = j := by omega
          rw [e2] at this
          omega
        · have : k = 1 := by omega
          subst this
          omega

/-- C52, unsigned: the size is the length of a shortest encoding -/
theorem uleb128_size (v : Nat) : (∃ ds, UlebEnc v ds ∧ ds.length = ulebSize v) ∧ ∀ ds, UlebEnc v ds → ulebSize v ≤ ds.length := by
  obtain ⟨h1, h2, h3⟩ := ulebSize_spec v
  constructor
  · obtain ⟨ds, d1, d2, d3⟩ := groups_exist _ v h2
    exact ⟨ds, ⟨by rintro rfl; simp at d1; omega, d2, d3⟩, d1⟩
  · rintro ds ⟨e1, e2, e3⟩
    by_contra hlt
    have hl : 0 < ds.length := List.length_pos_iff.2 e1
    have := groups_lt e2
    have h4 := h3 (by omega)
    have : 128 ^ ds.length ≤ 128 ^ (ulebSize v - 1) := Nat.pow_le_pow_right (by decide) (by omega)
    omega

theorem getLast_groups {ds : List Nat} (h : ds ≠ []) (hd : ∀ d ∈ ds, d < 128) :
    ds.getLast h * 128 ^ (ds.length - 1) ≤ groupsValue ds ∧ groupsValue ds < (ds.getLast h + 1) * 128 ^ (ds.length - 1) := by
  induction ds with
  | nil => exact absurd rfl h
  | cons d ds ih =>
    by_cases hn : ds = []
    · subst hn
      simp [groupsValue]
    · obtain ⟨h1, h2⟩ := ih hn (fun e he => hd e (List.mem_cons_of_mem _ he))
      have h3 := hd d (by simp)
      rw [List.getLast_cons hn, groupsValue, List.length_cons]
      have hl : 0 < ds.length := List.length_pos_iff.2 hn
      obtain ⟨j, hj⟩ : ∃ j, ds.length = j + 1 := ⟨ds.length - 1, by omega⟩
      rw [hj] at h1 h2 ⊢
      have e1 : j + 1 - 1 = j := by omega
      have e2 : j + 1 + 1 - 1 = j + 1 := by omega
      rw [e1] at h1 h2
      rw [e2, Nat.pow_succ]
      generalize hP : 128 ^ j = P at *
      generalize ds.getLast hn = l at *
      have e3 : l * (P * 128) = 128 * (l * P) := by ring
      have e4 : (l + 1) * (P * 128) = 128 * ((l + 1) * P) := by ring
      rw [e3, e4]
      omega

/-- the values with a signed encoding of `n + 1` groups -/
theorem sleb_range (n : Nat) (v : Int) : (∃ ds, SlebEnc v ds ∧ ds.length = n + 1) ↔ -64 * 128 ^ n ≤ v ∧ v < 64 * 128 ^ n := by
  have hpos : 0 < 128 ^ n := Nat.pow_pos (by decide)
  constructor
  · rintro ⟨ds, ⟨h, hd, hv⟩, hl⟩
    obtain ⟨h1, h2⟩ := getLast_groups h hd
    have h3 := hd _ (List.getLast_mem h)
    rw [hl] at h1 h2 hv
    have e1 : n + 1 - 1 = n := by omega
    rw [e1] at h1 h2
    generalize ds.getLast h = l at *
    have e2 : (128 : Int) ^ (n + 1) = 128 * ((128 ^ n : Nat) : Int) := by push_cast; ring
    have e3 : (128 : Int) ^ n = ((128 ^ n : Nat) : Int) := by push_cast; rfl
    rw [e2] at hv
    rw [e3]
    generalize 128 ^ n = P at *
    by_cases hl' : 64 ≤ l
    · rw [if_pos hl'] at hv
      have : 64 * P ≤ l * P := Nat.mul_le_mul_right _ hl'
      have : (l + 1) * P ≤ 128 * P := Nat.mul_le_mul_right _ (by omega)
      omega
    · rw [if_neg hl'] at hv
      have : (l + 1) * P ≤ 64 * P := Nat.mul_le_mul_right _ (by omega)
      omega
  · rintro ⟨h1, h2⟩
    have e2 : (128 : Int) ^ (n + 1) = 128 * ((128 ^ n : Nat) : Int) := by push_cast; ring
    have e3 : (128 : Int) ^ n = ((128 ^ n : Nat) : Int) := by push_cast; rfl
    rw [e3] at h1 h2
    have e4 : 128 ^ (n + 1) = 128 * 128 ^ n := by ring
    have hw : ∃ w : Nat, w < 128 ^ (n + 1) ∧ ((w : Int) = v ∧ 0 ≤ v ∨ (w : Int) = v + 128 * ((128 ^ n : Nat) : Int) ∧ v < 0) := by
      rw [e4]
      generalize 128 ^ n = P at *
      by_cases hv : 0 ≤ v
      · exact ⟨v.toNat, by omega, .inl ⟨by omega, hv⟩⟩
      · exact ⟨(v + 128 * (P : Int)).toNat, by omega, .inr ⟨by omega, by omega⟩⟩
    obtain ⟨w, hw1, hw2⟩ := hw
    obtain ⟨ds, d1, d2, d3⟩ := groups_exist (n + 1) w hw1
    have hne : ds ≠ [] := by rintro rfl; simp at d1
    refine ⟨ds, ⟨hne, d2, ?_⟩, d1⟩
    obtain ⟨g1, g2⟩ := getLast_groups hne d2
    rw [d1] at g1 g2 ⊢
    have e1 : n + 1 - 1 = n := by omega
    rw [e1] at g1 g2
    rw [d3] at g1 g2 ⊢
    rw [e2]
    generalize ds.getLast hne = l at *
    generalize 128 ^ n = P at *
    by_cases hl' : 64 ≤ l
    · rw [if_pos hl']
      have : 64 * P ≤ l * P := Nat.mul_le_mul_right _ hl'
      omega
    · rw [if_neg hl']
      have : (l + 1) * P ≤ 64 * P := Nat.mul_le_mul_right _ (by omega)
      omega

theorem slebSize_spec (v : Int) : 0 < slebSize v ∧ -128 ^ slebSize v ≤ v ∧ v < 128 ^ slebSize v ∧
    (1 < slebSize v → v < -128 ^ (slebSize v - 1) ∨ 128 ^ (slebSize v - 1) ≤ v) := by
  generalize hk : v.natAbs = k
  induction k using Nat.strongRecOn generalizing v with
  | ind k ih =>
    rw [slebSize]
    split
    · rename_i h
      exact ⟨by omega, by omega, by omega, by omega⟩
    · rename_i h
      obtain ⟨h1, h2, h3, h4⟩ := ih (v / 128).natAbs (by omega) (v / 128) rfl
      generalize slebSize (v / 128) = k at *
      have e0 : (128 : Int) ^ (1 + k) = 128 * 128 ^ k := by ring
      refine ⟨by omega, by rw [e0]; omega, by rw [e0]; omega, ?_⟩
      intro _
      have e : 1 + k - 1 = k := by omega
      rw [e]
      rcases Nat.lt_or_ge 1 k with hk' | hk'
      · have := h4 hk'
        obtain ⟨j, rfl⟩ : ∃ j, k = j + 1 := ⟨k - 1, by omega⟩
        have e2 : j + 1 - 1 = j := by omega
        rw [e2] at this
        have e3 : (128 : Int) ^ (j + 1) = 128 * 128 ^ j := by ring
        rw [e3]
        omega
      · have : k = 1 := by omega
        subst this
        omega

theorem pow_mono (a b : Nat) (h : a ≤ b) : (128 : Int) ^ a ≤ 128 ^ b := by
  have : 128 ^ a ≤ 128 ^ b := Nat.pow_le_pow_right (by decide) h
  exact_mod_cast this

theorem sleb_lower (v : Int) (ds : List Nat) (h : SlebEnc v ds) : slebSize v ≤ ds.length := by
  by_contra hlt
  have hne : ds ≠ [] := h.1
  have hl : 0 < ds.length := List.length_pos_iff.2 hne
  obtain ⟨h1, h2, h3, h4⟩ := slebSize_spec v
  have h5 := h4 (by omega)
  obtain ⟨n, hn⟩ : ∃ n, ds.length = n + 1 := ⟨ds.length - 1, by omega⟩
  have hr := (sleb_range n v).1 ⟨ds, h, hn⟩
  have hm := pow_mono (n + 1) (slebSize v - 1) (by omega)
  have e3 : (128 : Int) ^ (n + 1) = 128 * 128 ^ n := by ring
  have hp : (0 : Int) < 128 ^ n := by exact_mod_cast Nat.pow_pos (n := n) (show 0 < 128 by decide)
  omega

/-- C52, signed, for the values whose sign bit fits the last group: the size is the length of a shortest encoding -/
theorem sleb128_size_partial (v : Int) (hfit : -64 * 128 ^ (slebSize v - 1) ≤ v ∧ v < 64 * 128 ^ (slebSize v - 1)) :
    (∃ ds, SlebEnc v ds ∧ ds.length = slebSize v) ∧ ∀ ds, SlebEnc v ds → slebSize v ≤ ds.length := by
  refine ⟨?_, sleb_lower v⟩
  have h1 := (slebSize_spec v).1
  obtain ⟨ds, h, hl⟩ := (sleb_range _ v).2 hfit
  exact ⟨ds, h, by omega⟩

/-- what is missing in `sleb128_size_partial`: all other values need one byte more than computed -/
theorem sleb128_size_short (v : Int) (hfit : ¬ (-64 * 128 ^ (slebSize v - 1) ≤ v ∧ v < 64 * 128 ^ (slebSize v - 1))) :
    (∃ ds, SlebEnc v ds ∧ ds.length = slebSize v + 1) ∧ ∀ ds, SlebEnc v ds → slebSize v + 1 ≤ ds.length := by
  obtain ⟨h1, h2, h3, _⟩ := slebSize_spec v
  constructor
  · exact (sleb_range _ v).2 ⟨by linarith [h2, show (0 : Int) < 128 ^ slebSize v by positivity], by linarith [show (0 : Int) < 128 ^ slebSize v by positivity]⟩
  · intro ds hd
    have := sleb_lower v ds hd
    rcases Nat.lt_or_ge (slebSize v) ds.length with h | h
    · omega
    · exfalso
      have he : ds.length = slebSize v - 1 + 1 := by omega
      exact hfit ((sleb_range _ v).1 ⟨ds, hd, he⟩)

/-- 64 needs two bytes (`0xc0 0x00`), but the size computed for it is 1 -/
theorem sleb128_size_wrong : slebSize 64 = 1 ∧ SlebEnc 64 [64, 0] ∧ ∀ ds, SlebEnc 64 ds → 2 ≤ ds.length := by
  have h1 : slebSize 64 = 1 := by rw [slebSize]; decide
  refine ⟨h1, ⟨by decide, by decide, by decide⟩, ?_⟩
  have := (sleb128_size_short 64 (by rw [h1]; decide)).2
  rw [h1] at this
  exact this

example : slebSize (-129) = 2 ∧ (-64 * 128 ^ (slebSize (-129) - 1) ≤ (-129 : Int) ∧ (-129 : Int) < 64 * 128 ^ (slebSize (-129) - 1)) := by
  have h1 : slebSize (-129) = 2 := by rw [slebSize, slebSize]; decide
  rw [h1]
  decide

end Verif.Props
