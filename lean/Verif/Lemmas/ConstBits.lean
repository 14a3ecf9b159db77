import Verif.Model.ConstBits
import Verif.Spec.KnownBits
import Verif.Lemmas.Bits
import Mathlib.Tactic.Ring
/-!
# Lemmas on known bits
-/
namespace Verif.Model
open Verif.Spec

variable {w : Nat}

/-- a state describes a value -/
abbrev BitInfo.Desc (b : BitInfo w) (v : BitVec w) : Prop := Describes b.z b.o v

theorem getLsbD_ext {w : Nat} {x y : BitVec w} (h : ∀ i < w, x.getLsbD i = y.getLsbD i) : x = y :=
  BitVec.eq_of_getLsbD_eq h

theorem describes_refl (v : BitVec w) : Describes v v v := fun _ _ => ⟨id, id⟩

theorem describes_eq {z v : BitVec w} (h : Describes z z v) : v = z := by
  apply getLsbD_ext
  intro i hi
  obtain ⟨h1, h2⟩ := h i hi
  cases hv : v.getLsbD i <;> cases hz : z.getLsbD i <;> simp_all

/-- the state "bottom" describes no value (of at least one bit) -/
theorem not_describes_undefined (hw : 0 < w) {b : BitInfo w} (hb : b.isUndefined = true) (v : BitVec w) : ¬ b.Desc v := by
  unfold BitInfo.isUndefined at hb
  simp only [Bool.and_eq_true, beq_iff_eq] at hb
  intro h
  obtain ⟨h1, h2⟩ := h 0 hw
  rw [hb.1, hb.2] at *
  have := h2 (by simp [hw])
  exact absurd (h1 this) (by simp)

theorem describes_unknown (v : BitVec w) : (BitInfo.unknown w).Desc v := by
  intro i hi
  simp [BitInfo.unknown, hi]

theorem strict1_sound {v : Nat} (hw : 0 < w) (f : BitInfo w → BitInfo v) {a : BitInfo w} {x : BitVec w} (ha : a.Desc x) :
    BitInfo.strict1 f a = f a := by
  unfold BitInfo.strict1
  rw [if_neg]
  intro h
  exact not_describes_undefined hw h x ha

theorem strict2_sound {u v : Nat} (hw : 0 < w) (hu : 0 < u) (f : BitInfo w → BitInfo u → BitInfo v) {a : BitInfo w} {b : BitInfo u} {x : BitVec w} {y : BitVec u}
    (ha : a.Desc x) (hb : b.Desc y) : BitInfo.strict2 f a b = f a b := by
  unfold BitInfo.strict2
  rw [if_neg]
  intro h
  rw [Bool.or_eq_true] at h
  rcases h with h | h
  · exact not_describes_undefined hw h x ha
  · exact not_describes_undefined hu h y hb

/-! ## Monotonicity of numbers and carries -/

theorem mod_two_pow_succ' (x i : Nat) : x % 2 ^ (i + 1) = 2 ^ i * (x.testBit i).toNat + x % 2 ^ i := by
  rw [Nat.mod_pow_succ, Nat.add_comm, Nat.toNat_testBit]

theorem toNat_mod_le {x y : BitVec w} (h : ∀ i < w, x.getLsbD i = true → y.getLsbD i = true) :
    ∀ k, x.toNat % 2 ^ k ≤ y.toNat % 2 ^ k := by
  intro k
  induction k with
  | zero => simp [Nat.mod_one]
  | succ k ih =>
    rw [mod_two_pow_succ', mod_two_pow_succ']
    have hb : (x.toNat.testBit k).toNat ≤ (y.toNat.testBit k).toNat := by
      by_cases hk : k < w
      · have := h k hk
        unfold BitVec.getLsbD at this
        cases hx : x.toNat.testBit k <;> cases hy : y.toNat.testBit k <;> simp_all
      · have : x.toNat.testBit k = false := Nat.testBit_lt_two_pow (Nat.lt_of_lt_of_le x.isLt (Nat.pow_le_pow_right (by omega) (by omega)))
        rw [this]; simp
    have : 2 ^ k * (x.toNat.testBit k).toNat ≤ 2 ^ k * (y.toNat.testBit k).toNat := Nat.mul_le_mul_left _ hb
    omega

theorem toNat_le {x y : BitVec w} (h : ∀ i < w, x.getLsbD i = true → y.getLsbD i = true) : x.toNat ≤ y.toNat := by
  have := toNat_mod_le h w
  rwa [Nat.mod_eq_of_lt x.isLt, Nat.mod_eq_of_lt y.isLt] at this

theorem carry_mono {x x' y y' : BitVec w} (hx : ∀ i < w, x.getLsbD i = true → x'.getLsbD i = true)
    (hy : ∀ i < w, y.getLsbD i = true → y'.getLsbD i = true) (c : Bool) (i : Nat) (h : BitVec.carry i x y c = true) :
    BitVec.carry i x' y' c = true := by
  unfold BitVec.carry at h ⊢
  have h1 := toNat_mod_le hx i
  have h2 := toNat_mod_le hy i
  simp only [ge_iff_le, decide_eq_true_eq] at h ⊢
  omega

/-- the rule for sums: where the operands are constant and the sums of the bounds agree, the bit of the sum is that bit -/
theorem fromBounds_sound {lz lo rz ro l r : BitVec w} (hl : Describes lz lo l) (hr : Describes rz ro r) (c : Bool) {inc : BitVec w}
    (hinc : ∀ i < w, inc.getLsbD i = false → lz.getLsbD i = lo.getLsbD i ∧ rz.getLsbD i = ro.getLsbD i)
    {vz vo s : BitVec w}
    (hvz : ∀ i < w, vz.getLsbD i = (lz.getLsbD i ^^ (rz.getLsbD i ^^ BitVec.carry i lz rz c)))
    (hvo : ∀ i < w, vo.getLsbD i = (lo.getLsbD i ^^ (ro.getLsbD i ^^ BitVec.carry i lo ro c)))
    (hs : ∀ i < w, s.getLsbD i = (l.getLsbD i ^^ (r.getLsbD i ^^ BitVec.carry i l r c))) :
    (BitInfo.fromBounds inc vz vo).Desc s ∧ (BitInfo.fromBounds inc vo vz).Desc s := by
  have key : ∀ i < w, inc.getLsbD i = false → vz.getLsbD i = vo.getLsbD i → s.getLsbD i = vz.getLsbD i := by
    intro i hi h1 h2
    obtain ⟨el, er⟩ := hinc i hi h1
    have hlm := hl i hi
    have hrm := hr i hi
    have el' : l.getLsbD i = lz.getLsbD i := by cases h : l.getLsbD i <;> cases h' : lz.getLsbD i <;> simp_all
    have er' : r.getLsbD i = rz.getLsbD i := by cases h : r.getLsbD i <;> cases h' : rz.getLsbD i <;> simp_all
    have m1 := carry_mono (x := lo) (x' := l) (y := ro) (y' := r) (fun j hj => (hl j hj).2) (fun j hj => (hr j hj).2) c i
    have m2 := carry_mono (x := l) (x' := lz) (y := r) (y' := rz) (fun j hj => (hl j hj).1) (fun j hj => (hr j hj).1) c i
    rw [hvz i hi, hvo i hi, ← el, ← er] at h2
    rw [hs i hi, hvz i hi, el', er']
    have hc : BitVec.carry i lz rz c = BitVec.carry i lo ro c := by
      revert h2
      cases lz.getLsbD i <;> cases rz.getLsbD i <;> simp
    have : BitVec.carry i l r c = BitVec.carry i lz rz c := by
      cases h3 : BitVec.carry i l r c
      · cases h4 : BitVec.carry i lz rz c
        · rfl
        · rw [hc] at h4; exact absurd (m1 h4) (by rw [h3]; decide)
      · exact (m2 h3).symm
    rw [this]
  constructor
  · intro i hi
    have h := key i hi
    simp only [BitInfo.fromBounds, BitInfo.andnot, BitVec.getLsbD_or, BitVec.getLsbD_and, BitVec.getLsbD_not, BitVec.getLsbD_xor, hi, decide_true, Bool.true_and]
    clear hinc hvz hvo hs key
    generalize inc.getLsbD i = a, vz.getLsbD i = b, vo.getLsbD i = c, s.getLsbD i = d at *
    revert h
    revert a b c d
    decide
  · intro i hi
    have h := key i hi
    simp only [BitInfo.fromBounds, BitInfo.andnot, BitVec.getLsbD_or, BitVec.getLsbD_and, BitVec.getLsbD_not, BitVec.getLsbD_xor, hi, decide_true, Bool.true_and]
    clear hinc hvz hvo hs key
    generalize inc.getLsbD i = a, vz.getLsbD i = b, vo.getLsbD i = c, s.getLsbD i = d at *
    revert h
    revert a b c d
    decide

theorem xor_false {x y : BitVec w} {i : Nat} (h : (x ^^^ y).getLsbD i = false) : x.getLsbD i = y.getLsbD i := by
  rw [BitVec.getLsbD_xor] at h
  revert h
  cases x.getLsbD i <;> cases y.getLsbD i <;> simp

theorem add_sound {l r : BitInfo w} {x y : BitVec w} (hl : l.Desc x) (hr : r.Desc y) : (l.add r).Desc (x + y) := by
  refine (fromBounds_sound hl hr false ?_ (fun i hi => BitVec.getLsbD_add hi _ _) (fun i hi => BitVec.getLsbD_add hi _ _)
    (fun i hi => BitVec.getLsbD_add hi _ _)).1
  intro i hi h
  rw [BitVec.getLsbD_or, Bool.or_eq_false_iff] at h
  exact ⟨xor_false h.1, xor_false h.2⟩

theorem getLsbD_sub_carry (x y : BitVec w) {i : Nat} (hi : i < w) :
    (x - y).getLsbD i = (x.getLsbD i ^^ ((~~~y).getLsbD i ^^ BitVec.carry i x (~~~y) true)) := by
  have h := BitVec.getLsbD_add_add_bool hi x (~~~y) true
  have e : x + ~~~y + BitVec.setWidth w (BitVec.ofBool true) = x - y := by
    rw [BitVec.sub_eq_add_neg, BitVec.neg_eq_not_add, BitVec.add_assoc]
    congr 2
    apply BitVec.eq_of_toNat_eq; simp
  rw [e] at h; exact h

theorem not_describes {z o v : BitVec w} (h : Describes z o v) : Describes (~~~o) (~~~z) (~~~v) := by
  intro i hi
  obtain ⟨h1, h2⟩ := h i hi
  simp only [BitVec.getLsbD_not, hi, decide_true, Bool.true_and]
  cases hv : v.getLsbD i <;> cases hz : z.getLsbD i <;> cases ho : o.getLsbD i <;> simp_all

theorem sub_sound {l r : BitInfo w} {x y : BitVec w} (hl : l.Desc x) (hr : r.Desc y) : (l.sub r).Desc (x - y) := by
  have hr' := not_describes hr
  refine (fromBounds_sound hl hr' true ?_ (fun i hi => getLsbD_sub_carry _ _ hi) (fun i hi => getLsbD_sub_carry _ _ hi)
    (fun i hi => getLsbD_sub_carry _ _ hi)).2
  intro i hi h
  rw [BitVec.getLsbD_or, Bool.or_eq_false_iff] at h
  refine ⟨xor_false h.1, ?_⟩
  have := xor_false h.2
  simp [BitVec.getLsbD_not, this]

theorem minus_sound {b : BitInfo w} {x : BitVec w} (h : b.Desc x) : b.minus.Desc (-x) := by
  have h0 : Describes (0#w) (0#w) (0#w) := describes_refl _
  have hz : ∀ y : BitVec w, -y = 0#w - y := fun y => by simp
  have h' := not_describes h
  refine (fromBounds_sound h0 h' true ?_ (vz := -b.o) (vo := -b.z) ?_ ?_ ?_).2
  · intro i hi h
    refine ⟨rfl, ?_⟩
    have := xor_false h
    simp [BitVec.getLsbD_not, this]
  · intro i hi; rw [hz]; exact getLsbD_sub_carry _ _ hi
  · intro i hi; rw [hz]; exact getLsbD_sub_carry _ _ hi
  · intro i hi; rw [hz]; exact getLsbD_sub_carry _ _ hi

/-! ## Joins and bitwise operations -/

theorem join_left {a b : BitInfo w} {x : BitVec w} (h : a.Desc x) : (a.join b).Desc x := by
  intro i hi
  obtain ⟨h1, h2⟩ := h i hi
  simp only [BitInfo.join, BitVec.getLsbD_or, BitVec.getLsbD_and, Bool.or_eq_true, Bool.and_eq_true]
  exact ⟨fun hx => Or.inl (h1 hx), fun hx => h2 hx.1⟩

theorem join_right {a b : BitInfo w} {x : BitVec w} (h : b.Desc x) : (a.join b).Desc x := by
  intro i hi
  obtain ⟨h1, h2⟩ := h i hi
  simp only [BitInfo.join, BitVec.getLsbD_or, BitVec.getLsbD_and, Bool.or_eq_true, Bool.and_eq_true]
  exact ⟨fun hx => Or.inr (h1 hx), fun hx => h2 hx.2⟩

theorem and_sound {l r : BitInfo w} {x y : BitVec w} (hl : l.Desc x) (hr : r.Desc y) : (l.and r).Desc (x &&& y) := by
  intro i hi
  have h1 := hl i hi
  have h2 := hr i hi
  simp only [BitInfo.and, BitVec.getLsbD_and, Bool.and_eq_true]
  exact ⟨fun h => ⟨h1.1 h.1, h2.1 h.2⟩, fun h => ⟨h1.2 h.1, h2.2 h.2⟩⟩

theorem or_sound {l r : BitInfo w} {x y : BitVec w} (hl : l.Desc x) (hr : r.Desc y) : (l.or r).Desc (x ||| y) := by
  intro i hi
  have h1 := hl i hi
  have h2 := hr i hi
  simp only [BitInfo.or, BitVec.getLsbD_or, Bool.or_eq_true]
  exact ⟨fun h => h.imp h1.1 h2.1, fun h => h.imp h1.2 h2.2⟩

theorem eor_sound {l r : BitInfo w} {x y : BitVec w} (hl : l.Desc x) (hr : r.Desc y) : (l.eor r).Desc (x ^^^ y) := by
  intro i hi
  have h1 := hl i hi
  have h2 := hr i hi
  simp only [BitInfo.eor, BitInfo.andnot, BitVec.getLsbD_or, BitVec.getLsbD_and, BitVec.getLsbD_not, BitVec.getLsbD_xor, hi, decide_true, Bool.true_and]
  cases a : x.getLsbD i <;> cases b : y.getLsbD i <;> cases c : l.z.getLsbD i <;> cases d : l.o.getLsbD i <;>
    cases e : r.z.getLsbD i <;> cases f : r.o.getLsbD i <;> simp_all

theorem not_sound {b : BitInfo w} {x : BitVec w} (h : b.Desc x) : b.not.Desc (~~~x) := not_describes h

/-! ## Multiplication -/

theorem shl_describes {z o v : BitVec w} (h : Describes z o v) (s : Nat) : Describes (z <<< s) (o <<< s) (v <<< s) := by
  intro i hi
  simp only [BitVec.getLsbD_shiftLeft, hi, decide_true, Bool.true_and]
  by_cases hs : i < s
  · simp [hs]
  · have := h (i - s) (by omega)
    simp only [hs, decide_false, Bool.not_false, Bool.true_and]
    exact this

theorem shr_describes {z o v : BitVec w} (h : Describes z o v) (s : Nat) : Describes (z >>> s) (o >>> s) (v >>> s) := by
  intro i hi
  simp only [BitVec.getLsbD_ushiftRight]
  by_cases hs : s + i < w
  · exact h (s + i) hs
  · have : ∀ u : BitVec w, u.getLsbD (s + i) = false := fun u => BitVec.getLsbD_of_ge u _ (by omega)
    simp [this]

theorem sshr_describes {z o v : BitVec w} (h : Describes z o v) (s : Nat) :
    Describes (z.sshiftRight s) (o.sshiftRight s) (v.sshiftRight s) := by
  intro i hi
  simp only [BitVec.getLsbD_sshiftRight, Nat.not_le.2 hi, decide_false, Bool.not_false, Bool.true_and]
  by_cases hs : s + i < w
  · simp only [hs, if_true]; exact h (s + i) hs
  · simp only [hs, if_false]
    have := h (w - 1) (by omega)
    simpa [BitVec.msb_eq_getLsbD_last] using this

theorem bit0_ne {x : BitVec w} (hw : 0 < w) : x &&& 1#w = 0#w ↔ x.getLsbD 0 = false := by
  constructor
  · intro h
    have := congrArg (fun v => BitVec.getLsbD v 0) h
    simpa [hw] using this
  · intro h
    apply getLsbD_ext
    intro i hi
    by_cases h0 : i = 0
    · subst h0; simp [h]
    · simp [h0, BitVec.getLsbD_one]

theorem mul_split (hw : 0 < w) (x y : BitVec w) :
    x * y = (if y.getLsbD 0 then x else 0#w) + (x <<< 1) * (y >>> 1) := by
  apply BitVec.eq_of_toNat_eq
  rw [BitVec.toNat_mul, BitVec.toNat_add, BitVec.toNat_mul, BitVec.toNat_shiftLeft, BitVec.toNat_ushiftRight, Nat.shiftLeft_eq, Nat.shiftRight_eq_div_pow, Nat.pow_one,
    Nat.mod_mul_mod, Nat.add_mod_mod]
  have hb : y.getLsbD 0 = decide (y.toNat % 2 = 1) := by
    unfold BitVec.getLsbD; rw [Nat.testBit_zero]
  congr 1
  rw [hb]
  have hy := Nat.div_add_mod y.toNat 2
  rcases Nat.mod_two_eq_zero_or_one y.toNat with h | h
  · rw [if_neg (by simp [h]), BitVec.toNat_zero, Nat.zero_add]
    conv => lhs; rw [← hy, h]
    ring
  · simp only [h, decide_true, if_true]
    conv => lhs; rw [← hy, h]
    ring

theorem mulStep_sound (hw : 0 < w) {acc l r : BitInfo w} {a x y : BitVec w} (ha : acc.Desc a) (hl : l.Desc x) (hr : r.Desc y) :
    (BitInfo.mulStep 1#w acc l r).Desc (a + (if y.getLsbD 0 then x else 0#w)) := by
  unfold BitInfo.mulStep
  obtain ⟨h1, h2⟩ := hr 0 hw
  have hadd := add_sound hl ha
  rw [BitVec.add_comm] at hadd
  by_cases hz : r.z &&& 1#w = 0#w
  · rw [if_pos hz]
    rw [bit0_ne hw] at hz
    have : y.getLsbD 0 = false := by cases h : y.getLsbD 0 <;> simp_all
    rw [this]; simpa using ha
  · rw [if_neg hz]
    by_cases ho : BitInfo.andnot 1#w r.o = 0#w
    · rw [if_pos ho]
      unfold BitInfo.andnot at ho
      rw [BitVec.and_comm, bit0_ne hw] at ho
      have : r.o.getLsbD 0 = true := by simpa [hw] using ho
      rw [h2 this]; exact hadd
    · rw [if_neg ho]
      cases hy : y.getLsbD 0
      · simpa using join_left ha
      · exact join_right hadd

theorem mulLoop_sound (hw : 0 < w) : ∀ (fuel : Nat) {acc l r : BitInfo w} {a x y : BitVec w}, acc.Desc a → l.Desc x → r.Desc y →
    r.z.toNat < 2 ^ fuel → (BitInfo.mulLoop fuel acc l r).Desc (a + x * y) := by
  intro fuel
  induction fuel with
  | zero =>
    intro acc l r a x y ha hl hr hlt
    have hz : r.z = 0#w := by apply BitVec.eq_of_toNat_eq; simp at hlt ⊢; omega
    have hy : y = 0#w := by
      apply getLsbD_ext
      intro i hi
      have := (hr i hi).1
      rw [hz] at this
      cases h : y.getLsbD i <;> simp_all
    rw [BitInfo.mulLoop, hy]; simpa using ha
  | succ f ih =>
    intro acc l r a x y ha hl hr hlt
    rw [BitInfo.mulLoop]
    by_cases hz : r.z = 0#w
    · rw [if_pos hz]
      have hy : y = 0#w := by
        apply getLsbD_ext
        intro i hi
        have := (hr i hi).1
        rw [hz] at this
        cases h : y.getLsbD i <;> simp_all
      rw [hy]; simpa using ha
    · rw [if_neg hz, mul_split hw x y, ← BitVec.add_assoc]
      apply ih (mulStep_sound hw ha hl hr) (shl_describes hl 1) (shr_describes hr 1)
      show (r.z >>> 1).toNat < 2 ^ f
      rw [BitVec.toNat_ushiftRight, Nat.shiftRight_eq_div_pow, Nat.pow_one]
      rw [Nat.pow_succ] at hlt; omega

theorem mul_sound (hw : 0 < w) {l r : BitInfo w} {x y : BitVec w} (hl : l.Desc x) (hr : r.Desc y) : (l.mul r).Desc (x * y) := by
  unfold BitInfo.mul
  split
  · rename_i h
    have hx := describes_eq (z := l.z) (v := x) (by rw [BitInfo.Desc, ← h.1] at hl; exact hl)
    have hy := describes_eq (z := r.z) (v := y) (by rw [BitInfo.Desc, ← h.2] at hr; exact hr)
    rw [hx, hy]
    exact describes_refl _
  · have := mulLoop_sound hw w (acc := BitInfo.const 0#w) (a := 0#w) (describes_refl _) hl hr r.z.isLt
    simpa using this

end Verif.Model
