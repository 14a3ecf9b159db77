import Verif.Model.ConstBitsGraph
import Verif.Lemmas.ConstBitsExpr
/-!
# Monotonicity of the transfer functions of the known-bits analysis
-/
namespace Verif.Model
open Verif.Spec

variable {w : Nat}

/-- `b` says at most as much as `a`: the order in which `set_bitinfo` (ir/ana/constbits.c:132-135) expects the states of a node -/
def BitInfo.Le (a b : BitInfo w) : Prop :=
  ∀ i < w, (a.z.getLsbD i = true → b.z.getLsbD i = true) ∧ (b.o.getLsbD i = true → a.o.getLsbD i = true)

/-- no bit must be one and cannot be one -/
def BitInfo.Cons (b : BitInfo w) : Prop := ∀ i < w, b.o.getLsbD i = true → b.z.getLsbD i = true

theorem le_refl (a : BitInfo w) : a.Le a := fun _ _ => ⟨id, id⟩

theorem le_trans {a b c : BitInfo w} (h1 : a.Le b) (h2 : b.Le c) : a.Le c :=
  fun i hi => ⟨fun h => (h2 i hi).1 ((h1 i hi).1 h), fun h => (h1 i hi).2 ((h2 i hi).2 h)⟩

theorem le_antisymm {a b : BitInfo w} (h1 : a.Le b) (h2 : b.Le a) : a = b := by
  obtain ⟨az, ao⟩ := a
  obtain ⟨bz, bo⟩ := b
  congr 1
  · apply getLsbD_ext; intro i hi
    have := (h1 i hi).1; have := (h2 i hi).1
    cases h : az.getLsbD i <;> cases h' : bz.getLsbD i <;> simp_all
  · apply getLsbD_ext; intro i hi
    have := (h1 i hi).2; have := (h2 i hi).2
    cases h : ao.getLsbD i <;> cases h' : bo.getLsbD i <;> simp_all

theorem undefined_le (a : BitInfo w) : (BitInfo.undefined w).Le a := by
  intro i hi
  simp [BitInfo.undefined, hi]

theorem le_unknown (a : BitInfo w) : a.Le (BitInfo.unknown w) := by
  intro i hi
  simp [BitInfo.unknown, hi]

theorem isUndefined_iff {a : BitInfo w} : a.isUndefined = true ↔ a = BitInfo.undefined w := by
  obtain ⟨z, o⟩ := a
  simp [BitInfo.isUndefined, BitInfo.undefined]

theorem cons_of_desc {a : BitInfo w} {x : BitVec w} (h : a.Desc x) : a.Cons := fun i hi ho => (h i hi).1 ((h i hi).2 ho)

theorem cons_z {a : BitInfo w} (h : a.Cons) : a.Desc a.z := fun i hi => ⟨id, h i hi⟩
theorem cons_o {a : BitInfo w} (h : a.Cons) : a.Desc a.o := fun i hi => ⟨h i hi, id⟩

theorem cons_unknown : (BitInfo.unknown w).Cons := cons_of_desc (describes_unknown 0#w)

theorem desc_mono {a b : BitInfo w} (h : a.Le b) {x : BitVec w} (hx : a.Desc x) : b.Desc x :=
  fun i hi => ⟨fun hh => (h i hi).1 ((hx i hi).1 hh), fun hh => (hx i hi).2 ((h i hi).2 hh)⟩

theorem cons_mono {a b : BitInfo w} (h : a.Le b) (ha : a.Cons) : b.Cons := cons_of_desc (desc_mono h (cons_z ha))

theorem not_undefined {a : BitInfo w} (hw : 0 < w) (ha : a.Cons) : a.isUndefined = false := by
  by_contra h
  simp only [Bool.not_eq_false] at h
  exact not_describes_undefined hw h _ (cons_z ha)

theorem const_le {c : BitVec w} {b : BitInfo w} (h : b.Desc c) : (BitInfo.const c).Le b := h

/-! ## Sums -/

theorem fromBounds_mono {lz lo rz ro lz' lo' rz' ro' : BitVec w} (hl : (BitInfo.mk lz lo).Le ⟨lz', lo'⟩) (hr : (BitInfo.mk rz ro).Le ⟨rz', ro'⟩)
    (cl : (BitInfo.mk lz lo).Cons) (cr : (BitInfo.mk rz ro).Cons) (c : Bool) {inc inc' : BitVec w}
    (hinc : ∀ i < w, lz.getLsbD i = lo.getLsbD i → rz.getLsbD i = ro.getLsbD i → inc.getLsbD i = false)
    (hinc' : ∀ i < w, inc'.getLsbD i = false → lz'.getLsbD i = lo'.getLsbD i ∧ rz'.getLsbD i = ro'.getLsbD i)
    {vz vo vz' vo' : BitVec w}
    (hvz : ∀ i < w, vz.getLsbD i = (lz.getLsbD i ^^ (rz.getLsbD i ^^ BitVec.carry i lz rz c)))
    (hvo : ∀ i < w, vo.getLsbD i = (lo.getLsbD i ^^ (ro.getLsbD i ^^ BitVec.carry i lo ro c)))
    (hvz' : ∀ i < w, vz'.getLsbD i = (lz'.getLsbD i ^^ (rz'.getLsbD i ^^ BitVec.carry i lz' rz' c)))
    (hvo' : ∀ i < w, vo'.getLsbD i = (lo'.getLsbD i ^^ (ro'.getLsbD i ^^ BitVec.carry i lo' ro' c))) :
    (BitInfo.fromBounds inc vz vo).Le (BitInfo.fromBounds inc' vz' vo') ∧ (BitInfo.fromBounds inc vo vz).Le (BitInfo.fromBounds inc' vo' vz') := by
  have key : ∀ i < w, inc'.getLsbD i = false → vz'.getLsbD i = vo'.getLsbD i →
      inc.getLsbD i = false ∧ vz.getLsbD i = vo.getLsbD i ∧ vz.getLsbD i = vz'.getLsbD i := by
    intro i hi h1 h2
    obtain ⟨el, er⟩ := hinc' i hi h1
    have a1 := hl i hi; have a2 := hr i hi; have a3 := cl i hi; have a4 := cr i hi
    simp only at a1 a2 a3 a4
    have e1 : lz.getLsbD i = lz'.getLsbD i := by cases h : lz.getLsbD i <;> cases h' : lz'.getLsbD i <;> cases h'' : lo.getLsbD i <;> simp_all
    have e2 : lo.getLsbD i = lz'.getLsbD i := by cases h : lo.getLsbD i <;> cases h' : lz'.getLsbD i <;> simp_all
    have e3 : rz.getLsbD i = rz'.getLsbD i := by cases h : rz.getLsbD i <;> cases h' : rz'.getLsbD i <;> cases h'' : ro.getLsbD i <;> simp_all
    have e4 : ro.getLsbD i = rz'.getLsbD i := by cases h : ro.getLsbD i <;> cases h' : rz'.getLsbD i <;> simp_all
    have m1 := carry_mono (x := lo') (x' := lo) (y := ro') (y' := ro) (fun j hj => (hl j hj).2) (fun j hj => (hr j hj).2) c i
    have m2 := carry_mono (x := lo) (x' := lz) (y := ro) (y' := rz) (fun j hj => cl j hj) (fun j hj => cr j hj) c i
    have m3 := carry_mono (x := lz) (x' := lz') (y := rz) (y' := rz') (fun j hj => (hl j hj).1) (fun j hj => (hr j hj).1) c i
    rw [hvz' i hi, hvo' i hi, ← el, ← er] at h2
    refine ⟨hinc i hi (by rw [e1, e2]) (by rw [e3, e4]), ?_⟩
    rw [hvz i hi, hvo i hi, hvz' i hi, e1, e2, e3, e4]
    have hc : BitVec.carry i lz' rz' c = BitVec.carry i lo' ro' c := by
      revert h2
      cases lz'.getLsbD i <;> cases rz'.getLsbD i <;> simp
    clear h2 hvz hvo hvz' hvo' hinc hinc'
    generalize BitVec.carry i lz' rz' c = p at *
    generalize BitVec.carry i lo' ro' c = q at *
    generalize BitVec.carry i lz rz c = r at *
    generalize BitVec.carry i lo ro c = s at *
    subst hc
    cases r <;> cases s <;> cases p <;> simp_all
  constructor
  · intro i hi
    have h := key i hi
    simp only [BitInfo.fromBounds, BitInfo.andnot, BitVec.getLsbD_or, BitVec.getLsbD_and, BitVec.getLsbD_not, BitVec.getLsbD_xor, hi, decide_true, Bool.true_and]
    clear hinc hinc' hvz hvo hvz' hvo' key
    generalize inc.getLsbD i = a, vz.getLsbD i = b, vo.getLsbD i = c, inc'.getLsbD i = d, vz'.getLsbD i = e, vo'.getLsbD i = f at *
    revert h a b c d e f
    decide
  · intro i hi
    have h := key i hi
    simp only [BitInfo.fromBounds, BitInfo.andnot, BitVec.getLsbD_or, BitVec.getLsbD_and, BitVec.getLsbD_not, BitVec.getLsbD_xor, hi, decide_true, Bool.true_and]
    clear hinc hinc' hvz hvo hvz' hvo' key
    generalize inc.getLsbD i = a, vz.getLsbD i = b, vo.getLsbD i = c, inc'.getLsbD i = d, vz'.getLsbD i = e, vo'.getLsbD i = f at *
    revert h a b c d e f
    decide

theorem xor_self_false {x y : BitVec w} {i : Nat} (h : x.getLsbD i = y.getLsbD i) : (x ^^^ y).getLsbD i = false := by
  rw [BitVec.getLsbD_xor, h, Bool.xor_self]

theorem not_le {a b : BitInfo w} (h : a.Le b) : a.not.Le b.not := by
  intro i hi
  obtain ⟨h1, h2⟩ := h i hi
  simp only [BitInfo.not, BitVec.getLsbD_not, hi, decide_true, Bool.true_and]
  generalize a.z.getLsbD i = p, a.o.getLsbD i = q, b.z.getLsbD i = r, b.o.getLsbD i = s at *
  revert h1 h2 p q r s
  decide

theorem not_cons {a : BitInfo w} (h : a.Cons) : a.not.Cons := cons_of_desc (not_sound (cons_z h))

theorem add_le {a a' b b' : BitInfo w} (ha : a.Le a') (hb : b.Le b') (ca : a.Cons) (cb : b.Cons) : (a.add b).Le (a'.add b') := by
  refine (fromBounds_mono ha hb ca cb false ?_ ?_ (fun i hi => BitVec.getLsbD_add hi _ _) (fun i hi => BitVec.getLsbD_add hi _ _)
    (fun i hi => BitVec.getLsbD_add hi _ _) (fun i hi => BitVec.getLsbD_add hi _ _)).1
  · intro i hi h1 h2
    rw [BitVec.getLsbD_or, xor_self_false h1, xor_self_false h2]; rfl
  · intro i hi h
    rw [BitVec.getLsbD_or, Bool.or_eq_false_iff] at h
    exact ⟨xor_false h.1, xor_false h.2⟩

theorem sub_le {a a' b b' : BitInfo w} (ha : a.Le a') (hb : b.Le b') (ca : a.Cons) (cb : b.Cons) : (a.sub b).Le (a'.sub b') := by
  refine (fromBounds_mono (lz := a.z) (lo := a.o) (rz := ~~~b.o) (ro := ~~~b.z) (lz' := a'.z) (lo' := a'.o) (rz' := ~~~b'.o) (ro' := ~~~b'.z)
    ha (not_le hb) ca (not_cons cb) true ?_ ?_ (fun i hi => getLsbD_sub_carry _ _ hi) (fun i hi => getLsbD_sub_carry _ _ hi)
    (fun i hi => getLsbD_sub_carry _ _ hi) (fun i hi => getLsbD_sub_carry _ _ hi)).2
  · intro i hi h1 h2
    rw [BitVec.getLsbD_or, xor_self_false h1, xor_self_false]
    · rfl
    · simpa [BitVec.getLsbD_not, hi] using h2.symm
  · intro i hi h
    rw [BitVec.getLsbD_or, Bool.or_eq_false_iff] at h
    refine ⟨xor_false h.1, ?_⟩
    have := xor_false h.2
    simp [BitVec.getLsbD_not, this]

theorem minus_le {b b' : BitInfo w} (hb : b.Le b') (cb : b.Cons) : b.minus.Le b'.minus := by
  have hz : ∀ y : BitVec w, -y = 0#w - y := fun y => by simp
  refine (fromBounds_mono (lz := 0#w) (lo := 0#w) (rz := ~~~b.o) (ro := ~~~b.z) (lz' := 0#w) (lo' := 0#w) (rz' := ~~~b'.o) (ro' := ~~~b'.z)
    (vz := -b.o) (vo := -b.z) (vz' := -b'.o) (vo' := -b'.z)
    (le_refl _) (not_le hb) (fun _ _ => id) (not_cons cb) true ?_ ?_ ?_ ?_ ?_ ?_).2
  · intro i hi _ h2
    apply xor_self_false
    simpa [BitVec.getLsbD_not, hi] using h2.symm
  · intro i hi h
    refine ⟨rfl, ?_⟩
    have := xor_false h
    simp [BitVec.getLsbD_not, this]
  · intro i hi; rw [hz]; exact getLsbD_sub_carry _ _ hi
  · intro i hi; rw [hz]; exact getLsbD_sub_carry _ _ hi
  · intro i hi; rw [hz]; exact getLsbD_sub_carry _ _ hi
  · intro i hi; rw [hz]; exact getLsbD_sub_carry _ _ hi

/-! ## Bitwise operations and joins -/

theorem and_le {a a' b b' : BitInfo w} (ha : a.Le a') (hb : b.Le b') : (a.and b).Le (a'.and b') := by
  intro i hi
  obtain ⟨h1, h2⟩ := ha i hi
  obtain ⟨h3, h4⟩ := hb i hi
  simp only [BitInfo.and, BitVec.getLsbD_and, Bool.and_eq_true]
  exact ⟨fun h => ⟨h1 h.1, h3 h.2⟩, fun h => ⟨h2 h.1, h4 h.2⟩⟩

theorem or_le {a a' b b' : BitInfo w} (ha : a.Le a') (hb : b.Le b') : (a.or b).Le (a'.or b') := by
  intro i hi
  obtain ⟨h1, h2⟩ := ha i hi
  obtain ⟨h3, h4⟩ := hb i hi
  simp only [BitInfo.or, BitVec.getLsbD_or, Bool.or_eq_true]
  exact ⟨Or.imp h1 h3, Or.imp h2 h4⟩

theorem eor_le {a a' b b' : BitInfo w} (ha : a.Le a') (hb : b.Le b') : (a.eor b).Le (a'.eor b') := by
  intro i hi
  obtain ⟨h1, h2⟩ := ha i hi
  obtain ⟨h3, h4⟩ := hb i hi
  simp only [BitInfo.eor, BitInfo.andnot, BitVec.getLsbD_or, BitVec.getLsbD_and, BitVec.getLsbD_not, hi, decide_true, Bool.true_and]
  generalize a.z.getLsbD i = p, a.o.getLsbD i = q, a'.z.getLsbD i = r, a'.o.getLsbD i = s,
    b.z.getLsbD i = p', b.o.getLsbD i = q', b'.z.getLsbD i = r', b'.o.getLsbD i = s' at *
  revert h1 h2 h3 h4 p q r s p' q' r' s'
  decide

theorem join_le {a a' b b' : BitInfo w} (ha : a.Le a') (hb : b.Le b') : (a.join b).Le (a'.join b') := by
  intro i hi
  obtain ⟨h1, h2⟩ := ha i hi
  obtain ⟨h3, h4⟩ := hb i hi
  simp only [BitInfo.join, BitVec.getLsbD_or, BitVec.getLsbD_and, Bool.or_eq_true, Bool.and_eq_true]
  exact ⟨Or.imp h1 h3, fun h => ⟨h2 h.1, h4 h.2⟩⟩

theorem le_join_left (a b : BitInfo w) : a.Le (a.join b) := by
  intro i hi
  simp only [BitInfo.join, BitVec.getLsbD_or, BitVec.getLsbD_and, Bool.or_eq_true, Bool.and_eq_true]
  exact ⟨Or.inl, And.left⟩

theorem le_join_right (a b : BitInfo w) : b.Le (a.join b) := by
  intro i hi
  simp only [BitInfo.join, BitVec.getLsbD_or, BitVec.getLsbD_and, Bool.or_eq_true, Bool.and_eq_true]
  exact ⟨Or.inr, And.right⟩

theorem conv_le (signed : Bool) (w' : Nat) (hw : 0 < w) {a b : BitInfo w} (h : a.Le b) : (a.conv signed w').Le (b.conv signed w') := by
  intro i hi
  simp only [BitInfo.conv, convertTo_getLsbD signed w' _ hi]
  by_cases hiw : i < w
  · simp only [hiw, if_true]; exact h i hiw
  · simp only [hiw, if_false, Bool.and_eq_true]
    have := h (w - 1) (by omega)
    simp only [BitVec.msb_eq_getLsbD_last]
    exact ⟨fun hx => ⟨hx.1, this.1 hx.2⟩, fun hx => ⟨hx.1, this.2 hx.2⟩⟩

theorem cons_bool {c : BitInfo 1} (h : c.Cons) : c = ⟨0#1, 0#1⟩ ∨ c = ⟨1#1, 1#1⟩ ∨ c = ⟨1#1, 0#1⟩ := by
  obtain ⟨z, o⟩ := c
  have h0 := h 0 (by decide)
  simp only at h0
  have : ∀ z o : BitVec 1, (o.getLsbD 0 = true → z.getLsbD 0 = true) →
    (z = 0#1 ∧ o = 0#1) ∨ (z = 1#1 ∧ o = 1#1) ∨ (z = 1#1 ∧ o = 0#1) := by decide
  rcases this z o h0 with ⟨rfl, rfl⟩ | ⟨rfl, rfl⟩ | ⟨rfl, rfl⟩ <;> simp

theorem mux_le {c c' : BitInfo 1} {f f' t t' : BitInfo w} (hc : c.Le c') (cc : c.Cons) (hf : f.Le f') (ht : t.Le t') :
    (BitInfo.mux c f t).Le (BitInfo.mux c' f' t') := by
  have cc' := cons_mono hc cc
  have h0 := hc 0 (by decide)
  rcases cons_bool cc with rfl | rfl | rfl <;> rcases cons_bool cc' with rfl | rfl | rfl
  · exact hf
  · exact absurd (h0.2 (by decide)) (by decide)
  · exact le_trans hf (le_join_left _ _)
  · exact absurd (h0.1 (by decide)) (by decide)
  · exact ht
  · exact le_trans ht (le_join_right _ _)
  · exact absurd (h0.1 (by decide)) (by decide)
  · exact absurd (h0.2 (by decide)) (by decide)
  · exact join_le hf ht

/-! ## Products -/

theorem z_zero_of_le {a b : BitInfo w} (h : a.Le b) (hb : b.z = 0#w) : a.z = 0#w := by
  apply getLsbD_ext
  intro i hi
  have := (h i hi).1
  rw [hb] at this
  cases h : a.z.getLsbD i <;> simp_all

theorem mulStep_le (hw : 0 < w) {acc acc' l l' r r' : BitInfo w} (ha : acc.Le acc') (hl : l.Le l') (hr : r.Le r') (ca : acc.Cons) (cl : l.Cons)
    (cr : r.Cons) : (BitInfo.mulStep 1#w acc l r).Le (BitInfo.mulStep 1#w acc' l' r') := by
  have h0 := hr 0 hw
  have c0 := cr 0 hw
  have hz : ∀ b : BitInfo w, (b.z &&& 1#w = 0#w) ↔ b.z.getLsbD 0 = false := fun b => bit0_ne hw
  have ho : ∀ b : BitInfo w, (BitInfo.andnot 1#w b.o = 0#w) ↔ b.o.getLsbD 0 = true := fun b => by
    unfold BitInfo.andnot
    rw [BitVec.and_comm, bit0_ne hw]
    simp [hw]
  have hadd := add_le hl ha cl ca
  unfold BitInfo.mulStep
  simp only [hz, ho]
  cases h1 : r.z.getLsbD 0 <;> cases h2 : r'.z.getLsbD 0 <;> cases h3 : r.o.getLsbD 0 <;> cases h4 : r'.o.getLsbD 0 <;> simp_all <;>
    first
      | exact ha
      | exact hadd
      | exact le_trans ha (le_join_left _ _)
      | exact le_trans hadd (le_join_right _ _)
      | exact join_le ha hadd

theorem mulStep_cons (hw : 0 < w) {acc l r : BitInfo w} (ca : acc.Cons) (cl : l.Cons) (cr : r.Cons) : (BitInfo.mulStep 1#w acc l r).Cons :=
  cons_of_desc (mulStep_sound hw (cons_z ca) (cons_z cl) (cons_z cr))

theorem shl_le {a b : BitInfo w} (h : a.Le b) (s : Nat) : (BitInfo.mk (a.z <<< s) (a.o <<< s)).Le ⟨b.z <<< s, b.o <<< s⟩ := by
  intro i hi
  simp only [BitVec.getLsbD_shiftLeft, hi, decide_true, Bool.true_and, Bool.and_eq_true, Bool.not_eq_true', decide_eq_false_iff_not]
  exact ⟨fun hh => ⟨hh.1, (h (i - s) (by omega)).1 hh.2⟩, fun hh => ⟨hh.1, (h (i - s) (by omega)).2 hh.2⟩⟩

theorem shr_le {a b : BitInfo w} (h : a.Le b) (s : Nat) : (BitInfo.mk (a.z >>> s) (a.o >>> s)).Le ⟨b.z >>> s, b.o >>> s⟩ := by
  intro i hi
  simp only [BitVec.getLsbD_ushiftRight]
  by_cases hs : s + i < w
  · exact h _ hs
  · simp only [BitVec.getLsbD_of_ge _ _ (show w ≤ s + i by omega)]
    exact ⟨id, id⟩

theorem sshr_le {a b : BitInfo w} (h : a.Le b) (s : Nat) : (BitInfo.mk (a.z.sshiftRight s) (a.o.sshiftRight s)).Le ⟨b.z.sshiftRight s, b.o.sshiftRight s⟩ := by
  intro i hi
  simp only [BitVec.getLsbD_sshiftRight, show ¬ w ≤ i by omega, decide_false, Bool.not_false, Bool.true_and]
  by_cases hs : s + i < w
  · simp only [hs, if_true]; exact h _ hs
  · simp only [hs, if_false, BitVec.msb_eq_getLsbD_last]; exact h _ (by omega)

theorem mulLoop_le (hw : 0 < w) : ∀ (fuel : Nat) {acc acc' l l' r r' : BitInfo w}, acc.Le acc' → l.Le l' → r.Le r' → acc.Cons → l.Cons → r.Cons →
    (BitInfo.mulLoop fuel acc l r).Le (BitInfo.mulLoop fuel acc' l' r') := by
  intro fuel
  induction fuel with
  | zero => intro acc acc' l l' r r' ha _ _ _ _ _; exact ha
  | succ f ih =>
    intro acc acc' l l' r r' ha hl hr ca cl cr
    have hstep := mulStep_le hw ha hl hr ca cl cr
    have cstep := mulStep_cons hw ca cl cr
    have hrec := ih hstep (shl_le hl 1) (shr_le hr 1) cstep (cons_of_desc (shl_describes (cons_z cl) 1)) (cons_of_desc (shr_describes (cons_z cr) 1))
    rw [BitInfo.mulLoop, BitInfo.mulLoop]
    by_cases h' : r'.z = 0#w
    · rw [if_pos h', if_pos (z_zero_of_le hr h')]; exact ha
    · rw [if_neg h']
      by_cases h : r.z = 0#w
      · rw [if_pos h]
        have e1 : BitInfo.mulStep 1#w acc l r = acc := by unfold BitInfo.mulStep; rw [h]; simp
        have e2 : ∀ f (l : BitInfo w) (o : BitVec w), BitInfo.mulLoop f acc l ⟨0#w, o⟩ = acc := by
          intro f; cases f <;> intros <;> simp [BitInfo.mulLoop]
        rw [e1, h] at hrec
        have : (0#w >>> 1 : BitVec w) = 0#w := by simp
        rw [this, e2] at hrec
        exact hrec
      · rw [if_neg h]; exact hrec

theorem mul_le (hw : 0 < w) {a a' b b' : BitInfo w} (ha : a.Le a') (hb : b.Le b') (ca : a.Cons) (cb : b.Cons) : (a.mul b).Le (a'.mul b') := by
  have c0 : (BitInfo.const 0#w).Cons := fun _ _ => id
  unfold BitInfo.mul
  by_cases h : a.z = a.o ∧ b.z = b.o
  · rw [if_pos h]
    exact const_le (mul_sound hw (desc_mono ha (cons_z ca)) (desc_mono hb (cons_z cb)))
  · have h' : ¬ (a'.z = a'.o ∧ b'.z = b'.o) := by
      rintro ⟨h1, h2⟩
      apply h
      have e : ∀ {x y : BitInfo w}, x.Le y → x.Cons → y.z = y.o → x.z = x.o := by
        intro x y hxy cx hy
        have hd := desc_mono hxy (cons_z cx)
        have hd' := desc_mono hxy (cons_o cx)
        unfold BitInfo.Desc at hd hd'
        rw [← hy] at hd hd'
        rw [describes_eq hd, describes_eq hd']
      exact ⟨e ha ca h1, e hb cb h2⟩
    rw [if_neg h, if_neg h']
    exact mulLoop_le hw w (le_refl _) ha hb c0 ca cb

/-! ## Shifts -/

theorem const_of_le {x y : BitInfo w} (hxy : x.Le y) (cx : x.Cons) (hy : y.z = y.o) : x.z = y.z ∧ x.o = y.z := by
  have hd := desc_mono hxy (cons_z cx)
  have hd' := desc_mono hxy (cons_o cx)
  unfold BitInfo.Desc at hd hd'
  rw [← hy] at hd hd'
  exact ⟨describes_eq hd, describes_eq hd'⟩

theorem amountPossible_mono {W M v : Nat} {r r' : BitInfo v} (h : r.Le r') (c : r.Cons) {s : BitVec v}
    (hp : BitInfo.amountPossible W M r s = true) : BitInfo.amountPossible W M r' s = true := by
  unfold BitInfo.amountPossible at hp ⊢
  rw [beq_iff_eq] at hp ⊢
  apply getLsbD_ext
  intro i hi
  have h1 := h i hi
  have h2 := c i hi
  have h3 : ((~~~(r.o ^^^ r.z) &&& BitInfo.rMask v W M) &&& (s ^^^ r.z)).getLsbD i = false := by rw [hp]; simp
  simp only [BitVec.getLsbD_and, BitVec.getLsbD_not, BitVec.getLsbD_xor, hi, decide_true, Bool.true_and] at h3 ⊢
  rw [BitVec.getLsbD_zero]
  generalize r.z.getLsbD i = p, r.o.getLsbD i = q, r'.z.getLsbD i = p', r'.o.getLsbD i = q', s.getLsbD i = t, (BitInfo.rMask v W M).getLsbD i = u at *
  revert h1 h2 h3 p q p' q' t u
  decide

theorem foldl_shift_le {v M : Nat} {sh : BitVec w → Nat → BitVec w} (hsh : ∀ {a b : BitInfo w}, a.Le b → ∀ s, (BitInfo.mk (sh a.z s) (sh a.o s)).Le ⟨sh b.z s, sh b.o s⟩)
    {l l' : BitInfo w} {r r' : BitInfo v} (hl : l.Le l') (hr : r.Le r') (cr : r.Cons) : ∀ (ss : List Nat) {acc acc' : BitInfo w}, acc.Le acc' →
    (ss.foldl (BitInfo.shiftStep sh M l r) acc).Le (ss.foldl (BitInfo.shiftStep sh M l' r') acc') := by
  intro ss
  induction ss with
  | nil => intro acc acc' h; exact h
  | cons s ss ih =>
    intro acc acc' h
    rw [List.foldl_cons, List.foldl_cons]
    apply ih
    unfold BitInfo.shiftStep
    by_cases hp : BitInfo.amountPossible w M r (BitVec.ofNat v s) = true
    · rw [if_pos hp, if_pos (amountPossible_mono hr cr hp)]
      exact join_le h (hsh hl _)
    · rw [if_neg hp]
      split
      · exact le_trans h (le_join_left _ _)
      · exact h

theorem le_foldl_shift {v M : Nat} {sh : BitVec w → Nat → BitVec w} {l : BitInfo w} {r : BitInfo v} : ∀ (ss : List Nat) (acc : BitInfo w),
    acc.Le (ss.foldl (BitInfo.shiftStep sh M l r) acc) := by
  intro ss
  induction ss with
  | nil => intro acc; exact le_refl _
  | cons s ss ih =>
    intro acc
    rw [List.foldl_cons]
    refine le_trans ?_ (ih _)
    unfold BitInfo.shiftStep
    split
    · exact le_join_left _ _
    · exact le_refl _

theorem and_zero_mono {v : Nat} {x y k : BitVec v} (h : ∀ i < v, x.getLsbD i = true → y.getLsbD i = true) (hy : y &&& k = 0#v) : x &&& k = 0#v := by
  apply getLsbD_ext
  intro i hi
  have h1 := h i hi
  have h2 : (y &&& k).getLsbD i = false := by rw [hy]; simp
  simp only [BitVec.getLsbD_and, BitVec.getLsbD_zero] at h2 ⊢
  generalize x.getLsbD i = p, y.getLsbD i = q, k.getLsbD i = r at *
  revert h1 h2 p q r
  decide

theorem shiftUnsure_le {v M : Nat} {sh : BitVec w → Nat → BitVec w} (hsh : ∀ {a b : BitInfo w}, a.Le b → ∀ s, (BitInfo.mk (sh a.z s) (sh a.o s)).Le ⟨sh b.z s, sh b.o s⟩)
    {l l' : BitInfo w} {r r' : BitInfo v} (hl : l.Le l') (hr : r.Le r') (cr : r.Cons) :
    (BitInfo.shiftUnsure sh M l r).Le (BitInfo.shiftUnsure sh M l' r') := by
  unfold BitInfo.shiftUnsure
  have hinit : (BitInfo.mk 0#w (if r.z &&& BitInfo.oversizeMask v w M = 0#v then BitVec.allOnes w else 0#w)).Le
      ⟨0#w, if r'.z &&& BitInfo.oversizeMask v w M = 0#v then BitVec.allOnes w else 0#w⟩ := by
    intro i hi
    refine ⟨id, ?_⟩
    simp only
    by_cases h' : r'.z &&& BitInfo.oversizeMask v w M = 0#v
    · rw [if_pos h', if_pos (and_zero_mono (fun i hi => (hr i hi).1) h')]; exact id
    · rw [if_neg h']; simp
  by_cases h : r.o &&& BitInfo.oversizeMask v w M = 0#v
  · rw [if_pos h, if_pos (and_zero_mono (fun i hi => (hr i hi).2) h)]
    exact foldl_shift_le hsh hl hr cr _ hinit
  · rw [if_neg h]
    by_cases h' : r'.o &&& BitInfo.oversizeMask v w M = 0#v
    · rw [if_pos h']; exact le_trans hinit (le_foldl_shift _ _)
    · rw [if_neg h']; exact hinit

/-- monotone, if a count that is not smaller than the size gives zero -/
theorem shift_le {v a M : Nat} (hw : w = 2 ^ a) (ha : a < v) (hM : ModuloOk M) {sh : BitVec w → Nat → BitVec w}
    (hsh : ∀ {z o x : BitVec w}, Describes z o x → ∀ s, Describes (sh z s) (sh o s) (sh x s))
    (hsh' : ∀ {a b : BitInfo w}, a.Le b → ∀ s, (BitInfo.mk (sh a.z s) (sh a.o s)).Le ⟨sh b.z s, sh b.o s⟩)
    {l l' : BitInfo w} {r r' : BitInfo v} (hl : l.Le l') (hr : r.Le r') (cl : l.Cons) (cr : r.Cons)
    (hbig : ∀ x s, w ≤ s → (∃ y, s = BitInfo.amt M y) → sh x s = 0#w) :
    (BitInfo.shift sh M l r).Le (BitInfo.shift sh M l' r') := by
  by_cases h : r.z = r.o
  · have h1 : ∀ x : BitVec w, l.Desc x → (BitInfo.shift sh M l' r').Desc (sh x (BitInfo.amt M r.z.toNat)) := fun x hx =>
      shift_sound hw ha hM hsh (desc_mono hl hx) (desc_mono hr (cons_z cr)) (fun hb => hbig _ _ hb ⟨_, rfl⟩)
    intro i hi
    unfold BitInfo.shift
    rw [if_pos h]
    exact ⟨(h1 _ (cons_z cl) i hi).1, (h1 _ (cons_o cl) i hi).2⟩
  · have h' : ¬ r'.z = r'.o := fun h' => by
      have := const_of_le hr cr h'
      exact h (this.1.trans this.2.symm)
    unfold BitInfo.shift
    rw [if_neg h, if_neg h']
    exact shiftUnsure_le hsh' hl hr cr

/-! ## Comparisons -/

theorem bitDiffers_mono {l l' r r' : BitInfo w} (hl : l.Le l') (hr : r.Le r') (h : BitInfo.bitDiffers l' r' = true) : BitInfo.bitDiffers l r = true := by
  unfold BitInfo.bitDiffers BitInfo.andnot at h ⊢
  simp only [Bool.or_eq_true, bne_iff_ne, ne_eq] at h ⊢
  have key : ∀ {x x' y y' : BitVec w}, (∀ i < w, x'.getLsbD i = true → x.getLsbD i = true) → (∀ i < w, y.getLsbD i = true → y'.getLsbD i = true) →
      x &&& ~~~y = 0#w → x' &&& ~~~y' = 0#w := by
    intro x x' y y' h1 h2 h3
    apply getLsbD_ext
    intro i hi
    have h1 := h1 i hi
    have h2 := h2 i hi
    have h4 : (x &&& ~~~y).getLsbD i = false := by rw [h3]; simp
    simp only [BitVec.getLsbD_and, BitVec.getLsbD_not, BitVec.getLsbD_zero, hi, decide_true, Bool.true_and] at h4 ⊢
    generalize x.getLsbD i = p, y.getLsbD i = q, x'.getLsbD i = p', y'.getLsbD i = q' at *
    revert h1 h2 h4 p q p' q'
    decide
  rcases h with h | h
  · exact Or.inl fun h' => h (key (fun i hi => (hr i hi).2) (fun i hi => (hl i hi).1) h')
  · exact Or.inr fun h' => h (key (fun i hi => (hl i hi).2) (fun i hi => (hr i hi).1) h')

theorem bothEqual_mono {l l' r r' : BitInfo w} (hl : l.Le l') (hr : r.Le r') (cl : l.Cons) (cr : r.Cons) (h : BitInfo.bothEqual l' r' = true) :
    BitInfo.bothEqual l r = true := by
  unfold BitInfo.bothEqual at h ⊢
  simp only [Bool.and_eq_true, beq_iff_eq] at h ⊢
  obtain ⟨⟨h1, h2⟩, h3⟩ := h
  have a := const_of_le hl cl h1
  have b := const_of_le hr cr h2
  rw [a.1, a.2, b.1, b.2]
  exact ⟨⟨rfl, rfl⟩, h3⟩

/-- a signed number is negative if its highest bit is set -/
theorem num_neg (hw : 0 < w) (signed : Bool) (x : BitVec w) : BitInfo.num signed x < 0 ↔ (signed = true ∧ x.getLsbD (w - 1) = true) := by
  unfold BitInfo.num
  cases signed
  · simp
  · simp only [if_true, true_and, ← BitVec.msb_eq_getLsbD_last]
    rw [BitVec.msb_eq_toInt]; simp

theorem someNegative_mono (hw : 0 < w) (signed : Bool) {l l' r r' : BitInfo w} (hl : l.Le l') (hr : r.Le r') (cl : l.Cons) (cr : r.Cons)
    (h : BitInfo.someNegative signed l r = true) : BitInfo.someNegative signed l' r' = true := by
  unfold BitInfo.someNegative at h ⊢
  simp only [Bool.or_eq_true, decide_eq_true_eq, num_neg hw] at h ⊢
  have i : w - 1 < w := by omega
  rcases h with ((h | h) | h) | h
  · exact Or.inl (Or.inl (Or.inl ⟨h.1, (hl _ i).1 h.2⟩))
  · exact Or.inl (Or.inl (Or.inl ⟨h.1, (hl _ i).1 (cl _ i h.2)⟩))
  · exact Or.inl (Or.inr ⟨h.1, (hr _ i).1 h.2⟩)
  · exact Or.inl (Or.inr ⟨h.1, (hr _ i).1 (cr _ i h.2)⟩)

theorem someNegative_false {signed : Bool} {l r : BitInfo w} (h : ¬ BitInfo.someNegative signed l r = true) :
    0 ≤ BitInfo.num signed l.z ∧ 0 ≤ BitInfo.num signed r.z := by
  unfold BitInfo.someNegative at h
  simp only [Bool.or_eq_true, decide_eq_true_eq, not_or, not_lt] at h
  exact ⟨h.1.1.1, h.1.2⟩

theorem cmpOrder_le (hw : 0 < w) (signed : Bool) {rel : Rel} {isLess : Bool}
    (hrel : (isLess = true ∧ (rel = Rel.lessEqual ∨ rel = Rel.less)) ∨ (isLess = false ∧ (rel = Rel.greaterEqual ∨ rel = Rel.greater)))
    {l l' r r' : BitInfo w} (hl : l.Le l') (hr : r.Le r') (cl : l.Cons) (cr : r.Cons) :
    (BitInfo.cmpOrder signed rel isLess l r).Le (BitInfo.cmpOrder signed rel isLess l' r') := by
  unfold BitInfo.cmpOrder
  by_cases hn' : BitInfo.someNegative signed l' r' = true
  · rw [if_pos hn']; exact le_unknown _
  have hn : ¬ BitInfo.someNegative signed l r = true := fun h => hn' (someNegative_mono hw signed hl hr cl cr h)
  rw [if_neg hn, if_neg hn']
  have p := someNegative_false hn'
  have q := someNegative_false hn
  have a1 := num_bounds (signed := signed) hw (desc_mono hl (cons_z cl)) p.1
  have a2 := num_bounds (signed := signed) hw (desc_mono hl (cons_o cl)) p.1
  have a3 := num_bounds (signed := signed) hw (desc_mono hr (cons_z cr)) p.2
  have a4 := num_bounds (signed := signed) hw (desc_mono hr (cons_o cr)) p.2
  have a5 := num_bounds (signed := signed) hw (cons_o cl) q.1
  have a6 := num_bounds (signed := signed) hw (cons_o cr) q.2
  have hc : ∀ (x y : BitVec w) (rel : Rel), (rel = Rel.lessEqual ∨ rel = Rel.less ∨ rel = Rel.greaterEqual ∨ rel = Rel.greater) →
      (BitInfo.tvCmp signed x y &&& rel = 0#4 ↔ ¬ (if rel = Rel.lessEqual then BitInfo.num signed x ≤ BitInfo.num signed y else
        if rel = Rel.less then BitInfo.num signed x < BitInfo.num signed y else
        if rel = Rel.greaterEqual then BitInfo.num signed y ≤ BitInfo.num signed x else BitInfo.num signed y < BitInfo.num signed x)) := by
    intro x y rel hrel
    unfold BitInfo.tvCmp
    generalize BitInfo.num signed x = p
    generalize BitInfo.num signed y = q
    by_cases e : p = q
    · subst e; rw [if_pos rfl]; rcases hrel with rfl | rfl | rfl | rfl <;> simp [Rel.lessEqual, Rel.less, Rel.greaterEqual, Rel.greater, Rel.equal]
    · rw [if_neg e]
      by_cases g : p < q
      · rw [if_pos g]
        rcases hrel with rfl | rfl | rfl | rfl <;> simp [Rel.lessEqual, Rel.less, Rel.greaterEqual, Rel.greater, Rel.equal] <;> omega
      · rw [if_neg g]
        rcases hrel with rfl | rfl | rfl | rfl <;> simp [Rel.lessEqual, Rel.less, Rel.greaterEqual, Rel.greater, Rel.equal] <;> omega
  have hu : ∀ b : BitInfo 1, b.Le (BitInfo.unknown 1) := le_unknown
  rcases hrel with ⟨rfl, hrel⟩ | ⟨rfl, hrel⟩
  · simp only [if_true]
    rcases hrel with rfl | rfl
    · simp only [ne_eq, hc _ _ Rel.lessEqual (Or.inl rfl), if_true, not_not]
      repeat' split
      all_goals first | exact le_refl _ | exact hu _ | (exfalso; omega)
    · simp only [ne_eq, hc _ _ Rel.less (Or.inr (Or.inl rfl)), show ¬ Rel.less = Rel.lessEqual by decide, if_true, if_false, not_not]
      repeat' split
      all_goals first | exact le_refl _ | exact hu _ | (exfalso; omega)
  · simp only [Bool.false_eq_true, if_false]
    rcases hrel with rfl | rfl
    · simp only [ne_eq, hc _ _ Rel.greaterEqual (Or.inr (Or.inr (Or.inl rfl))), show ¬ Rel.greaterEqual = Rel.lessEqual by decide,
        show ¬ Rel.greaterEqual = Rel.less by decide, if_true, if_false, not_not]
      repeat' split
      all_goals first | exact le_refl _ | exact hu _ | (exfalso; omega)
    · simp only [ne_eq, hc _ _ Rel.greater (Or.inr (Or.inr (Or.inr rfl))), show ¬ Rel.greater = Rel.lessEqual by decide,
        show ¬ Rel.greater = Rel.less by decide, show ¬ Rel.greater = Rel.greaterEqual by decide, if_true, if_false, not_not]
      repeat' split
      all_goals first | exact le_refl _ | exact hu _ | (exfalso; omega)

theorem cmp_le (hw : 0 < w) (signed : Bool) (rel : Rel) {l l' r r' : BitInfo w} (hl : l.Le l') (hr : r.Le r') (cl : l.Cons) (cr : r.Cons) :
    (BitInfo.cmp signed rel l r).Le (BitInfo.cmp signed rel l' r') := by
  have cl' := cons_mono hl cl
  have cr' := cons_mono hr cr
  have hno : ∀ {l r : BitInfo w}, l.Cons → r.Cons → BitInfo.bothEqual l r = true → ¬ BitInfo.bitDiffers l r = true := by
    intro l r cl cr h h'
    have h1 := bothEqual_sound (cons_z cl) (cons_z cr) h
    exact bitDiffers_sound (cons_z cl) (cons_z cr) h' h1
  unfold BitInfo.cmp
  split
  · by_cases hd' : BitInfo.bitDiffers l' r' = true
    · rw [if_pos hd', if_pos (bitDiffers_mono hl hr hd')]; exact le_refl _
    · rw [if_neg hd']
      by_cases he' : BitInfo.bothEqual l' r' = true
      · have he := bothEqual_mono hl hr cl cr he'
        rw [if_pos he', if_neg (hno cl cr he), if_pos he]; exact le_refl _
      · rw [if_neg he']; exact le_unknown _
  · split
    · by_cases hd' : BitInfo.bitDiffers l' r' = true
      · rw [if_pos hd', if_pos (bitDiffers_mono hl hr hd')]; exact le_refl _
      · rw [if_neg hd']
        by_cases he' : BitInfo.bothEqual l' r' = true
        · have he := bothEqual_mono hl hr cl cr he'
          rw [if_pos he', if_neg (hno cl cr he), if_pos he]; exact le_refl _
        · rw [if_neg he']; exact le_unknown _
    · split
      · next h => exact cmpOrder_le hw signed (Or.inl ⟨rfl, h⟩) hl hr cl cr
      · split
        · next h => exact cmpOrder_le hw signed (Or.inr ⟨rfl, h⟩) hl hr cl cr
        · exact le_unknown _

theorem known_cons (b : Bool) : (BitInfo.known b).Cons := fun _ _ => id

theorem cmpOrder_cons (signed : Bool) (rel : Rel) (isLess : Bool) (l r : BitInfo w) : (BitInfo.cmpOrder signed rel isLess l r).Cons := by
  unfold BitInfo.cmpOrder
  split
  · exact cons_unknown
  · split
    · split
      · exact known_cons _
      · split
        · exact known_cons _
        · exact cons_unknown
    · split
      · exact known_cons _
      · split
        · exact known_cons _
        · exact cons_unknown

theorem cmp_cons (signed : Bool) (rel : Rel) (l r : BitInfo w) : (BitInfo.cmp signed rel l r).Cons := by
  unfold BitInfo.cmp
  split
  · split
    · exact known_cons _
    · split
      · exact known_cons _
      · exact cons_unknown
  · split
    · split
      · exact known_cons _
      · split
        · exact known_cons _
        · exact cons_unknown
    · split
      · exact cmpOrder_cons _ _ _ _ _
      · split
        · exact cmpOrder_cons _ _ _ _ _
        · exact cons_unknown

/-! ## Expressions -/

/-- the states that occur: nothing is known to be possible, or no bit is contradictory -/
def BitInfo.Good (b : BitInfo w) : Prop := b = BitInfo.undefined w ∨ b.Cons

theorem strict1_good {v : Nat} (hw : 0 < w) {f : BitInfo w → BitInfo v} {a : BitInfo w} (h : a.Good) (hf : a.Cons → (f a).Cons) :
    (BitInfo.strict1 f a).Good := by
  unfold BitInfo.strict1
  rcases h with rfl | h
  · rw [if_pos (isUndefined_iff.2 rfl)]; exact Or.inl rfl
  · rw [not_undefined hw h]; exact Or.inr (hf h)

theorem strict1_le {v : Nat} (hw : 0 < w) {f : BitInfo w → BitInfo v} {a a' : BitInfo w} (hl : a.Le a') (h : a.Good)
    (hf : a.Cons → (f a).Le (f a')) : (BitInfo.strict1 f a).Le (BitInfo.strict1 f a') := by
  unfold BitInfo.strict1
  rcases h with rfl | h
  · rw [if_pos (isUndefined_iff.2 rfl)]; exact undefined_le _
  · rw [not_undefined hw h, not_undefined hw (cons_mono hl h)]; exact hf h

theorem strict2_good {u v : Nat} (hw : 0 < w) (hu : 0 < u) {f : BitInfo w → BitInfo u → BitInfo v} {a : BitInfo w} {b : BitInfo u} (h : a.Good) (h' : b.Good)
    (hf : a.Cons → b.Cons → (f a b).Cons) : (BitInfo.strict2 f a b).Good := by
  unfold BitInfo.strict2
  rcases h with rfl | h
  · rw [if_pos (by rw [isUndefined_iff.2 rfl]; rfl)]; exact Or.inl rfl
  · rcases h' with rfl | h'
    · rw [if_pos (by rw [isUndefined_iff.2 rfl, Bool.or_true])]; exact Or.inl rfl
    · rw [not_undefined hw h, not_undefined hu h']; exact Or.inr (hf h h')

theorem strict2_le {u v : Nat} (hw : 0 < w) (hu : 0 < u) {f : BitInfo w → BitInfo u → BitInfo v} {a a' : BitInfo w} {b b' : BitInfo u}
    (hl : a.Le a') (hl' : b.Le b') (h : a.Good) (h' : b.Good)
    (hf : a.Cons → b.Cons → (f a b).Le (f a' b')) : (BitInfo.strict2 f a b).Le (BitInfo.strict2 f a' b') := by
  unfold BitInfo.strict2
  rcases h with rfl | h
  · rw [if_pos (by rw [isUndefined_iff.2 rfl]; rfl)]; exact undefined_le _
  · rcases h' with rfl | h'
    · rw [if_pos (by rw [isUndefined_iff.2 rfl, Bool.or_true])]; exact undefined_le _
    · rw [not_undefined hw h, not_undefined hu h', not_undefined hw (cons_mono hl h), not_undefined hu (cons_mono hl' h')]; exact hf h h'

end Verif.Model

namespace Verif.Model.IrOpt
open Verif.Spec Verif.Props

/-- no Confirm node says that its value is equal to another one -/
def noConfirmEq : {m : IMode} → Expr m → Bool
  | _, .leaf _ _ => true
  | _, .const _ => true
  | _, .minus a => noConfirmEq a
  | _, .not a => noConfirmEq a
  | _, .add a b => noConfirmEq a && noConfirmEq b
  | _, .sub a b => noConfirmEq a && noConfirmEq b
  | _, .mul a b => noConfirmEq a && noConfirmEq b
  | _, .div a b => noConfirmEq a && noConfirmEq b
  | _, .mod a b => noConfirmEq a && noConfirmEq b
  | _, .and a b => noConfirmEq a && noConfirmEq b
  | _, .or a b => noConfirmEq a && noConfirmEq b
  | _, .eor a b => noConfirmEq a && noConfirmEq b
  | _, .shl a s => noConfirmEq a && noConfirmEq s
  | _, .shr a s => noConfirmEq a && noConfirmEq s
  | _, .shrs a s => noConfirmEq a && noConfirmEq s
  | _, .conv _ a => noConfirmEq a
  | _, .cmp _ a b => noConfirmEq a && noConfirmEq b
  | _, .mux s f t => noConfirmEq s && noConfirmEq f && noConfirmEq t
  | _, .confirm v r b => noConfirmEq v && noConfirmEq b && decide (r &&& ~~~Rel.unordered ≠ Rel.equal)

variable {m k : IMode}

theorem wf_valid {m : IMode} : (e : Expr m) → e.WellFormed → m.Valid
  | .leaf _ _, h => h
  | .const _, h => h
  | .minus a, h => wf_valid a h
  | .not a, h => wf_valid a h
  | .add a _, h => wf_valid a h.1
  | .sub a _, h => wf_valid a h.1
  | .mul a _, h => wf_valid a h.1
  | .div a _, h => wf_valid a h.1
  | .mod a _, h => wf_valid a h.1
  | .and a _, h => wf_valid a h.1
  | .or a _, h => wf_valid a h.1
  | .eor a _, h => wf_valid a h.1
  | .shl a _, h => wf_valid a h.1
  | .shr a _, h => wf_valid a h.1
  | .shrs a _, h => wf_valid a h.1
  | .conv _ _, h => h.2
  | .cmp _ _ _, _ => bmode_valid
  | .mux _ f _, h => wf_valid f h.2.1
  | .confirm v _ _, h => wf_valid v h.1

theorem wf_pos {e : Expr m} (h : e.WellFormed) : 0 < m.bits := (wf_valid e h).1

theorem shrs_big {a : Nat} (hm : 0 < m.bits) (hk : m.modulo = m.bits) (x : BitVec m.bits) (s : Nat) (h : m.bits ≤ s)
    (hs : ∃ y, s = BitInfo.amt m.modulo y) : x.sshiftRight s = 0#m.bits := by
  obtain ⟨y, rfl⟩ := hs
  unfold BitInfo.amt at h
  rw [hk, if_neg (by omega)] at h
  exact absurd (Nat.mod_lt y hm) (by omega)

/-- the state of an expression is not contradictory -/
theorem bitsWith_good {σ : (m : IMode) → Nat → BitInfo m.bits} (hσ : ∀ m i, (σ m i).Good) (e : Expr m) (he : e.WellFormed) (hr : regular e = true)
    (hc : noConfirmEq e = true) : (bitsWith σ e).Good := by
  induction e with
  | leaf m i => exact hσ _ _
  | const v => exact Or.inr fun _ _ => id
  | minus a ih => exact strict1_good (wf_pos (e := a) he) (ih he hr hc) fun h => cons_of_desc (minus_sound (cons_z h))
  | not a ih => exact strict1_good (wf_pos (e := a) he) (ih he hr hc) not_cons
  | add a b iha ihb =>
    simp only [regular, noConfirmEq, Bool.and_eq_true] at hr hc
    exact strict2_good (wf_pos he.1) (wf_pos he.1) (iha he.1 hr.1 hc.1) (ihb he.2 hr.2 hc.2) fun h h' => cons_of_desc (add_sound (cons_z h) (cons_z h'))
  | sub a b iha ihb =>
    simp only [regular, noConfirmEq, Bool.and_eq_true] at hr hc
    exact strict2_good (wf_pos he.1) (wf_pos he.1) (iha he.1 hr.1 hc.1) (ihb he.2 hr.2 hc.2) fun h h' => cons_of_desc (sub_sound (cons_z h) (cons_z h'))
  | mul a b iha ihb =>
    simp only [regular, noConfirmEq, Bool.and_eq_true] at hr hc
    exact strict2_good (wf_pos he.1) (wf_pos he.1) (iha he.1 hr.1 hc.1) (ihb he.2 hr.2 hc.2) fun h h' => cons_of_desc (mul_sound (wf_pos he.1) (cons_z h) (cons_z h'))
  | and a b iha ihb =>
    simp only [regular, noConfirmEq, Bool.and_eq_true] at hr hc
    exact strict2_good (wf_pos he.1) (wf_pos he.1) (iha he.1 hr.1 hc.1) (ihb he.2 hr.2 hc.2) fun h h' => cons_of_desc (and_sound (cons_z h) (cons_z h'))
  | or a b iha ihb =>
    simp only [regular, noConfirmEq, Bool.and_eq_true] at hr hc
    exact strict2_good (wf_pos he.1) (wf_pos he.1) (iha he.1 hr.1 hc.1) (ihb he.2 hr.2 hc.2) fun h h' => cons_of_desc (or_sound (cons_z h) (cons_z h'))
  | eor a b iha ihb =>
    simp only [regular, noConfirmEq, Bool.and_eq_true] at hr hc
    exact strict2_good (wf_pos he.1) (wf_pos he.1) (iha he.1 hr.1 hc.1) (ihb he.2 hr.2 hc.2) fun h h' => cons_of_desc (eor_sound (cons_z h) (cons_z h'))
  | div a b iha ihb =>
    simp only [regular, noConfirmEq, Bool.and_eq_true] at hr hc
    exact strict2_good (wf_pos he.1) (wf_pos he.1) (iha he.1 hr.1 hc.1) (ihb he.2 hr.2 hc.2) fun _ _ => cons_unknown
  | mod a b iha ihb =>
    simp only [regular, noConfirmEq, Bool.and_eq_true] at hr hc
    exact strict2_good (wf_pos he.1) (wf_pos he.1) (iha he.1 hr.1 hc.1) (ihb he.2 hr.2 hc.2) fun _ _ => cons_unknown
  | shl a s iha ihs =>
    simp only [regular, noConfirmEq, Bool.and_eq_true, decide_eq_true_eq] at hr hc
    obtain ⟨h1, h2, h3⟩ := he
    exact strict2_good (wf_pos h1) (wf_pos h2) (iha h1 hr.1.1 hc.1) (ihs h2 hr.1.2 hc.2) fun h h' => cons_of_desc (shift_sound hr.2 (log_lt hr.2 h3)
      (modulo_ok (wf_valid _ h1)) (sh := fun x s => x <<< s) (fun h s => shl_describes h s) (cons_z h) (cons_z h') (fun h => BitVec.shiftLeft_eq_zero h))
  | shr a s iha ihs =>
    simp only [regular, noConfirmEq, Bool.and_eq_true, decide_eq_true_eq] at hr hc
    obtain ⟨h1, h2, h3⟩ := he
    exact strict2_good (wf_pos h1) (wf_pos h2) (iha h1 hr.1.1 hc.1) (ihs h2 hr.1.2 hc.2) fun h h' => cons_of_desc (shift_sound hr.2 (log_lt hr.2 h3)
      (modulo_ok (wf_valid _ h1)) (sh := fun x s => x >>> s) (fun h s => shr_describes h s) (cons_z h) (cons_z h') (fun h => BitVec.ushiftRight_eq_zero h))
  | @shrs m k a s iha ihs =>
    simp only [regular, noConfirmEq, Bool.and_eq_true, Bool.or_eq_true, decide_eq_true_eq] at hr hc
    obtain ⟨h1, h2, h3⟩ := he
    obtain ⟨⟨⟨r1, r2⟩, hw⟩, hk⟩ := hr
    refine strict2_good (wf_pos h1) (wf_pos h2) (iha h1 r1 hc.1) (ihs h2 r2 hc.2) fun h h' => ?_
    rcases hk with hk | hk
    · rw [Option.isSome_iff_exists] at hk
      obtain ⟨c, hk⟩ := hk
      rw [asConst_iff] at hk
      subst hk
      unfold BitInfo.shrs BitInfo.shift
      rw [if_pos (show (bitsWith σ (Expr.const c)).z = (bitsWith σ (Expr.const c)).o from rfl)]
      exact cons_of_desc (sshr_describes (cons_z h) _)
    · exact cons_of_desc (shift_sound hw (log_lt hw h3) (modulo_ok (wf_valid _ h1)) (sh := fun x s => x.sshiftRight s) (fun h s => sshr_describes h s)
        (cons_z h) (cons_z h') (fun h => shrs_big (a := 0) (wf_pos h1) hk _ _ h ⟨_, rfl⟩))
  | conv m a ih => exact strict1_good (wf_pos he.1) (ih he.1 hr hc) fun h => cons_of_desc (conv_sound _ _ (wf_pos he.1) (cons_z h))
  | @cmp k r a b iha ihb =>
    simp only [regular, noConfirmEq, Bool.and_eq_true] at hr hc
    exact strict2_good (wf_pos he.1) (wf_pos he.1) (iha he.1 hr.1 hc.1) (ihb he.2 hr.2 hc.2) fun _ _ => cmp_cons _ _ _ _
  | mux s f t ihs ihf iht =>
    simp only [regular, noConfirmEq, Bool.and_eq_true] at hr hc
    have gs := ihs he.1 hr.1.1 hc.1.1
    have gf := ihf he.2.1 hr.1.2 hc.1.2
    have gt := iht he.2.2 hr.2 hc.2
    simp only [bitsWith]
    split
    · exact Or.inl rfl
    · next h =>
      simp only [Bool.or_eq_true, not_or, isUndefined_iff] at h
      exact Or.inr (cons_of_desc (mux_desc (cons_z (gs.resolve_left h.1.1)) (cons_z (gf.resolve_left h.1.2)) (cons_z (gt.resolve_left h.2))))
  | @confirm m v r b ihv ihb =>
    simp only [regular, noConfirmEq, Bool.and_eq_true, decide_eq_true_eq] at hr hc
    refine strict2_good (wf_pos he.1) (wf_pos he.1) (ihv he.1 hr.1 hc.1.1) (ihb he.2 hr.2 hc.1.2) fun h _ => ?_
    unfold BitInfo.confirm
    rw [if_neg hc.2]
    exact h

/-- if less is known of the leaves, not more is known of the expression -/
theorem bitsWith_le {σ σ' : (m : IMode) → Nat → BitInfo m.bits} (hl : ∀ m i, (σ m i).Le (σ' m i)) (hσ : ∀ m i, (σ m i).Good) (e : Expr m)
    (he : e.WellFormed) (hr : regular e = true) (hc : noConfirmEq e = true) : (bitsWith σ e).Le (bitsWith σ' e) := by
  induction e with
  | leaf m i => exact hl _ _
  | const v => exact le_refl _
  | minus a ih => exact strict1_le (wf_pos (e := a) he) (ih he hr hc) (bitsWith_good hσ a he hr hc) fun h => minus_le (ih he hr hc) h
  | not a ih => exact strict1_le (wf_pos (e := a) he) (ih he hr hc) (bitsWith_good hσ a he hr hc) fun h => not_le (ih he hr hc)
  | add a b iha ihb =>
    simp only [regular, noConfirmEq, Bool.and_eq_true] at hr hc
    have iha := iha he.1 hr.1 hc.1
    have ihb := ihb he.2 hr.2 hc.2
    exact strict2_le (wf_pos he.1) (wf_pos he.1) iha ihb (bitsWith_good hσ a he.1 hr.1 hc.1) (bitsWith_good hσ b he.2 hr.2 hc.2)
      fun h h' => add_le iha ihb h h'
  | sub a b iha ihb =>
    simp only [regular, noConfirmEq, Bool.and_eq_true] at hr hc
    have iha := iha he.1 hr.1 hc.1
    have ihb := ihb he.2 hr.2 hc.2
    exact strict2_le (wf_pos he.1) (wf_pos he.1) iha ihb (bitsWith_good hσ a he.1 hr.1 hc.1) (bitsWith_good hσ b he.2 hr.2 hc.2)
      fun h h' => sub_le iha ihb h h'
  | mul a b iha ihb =>
    simp only [regular, noConfirmEq, Bool.and_eq_true] at hr hc
    have iha := iha he.1 hr.1 hc.1
    have ihb := ihb he.2 hr.2 hc.2
    exact strict2_le (wf_pos he.1) (wf_pos he.1) iha ihb (bitsWith_good hσ a he.1 hr.1 hc.1) (bitsWith_good hσ b he.2 hr.2 hc.2)
      fun h h' => mul_le (wf_pos he.1) iha ihb h h'
  | and a b iha ihb =>
    simp only [regular, noConfirmEq, Bool.and_eq_true] at hr hc
    have iha := iha he.1 hr.1 hc.1
    have ihb := ihb he.2 hr.2 hc.2
    exact strict2_le (wf_pos he.1) (wf_pos he.1) iha ihb (bitsWith_good hσ a he.1 hr.1 hc.1) (bitsWith_good hσ b he.2 hr.2 hc.2)
      fun h h' => and_le iha ihb
  | or a b iha ihb =>
    simp only [regular, noConfirmEq, Bool.and_eq_true] at hr hc
    have iha := iha he.1 hr.1 hc.1
    have ihb := ihb he.2 hr.2 hc.2
    exact strict2_le (wf_pos he.1) (wf_pos he.1) iha ihb (bitsWith_good hσ a he.1 hr.1 hc.1) (bitsWith_good hσ b he.2 hr.2 hc.2)
      fun h h' => or_le iha ihb
  | eor a b iha ihb =>
    simp only [regular, noConfirmEq, Bool.and_eq_true] at hr hc
    have iha := iha he.1 hr.1 hc.1
    have ihb := ihb he.2 hr.2 hc.2
    exact strict2_le (wf_pos he.1) (wf_pos he.1) iha ihb (bitsWith_good hσ a he.1 hr.1 hc.1) (bitsWith_good hσ b he.2 hr.2 hc.2)
      fun h h' => eor_le iha ihb
  | div a b iha ihb =>
    simp only [regular, noConfirmEq, Bool.and_eq_true] at hr hc
    exact strict2_le (wf_pos he.1) (wf_pos he.1) (iha he.1 hr.1 hc.1) (ihb he.2 hr.2 hc.2) (bitsWith_good hσ a he.1 hr.1 hc.1)
      (bitsWith_good hσ b he.2 hr.2 hc.2) fun _ _ => le_refl _
  | mod a b iha ihb =>
    simp only [regular, noConfirmEq, Bool.and_eq_true] at hr hc
    exact strict2_le (wf_pos he.1) (wf_pos he.1) (iha he.1 hr.1 hc.1) (ihb he.2 hr.2 hc.2) (bitsWith_good hσ a he.1 hr.1 hc.1)
      (bitsWith_good hσ b he.2 hr.2 hc.2) fun _ _ => le_refl _
  | shl a s iha ihs =>
    simp only [regular, noConfirmEq, Bool.and_eq_true, decide_eq_true_eq] at hr hc
    obtain ⟨h1, h2, h3⟩ := he
    have iha := iha h1 hr.1.1 hc.1
    have ihs := ihs h2 hr.1.2 hc.2
    exact strict2_le (wf_pos h1) (wf_pos h2) iha ihs (bitsWith_good hσ a h1 hr.1.1 hc.1) (bitsWith_good hσ s h2 hr.1.2 hc.2) fun h h' =>
      shift_le hr.2 (log_lt hr.2 h3) (modulo_ok (wf_valid _ h1)) (sh := fun x s => x <<< s) (fun h s => shl_describes h s) (fun h s => shl_le h s)
        iha ihs h h' (fun _ _ h _ => BitVec.shiftLeft_eq_zero h)
  | shr a s iha ihs =>
    simp only [regular, noConfirmEq, Bool.and_eq_true, decide_eq_true_eq] at hr hc
    obtain ⟨h1, h2, h3⟩ := he
    have iha := iha h1 hr.1.1 hc.1
    have ihs := ihs h2 hr.1.2 hc.2
    exact strict2_le (wf_pos h1) (wf_pos h2) iha ihs (bitsWith_good hσ a h1 hr.1.1 hc.1) (bitsWith_good hσ s h2 hr.1.2 hc.2) fun h h' =>
      shift_le hr.2 (log_lt hr.2 h3) (modulo_ok (wf_valid _ h1)) (sh := fun x s => x >>> s) (fun h s => shr_describes h s) (fun h s => shr_le h s)
        iha ihs h h' (fun _ _ h _ => BitVec.ushiftRight_eq_zero h)
  | @shrs m k a s iha ihs =>
    simp only [regular, noConfirmEq, Bool.and_eq_true, Bool.or_eq_true, decide_eq_true_eq] at hr hc
    obtain ⟨h1, h2, h3⟩ := he
    obtain ⟨⟨⟨r1, r2⟩, hw⟩, hk⟩ := hr
    have iha := iha h1 r1 hc.1
    have ihs := ihs h2 r2 hc.2
    refine strict2_le (wf_pos h1) (wf_pos h2) iha ihs (bitsWith_good hσ a h1 r1 hc.1) (bitsWith_good hσ s h2 r2 hc.2) fun h h' => ?_
    rcases hk with hk | hk
    · rw [Option.isSome_iff_exists] at hk
      obtain ⟨c, hk⟩ := hk
      rw [asConst_iff] at hk
      subst hk
      unfold BitInfo.shrs BitInfo.shift
      rw [if_pos (show (bitsWith σ (Expr.const c)).z = (bitsWith σ (Expr.const c)).o from rfl),
        if_pos (show (bitsWith σ' (Expr.const c)).z = (bitsWith σ' (Expr.const c)).o from rfl)]
      exact sshr_le iha _
    · exact shift_le hw (log_lt hw h3) (modulo_ok (wf_valid _ h1)) (sh := fun x s => x.sshiftRight s) (fun h s => sshr_describes h s)
        (fun h s => sshr_le h s) iha ihs h h' (fun x s h hs => shrs_big (a := 0) (wf_pos h1) hk x s h hs)
  | conv m a ih => exact strict1_le (wf_pos he.1) (ih he.1 hr hc) (bitsWith_good hσ a he.1 hr hc) fun h => conv_le _ _ (wf_pos he.1) (ih he.1 hr hc)
  | @cmp k r a b iha ihb =>
    simp only [regular, noConfirmEq, Bool.and_eq_true] at hr hc
    have iha := iha he.1 hr.1 hc.1
    have ihb := ihb he.2 hr.2 hc.2
    exact strict2_le (wf_pos he.1) (wf_pos he.1) iha ihb (bitsWith_good hσ a he.1 hr.1 hc.1) (bitsWith_good hσ b he.2 hr.2 hc.2)
      fun h h' => cmp_le (wf_pos he.1) _ _ iha ihb h h'
  | mux s f t ihs ihf iht =>
    simp only [regular, noConfirmEq, Bool.and_eq_true] at hr hc
    have ihs := ihs he.1 hr.1.1 hc.1.1
    have ihf := ihf he.2.1 hr.1.2 hc.1.2
    have iht := iht he.2.2 hr.2 hc.2
    have gs := bitsWith_good hσ s he.1 hr.1.1 hc.1.1
    have gf := bitsWith_good hσ f he.2.1 hr.1.2 hc.1.2
    have gt := bitsWith_good hσ t he.2.2 hr.2 hc.2
    have hp := wf_pos he.2.1
    simp only [bitsWith]
    split
    · exact undefined_le _
    · next h =>
      simp only [Bool.or_eq_true, not_or, isUndefined_iff] at h
      have cs := gs.resolve_left h.1.1
      have cf := gf.resolve_left h.1.2
      have ct := gt.resolve_left h.2
      rw [not_undefined (by decide) (cons_mono ihs cs), not_undefined hp (cons_mono ihf cf), not_undefined hp (cons_mono iht ct)]
      exact mux_le ihs cs ihf iht
  | @confirm m v r b ihv ihb =>
    simp only [regular, noConfirmEq, Bool.and_eq_true, decide_eq_true_eq] at hr hc
    have ihv := ihv he.1 hr.1 hc.1.1
    refine strict2_le (wf_pos he.1) (wf_pos he.1) ihv (ihb he.2 hr.2 hc.1.2) (bitsWith_good hσ v he.1 hr.1 hc.1.1) (bitsWith_good hσ b he.2 hr.2 hc.1.2)
      fun h _ => ?_
    unfold BitInfo.confirm
    rw [if_neg hc.2, if_neg hc.2]
    exact ihv

end Verif.Model.IrOpt
