import Verif.Props.FltArith
/-!
# C45: comparison is the IEEE order
-/
namespace Verif.Props.Flt
open Verif.Model Verif.Model.Flt Verif.Spec.Flt

/-- how two data are related -/
def related (a b : Num) : Rel :=
  if a = .nan ∨ b = .nan then Rel.unordered
  else if a.lt b then Rel.less
  else if b.lt a then Rel.greater
  else Rel.equal

/-- exponent and mantissa of a finite value -/
structure Mag (d : Desc) (v : Fp) (q : Nat) : Prop where
  shape : (v.exp = 0 ∧ v.mant = 4 * q ∧ q < 2 ^ d.em) ∨
    ∃ t e : Nat, v.exp = e ∧ 1 ≤ e ∧ v.mant = 4 * t ∧ 2 ^ d.em ≤ t ∧ t < 2 ^ (d.em + 1) ∧ q = t * 2 ^ (e - 1)

theorem mag_of {d : Desc} {v : Fp} (hv : Wf d v) {n : Bool} {q : Nat} (hn : v.num = .fin n q) : Mag d v q := by
  obtain ⟨_, h | ⟨t, e, hf, rfl⟩⟩ := finite_cases hv hn
  · exact ⟨Or.inl ⟨h.2.2.1, by rw [h.2.2.2.1, h.2.1], by rw [h.2.1]; exact Nat.two_pow_pos _⟩⟩
  · rcases hf.kind with ⟨h1, h2, h3, h4, _⟩ | ⟨h1, h2, h3, h4⟩
    · exact ⟨Or.inr ⟨t, e, h2, hf.one_le, hf.mant, h3, h4, rfl⟩⟩
    · subst h3
      exact ⟨Or.inl ⟨h2, by rw [hf.mant]; simp, by simpa using h4⟩⟩

theorem mag_lt {d : Desc} {a b : Fp} {x y : Nat} (ha : Mag d a x) (hb : Mag d b y) (h : a.exp < b.exp) : x < y := by
  rcases ha.shape with ⟨h1, h2, h3⟩ | ⟨t, e, h1, h2, h3, h4, h5, rfl⟩ <;> rcases hb.shape with ⟨k1, k2, k3⟩ | ⟨t', e', k1, k2, k3, k4, k5, rfl⟩
  · omega
  · have : 2 ^ d.em * 1 ≤ t' * 2 ^ (e' - 1) := Nat.mul_le_mul k4 (Nat.two_pow_pos _)
    omega
  · omega
  · have c1 : t * 2 ^ (e - 1) < 2 ^ (d.em + 1) * 2 ^ (e - 1) := Nat.mul_lt_mul_of_pos_right h5 (Nat.two_pow_pos _)
    have c2 : 2 ^ d.em * 2 ^ (e' - 1) ≤ t' * 2 ^ (e' - 1) := Nat.mul_le_mul_right _ k4
    have c3 : 2 ^ (d.em + 1) * 2 ^ (e - 1) ≤ 2 ^ d.em * 2 ^ (e' - 1) := by
      rw [← Nat.pow_add, ← Nat.pow_add]; exact Nat.pow_le_pow_right (by omega) (by omega)
    omega

theorem mag_same {d : Desc} {a b : Fp} {x y : Nat} (ha : Mag d a x) (hb : Mag d b y) (h : a.exp = b.exp) :
    (a.mant < b.mant ↔ x < y) ∧ (a.mant = b.mant ↔ x = y) := by
  rcases ha.shape with ⟨h1, h2, h3⟩ | ⟨t, e, h1, h2, h3, h4, h5, rfl⟩ <;> rcases hb.shape with ⟨k1, k2, k3⟩ | ⟨t', e', k1, k2, k3, k4, k5, rfl⟩
  · omega
  · omega
  · omega
  · have : e = e' := by omega
    subst this
    have hp : 0 < 2 ^ (e - 1) := Nat.two_pow_pos _
    rw [h3, k3, Nat.mul_lt_mul_right hp, Nat.mul_left_inj (by omega)]
    omega

/-- the comparison of exponents and mantissas is the comparison of magnitudes -/
theorem cmp_mag {d : Desc} {a b : Fp} {x y : Nat} (ha : Mag d a x) (hb : Mag d b y) :
    (if (if a.exp < b.exp then Rel.less else if a.exp = b.exp then Rel.equal else Rel.greater) = Rel.equal then
      (if (a.mant : Int) < b.mant then Rel.less else if (a.mant : Int) = b.mant then Rel.equal else Rel.greater)
      else (if a.exp < b.exp then Rel.less else if a.exp = b.exp then Rel.equal else Rel.greater)) =
    if x < y then Rel.less else if y < x then Rel.greater else Rel.equal := by
  have d1 : Rel.less ≠ Rel.equal := by decide
  have d2 : Rel.greater ≠ Rel.equal := by decide
  rcases Int.lt_trichotomy a.exp b.exp with h | h | h
  · have := mag_lt ha hb h
    rw [if_pos h, if_neg d1, if_pos this]
  · obtain ⟨h1, h2⟩ := mag_same ha hb h
    rw [if_neg (show ¬ a.exp < b.exp by omega), if_pos h, if_pos rfl]
    by_cases c1 : x < y
    · rw [if_pos c1, if_pos (by have := h1.mpr c1; omega)]
    · rw [if_neg c1, if_neg (by intro h; exact c1 (h1.mp (by omega)))]
      by_cases c2 : x = y
      · rw [if_pos (by have := h2.mpr c2; omega), if_neg (by omega)]
      · rw [if_neg (by intro h; exact c2 (h2.mp (by omega))), if_pos (by omega)]
  · have := mag_lt hb ha h
    rw [if_neg (show ¬ a.exp < b.exp by omega), if_neg (show ¬ a.exp = b.exp by omega), if_neg d2, if_neg (by omega), if_pos this]

/-- C45 (values): `fc_comp` is unordered iff an operand is NaN, equal for numerically equal operands, among them the two zeros, and the
numeric order otherwise.  Target values are interned, so that the pointers are the same iff the values are. -/
theorem fcComp_spec {d : Desc} (hd : Fmt d) {a b : Fp} (ha : Wf d a) (hb : Wf d b) : fcComp (decide (a = b)) a b = related a.num b.num := by
  by_cases hab : a = b
  · subst hab
    unfold fcComp related
    rcases wf_cases hd ha with ⟨ca, na⟩ | ⟨ca, na, ea⟩ | ⟨ca, ca', ⟨qa, na, za⟩, ea⟩
    · simp [ca, na]
    · simp [ca, na, Num.lt]
    · simp [ca, na, Num.lt]
  · unfold fcComp
    rw [decide_eq_false hab]
    simp only [Bool.false_eq_true, if_false]
    rcases wf_cases hd ha with ⟨ca, na⟩ | ⟨ca, na, ea⟩ | ⟨ca, ca', ⟨qa, na, za⟩, ea⟩
    · simp [ca, na, related]
    · rcases wf_cases hd hb with ⟨cb, nb⟩ | ⟨cb, nb, eb⟩ | ⟨cb, cb', ⟨qb, nb, zb⟩, eb⟩
      · simp [cb, nb, related]
      · have hs : a.sign ≠ b.sign := by
          intro hs
          apply hab
          have h1 := ha.1; have h2 := hb.1
          have h3 := ha.2; have h4 := hb.2
          rw [ca] at h3; rw [cb] at h4
          obtain ⟨_, _, _, _, _⟩ := a; obtain ⟨_, _, _, _, _⟩ := b
          simp only at *
          simp only [Fp.mk.injEq]
          exact ⟨by rw [h1, h2], by rw [ca, cb], hs, by omega, by rw [h3.2, h4.2]⟩
        rw [na, nb]
        simp only [ca, cb, reduceCtorEq, or_self, and_self, if_false, related, Num.lt]
        revert hs
        cases a.sign <;> cases b.sign <;> simp
      · rw [na, nb]
        simp only [ca, cb, reduceCtorEq, or_self, false_and, if_false, related, Num.lt]
        cases a.sign <;> cases b.sign <;> simp <;> decide
    · rcases wf_cases hd hb with ⟨cb, nb⟩ | ⟨cb, nb, eb⟩ | ⟨cb, cb', ⟨qb, nb, zb⟩, eb⟩
      · simp [cb, nb, related]
      · rw [na, nb]
        simp only [ca, ca', cb, reduceCtorEq, or_self, and_false, if_false, if_true, related, Num.lt]
        cases a.sign <;> cases b.sign <;> simp <;> decide
      · have hma := mag_of ha na
        have hmb := mag_of hb nb
        rw [na, nb]
        simp only [ca, ca', cb, cb', reduceCtorEq, or_self, if_false, related, Num.lt, decide_eq_true_eq]
        by_cases hz : a.clss = .zero ∧ b.clss = .zero
        · rw [if_pos hz, za.mpr hz.1, zb.mpr hz.2]
          cases a.sign <;> cases b.sign <;> simp [signed]
        · rw [if_neg hz]
          have hz' : ¬ (qa = 0 ∧ qb = 0) := fun h => hz ⟨za.mp h.1, zb.mp h.2⟩
          by_cases hs : a.sign = b.sign
          · have hsn : ¬ (a.sign ≠ b.sign) := fun h => h hs
            rw [if_neg hsn, cmp_mag hma hmb, hs]
            cases b.sign with
            | false =>
              simp only [signed, Bool.false_eq_true, if_false, Int.ofNat_lt, Rel.false]
              split
              · decide
              · split <;> decide
            | true =>
              simp only [signed, if_true, Int.neg_lt_neg_iff, Int.ofNat_lt]
              by_cases c1 : qa < qb
              · rw [if_pos c1, if_neg (show ¬ qb < qa by omega), if_pos c1]; decide
              · by_cases c2 : qb < qa
                · rw [if_neg c1, if_pos c2, if_pos c2]; decide
                · rw [if_neg c1, if_neg c2, if_neg c2, if_neg c1]; decide
          · rw [if_pos hs]
            revert hs
            cases a.sign <;> cases b.sign <;> simp [signed]
            · rw [if_neg (by omega), if_pos (by omega)]
            · intro h; omega

/-- the relation is what the names say -/
theorem related_unordered {a b : Num} : related a b = Rel.unordered ↔ a = .nan ∨ b = .nan := by
  unfold related
  split
  · rename_i h; simp [h]
  · rename_i h
    simp only [h, iff_false]
    split
    · decide
    · split <;> decide

theorem related_equal_fin {s t : Bool} {x y : Nat} : related (.fin s x) (.fin t y) = Rel.equal ↔ signed s x = signed t y := by
  unfold related
  simp only [reduceCtorEq, or_self, if_false, Num.lt, decide_eq_true_eq]
  split
  · rename_i h
    constructor
    · intro hc; exact absurd hc (by decide)
    · intro hc; omega
  · split
    · rename_i h
      constructor
      · intro hc; exact absurd hc (by decide)
      · intro hc; omega
    · simp; omega

example : related (.fin false 0) (.fin true 0) = Rel.equal ∧ related (.inf true) (.fin true 5) = Rel.less ∧ related (.fin true 3) (.fin true 5) = Rel.greater := by decide

/-- C45 on bit patterns, in full for formats with fewer than 32 fraction bits -/
theorem comp_pattern {d : Desc} (hd : Fmt d) (h32 : d.em < 32) {p q : Nat} (hp : Canonical d p) (hq : Canonical d q) :
    fcComp (decide (fromPattern .nearest d p = fromPattern .nearest d q)) (fromPattern .nearest d p) (fromPattern .nearest d q) =
      related (decode d.expSize d.em d.one p) (decode d.expSize d.em d.one q) := by
  obtain ⟨w1, n1⟩ := fromPattern_num_partial .nearest hd hp (not_taken_small hd h32 hp)
  obtain ⟨w2, n2⟩ := fromPattern_num_partial .nearest hd hq (not_taken_small hd h32 hq)
  rw [fcComp_spec hd w1 w2, n1, n2]

/-- C45 on bit patterns for all formats.  Missing: patterns wrongly taken for zero. -/
theorem comp_pattern_partial {d : Desc} (hd : Fmt d) {p q : Nat} (hp : Canonical d p) (hq : Canonical d q) (hp' : ¬ TakenForZero d p) (hq' : ¬ TakenForZero d q) :
    fcComp (decide (fromPattern .nearest d p = fromPattern .nearest d q)) (fromPattern .nearest d p) (fromPattern .nearest d q) =
      related (decode d.expSize d.em d.one p) (decode d.expSize d.em d.one q) := by
  obtain ⟨w1, n1⟩ := fromPattern_num_partial .nearest hd hp hp'
  obtain ⟨w2, n2⟩ := fromPattern_num_partial .nearest hd hq hq'
  rw [fcComp_spec hd w1 w2, n1, n2]

/-- witness: the double precision numbers of 2^32 and 2^33 quanta are reported equal -/
theorem comp_wrong :
    fcComp (decide (fromPattern .nearest double 0x100000000 = fromPattern .nearest double 0x200000000))
      (fromPattern .nearest double 0x100000000) (fromPattern .nearest double 0x200000000) = Rel.equal ∧
    related (decode 11 52 false 0x100000000) (decode 11 52 false 0x200000000) = Rel.less := by decide +kernel

end Verif.Props.Flt
