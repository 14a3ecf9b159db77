import Verif.Lemmas.FltCalc
/-!
# Lemmas about the arithmetic of soft floats
-/
namespace Verif.Model.Flt
open Verif.Spec.Flt

/-- a finite non-zero value: significand `t`, exponent `e` -/
structure Fin (d : Desc) (v : Fp) (t e : Nat) : Prop where
  desc : v.desc = d
  one_le : 1 ≤ e
  mant : v.mant = 4 * t
  pos : 0 < t
  kind : (v.clss = .normal ∧ v.exp = e ∧ 2 ^ d.em ≤ t ∧ t < 2 ^ (d.em + 1) ∧ e + 1 < 2 ^ d.expSize) ∨ (v.clss = .subnormal ∧ v.exp = 0 ∧ e = 1 ∧ t < 2 ^ d.em)

theorem finite_cases {d : Desc} {v : Fp} (hv : Wf d v) {n : Bool} {q : Nat} (hn : v.num = .fin n q) :
    v.sign = n ∧ ((v.clss = .zero ∧ q = 0 ∧ v.exp = 0 ∧ v.mant = 0 ∧ v.desc = d) ∨ ∃ t e, Fin d v t e ∧ q = t * 2 ^ (e - 1)) := by
  obtain ⟨hd, hc⟩ := hv
  have hcast : ((2 ^ d.expSize : Nat) : Int) = 2 ^ d.expSize := by push_cast; rfl
  have p2 : 2 ^ (d.em + 2) = 4 * 2 ^ d.em := by rw [Nat.pow_add]; ring
  have p3 : 2 ^ (d.em + 3) = 8 * 2 ^ d.em := by rw [Nat.pow_add]; ring
  have p1 : 2 ^ (d.em + 1) = 2 * 2 ^ d.em := by rw [Nat.pow_add]; ring
  have pp := Nat.two_pow_pos d.em
  obtain ⟨c, hcl⟩ : ∃ c, v.clss = c := ⟨_, rfl⟩
  unfold Fp.num at hn
  rw [hcl] at hc hn
  cases c with
  | nan => simp at hn
  | inf => simp at hn
  | zero =>
    simp only [Num.fin.injEq] at hn
    exact ⟨hn.1, Or.inl ⟨hcl, hn.2.symm, hc.1, hc.2, hd⟩⟩
  | subnormal =>
    simp only [Num.fin.injEq] at hn
    obtain ⟨h1, h2, h3, h4⟩ := hc
    refine ⟨hn.1, Or.inr ⟨v.mant / 4, 1, ⟨hd, Nat.le_refl _, by omega, by omega, Or.inr ⟨hcl, h1, rfl, by omega⟩⟩, ?_⟩⟩
    simp [hn.2]
  | normal =>
    simp only [Num.fin.injEq] at hn
    obtain ⟨h1, h2, h3, h4, h5⟩ := hc
    refine ⟨hn.1, Or.inr ⟨v.mant / 4, v.exp.toNat, ⟨hd, by omega, by omega, by omega, Or.inl ⟨hcl, by omega, by omega, by omega, by omega⟩⟩, ?_⟩⟩
    rw [← hn.2]; congr 2; omega

theorem Fin.lt {d : Desc} {v : Fp} {t e : Nat} (h : Fin d v t e) : t < 2 ^ (d.em + 1) := by
  have p1 : 2 ^ (d.em + 1) = 2 * 2 ^ d.em := by rw [Nat.pow_add]; ring
  rcases h.kind with h | h <;> omega

theorem Fin.rep {d : Desc} {v : Fp} {t e : Nat} (h : Fin d v t e) : Rep d.em (t * 2 ^ (e - 1)) := ⟨t, e - 1, h.lt, rfl⟩

theorem Fin.limit {d : Desc} (hE : 2 ≤ d.expSize) {v : Fp} {t e : Nat} (h : Fin d v t e) : t * 2 ^ (e - 1) < limit d.expSize d.em := by
  have hE4 : 4 ≤ 2 ^ d.expSize := Nat.pow_le_pow_right (n := 2) (by omega) hE
  have h1 : t * 2 ^ (e - 1) < 2 ^ (d.em + 1) * 2 ^ (e - 1) := Nat.mul_lt_mul_of_pos_right h.lt (Nat.two_pow_pos _)
  have h2 : 2 ^ (d.em + 1) * 2 ^ (e - 1) ≤ Verif.Spec.Flt.limit d.expSize d.em := by
    unfold Verif.Spec.Flt.limit
    rw [← Nat.pow_add]
    apply Nat.pow_le_pow_right (by omega)
    rcases h.kind with ⟨_, _, _, _, h⟩ | ⟨_, _, h, _⟩ <;> omega
  omega

/-- finite non-zero values are well-formed -/
theorem Fin.num {d : Desc} {v : Fp} {t e : Nat} (h : Fin d v t e) : v.num = .fin v.sign (t * 2 ^ (e - 1)) := by
  unfold Fp.num
  rcases h.kind with ⟨h1, h2, _⟩ | ⟨h1, h2, h3, _⟩
  · rw [h1, h.mant, h2, Nat.mul_div_cancel_left _ (by omega)]
    simp only
    congr 2
    congr 1
    have := h.one_le
    omega
  · rw [h1, h.mant, h3, Nat.mul_div_cancel_left _ (by omega)]; simp

theorem Fin.wf {d : Desc} {v : Fp} {t e : Nat} (h : Fin d v t e) : Wf d v := by
  refine ⟨h.desc, ?_⟩
  have hcast : ((2 ^ d.expSize : Nat) : Int) = 2 ^ d.expSize := by push_cast; rfl
  have p2 : 2 ^ (d.em + 2) = 4 * 2 ^ d.em := by rw [Nat.pow_add]; ring
  have p3 : 2 ^ (d.em + 3) = 8 * 2 ^ d.em := by rw [Nat.pow_add]; ring
  have p1 : 2 ^ (d.em + 1) = 2 * 2 ^ d.em := by rw [Nat.pow_add]; ring
  have := h.mant
  have := h.one_le
  have := h.pos
  rcases h.kind with ⟨h1, h2, h3, h4, h5⟩ | ⟨h1, h2, h3, h4⟩
  · rw [h1]; simp only; refine ⟨by omega, by omega, by omega, by omega, by omega⟩
  · rw [h1]; simp only; refine ⟨by omega, by omega, by omega, by omega⟩

theorem Fin.withSign {d : Desc} {v : Fp} {t e : Nat} (h : Fin d v t e) (s : Bool) : Fin d { v with sign := s } t e :=
  ⟨h.desc, h.one_le, h.mant, h.pos, h.kind⟩

theorem num_withSign {d : Desc} {v : Fp} (hv : Wf d v) {n : Bool} {q : Nat} (hn : v.num = .fin n q) (s : Bool) :
    Wf d { v with sign := s } ∧ Fp.num { v with sign := s } = .fin s q := by
  refine ⟨⟨hv.1, hv.2⟩, ?_⟩
  unfold Fp.num at *
  simp only at *
  cases h : v.clss <;> rw [h] at hn <;> simp_all

theorem finite_rep {d : Desc} (hE : 2 ≤ d.expSize) {v : Fp} (hv : Wf d v) {n : Bool} {q : Nat} (hn : v.num = .fin n q) :
    Rep d.em q ∧ q < limit d.expSize d.em := by
  obtain ⟨_, h | ⟨t, e, h, rfl⟩⟩ := finite_cases hv hn
  · rw [h.2.1]; exact ⟨rep_zero _, Nat.two_pow_pos _⟩
  · exact ⟨h.rep, h.limit hE⟩

theorem finish_fin {E M r : Nat} {n : Bool} (h : r < limit E M) : finish E M n r = .fin n r := by
  unfold finish; rw [if_pos h]

/-- the result is the correctly rounded `S` -/
def IsRounded (d : Desc) (neg : Bool) (N D : Nat) (v : Fp) : Prop :=
  ∀ r, Nearest d.em N D r → ¬ ZeroBug d.em N D r → Wf d v ∧ v.num = finish d.expSize d.em neg r

theorem isRounded_normalize {d : Desc} (hE : 2 ≤ d.expSize) (hM1 : 1 ≤ d.em) (hM : d.em ≠ 7 ∧ d.em ≠ 8) {N D m : Nat} {exp : Int} {sticky : Bool}
    (hD : 0 < D) (h : Stands N D m exp sticky) (pre : sticky = true → 2 ^ (d.em + 1) ≤ m ∨ exp ≤ 1) (sign : Bool) :
    IsRounded d sign N D (normalize .nearest d sign exp m sticky).1 := by
  intro r hr hz
  obtain ⟨r', hr', hh⟩ := normalize_spec hE hM1 hM hD h pre sign
  have := nearest_unique hr hr' hD
  subst this
  exact hh hz

theorem isRounded_exact {d : Desc} (hE : 2 ≤ d.expSize) {v : Fp} (hv : Wf d v) {n s : Bool} {q N D : Nat} (hn : v.num = .fin n q) (hD : 0 < D)
    (hq : N = q * D) : IsRounded d s N D { v with sign := s } := by
  intro r hr _
  obtain ⟨h1, h2⟩ := finite_rep hE hv hn
  have := nearest_exact hr h1 hq hD
  subst this
  obtain ⟨w, x⟩ := num_withSign hv hn s
  exact ⟨w, by rw [x, finish_fin h2]⟩

theorem natAbs_same (n : Bool) (x y : Nat) : (signed n x + signed n y).natAbs = x + y := by
  unfold signed; cases n <;> simp <;> omega

theorem natAbs_diff {na nb : Bool} (h : na ≠ nb) (x y : Nat) : (signed na x + signed nb y).natAbs = dist x y := by
  unfold signed dist; cases na <;> cases nb <;> simp at h ⊢ <;> omega

theorem sumSign_same (n : Bool) {x y : Nat} : sumSign n n (signed n x + signed n y) = n := by
  unfold sumSign signed
  by_cases h : x + y = 0
  · rw [show x = 0 by omega, show y = 0 by omega]; cases n <;> simp
  · cases n
    · simp only [Bool.false_eq_true, if_false]; rw [if_neg (by omega)]; simp; omega
    · simp only [if_true]; rw [if_neg (by omega)]; simp; omega

theorem sumSign_gt {na nb : Bool} (h : na ≠ nb) {x y : Nat} (hlt : y < x) : sumSign na nb (signed na x + signed nb y) = na := by
  unfold sumSign signed
  cases na <;> cases nb <;> simp only [ne_eq, not_true_eq_false] at h <;> simp only [Bool.false_eq_true, if_false, if_true] <;>
    rw [if_neg (by omega)] <;> simp <;> omega

theorem sumSign_lt {na nb : Bool} (h : na ≠ nb) {x y : Nat} (hlt : x < y) : sumSign na nb (signed na x + signed nb y) = nb := by
  unfold sumSign signed
  cases na <;> cases nb <;> simp only [ne_eq, not_true_eq_false] at h <;> simp only [Bool.false_eq_true, if_false, if_true] <;>
    rw [if_neg (by omega)] <;> simp <;> omega

theorem sumSign_eq {na nb : Bool} (h : na ≠ nb) {x : Nat} : sumSign na nb (signed na x + signed nb x) = false := by
  unfold sumSign signed
  cases na <;> cases nb <;> simp at h ⊢

theorem natAbs_zero_left (na nb : Bool) (x : Nat) : (signed na 0 + signed nb x).natAbs = x := by
  unfold signed; cases na <;> cases nb <;> simp only [Bool.false_eq_true, if_false, if_true] <;> omega

theorem natAbs_zero_right (na nb : Bool) (x : Nat) : (signed na x + signed nb 0).natAbs = x := by
  unfold signed; cases na <;> cases nb <;> simp only [Bool.false_eq_true, if_false, if_true] <;> omega

theorem xor_true {na nb : Bool} (h : na ≠ nb) : (na ^^ nb) = true := by cases na <;> cases nb <;> simp_all

theorem xor_false (na : Bool) : (na ^^ na) = false := by cases na <;> rfl

theorem fadd_rounded {d : Desc} (hE : 2 ≤ d.expSize) (hM1 : 1 ≤ d.em) (hM : d.em ≠ 7 ∧ d.em ≠ 8) {a b : Fp} (ha : Wf d a) (hb : Wf d b)
    {na nb : Bool} {qa qb : Nat} (hna : a.num = .fin na qa) (hnb : b.num = .fin nb qb) (hexp : b.exp ≤ a.exp) :
    IsRounded d (sumSign na nb (signed na qa + signed nb qb)) (signed na qa + signed nb qb).natAbs 1 (fadd .nearest a b).1 := by
  obtain ⟨hsa, hca⟩ := finite_cases ha hna
  obtain ⟨hsb, hcb⟩ := finite_cases hb hnb
  have hinfa : a.clss ≠ .inf := by
    intro h; unfold Fp.num at hna; rw [h] at hna; simp at hna
  have hinfb : b.clss ≠ .inf := by
    intro h; unfold Fp.num at hnb; rw [h] at hnb; simp at hnb
  have hnz : ∀ {x : Fp} {t e : Nat}, Fin d x t e → x.clss ≠ .zero := by
    intro x t e hx h
    rcases hx.kind with hk | hk <;> rw [hk.1] at h <;> cases h
  unfold fadd
  simp only [hsa, hsb, hinfa, hinfb, and_false, or_false, if_false]
  rcases hca with ⟨ca, qa0, ea0, ma0, -⟩ | ⟨ta, ea, fa, rfl⟩
  · -- a is zero
    subst qa0
    simp only [ca, if_true]
    have key : ∀ s, s = sumSign na nb (signed na 0 + signed nb qb) → IsRounded d (sumSign na nb (signed na 0 + signed nb qb)) (signed na 0 + signed nb qb).natAbs 1 { b with sign := s } := by
      intro s hs
      rw [← hs]
      exact isRounded_exact hE hb hnb (by omega) (by rw [natAbs_zero_left, Nat.mul_one])
    apply key
    rcases hcb with ⟨cb, qb0, eb0, mb0, -⟩ | ⟨tb, eb, fb, rfl⟩
    · subst qb0
      rw [ea0, eb0, ma0, mb0]
      cases na <;> cases nb <;> rfl
    · have hb0 : b.exp = 0 := by
        rcases fb.kind with h | h
        · have := fb.one_le; omega
        · exact h.2.1
      have hpos : 0 < tb * 2 ^ (eb - 1) := Nat.mul_pos fb.pos (Nat.two_pow_pos _)
      have hmb : 0 < b.mant := by rw [fb.mant]; have := fb.pos; omega
      rw [ea0, hb0, ma0]
      by_cases hsame : na = nb
      · subst hsame
        rw [sumSign_same, xor_false]; simp
      · rw [sumSign_lt hsame hpos, xor_true hsame, if_pos ⟨rfl, rfl⟩, if_neg (by omega), if_neg (by omega)]
  · simp only [hnz fa, if_false]
    rcases hcb with ⟨cb, qb0, eb0, mb0, -⟩ | ⟨tb, eb, fb, rfl⟩
    · -- b is zero
      subst qb0
      simp only [cb, if_true]
      have key : ∀ s, s = sumSign na nb (signed na (ta * 2 ^ (ea - 1)) + signed nb 0) → IsRounded d (sumSign na nb (signed na (ta * 2 ^ (ea - 1)) + signed nb 0)) (signed na (ta * 2 ^ (ea - 1)) + signed nb 0).natAbs 1 { a with sign := s } := by
        intro s hs
        rw [← hs]
        exact isRounded_exact hE ha hna (by omega) (by rw [natAbs_zero_right, Nat.mul_one])
      apply key
      have hpos : 0 < ta * 2 ^ (ea - 1) := Nat.mul_pos fa.pos (Nat.two_pow_pos _)
      have hma : 0 < a.mant := by rw [fa.mant]; have := fa.pos; omega
      rw [mb0]
      by_cases hsame : na = nb
      · subst hsame
        rw [sumSign_same, xor_false]; simp
      · rw [sumSign_gt hsame hpos, if_pos hma, ite_self]
    · -- both are not zero
      simp only [hnz fb, if_false]
      have pp := Nat.two_pow_pos d.em
      have p1 : 2 ^ (d.em + 1) = 2 * 2 ^ d.em := by rw [Nat.pow_add]; ring
      -- the exponents
      have hea1 := fa.one_le
      have heb1 := fb.one_le
      obtain ⟨k, hk⟩ : ∃ k, ea = eb + k := by
        refine ⟨ea - eb, ?_⟩
        rcases fa.kind with h | h <;> rcases fb.kind with h' | h' <;> omega
      have hdiff : (if b.clss = .subnormal ∧ a.clss ≠ .subnormal then a.exp - b.exp - 1 else a.exp - b.exp).toNat = k := by
        rcases fa.kind with ⟨h1, h2, _⟩ | ⟨h1, h2, h3, _⟩ <;> rcases fb.kind with ⟨h1', h2', _⟩ | ⟨h1', h2', h3', _⟩
        · rw [h1, h1']; simp; omega
        · rw [h1, h1']; simp; omega
        · omega
        · rw [h1, h1']; simp; omega
      rw [hdiff]
      -- the sign
      have hbig : a.exp ≠ b.exp → tb < ta * 2 ^ k := by
        intro hne
        rcases fa.kind with ⟨h1, h2, h3, _⟩ | ⟨h1, h2, h3, _⟩
        · rcases fb.kind with ⟨h1', h2', h3', h4', _⟩ | ⟨h1', h2', h3', h4'⟩
          · have hk1 : 1 ≤ k := by omega
            have : ta * 2 ^ 1 ≤ ta * 2 ^ k := Nat.mul_le_mul_left _ (Nat.pow_le_pow_right (by omega) hk1)
            omega
          · have : ta * 1 ≤ ta * 2 ^ k := Nat.mul_le_mul_left _ (Nat.two_pow_pos _)
            omega
        · rcases fb.kind with h' | h' <;> omega
      have hu := Nat.two_pow_pos (eb - 1)
      have hqa : ta * 2 ^ (ea - 1) = ta * 2 ^ k * 2 ^ (eb - 1) := by
        rw [Nat.mul_assoc, ← Nat.pow_add]; congr 2; omega
      have hk0 : a.exp = b.exp → k = 0 := by
        intro h
        rcases fa.kind with h1 | h1 <;> rcases fb.kind with h2 | h2 <;> omega
      have hsign : (if (na ^^ nb) = true ∧ a.exp - b.exp = 0 then
          if b.mant < a.mant then na else if a.mant = b.mant then decide (Rnd.nearest = Rnd.negative) else nb else na)
          = sumSign na nb (signed na (ta * 2 ^ (ea - 1)) + signed nb (tb * 2 ^ (eb - 1))) := by
        have hqb : 0 < tb * 2 ^ (eb - 1) := Nat.mul_pos fb.pos hu
        have hqapos : 0 < ta * 2 ^ (ea - 1) := Nat.mul_pos fa.pos (Nat.two_pow_pos _)
        by_cases hsame : na = nb
        · subst hsame
          rw [sumSign_same, xor_false]; simp
        · have hx : (na ^^ nb) = true := xor_true hsame
          by_cases he : a.exp = b.exp
          · have hk0 := hk0 he
            subst hk0
            rw [if_pos ⟨hx, by omega⟩, fa.mant, fb.mant]
            rw [hqa, Nat.pow_zero, Nat.mul_one]
            rcases Nat.lt_trichotomy ta tb with h | h | h
            · have hm : ta * 2 ^ (eb - 1) < tb * 2 ^ (eb - 1) := Nat.mul_lt_mul_of_pos_right h hu
              rw [if_neg (by omega), if_neg (by omega), sumSign_lt hsame hm]
            · subst h
              rw [if_neg (by omega), if_pos rfl, sumSign_eq hsame]; rfl
            · have hm : tb * 2 ^ (eb - 1) < ta * 2 ^ (eb - 1) := Nat.mul_lt_mul_of_pos_right h hu
              rw [if_pos (by omega), sumSign_gt hsame hm]
          · rw [if_neg (by omega)]
            have hm : tb * 2 ^ (eb - 1) < ta * 2 ^ (ea - 1) := by
              rw [hqa]; exact Nat.mul_lt_mul_of_pos_right (hbig he) hu
            rw [sumSign_gt hsame hm]
      rw [hsign, fa.mant, fb.mant, fa.desc]
      -- the mantissa
      generalize sumSign na nb (signed na (ta * 2 ^ (ea - 1)) + signed nb (tb * 2 ^ (eb - 1))) = sg
      have hdm := Nat.div_add_mod (4 * tb) (2 ^ k)
      have hml := Nat.mod_lt (4 * tb) (Nat.two_pow_pos k)
      have hkpos := Nat.two_pow_pos k
      have htb := fb.lt
      have hpa : 0 < ta * 2 ^ (ea - 1) := Nat.mul_pos fa.pos (Nat.two_pow_pos _)
      have hpb : 0 < tb * 2 ^ (eb - 1) := Nat.mul_pos fb.pos (Nat.two_pow_pos _)
      by_cases hboth : a.clss = .subnormal ∧ b.clss = .subnormal
      · -- two subnormal numbers
        rw [if_pos hboth]
        have hk0 : k = 0 := by
          rcases fa.kind with ⟨h1, _⟩ | ⟨h1, h2, h3, _⟩
          · rw [h1] at hboth; simp at hboth
          · rcases fb.kind with ⟨h1', _⟩ | ⟨h1', h2', h3', _⟩
            · rw [h1'] at hboth; simp at hboth
            · omega
        have hexpa : a.exp = 0 := by
          rcases fa.kind with ⟨h1, _⟩ | ⟨h1, h2, h3, _⟩
          · rw [h1] at hboth; simp at hboth
          · exact h2
        have hea : ea = 1 := by
          rcases fa.kind with ⟨h1, _⟩ | ⟨h1, h2, h3, _⟩
          · rw [h1] at hboth; simp at hboth
          · exact h3
        have heb : eb = 1 := by omega
        subst hk0 hea heb
        rw [hexpa]
        simp only [Nat.pow_zero, Nat.mod_one, ne_eq, not_true_eq_false, decide_false, Bool.false_and, Bool.false_eq_true, if_false, Nat.div_one, Nat.sub_self, Nat.mul_one]
        apply isRounded_normalize hE hM1 hM (by omega) _ (by simp)
        unfold Stands
        simp only [Bool.false_eq_true, if_false]
        rw [show ((0 : Int) - 1).toNat = 0 from rfl, show ((1 : Int) - 0).toNat = 1 from rfl]
        by_cases hsame : na = nb
        · subst hsame
          rw [natAbs_same, xor_false, if_neg (by decide)]; omega
        · rw [natAbs_diff hsame]
          rw [xor_true hsame, if_pos rfl]
          unfold dist
          split <;> omega
      · rw [if_neg hboth]
        have hexpa : a.exp = ea := by
          rcases fa.kind with ⟨h1, h2, _⟩ | ⟨h1, h2, h3, _⟩
          · exact h2
          · rcases fb.kind with ⟨h1', h2', _⟩ | ⟨h1', _⟩
            · omega
            · exact absurd ⟨h1, h1'⟩ hboth
        have hta : 2 ^ d.em ≤ ta := by
          rcases fa.kind with ⟨h1, h2, h3, _⟩ | ⟨h1, h2, h3, _⟩
          · exact h3
          · rcases fb.kind with ⟨h1', h2', _⟩ | ⟨h1', _⟩
            · omega
            · exact absurd ⟨h1, h1'⟩ hboth
        rw [hexpa]
        have e1 : ((ea : Int) - 1).toNat = (eb - 1) + k := by omega
        have e2 : (1 - (ea : Int)).toNat = 0 := by omega
        have hsm : 4 * tb % 2 ^ k ≠ 0 → 3 ≤ k := by
          intro h
          by_contra hc
          have : k = 0 ∨ k = 1 ∨ k = 2 := by omega
          apply h
          rcases this with rfl | rfl | rfl
          · rw [Nat.pow_zero, Nat.mod_one]
          · rw [Nat.pow_one]; omega
          · rw [show (2 : Nat) ^ 2 = 4 from rfl]; omega
        by_cases hsame : na = nb
        · -- addition
          subst hsame
          rw [natAbs_same]
          simp only [Bool.xor_self, Bool.and_false, Bool.false_eq_true, if_false]
          apply isRounded_normalize hE hM1 hM (by omega)
          · rw [hqa]
            unfold Stands
            rw [e1, e2, Nat.pow_add, Nat.pow_zero, Nat.mul_one, Nat.mul_one, Nat.mul_one]
            generalize 4 * tb / 2 ^ k = q at *
            generalize 4 * tb % 2 ^ k = ρ at *
            generalize 2 ^ k = K at *
            generalize 2 ^ (eb - 1) = u at *
            have x1 : (4 * ta + q) * (u * K) = 4 * (ta * K * u) + K * q * u := by ring
            have x2 : 4 * (ta * K * u + tb * u) = 4 * (ta * K * u) + K * q * u + ρ * u := by
              have : 4 * tb * u = (K * q + ρ) * u := by rw [hdm]
              linarith
            have x3 : (4 * ta + q + 1) * (u * K) = 4 * (ta * K * u) + K * q * u + K * u := by ring
            split
            · rename_i h
              simp at h
              have y1 : 0 < ρ * u := Nat.mul_pos (by omega) hu
              have y2 : ρ * u < K * u := Nat.mul_lt_mul_of_pos_right hml hu
              omega
            · rename_i h
              simp at h
              subst h
              omega
          · intro h
            left
            exact Nat.le_trans (by omega : 2 ^ (d.em + 1) ≤ 4 * ta) (Nat.le_add_right _ _)
        · -- subtraction
          have hx : (na ^^ nb) = true := by cases na <;> cases nb <;> simp_all
          rw [natAbs_diff hsame]
          simp only [hx, Bool.and_true, if_true]
          have hstands : ∀ m : Nat, (if 4 * tb % 2 ^ k ≠ 0 then m + (4 * tb / 2 ^ k + 1) = 4 * ta else m + 4 * tb / 2 ^ k = 4 * ta ∨ (k = 0 ∧ m + 4 * ta = 4 * tb)) →
              Stands (dist (ta * 2 ^ (ea - 1)) (tb * 2 ^ (eb - 1))) 1 m (ea : Int) (decide (4 * tb % 2 ^ k ≠ 0)) := by
            intro m hm
            rw [hqa]
            unfold Stands
            rw [e1, e2, Nat.pow_add, Nat.pow_zero, Nat.mul_one, Nat.mul_one, Nat.mul_one]
            by_cases hρ : 4 * tb % 2 ^ k = 0
            · simp only [hρ, ne_eq, not_true_eq_false, decide_false, Bool.false_eq_true, if_false] at hm ⊢
              rw [hρ] at hdm
              rcases hm with hm | ⟨hk0, hm⟩
              · generalize 4 * tb / 2 ^ k = q at *
                generalize 2 ^ k = K at *
                generalize 2 ^ (eb - 1) = u at *
                have x1 : (m + q) * (u * K) = 4 * ta * (u * K) := by rw [hm]
                have x2 : 4 * (tb * u) = q * (u * K) := by
                  have : 4 * tb * u = (K * q + 0) * u := by rw [hdm]
                  linarith
                have x3 : 4 * (ta * K * u) = m * (u * K) + q * (u * K) := by linarith
                unfold dist; omega
              · subst hk0
                rw [Nat.pow_zero]
                generalize 2 ^ (eb - 1) = u at *
                have x1 : (m + 4 * ta) * u = 4 * tb * u := by rw [hm]
                have x2 : 4 * (tb * u) = m * u + 4 * (ta * u) := by linarith
                rw [Nat.mul_one, Nat.mul_one]
                unfold dist; omega
            · simp only [hρ, ne_eq, not_false_eq_true, decide_true, if_true] at hm ⊢
              generalize 4 * tb / 2 ^ k = q at *
              generalize 4 * tb % 2 ^ k = ρ at *
              generalize 2 ^ k = K at *
              generalize 2 ^ (eb - 1) = u at *
              have x1 : (m + (q + 1)) * (u * K) = 4 * ta * (u * K) := by rw [hm]
              have x2 : 4 * (tb * u) = K * q * u + ρ * u := by
                have : 4 * tb * u = (K * q + ρ) * u := by rw [hdm]
                linarith
              have x3 : 4 * (ta * K * u) = m * (u * K) + K * q * u + K * u := by linarith
              have y1 : 0 < ρ * u := Nat.mul_pos (by omega) hu
              have y2 : ρ * u < K * u := Nat.mul_lt_mul_of_pos_right hml hu
              have x4 : (m + 1) * (u * K) = m * (u * K) + K * u := by ring
              unfold dist; omega
          by_cases hρ : 4 * tb % 2 ^ k = 0
          · simp only [hρ, ne_eq, not_true_eq_false, decide_false, Bool.false_eq_true, if_false] at hstands ⊢
            apply isRounded_normalize hE hM1 hM (by omega) _ (by simp)
            apply hstands
            split
            · rename_i hlt
              right
              have hk0 : k = 0 := by
                by_contra hc
                obtain ⟨j, rfl⟩ : ∃ j, k = j + 1 := ⟨k - 1, by omega⟩
                have : 4 * tb / 2 ^ (j + 1) ≤ 4 * tb / 2 ^ 1 := Nat.div_le_div_left (Nat.pow_le_pow_right (by omega) (by omega)) (by omega)
                omega
              subst hk0
              rw [Nat.pow_zero, Nat.div_one] at *
              exact ⟨rfl, by omega⟩
            · left; omega
          · have hk3 := hsm hρ
            obtain ⟨j, rfl⟩ : ∃ j, k = 3 + j := ⟨k - 3, by omega⟩
            have hq8 : 4 * tb / 2 ^ (3 + j) ≤ 4 * tb / 2 ^ 3 := Nat.div_le_div_left (Nat.pow_le_pow_right (by omega) (by omega)) (by omega)
            have hq9 : 4 * tb / 2 ^ 3 < 2 ^ d.em := by omega
            simp only [hρ, ne_eq, not_false_eq_true, decide_true, if_true] at hstands ⊢
            rw [if_neg (by omega)]
            apply isRounded_normalize hE hM1 hM (by omega)
            · apply hstands; omega
            · intro _; left; omega

/-- a quotient stands for the exact ratio -/
theorem stands_div {N D x y : Nat} {exp : Int} (hy : 0 < y) (hD : 0 < D)
    (h : 4 * N * 2 ^ (1 - exp).toNat * y = x * D * 2 ^ (exp - 1).toNat) : Stands N D (x / y) exp (decide (x % y ≠ 0)) := by
  have hW : 0 < D * 2 ^ (exp - 1).toNat := Nat.mul_pos hD (Nat.two_pow_pos _)
  have hdm := Nat.div_add_mod x y
  have hml := Nat.mod_lt x hy
  unfold Stands
  rw [Nat.mul_assoc (x / y), Nat.mul_assoc (x / y + 1)]
  rw [Nat.mul_assoc x] at h
  generalize D * 2 ^ (exp - 1).toNat = W at *
  generalize 4 * N * 2 ^ (1 - exp).toNat = P at *
  generalize x / y = m at *
  generalize x % y = ρ at *
  subst hdm
  have e1 : (y * m + ρ) * W = m * W * y + ρ * W := by ring
  have e2 : (m + 1) * W * y = m * W * y + y * W := by ring
  split
  · rename_i hne
    simp at hne
    have y1 : 0 < ρ * W := Nat.mul_pos (by omega) hW
    have y2 : ρ * W < y * W := Nat.mul_lt_mul_of_pos_right hml hW
    exact ⟨Nat.lt_of_mul_lt_mul_right (a := y) (by omega), Nat.lt_of_mul_lt_mul_right (a := y) (by omega)⟩
  · rename_i hne
    simp at hne
    subst hne
    apply Nat.eq_of_mul_eq_mul_right hy
    rw [Nat.zero_mul] at e1
    omega

theorem class_of_fin {d : Desc} {v : Fp} {t e : Nat} (h : Fin d v t e) : v.clss ≠ .zero ∧ v.clss ≠ .inf ∧ v.clss ≠ .nan := by
  rcases h.kind with ⟨h, _⟩ | ⟨h, _⟩ <;> rw [h] <;> simp

theorem not_nan {v : Fp} {n : Bool} {q : Nat} (hn : v.num = .fin n q) : v.clss ≠ .nan ∧ v.clss ≠ .inf := by
  constructor <;> (intro h; unfold Fp.num at hn; rw [h] at hn; simp at hn)

theorem handleNan_none {a b : Fp} (ha : a.clss ≠ .nan) (hb : b.clss ≠ .nan) : handleNan a b = none := by
  unfold handleNan; rw [if_neg ha, if_neg hb]

/-- the cases in which `fc_mul` is right -/
def MulOk (M B qa qb : Nat) : Prop :=
  (0 < qa ∧ qa < 2 ^ M → 2 ^ M ≤ qb → qb < 2 ^ (M + B)) ∧ (0 < qb ∧ qb < 2 ^ M → 2 ^ M ≤ qa → qa < 2 ^ (M + B)) ∧
  (0 < qa ∧ qa < 2 ^ M → 0 < qb ∧ qb < 2 ^ M → M + 2 ≤ B)

theorem Fin.sub_iff {d : Desc} {v : Fp} {t e : Nat} (h : Fin d v t e) : t * 2 ^ (e - 1) < 2 ^ d.em ↔ v.clss = .subnormal := by
  have := h.one_le
  rcases h.kind with ⟨h1, h2, h3, h4, h5⟩ | ⟨h1, h2, h3, h4⟩
  · rw [h1]
    have : 2 ^ d.em * 1 ≤ t * 2 ^ (e - 1) := Nat.mul_le_mul h3 (Nat.two_pow_pos _)
    simp; omega
  · rw [h1, h3]; simp; exact h4

theorem mul_rounded {d : Desc} (hE : 2 ≤ d.expSize) (hM1 : 1 ≤ d.em) (hM : d.em ≠ 7 ∧ d.em ≠ 8) {a b : Fp} (ha : Wf d a) (hb : Wf d b)
    {na nb : Bool} {qa qb : Nat} (hna : a.num = .fin na qa) (hnb : b.num = .fin nb qb) (hok : MulOk d.em d.bias qa qb) :
    IsRounded d (na ^^ nb) (qa * qb) (2 ^ (d.bias + d.em - 1)) (fcMul .nearest a b).1 := by
  obtain ⟨hsa, hca⟩ := finite_cases ha hna
  obtain ⟨hsb, hcb⟩ := finite_cases hb hnb
  obtain ⟨an, ai⟩ := not_nan hna
  obtain ⟨bn, bi⟩ := not_nan hnb
  have hDpos : 0 < 2 ^ (d.bias + d.em - 1) := Nat.two_pow_pos _
  unfold fcMul
  rw [handleNan_none an bn]
  simp only [hsa, hsb, ai, bi, if_false]
  rcases hca with ⟨ca, qa0, ea0, ma0, -⟩ | ⟨ta, ea, fa, rfl⟩
  · have hz := isRounded_exact (s := na ^^ nb) (N := qa * qb) hE ha hna hDpos (by rw [qa0]; simp)
    rw [if_pos ca]; exact hz
  · simp only [(class_of_fin fa).1, if_false]
    rcases hcb with ⟨cb, qb0, eb0, mb0, -⟩ | ⟨tb, eb, fb, rfl⟩
    · have hz := isRounded_exact (s := na ^^ nb) (N := ta * 2 ^ (ea - 1) * qb) hE hb hnb hDpos (by rw [qb0]; simp)
      rw [if_pos cb]; exact hz
    · simp only [(class_of_fin fb).1, if_false]
      have hea1 := fa.one_le
      have heb1 := fb.one_le
      have p1 : 2 ^ (d.em + 1) = 2 * 2 ^ d.em := by rw [Nat.pow_add]; ring
      have p2 : 2 ^ (d.em + 2) = 4 * 2 ^ d.em := by rw [Nat.pow_add]; ring
      have hbias : 1 ≤ d.bias := by
        unfold Desc.bias
        have : 2 ^ 1 ≤ 2 ^ (d.expSize - 1) := Nat.pow_le_pow_right (by omega) (by omega)
        omega
      have hpa : 0 < ta * 2 ^ (ea - 1) := Nat.mul_pos fa.pos (Nat.two_pow_pos _)
      have hpb : 0 < tb * 2 ^ (eb - 1) := Nat.mul_pos fb.pos (Nat.two_pow_pos _)
      by_cases hboth : a.clss = .subnormal ∧ b.clss = .subnormal
      · -- both subnormal: rounds to zero
        have hax : a.exp = 0 ∧ ea = 1 ∧ ta < 2 ^ d.em := by
          rcases fa.kind with ⟨h1, _⟩ | ⟨_, h2, h3, h4⟩
          · rw [h1] at hboth; simp at hboth
          · exact ⟨h2, h3, h4⟩
        have hbx : b.exp = 0 ∧ eb = 1 ∧ tb < 2 ^ d.em := by
          rcases fb.kind with ⟨h1, _⟩ | ⟨_, h2, h3, h4⟩
          · rw [h1] at hboth; simp at hboth
          · exact ⟨h2, h3, h4⟩
        have hsm := hok.2.2 ⟨hpa, fa.sub_iff.mpr hboth.1⟩ ⟨hpb, fb.sub_iff.mpr hboth.2⟩
        obtain ⟨hax1, rfl, hax3⟩ := hax
        obtain ⟨hbx1, rfl, hbx3⟩ := hbx
        simp only [hboth.1, hboth.2, decide_true, Bool.xor_self, Bool.false_eq_true, if_false, hax1, hbx1, fa.mant, fb.mant, fa.desc, Nat.sub_self, Nat.pow_zero, Nat.mul_one]
        have hprod : ta * tb < 2 ^ d.em * 2 ^ d.em := Nat.mul_lt_mul_of_lt_of_le hax3 (Nat.le_of_lt hbx3) (by omega)
        rw [← Nat.pow_add] at hprod
        have hst : Stands (ta * tb) (2 ^ (d.bias + d.em + 1)) (4 * ta * (4 * tb) / 2 ^ (d.em + 2)) (0 + 0 - (d.bias : Int)) (decide (4 * ta * (4 * tb) % 2 ^ (d.em + 2) ≠ 0)) := by
          apply stands_div (Nat.two_pow_pos _) (Nat.two_pow_pos _)
          rw [show (1 - (0 + 0 - (d.bias : Int))).toNat = d.bias + 1 by omega, show ((0 + 0 - (d.bias : Int)) - 1).toNat = 0 by omega]
          rw [show d.bias + d.em + 1 = (d.bias + 1) + d.em by omega, Nat.pow_add 2 (d.bias + 1), Nat.pow_add 2 d.em 2, Nat.pow_zero]
          ring
        obtain ⟨r', hr', hh⟩ := normalize_spec hE hM1 hM (Nat.two_pow_pos _) hst (fun _ => Or.inr (by omega)) (na ^^ nb)
        have hr0 : r' = 0 := by
          apply nearest_tiny (Nat.two_pow_pos _) hr'
          have : 2 * 2 ^ (d.em + d.em) ≤ 2 ^ (d.bias + d.em + 1) := by
            rw [Nat.mul_comm, ← Nat.pow_succ]; exact Nat.pow_le_pow_right (by omega) (by omega)
          omega
        subst hr0
        intro r hr _
        have : r = 0 := by
          apply nearest_tiny hDpos hr
          have : 2 * 2 ^ (d.em + d.em) ≤ 2 ^ (d.bias + d.em - 1) := by
            rw [Nat.mul_comm, ← Nat.pow_succ]; exact Nat.pow_le_pow_right (by omega) (by omega)
          omega
        subst this
        exact hh (fun h => h.2.1 rfl)
      · have hexp : (if (decide (a.clss = Cls.subnormal) ^^ decide (b.clss = Cls.subnormal)) = true then a.exp + b.exp - (a.desc.bias : Int) + 1 else a.exp + b.exp - (a.desc.bias : Int)) = (ea : Int) + eb - d.bias := by
          rw [fa.desc]
          rcases fa.kind with ⟨h1, h2, _⟩ | ⟨h1, h2, h3, _⟩ <;> rcases fb.kind with ⟨h1', h2', _⟩ | ⟨h1', h2', h3', _⟩
          · rw [h1, h1', h2, h2']; simp
          · rw [h1, h1', h2, h2', h3']; simp; omega
          · rw [h1, h1', h2, h2', h3]; simp; omega
          · exact absurd ⟨h1, h1'⟩ hboth
        rw [hexp, fa.mant, fb.mant, fa.desc]
        apply isRounded_normalize hE hM1 hM hDpos
        · apply stands_div (Nat.two_pow_pos _) hDpos
          have hpow : 2 ^ (ea - 1) * 2 ^ (eb - 1) * 2 ^ (1 - ((ea : Int) + eb - d.bias)).toNat * 2 ^ (d.em + 2) = 4 * (2 ^ (d.bias + d.em - 1) * 2 ^ (((ea : Int) + eb - d.bias) - 1).toNat) := by
            rw [show (4 : Nat) = 2 ^ 2 from rfl, ← Nat.pow_add, ← Nat.pow_add, ← Nat.pow_add, ← Nat.pow_add, ← Nat.pow_add]
            congr 1; omega
          calc 4 * (ta * 2 ^ (ea - 1) * (tb * 2 ^ (eb - 1))) * 2 ^ (1 - ((ea : Int) + eb - d.bias)).toNat * 2 ^ (d.em + 2)
              = 4 * ta * tb * (2 ^ (ea - 1) * 2 ^ (eb - 1) * 2 ^ (1 - ((ea : Int) + eb - d.bias)).toNat * 2 ^ (d.em + 2)) := by ring
            _ = _ := by rw [hpow]; ring
        · intro _
          have hbnd : ∀ {v : Fp} {t e : Nat}, Fin d v t e → v.clss ≠ .subnormal → t * 2 ^ (e - 1) < 2 ^ (d.em + d.bias) → e ≤ d.bias := by
            intro v t e hv hn hlt
            rcases hv.kind with ⟨h1, h2, h3, _⟩ | ⟨h1, _⟩
            · have : 2 ^ d.em * 2 ^ (e - 1) ≤ t * 2 ^ (e - 1) := Nat.mul_le_mul_right _ h3
              rw [← Nat.pow_add] at this
              have := (Nat.pow_lt_pow_iff_right (a := 2) (by omega)).mp (Nat.lt_of_le_of_lt this hlt)
              omega
            · exact absurd h1 hn
          by_cases hsa' : a.clss = .subnormal
          · right
            have hb' : b.clss ≠ .subnormal := fun h => hboth ⟨hsa', h⟩
            have h1 := hok.1 ⟨hpa, fa.sub_iff.mpr hsa'⟩ (Nat.le_of_not_lt (fun h => hb' (fb.sub_iff.mp h)))
            have h2 := hbnd fb hb' h1
            have : ea = 1 := by
              rcases fa.kind with ⟨h1, _⟩ | ⟨_, _, h3, _⟩
              · rw [h1] at hsa'; cases hsa'
              · exact h3
            omega
          · by_cases hsb' : b.clss = .subnormal
            · right
              have h1 := hok.2.1 ⟨hpb, fb.sub_iff.mpr hsb'⟩ (Nat.le_of_not_lt (fun h => hsa' (fa.sub_iff.mp h)))
              have h2 := hbnd fa hsa' h1
              have : eb = 1 := by
                rcases fb.kind with ⟨h1, _⟩ | ⟨_, _, h3, _⟩
                · rw [h1] at hsb'; cases hsb'
                · exact h3
              omega
            · left
              have h1 : 2 ^ d.em ≤ ta := by
                rcases fa.kind with h | h
                · exact h.2.2.1
                · exact absurd h.1 hsa'
              have h2 : 2 ^ d.em ≤ tb := by
                rcases fb.kind with h | h
                · exact h.2.2.1
                · exact absurd h.1 hsb'
              rw [Nat.le_div_iff_mul_le (Nat.two_pow_pos _)]
              have : 2 ^ d.em * 2 ^ d.em ≤ ta * tb := Nat.mul_le_mul h1 h2
              have e1 : 2 ^ (d.em + 1) * 2 ^ (d.em + 2) = 8 * (2 ^ d.em * 2 ^ d.em) := by rw [p1, p2]; ring
              have e2 : 4 * ta * (4 * tb) = 16 * (ta * tb) := by ring
              omega

/-- the cases in which `fc_div` is right -/
def DivOk (M B qa qb : Nat) : Prop :=
  (2 ^ M ≤ qb ∧ (2 ^ M ≤ qa ∨ 2 ^ (M + B) ≤ 4 * qb)) ∨ (qa < 2 ^ M ∧ qb < 2 ^ M ∧ qb ≤ 4 * qa)

theorem div_rounded {d : Desc} (hE : 2 ≤ d.expSize) (hM1 : 1 ≤ d.em) (hM : d.em ≠ 7 ∧ d.em ≠ 8) {a b : Fp} (ha : Wf d a) (hb : Wf d b)
    {na nb : Bool} {qa qb : Nat} (hna : a.num = .fin na qa) (hnb : b.num = .fin nb qb) (hqb : qb ≠ 0) (hok : qa = 0 ∨ DivOk d.em d.bias qa qb) :
    IsRounded d (na ^^ nb) (qa * 2 ^ (d.bias + d.em - 1)) qb (fcDiv .nearest a b).1 := by
  obtain ⟨hsa, hca⟩ := finite_cases ha hna
  obtain ⟨hsb, hcb⟩ := finite_cases hb hnb
  obtain ⟨an, ai⟩ := not_nan hna
  obtain ⟨bn, bi⟩ := not_nan hnb
  unfold fcDiv
  rw [handleNan_none an bn]
  simp only [hsa, hsb, ai, bi, if_false]
  rcases hcb with ⟨cb, qb0, eb0, mb0, -⟩ | ⟨tb, eb, fb, rfl⟩
  · exact absurd qb0 hqb
  · simp only [(class_of_fin fb).1, if_false]
    have hDpos : 0 < tb * 2 ^ (eb - 1) := Nat.mul_pos fb.pos (Nat.two_pow_pos _)
    rcases hca with ⟨ca, qa0, ea0, ma0, -⟩ | ⟨ta, ea, fa, rfl⟩
    · have hz := isRounded_exact (s := na ^^ nb) (N := qa * 2 ^ (d.bias + d.em - 1)) hE ha hna hDpos (by rw [qa0]; simp)
      rw [if_pos ca]; exact hz
    · simp only [(class_of_fin fa).1, if_false]
      have hea1 := fa.one_le
      have heb1 := fb.one_le
      have p1 : 2 ^ (d.em + 1) = 2 * 2 ^ d.em := by rw [Nat.pow_add]; ring
      have p2 : 2 ^ (d.em + 2) = 4 * 2 ^ d.em := by rw [Nat.pow_add]; ring
      have hb2 : 2 ≤ 2 ^ (d.expSize - 1) := by
        have : 2 ^ 1 ≤ 2 ^ (d.expSize - 1) := Nat.pow_le_pow_right (by omega) (by omega)
        omega
      have hbe : ((2 ^ (d.expSize - 1) : Nat) : Int) = d.bias + 1 := by unfold Desc.bias; omega
      have hbias : 1 ≤ d.bias := by omega
      have hqa0 : ta * 2 ^ (ea - 1) ≠ 0 := Nat.pos_iff_ne_zero.mp (Nat.mul_pos fa.pos (Nat.two_pow_pos _))
      have hok := hok.resolve_left hqa0
      have hexp : (if (decide (a.clss = Cls.subnormal) ^^ decide (b.clss = Cls.subnormal)) = true
          then a.exp - b.exp + ((2 ^ (a.desc.expSize - 1) : Nat) : Int) - 2 + 1 else a.exp - b.exp + ((2 ^ (a.desc.expSize - 1) : Nat) : Int) - 2) = (ea : Int) - eb + d.bias - 1 := by
        rw [fa.desc, hbe]
        rcases fa.kind with ⟨h1, h2, _⟩ | ⟨h1, h2, h3, _⟩ <;> rcases fb.kind with ⟨h1', h2', _⟩ | ⟨h1', h2', h3', _⟩
        · rw [h1, h1', h2, h2']; simp; omega
        · have x1 := fb.sub_iff.mpr h1'
          have x2 := fa.sub_iff
          rw [h1] at x2
          simp at x2
          rcases hok with h | h <;> omega
        · rw [h1, h1', h2, h2', h3]; simp; omega
        · rw [h1, h1', h2, h2', h3, h3']; simp; omega
      rw [hexp, fa.mant, fb.mant, fa.desc]
      have hy : 4 * tb / 2 = 2 * tb := by omega
      rw [hy]
      have htb := fb.pos
      apply isRounded_normalize hE hM1 hM hDpos
      · apply stands_div (by omega) hDpos
        have hpow : 2 ^ (ea - 1) * 2 ^ (d.bias + d.em - 1) * 2 ^ (1 - ((ea : Int) - eb + d.bias - 1)).toNat * 2 = 2 ^ (d.em + 2) * 2 ^ (eb - 1) * 2 ^ (((ea : Int) - eb + d.bias - 1) - 1).toNat := by
          rw [← Nat.pow_add, ← Nat.pow_add, ← Nat.pow_add, ← Nat.pow_add, ← Nat.pow_succ]
          congr 1; omega
        calc 4 * (ta * 2 ^ (ea - 1) * 2 ^ (d.bias + d.em - 1)) * 2 ^ (1 - ((ea : Int) - eb + d.bias - 1)).toNat * (2 * tb)
            = 4 * ta * tb * (2 ^ (ea - 1) * 2 ^ (d.bias + d.em - 1) * 2 ^ (1 - ((ea : Int) - eb + d.bias - 1)).toNat * 2) := by ring
          _ = _ := by rw [hpow]; ring
      · intro _
        have hla := fa.lt
        have hlb := fb.lt
        have hm : tb ≤ 4 * ta → 2 ^ (d.em + 1) ≤ 4 * ta * 2 ^ (d.em + 2) / (2 * tb) := by
          intro h
          rw [Nat.le_div_iff_mul_le (by omega), p1, p2]
          have : 2 ^ d.em * tb ≤ 2 ^ d.em * (4 * ta) := Nat.mul_le_mul_left _ h
          have e1 : 2 * 2 ^ d.em * (2 * tb) = 4 * (2 ^ d.em * tb) := by ring
          have e2 : 4 * ta * (4 * 2 ^ d.em) = 4 * (2 ^ d.em * (4 * ta)) := by ring
          omega
        rcases hok with ⟨h1, h2⟩ | ⟨h1, h2, h3⟩
        · rcases fb.kind with ⟨kb1, kb2, kb3, kb4, _⟩ | ⟨kb1, _, kb3, kb4⟩
          · rcases fa.kind with ⟨ka1, ka2, ka3, ka4, _⟩ | ⟨ka1, _, ka3, ka4⟩
            · left; apply hm; omega
            · right
              have hq : ta * 2 ^ (ea - 1) < 2 ^ d.em := fa.sub_iff.mpr ka1
              have h3 := h2.resolve_left (by omega)
              have h4 : 4 * (tb * 2 ^ (eb - 1)) < 4 * (2 ^ (d.em + 1) * 2 ^ (eb - 1)) := by
                have : tb * 2 ^ (eb - 1) < 2 ^ (d.em + 1) * 2 ^ (eb - 1) := Nat.mul_lt_mul_of_pos_right kb4 (Nat.two_pow_pos _)
                omega
              have h5 : 4 * (2 ^ (d.em + 1) * 2 ^ (eb - 1)) = 2 ^ (d.em + eb + 2) := by
                rw [show (4 : Nat) = 2 ^ 2 from rfl, ← Nat.pow_add, ← Nat.pow_add]; congr 1; omega
              have h6 := (Nat.pow_lt_pow_iff_right (a := 2) (n := d.em + d.bias) (m := d.em + eb + 2) (by omega)).mp (by omega)
              omega
          · have := fb.sub_iff.mpr kb1; omega
        · left
          apply hm
          have ha' := fa.sub_iff.mp h1
          have hb' := fb.sub_iff.mp h2
          have he1 : ea = 1 := by
            rcases fa.kind with ⟨h, _⟩ | ⟨_, _, h, _⟩
            · rw [h] at ha'; cases ha'
            · exact h
          have he2 : eb = 1 := by
            rcases fb.kind with ⟨h, _⟩ | ⟨_, _, h, _⟩
            · rw [h] at hb'; cases hb'
            · exact h
          subst he1 he2
          simpa using h3

theorem cast_rounded {d d' : Desc} (hE : 2 ≤ d.expSize) (hE' : 2 ≤ d'.expSize) (hM1 : 1 ≤ d'.em) (hM : d'.em ≠ 7 ∧ d'.em ≠ 8) {a : Fp} (ha : Wf d a)
    {na : Bool} {qa : Nat} (hna : a.num = .fin na qa) :
    IsRounded d' na (qa * 2 ^ ((d'.bias + d'.em) - (d.bias + d.em))) (2 ^ ((d.bias + d.em) - (d'.bias + d'.em))) (fcCast .nearest a d') := by
  obtain ⟨hsa, hca⟩ := finite_cases ha hna
  unfold fcCast
  split
  · rename_i h
    have hdd : d = d' := by rw [← ha.1]; exact h
    subst hdd
    rw [Nat.sub_self, Nat.pow_zero, Nat.mul_one]
    have := isRounded_exact (s := na) (D := 1) hE ha hna (by omega) (Nat.mul_one _).symm
    rw [← hsa] at this ⊢
    exact this
  · rcases hca with ⟨ca, qa0, -, -, -⟩ | ⟨ta, ea, fa, rfl⟩
    · rw [ca, hsa]
      intro r hr _
      have := nearest_exact hr (rep_zero _) (by rw [qa0]; simp) (Nat.two_pow_pos _)
      subst this
      refine ⟨⟨rfl, rfl, rfl⟩, ?_⟩
      rw [finish_fin (Nat.two_pow_pos _)]; rfl
    · have hea := fa.one_le
      rcases fa.kind with ⟨h1, h2, _⟩ | ⟨h1, h2, h3, _⟩
      · rw [h1]
        simp only [fa.mant, fa.desc, h2, hsa, reduceCtorEq, if_false]
        apply isRounded_normalize hE' hM1 hM (Nat.two_pow_pos _) _ (by simp)
        have := stands_div (N := ta * 2 ^ (ea - 1) * 2 ^ ((d'.bias + d'.em) - (d.bias + d.em))) (D := 2 ^ ((d.bias + d.em) - (d'.bias + d'.em)))
          (x := 4 * ta) (y := 1) (exp := (ea : Int) + ((d'.bias : Int) - d.bias + ((d'.em : Int) - d.em))) (by omega) (Nat.two_pow_pos _) (by
            rw [Nat.mul_one]
            have hpow : 2 ^ (ea - 1) * 2 ^ ((d'.bias + d'.em) - (d.bias + d.em)) * 2 ^ (1 - ((ea : Int) + ((d'.bias : Int) - d.bias + ((d'.em : Int) - d.em)))).toNat
                = 2 ^ ((d.bias + d.em) - (d'.bias + d'.em)) * 2 ^ (((ea : Int) + ((d'.bias : Int) - d.bias + ((d'.em : Int) - d.em))) - 1).toNat := by
              rw [← Nat.pow_add, ← Nat.pow_add, ← Nat.pow_add]; congr 1; omega
            rw [Nat.mul_assoc (4 * ta), ← hpow]; ring)
        rw [Nat.div_one, Nat.mod_one] at this
        exact this
      · rw [h1]
        subst h3
        simp only [fa.mant, fa.desc, h2, hsa, if_true]
        apply isRounded_normalize hE' hM1 hM (Nat.two_pow_pos _) _ (by simp)
        have := stands_div (N := ta * 2 ^ (1 - 1) * 2 ^ ((d'.bias + d'.em) - (d.bias + d.em))) (D := 2 ^ ((d.bias + d.em) - (d'.bias + d'.em)))
          (x := 4 * ta * 2) (y := 1) (exp := 0 + ((d'.bias : Int) - d.bias + ((d'.em : Int) - d.em))) (by omega) (Nat.two_pow_pos _) (by
            rw [Nat.mul_one]
            have hpow : 2 ^ ((d'.bias + d'.em) - (d.bias + d.em)) * 2 ^ (1 - (0 + ((d'.bias : Int) - d.bias + ((d'.em : Int) - d.em)))).toNat
                = 2 * (2 ^ ((d.bias + d.em) - (d'.bias + d'.em)) * 2 ^ ((0 + ((d'.bias : Int) - d.bias + ((d'.em : Int) - d.em))) - 1).toNat) := by
              rw [← Nat.pow_add, ← Nat.pow_add, ← Nat.pow_succ']; congr 1; omega
            calc 4 * (ta * 2 ^ (1 - 1) * 2 ^ ((d'.bias + d'.em) - (d.bias + d.em))) * 2 ^ (1 - (0 + ((d'.bias : Int) - d.bias + ((d'.em : Int) - d.em)))).toNat
                = 4 * ta * (2 ^ ((d'.bias + d'.em) - (d.bias + d.em)) * 2 ^ (1 - (0 + ((d'.bias : Int) - d.bias + ((d'.em : Int) - d.em)))).toNat) := by
                  rw [Nat.sub_self, Nat.pow_zero]; ring
              _ = _ := by rw [hpow]; ring)
        rw [Nat.div_one, Nat.mod_one] at this
        exact this

end Verif.Model.Flt
