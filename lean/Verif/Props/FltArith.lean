import Verif.Lemmas.FltArith
import Verif.Props.FltBytes
/-!
# C46 - C49: floating point arithmetic is correctly rounded
-/
namespace Verif.Props.Flt
open Verif.Model.Flt Verif.Spec.Flt

/-- a well-formed value is a NaN, an infinity, or a finite number -/
theorem wf_cases {d : Desc} (hd : Fmt d) {v : Fp} (hv : Wf d v) :
    (v.clss = .nan ∧ v.num = .nan) ∨ (v.clss = .inf ∧ v.num = .inf v.sign ∧ v.exp = 2 ^ d.expSize - 1) ∨
    (v.clss ≠ .nan ∧ v.clss ≠ .inf ∧ (∃ q, v.num = .fin v.sign q ∧ (q = 0 ↔ v.clss = .zero)) ∧ v.exp < 2 ^ d.expSize - 1) := by
  have hE4 : 4 ≤ 2 ^ d.expSize := Nat.pow_le_pow_right (n := 2) (by omega) hd.exp
  have hcast : ((2 ^ d.expSize : Nat) : Int) = 2 ^ d.expSize := by push_cast; rfl
  obtain ⟨c, s, e, m⟩ := v
  obtain ⟨hdesc, hcl⟩ := hv
  rename_i c'
  cases s with
  | nan => left; exact ⟨rfl, rfl⟩
  | inf => right; left; exact ⟨rfl, rfl, hcl.1⟩
  | zero => right; right; exact ⟨by simp, by simp, ⟨0, rfl, by simp⟩, by have := hcl.1; simp only at this ⊢; omega⟩
  | subnormal =>
    right; right
    refine ⟨by simp, by simp, ⟨_, rfl, ?_⟩, by have := hcl.1; simp only at this ⊢; omega⟩
    have h1 := hcl.2.1; have h2 := hcl.2.2.1
    simp only [reduceCtorEq, iff_false] at *; omega
  | normal =>
    right; right
    refine ⟨by simp, by simp, ⟨_, rfl, ?_⟩, hcl.2.1⟩
    have h1 := hcl.2.2.1; have h2 := hcl.2.2.2.1
    simp only [reduceCtorEq, iff_false] at *
    have p2 : 2 ^ (d.em + 2) = 4 * 2 ^ d.em := by rw [Nat.pow_add]; ring
    have := Nat.two_pow_pos d.em
    apply Nat.pos_iff_ne_zero.mp
    exact Nat.mul_pos (by omega) (Nat.two_pow_pos _)

theorem wf_qnan {d : Desc} (hd : Fmt d) : Wf d (getQNan d) ∧ (getQNan d).num = .nan := by
  refine ⟨⟨rfl, rfl, ?_⟩, rfl⟩
  simp only [getQNan]
  have := hd.frac
  have e1 : 2 ^ (d.em + 1) = 4 * 2 ^ (d.em - 1) := by
    rw [show (4 : Nat) = 2 ^ 2 from rfl, ← Nat.pow_add]; congr 1; omega
  have e2 : 2 ^ d.em = 2 * 2 ^ (d.em - 1) := by rw [← Nat.pow_succ']; congr 1; omega
  rw [e1, e2, Nat.mul_div_cancel_left _ (by omega)]
  have := Nat.two_pow_pos (d.em - 1)
  rw [Nat.mod_eq_of_lt (by omega)]; omega

theorem wf_inf (d : Desc) (s : Bool) : Wf d (getInf d s) ∧ (getInf d s).num = .inf s := ⟨⟨rfl, rfl, rfl⟩, rfl⟩
theorem wf_zero (d : Desc) (s : Bool) : Wf d (getZero d s) ∧ (getZero d s).num = .fin s 0 := ⟨⟨rfl, rfl, rfl⟩, rfl⟩

theorem wf_neg {d : Desc} {v : Fp} (hv : Wf d v) : Wf d (fcNeg v) ∧ (fcNeg v).num = v.num.neg := by
  obtain ⟨c, s, n, e, m⟩ := v
  obtain ⟨h1, h2⟩ := hv
  cases s <;> exact ⟨⟨h1, h2⟩, rfl⟩

theorem handleNan_some {d : Desc} {a b : Fp} (ha : Wf d a) (hb : Wf d b) (h : a.clss = .nan ∨ b.clss = .nan) :
    ∃ r, handleNan a b = some r ∧ Wf d r ∧ r.num = .nan := by
  have hn : ∀ v : Fp, v.clss = .nan → v.num = .nan := by intro v h; unfold Fp.num; rw [h]
  unfold handleNan
  by_cases h1 : a.clss = .nan
  · rw [if_pos h1]
    split
    · rename_i h2; exact ⟨b, rfl, hb, hn _ h2.1⟩
    · exact ⟨a, rfl, ha, hn _ h1⟩
  · have h2 := h.resolve_left h1
    rw [if_neg h1, if_pos h2]
    exact ⟨b, rfl, hb, hn _ h2⟩

theorem fadd_inf {rm : Rnd} {a b : Fp} (ha : a.clss = .inf) (hb : b.clss ≠ .inf) (he : b.exp < a.exp) : (fadd rm a b).1 = a := by
  unfold fadd
  simp only [ha, hb, reduceCtorEq, and_false, if_false, or_false, or_true, if_true]
  rw [if_neg (by omega)]
  cases a; simp at ha; subst ha; rfl

theorem sum_fin {d : Desc} (hd : Fmt d) (hM : d.em ≠ 7 ∧ d.em ≠ 8) {a b : Fp} (ha : Wf d a) (hb : Wf d b) {na nb : Bool} {qa qb : Nat}
    (hna : a.num = .fin na qa) (hnb : b.num = .fin nb qb) :
    IsRounded d (sumSign na nb (signed na qa + signed nb qb)) (signed na qa + signed nb qb).natAbs 1
      (if a.exp < b.exp then fadd .nearest b a else fadd .nearest a b).1 := by
  split
  · have := fadd_rounded hd.exp hd.frac hM hb ha hnb hna (by omega)
    have e1 : sumSign nb na (signed nb qb + signed na qa) = sumSign na nb (signed na qa + signed nb qb) := by
      unfold sumSign; rw [Int.add_comm, Bool.and_comm]
    rw [e1, Int.add_comm (signed nb qb)] at this
    exact this
  · exact fadd_rounded hd.exp hd.frac hM ha hb hna hnb (by omega)

theorem isRounded_rounds {d : Desc} {s : Bool} {N D : Nat} {v : Fp} (h : IsRounded d s N D v) {r : Nat} (hr : Nearest d.em N D r)
    (hz : ¬ ZeroBug d.em N D r) : Wf d v ∧ Rounds d.expSize d.em s N D v.num :=
  ⟨(h r hr hz).1, r, hr, (h r hr hz).2⟩

/-- a sum of multiples of the quantum that is wrongly flushed to zero: subnormal, with 32 zero bits at its end -/
def SumFlushed (M : Nat) : Num → Num → Prop
  | .fin s x, .fin t y => (signed s x + signed t y).natAbs < 2 ^ M ∧ (signed s x + signed t y) ≠ 0 ∧ (signed s x + signed t y).natAbs % 2 ^ 32 = 0
  | _, _ => False

theorem sumFlushed_small {M : Nat} (h : M ≤ 32) (a b : Num) : ¬ SumFlushed M a b := by
  have := Nat.pow_le_pow_right (n := 2) (by omega) h
  cases a <;> cases b <;> simp only [SumFlushed, not_false_eq_true]
  rintro ⟨h1, h2, h3⟩; omega

/-- every ratio has a nearest representable number -/
theorem nearest_exists {d : Desc} (hd : Fmt d) (hM : d.em ≠ 7 ∧ d.em ≠ 8) (N : Nat) {D : Nat} (hD : 0 < D) : ∃ r, Nearest d.em N D r := by
  obtain ⟨r, h, _⟩ := normalize_spec (d := d) (exp := 1) hd.exp hd.frac hM hD
    (stands_div (N := N) (D := D) (x := 4 * N) (y := D) (exp := 1) hD hD (by simp)) (fun _ => Or.inr (by omega)) false
  exact ⟨r, h⟩

/-- C46 (values): `fc_add` returns the IEEE 754 sum, correctly rounded to nearest even, for all operands (with infinities and NaNs).
Missing: formats with 7 or 8 fraction bits, and sums that are wrongly flushed to zero (see the witnesses below). -/
theorem fcAdd_spec_partial {d : Desc} (hd : Fmt d) (hM : d.em ≠ 7 ∧ d.em ≠ 8) {a b : Fp} (ha : Wf d a) (hb : Wf d b)
    (hz : ¬ SumFlushed d.em a.num b.num) :
    Wf d (fcAdd .nearest a b).1 ∧ IsSum d.expSize d.em a.num b.num (fcAdd .nearest a b).1.num := by
  unfold fcAdd
  rcases wf_cases hd ha with ⟨ca, na⟩ | ⟨ca, na, ea⟩ | ⟨ca, ca', ⟨qa, na, za⟩, ea⟩
  · obtain ⟨r, h1, h2, h3⟩ := handleNan_some ha hb (Or.inl ca)
    rw [h1, na]; exact ⟨h2, h3⟩
  · rcases wf_cases hd hb with ⟨cb, nb⟩ | ⟨cb, nb, eb⟩ | ⟨cb, cb', ⟨qb, nb, zb⟩, eb⟩
    · obtain ⟨r, h1, h2, h3⟩ := handleNan_some ha hb (Or.inr cb)
      rw [h1, na, nb]; exact ⟨h2, h3⟩
    · rw [handleNan_none (by rw [ca]; simp) (by rw [cb]; simp), na, nb]
      simp only [if_neg (show ¬ a.exp < b.exp by omega), IsSum]
      by_cases hs : a.sign = b.sign
      · rw [if_pos hs]
        have : (fadd .nearest a b).1 = b := by
          unfold fadd
          simp only [hs, Bool.xor_self, Bool.false_eq_true, false_and, if_false, cb, or_true, if_true]
          cases b; simp at cb; subst cb; rfl
        rw [this, nb, hs]; exact ⟨hb, rfl⟩
      · rw [if_neg hs]
        have : (fadd .nearest a b).1 = getQNan d := by
          unfold fadd
          have hx : (a.sign ^^ b.sign) = true := by revert hs; cases a.sign <;> cases b.sign <;> simp
          simp only [hx, ca, cb, and_self, if_true, ha.1]
        rw [this]; exact wf_qnan hd
    · rw [handleNan_none (by rw [ca]; simp) cb, na, nb]
      simp only [if_neg (show ¬ a.exp < b.exp by omega), IsSum]
      rw [fadd_inf ca cb' (by omega)]
      exact ⟨ha, na⟩
  · rcases wf_cases hd hb with ⟨cb, nb⟩ | ⟨cb, nb, eb⟩ | ⟨cb, cb', ⟨qb, nb, zb⟩, eb⟩
    · obtain ⟨r, h1, h2, h3⟩ := handleNan_some ha hb (Or.inr cb)
      rw [h1, na, nb]; exact ⟨h2, h3⟩
    · rw [handleNan_none ca (by rw [cb]; simp), na, nb]
      simp only [if_pos (show a.exp < b.exp by omega), IsSum]
      rw [fadd_inf cb ca' (by omega)]
      exact ⟨hb, nb⟩
    · rw [handleNan_none ca cb]
      rw [na, nb] at hz ⊢
      obtain ⟨r, hr⟩ := nearest_exists hd hM (signed a.sign qa + signed b.sign qb).natAbs (D := 1) (by omega)
      apply isRounded_rounds (sum_fin hd hM ha hb na nb) hr
      rintro ⟨h1, h2, h3⟩
      rw [Nat.mul_one] at h1
      have hN : r = (signed a.sign qa + signed b.sign qb).natAbs :=
        nearest_exact hr (rep_small (Nat.lt_of_lt_of_le h1 (Nat.pow_le_pow_right (by omega) (by omega)))) (Nat.mul_one _).symm (by omega)
      exact hz ⟨h1, by omega, by rw [← hN]; exact h3⟩

/-- subtraction is the addition of the negated value, for operands that are not NaN -/
theorem fcSub_eq {rm : Rnd} {a b : Fp} (ha : a.clss ≠ .nan) (hb : b.clss ≠ .nan) : fcSub rm a b = fcAdd rm a (fcNeg b) := by
  unfold fcSub fcAdd
  rw [handleNan_none ha hb, handleNan_none (b := fcNeg b) ha hb]
  rfl

/-- C46 (values): `fc_sub` returns the IEEE 754 difference, correctly rounded.  Missing: as for `fcAdd_spec_partial`. -/
theorem fcSub_spec_partial {d : Desc} (hd : Fmt d) (hM : d.em ≠ 7 ∧ d.em ≠ 8) {a b : Fp} (ha : Wf d a) (hb : Wf d b)
    (hz : ¬ SumFlushed d.em a.num b.num.neg) :
    Wf d (fcSub .nearest a b).1 ∧ IsDiff d.expSize d.em a.num b.num (fcSub .nearest a b).1.num := by
  obtain ⟨hb1, hb2⟩ := wf_neg hb
  by_cases h : a.clss = .nan ∨ b.clss = .nan
  · obtain ⟨r, h1, h2, h3⟩ := handleNan_some ha hb h
    unfold fcSub
    rw [h1]
    refine ⟨h2, ?_⟩
    have hn : ∀ v : Fp, v.clss = .nan → v.num = .nan := by intro v h; unfold Fp.num; rw [h]
    unfold IsDiff
    rcases h with h | h
    · rw [hn _ h]; exact h3
    · rw [hn _ h]
      cases a.num <;> exact h3
  · have h1 : a.clss ≠ .nan := fun h' => h (Or.inl h')
    have h2 : b.clss ≠ .nan := fun h' => h (Or.inr h')
    rw [fcSub_eq h1 h2]
    unfold IsDiff
    rw [← hb2] at hz ⊢
    exact fcAdd_spec_partial hd hM ha hb1 hz

/-- C46, in full, for the formats with at most 31 fraction bits except 7 and 8 (single and half precision): on bit patterns, addition
gives a pattern of the correctly rounded sum -/
theorem add_pattern {d : Desc} (hd : Fmt d) (h32 : d.em < 32) (hM : d.em ≠ 7 ∧ d.em ≠ 8) {p q : Nat} (hp : Canonical d p) (hq : Canonical d q) :
    IsSum d.expSize d.em (decode d.expSize d.em d.one p) (decode d.expSize d.em d.one q)
      (decode d.expSize d.em d.one (pack (fcAdd .nearest (fromPattern .nearest d p) (fromPattern .nearest d q)).1)) := by
  obtain ⟨w1, n1⟩ := fromPattern_num_partial .nearest hd hp (not_taken_small hd h32 hp)
  obtain ⟨w2, n2⟩ := fromPattern_num_partial .nearest hd hq (not_taken_small hd h32 hq)
  obtain ⟨h1, h2⟩ := fcAdd_spec_partial hd hM w1 w2 (sumFlushed_small (by omega) _ _)
  rw [pack_num hd h1, ← n1, ← n2]; exact h2

theorem sub_pattern {d : Desc} (hd : Fmt d) (h32 : d.em < 32) (hM : d.em ≠ 7 ∧ d.em ≠ 8) {p q : Nat} (hp : Canonical d p) (hq : Canonical d q) :
    IsDiff d.expSize d.em (decode d.expSize d.em d.one p) (decode d.expSize d.em d.one q)
      (decode d.expSize d.em d.one (pack (fcSub .nearest (fromPattern .nearest d p) (fromPattern .nearest d q)).1)) := by
  obtain ⟨w1, n1⟩ := fromPattern_num_partial .nearest hd hp (not_taken_small hd h32 hp)
  obtain ⟨w2, n2⟩ := fromPattern_num_partial .nearest hd hq (not_taken_small hd h32 hq)
  obtain ⟨h1, h2⟩ := fcSub_spec_partial hd hM w1 w2 (sumFlushed_small (by omega) _ _)
  rw [pack_num hd h1, ← n1, ← n2]; exact h2

/-- C46 for all formats with other than 7 or 8 fraction bits: on bit patterns, for operands and sums that are not wrongly taken for zero -/
theorem add_pattern_partial {d : Desc} (hd : Fmt d) (hM : d.em ≠ 7 ∧ d.em ≠ 8) {p q : Nat} (hp : Canonical d p) (hq : Canonical d q)
    (hp' : ¬ TakenForZero d p) (hq' : ¬ TakenForZero d q)
    (hz : ¬ SumFlushed d.em (decode d.expSize d.em d.one p) (decode d.expSize d.em d.one q)) :
    IsSum d.expSize d.em (decode d.expSize d.em d.one p) (decode d.expSize d.em d.one q)
      (decode d.expSize d.em d.one (pack (fcAdd .nearest (fromPattern .nearest d p) (fromPattern .nearest d q)).1)) := by
  obtain ⟨w1, n1⟩ := fromPattern_num_partial .nearest hd hp hp'
  obtain ⟨w2, n2⟩ := fromPattern_num_partial .nearest hd hq hq'
  rw [← n1, ← n2] at hz ⊢
  obtain ⟨h1, h2⟩ := fcAdd_spec_partial hd hM w1 w2 hz
  rw [pack_num hd h1]; exact h2

theorem sub_pattern_partial {d : Desc} (hd : Fmt d) (hM : d.em ≠ 7 ∧ d.em ≠ 8) {p q : Nat} (hp : Canonical d p) (hq : Canonical d q)
    (hp' : ¬ TakenForZero d p) (hq' : ¬ TakenForZero d q)
    (hz : ¬ SumFlushed d.em (decode d.expSize d.em d.one p) (decode d.expSize d.em d.one q).neg) :
    IsDiff d.expSize d.em (decode d.expSize d.em d.one p) (decode d.expSize d.em d.one q)
      (decode d.expSize d.em d.one (pack (fcSub .nearest (fromPattern .nearest d p) (fromPattern .nearest d q)).1)) := by
  obtain ⟨w1, n1⟩ := fromPattern_num_partial .nearest hd hp hp'
  obtain ⟨w2, n2⟩ := fromPattern_num_partial .nearest hd hq hq'
  rw [← n1, ← n2] at hz ⊢
  obtain ⟨h1, h2⟩ := fcSub_spec_partial hd hM w1 w2 hz
  rw [pack_num hd h1]; exact h2

/-- a rounded datum is unique, so a differing result is wrong -/
theorem rounds_unique {E M : Nat} {s : Bool} {N D : Nat} {r r' : Num} (hD : 0 < D) (h : Rounds E M s N D r) (h' : Rounds E M s N D r') : r = r' := by
  obtain ⟨m, h1, rfl⟩ := h
  obtain ⟨m', h2, rfl⟩ := h'
  rw [nearest_unique h1 h2 hD]

/-- witness: in double precision the sum of 1 and 2^32 - 1 quanta is 2^32 quanta, a subnormal number, but it is classified as zero (its
bit pattern is right, but it compares equal to zero, and every further operation takes it for zero) -/
theorem add_flushed_wrong :
    (fcAdd .nearest (fromPattern .nearest double 1) (fromPattern .nearest double 0xffffffff)).1.num = .fin false 0 ∧
    ¬ IsSum 11 52 (decode 11 52 false 1) (decode 11 52 false 0xffffffff) (.fin false 0) := by
  constructor
  · decide +kernel
  · intro h
    have h1 : decode 11 52 false 1 = .fin false 1 := by decide +kernel
    have h2 : decode 11 52 false 0xffffffff = .fin false 0xffffffff := by decide +kernel
    rw [h1, h2] at h
    obtain ⟨m, hm, he⟩ := h
    have : m = 2 ^ 32 := nearest_exact hm ⟨2 ^ 32, 0, by decide, rfl⟩ (by decide) (by omega)
    rw [this] at he
    revert he; decide +kernel

/-- witness: with 7 fraction bits (the format of bfloat16) 1 + 3 * 2^-8 becomes 1 + 2^-7 instead of 1 + 2^-6 -/
theorem add_bfloat16_wrong :
    decode 8 7 false (pack (fcAdd .nearest (fromPattern .nearest ⟨8, 7, false⟩ 0x3f80) (fromPattern .nearest ⟨8, 7, false⟩ 0x3c40)).1) =
      decode 8 7 false 0x3f81 ∧
    ¬ IsSum 8 7 (decode 8 7 false 0x3f80) (decode 8 7 false 0x3c40) (decode 8 7 false 0x3f81) := by
  constructor
  · decide +kernel
  · intro h
    have h1 : decode 8 7 false 0x3f80 = .fin false (128 * 2 ^ 126) := by decide +kernel
    have h2 : decode 8 7 false 0x3c40 = .fin false (192 * 2 ^ 119) := by decide +kernel
    have h3 : decode 8 7 false 0x3f81 = .fin false (129 * 2 ^ 126) := by decide +kernel
    rw [h1, h2, h3] at h
    obtain ⟨m, hm, he⟩ := h
    have hm' : m = 129 * 2 ^ 126 := by
      unfold finish at he
      split at he
      · injection he with _ h; exact h.symm
      · cases he
    subst hm'
    have := hm.2 (130 * 2 ^ 126) ⟨130, 126, by decide, rfl⟩
    have := this.2 (by decide) (by decide +kernel)
    obtain ⟨s, j, b1, b2, b3, b4⟩ := this
    have hj : j = 126 := by
      have c1 : 2 ^ 133 ≤ s * 2 ^ j := by rw [← b4]; decide
      have c2 : s * 2 ^ j < 2 ^ 134 := by rw [← b4]; decide
      rcases b2 with rfl | b2
      · omega
      · have c3 : 2 ^ (7 + j) ≤ s * 2 ^ j := by rw [Nat.pow_add]; exact Nat.mul_le_mul_right _ b2
        have c4 : s * 2 ^ j < 2 ^ (8 + j) := by rw [Nat.pow_add]; exact Nat.mul_lt_mul_of_pos_right b1 (Nat.two_pow_pos _)
        have := (Nat.pow_lt_pow_iff_right (a := 2) (by omega)).mp (Nat.lt_of_le_of_lt c3 c2)
        have := (Nat.pow_lt_pow_iff_right (a := 2) (by omega)).mp (Nat.lt_of_le_of_lt c1 c4)
        omega
    subst hj
    omega

example : ¬ TakenForZero double 0x4009000000000000 ∧ ¬ TakenForZero double 0x3ff8000000000000 ∧
    ¬ SumFlushed 52 (decode 11 52 false 0x4009000000000000) (decode 11 52 false 0x3ff8000000000000) ∧
    pack (fcAdd .nearest (fromPattern .nearest double 0x4009000000000000) (fromPattern .nearest double 0x3ff8000000000000)).1 = 0x4012800000000000 := by
  refine ⟨?_, ?_, ?_, by decide +kernel⟩
  · rintro ⟨h, _⟩; revert h; decide +kernel
  · rintro ⟨h, _⟩; revert h; decide +kernel
  · have h1 : decode 11 52 false 0x4009000000000000 = .fin false (0x19000000000000 * 2 ^ 1023) := by decide +kernel
    have h2 : decode 11 52 false 0x3ff8000000000000 = .fin false (0x18000000000000 * 2 ^ 1022) := by decide +kernel
    rw [h1, h2]
    rintro ⟨h, _⟩
    revert h; decide +kernel

/-- a result that is wrongly flushed to zero: the subnormal numbers with 32 zero bits at their end, if they are the nearest to `N / D` -/
def Flushed (M N D : Nat) : Prop := ∃ r, Nearest M N D r ∧ ZeroBug M N D r

theorem flushed_small {M N D : Nat} (hM : M < 32) (hD : 0 < D) : ¬ Flushed M N D := by
  rintro ⟨r, h1, h2⟩; exact zeroBug_small hM hD h1 h2

/-- the products that are computed correctly: an operand multiplied by a subnormal number must be below 2 in magnitude (`2^(M + bias)`
quanta); for two subnormal operands the format must have enough exponents for the product to vanish -/
def ProdCovered (E M : Nat) : Num → Num → Prop
  | .fin _ x, .fin _ y => MulOk M (bias E) x y
  | _, _ => True

/-- no product is flushed wrongly -/
def ProdFlushed (E M : Nat) : Num → Num → Prop
  | .fin _ x, .fin _ y => Flushed M (x * y) (2 ^ (bias E + M - 1))
  | _, _ => False

/-- C47 (values): `fc_mul` returns the IEEE 754 product, correctly rounded.  Missing: a subnormal operand times a normal one of magnitude
2 or more, formats with 7 or 8 fraction bits, and products that are wrongly flushed to zero; see the witness below. -/
theorem fcMul_spec_partial {d : Desc} (hd : Fmt d) (hM : d.em ≠ 7 ∧ d.em ≠ 8) {a b : Fp} (ha : Wf d a) (hb : Wf d b)
    (hc : ProdCovered d.expSize d.em a.num b.num) (hz : ¬ ProdFlushed d.expSize d.em a.num b.num) :
    Wf d (fcMul .nearest a b).1 ∧ IsProd d.expSize d.em a.num b.num (fcMul .nearest a b).1.num := by
  have hinf : ∀ {v : Fp}, Wf d v → v.clss = .inf → ∀ s, Wf d { v with sign := s } ∧ Fp.num { v with sign := s } = .inf s := by
    intro v hv hcl s
    obtain ⟨c, k, n, e, m⟩ := v
    simp only at hcl; subst hcl
    exact ⟨hv, rfl⟩
  rcases wf_cases hd ha with ⟨ca, na⟩ | ⟨ca, na, ea⟩ | ⟨ca, ca', ⟨qa, na, za⟩, ea⟩
  · obtain ⟨r, h1, h2, h3⟩ := handleNan_some ha hb (Or.inl ca)
    unfold fcMul
    rw [h1, na]; exact ⟨h2, h3⟩
  · rcases wf_cases hd hb with ⟨cb, nb⟩ | ⟨cb, nb, eb⟩ | ⟨cb, cb', ⟨qb, nb, zb⟩, eb⟩
    · obtain ⟨r, h1, h2, h3⟩ := handleNan_some ha hb (Or.inr cb)
      unfold fcMul
      rw [h1, na, nb]; exact ⟨h2, h3⟩
    · unfold fcMul
      rw [handleNan_none (by rw [ca]; simp) (by rw [cb]; simp), na, nb]
      have := hinf ha ca (a.sign ^^ b.sign)
      simp only [ca, cb, reduceCtorEq, if_false, if_true, IsProd] at this ⊢
      exact this
    · unfold fcMul
      rw [handleNan_none (by rw [ca]; simp) cb, na, nb]
      by_cases h0 : b.clss = .zero
      · simp only [ca, h0, zb.mpr h0, reduceCtorEq, if_false, if_true, IsProd, ha.1]
        exact wf_qnan hd
      · have := hinf ha ca (a.sign ^^ b.sign)
        have hq : qb ≠ 0 := fun h => h0 (zb.mp h)
        simp only [ca, h0, hq, reduceCtorEq, if_false, if_true, IsProd] at this ⊢
        exact this
  · rcases wf_cases hd hb with ⟨cb, nb⟩ | ⟨cb, nb, eb⟩ | ⟨cb, cb', ⟨qb, nb, zb⟩, eb⟩
    · obtain ⟨r, h1, h2, h3⟩ := handleNan_some ha hb (Or.inr cb)
      unfold fcMul
      rw [h1, na, nb]; exact ⟨h2, h3⟩
    · unfold fcMul
      rw [handleNan_none ca (by rw [cb]; simp), na, nb]
      by_cases h0 : a.clss = .zero
      · simp only [cb, h0, za.mpr h0, if_true, IsProd, ha.1]
        exact wf_qnan hd
      · have := hinf hb cb (a.sign ^^ b.sign)
        have hq : qa ≠ 0 := fun h => h0 (za.mp h)
        simp only [cb, h0, hq, ca', reduceCtorEq, if_false, if_true, IsProd] at this ⊢
        exact this
    · rw [na, nb] at hz hc ⊢
      have hD : 0 < 2 ^ (bias d.expSize + d.em - 1) := Nat.two_pow_pos _
      obtain ⟨r, hr⟩ := nearest_exists hd hM (qa * qb) hD
      exact isRounded_rounds (mul_rounded hd.exp hd.frac hM ha hb na nb hc) hr (fun h => hz ⟨r, hr, h⟩)

/-- C47 on bit patterns.  Missing: as above. -/
theorem mul_pattern_partial {d : Desc} (hd : Fmt d) (hM : d.em ≠ 7 ∧ d.em ≠ 8) {p q : Nat} (hp : Canonical d p) (hq : Canonical d q)
    (hp' : ¬ TakenForZero d p) (hq' : ¬ TakenForZero d q)
    (hc : ProdCovered d.expSize d.em (decode d.expSize d.em d.one p) (decode d.expSize d.em d.one q))
    (hz : ¬ ProdFlushed d.expSize d.em (decode d.expSize d.em d.one p) (decode d.expSize d.em d.one q)) :
    IsProd d.expSize d.em (decode d.expSize d.em d.one p) (decode d.expSize d.em d.one q)
      (decode d.expSize d.em d.one (pack (fcMul .nearest (fromPattern .nearest d p) (fromPattern .nearest d q)).1)) := by
  obtain ⟨w1, n1⟩ := fromPattern_num_partial .nearest hd hp hp'
  obtain ⟨w2, n2⟩ := fromPattern_num_partial .nearest hd hq hq'
  rw [← n1, ← n2] at hz hc ⊢
  obtain ⟨h1, h2⟩ := fcMul_spec_partial hd hM w1 w2 hc hz
  rw [pack_num hd h1]; exact h2

/-- in single and half precision no product is flushed wrongly -/
theorem mul_pattern_small_partial {d : Desc} (hd : Fmt d) (h32 : d.em < 32) (hM : d.em ≠ 7 ∧ d.em ≠ 8) {p q : Nat} (hp : Canonical d p) (hq : Canonical d q)
    (hc : ProdCovered d.expSize d.em (decode d.expSize d.em d.one p) (decode d.expSize d.em d.one q)) :
    IsProd d.expSize d.em (decode d.expSize d.em d.one p) (decode d.expSize d.em d.one q)
      (decode d.expSize d.em d.one (pack (fcMul .nearest (fromPattern .nearest d p) (fromPattern .nearest d q)).1)) := by
  apply mul_pattern_partial hd hM hp hq (not_taken_small hd h32 hp) (not_taken_small hd h32 hq) hc
  cases decode d.expSize d.em d.one p <;> cases decode d.expSize d.em d.one q <;> simp only [ProdFlushed, not_false_eq_true]
  exact flushed_small h32 (Nat.two_pow_pos _)

/-- two normal operands are covered -/
theorem prodCovered_normal {E M : Nat} {s t : Bool} {x y : Nat} (hx : 2 ^ M ≤ x) (hy : 2 ^ M ≤ y) : ProdCovered E M (.fin s x) (.fin t y) :=
  ⟨fun _ h => absurd h (by omega), fun _ h => absurd h (by omega), fun _ h => absurd h (by omega)⟩

/-- witness: a normal number times a subnormal one in half precision, `0x5239 * 0x804e`, is not correctly rounded -/
theorem mul_wrong :
    decode 5 10 false (pack (fcMul .nearest (fromPattern .nearest half 0x5239) (fromPattern .nearest half 0x804e)).1) = decode 5 10 false 0x8b94 ∧
    ¬ IsProd 5 10 (decode 5 10 false 0x5239) (decode 5 10 false 0x804e) (decode 5 10 false 0x8b94) := by
  constructor
  · decide +kernel
  · intro h
    have h1 : decode 5 10 false 0x5239 = .fin false (0x639 * 2 ^ 19) := by decide +kernel
    have h2 : decode 5 10 false 0x804e = .fin true 0x4e := by decide +kernel
    have h3 : decode 5 10 false 0x8b94 = .fin true (0x794 * 2) := by decide +kernel
    rw [h1, h2, h3] at h
    obtain ⟨m, hm, he⟩ := h
    have hm' : m = 0x794 * 2 := by
      unfold finish at he
      split at he
      · injection he with _ h; exact h.symm
      · cases he
    subst hm'
    have := (hm.2 (0x795 * 2) ⟨0x795, 1, by decide, rfl⟩).1
    revert this; decide +kernel

/-- the quotients that are computed correctly: the divisor is normal, and for a subnormal dividend at least 1/2; or both are subnormal and
the quotient is at least 1/4 -/
def QuotCovered (E M : Nat) : Num → Num → Prop
  | .fin _ x, .fin _ y => x = 0 ∨ y = 0 ∨ DivOk M (bias E) x y
  | _, _ => True

/-- no quotient is flushed wrongly -/
def QuotFlushed (E M : Nat) : Num → Num → Prop
  | .fin _ x, .fin _ y => 0 < y ∧ Flushed M (x * 2 ^ (bias E + M - 1)) y
  | _, _ => False

/-- C48 (values): `fc_div` returns the IEEE 754 quotient, correctly rounded.  Missing: some quotients with subnormal operands, formats with
7 or 8 fraction bits, and quotients that are wrongly flushed to zero; see the witnesses below. -/
theorem fcDiv_spec_partial {d : Desc} (hd : Fmt d) (hM : d.em ≠ 7 ∧ d.em ≠ 8) {a b : Fp} (ha : Wf d a) (hb : Wf d b)
    (hc : QuotCovered d.expSize d.em a.num b.num) (hz : ¬ QuotFlushed d.expSize d.em a.num b.num) :
    Wf d (fcDiv .nearest a b).1 ∧ IsQuot d.expSize d.em a.num b.num (fcDiv .nearest a b).1.num := by
  have hinf : ∀ {v : Fp}, Wf d v → v.clss = .inf → ∀ s, Wf d { v with sign := s } ∧ Fp.num { v with sign := s } = .inf s := by
    intro v hv hcl s
    obtain ⟨c, k, n, e, m⟩ := v
    simp only at hcl; subst hcl
    exact ⟨hv, rfl⟩
  have hzero : ∀ {v : Fp}, Wf d v → v.clss = .zero → ∀ s, Wf d { v with sign := s } ∧ Fp.num { v with sign := s } = .fin s 0 := by
    intro v hv hcl s
    obtain ⟨c, k, n, e, m⟩ := v
    simp only at hcl; subst hcl
    exact ⟨hv, rfl⟩
  rcases wf_cases hd ha with ⟨ca, na⟩ | ⟨ca, na, ea⟩ | ⟨ca, ca', ⟨qa, na, za⟩, ea⟩
  · obtain ⟨r, h1, h2, h3⟩ := handleNan_some ha hb (Or.inl ca)
    unfold fcDiv
    rw [h1, na]; exact ⟨h2, h3⟩
  · rcases wf_cases hd hb with ⟨cb, nb⟩ | ⟨cb, nb, eb⟩ | ⟨cb, cb', ⟨qb, nb, zb⟩, eb⟩
    · obtain ⟨r, h1, h2, h3⟩ := handleNan_some ha hb (Or.inr cb)
      unfold fcDiv
      rw [h1, na, nb]; exact ⟨h2, h3⟩
    · unfold fcDiv
      rw [handleNan_none (by rw [ca]; simp) (by rw [cb]; simp), na, nb]
      simp only [ca, cb, reduceCtorEq, if_false, if_true, IsQuot, ha.1]
      exact wf_qnan hd
    · unfold fcDiv
      rw [handleNan_none (by rw [ca]; simp) cb, na, nb]
      have := hinf ha ca (a.sign ^^ b.sign)
      simp only [ca, cb', reduceCtorEq, if_false, if_true, IsQuot] at this ⊢
      exact this
  · rcases wf_cases hd hb with ⟨cb, nb⟩ | ⟨cb, nb, eb⟩ | ⟨cb, cb', ⟨qb, nb, zb⟩, eb⟩
    · obtain ⟨r, h1, h2, h3⟩ := handleNan_some ha hb (Or.inr cb)
      unfold fcDiv
      rw [h1, na, nb]; exact ⟨h2, h3⟩
    · unfold fcDiv
      rw [handleNan_none ca (by rw [cb]; simp), na, nb]
      by_cases h0 : a.clss = .zero
      · have := hzero ha h0 (a.sign ^^ b.sign)
        simp only [cb, h0, reduceCtorEq, if_false, if_true, IsQuot] at this ⊢
        exact this
      · simp only [cb, h0, ca', if_false, if_true, IsQuot, ha.1]
        exact wf_zero d _
    · by_cases hb0 : qb = 0
      · unfold fcDiv
        rw [handleNan_none ca cb, na, nb]
        simp only [IsQuot, hb0, if_true, ca', zb.mp hb0, if_false, ha.1]
        by_cases ha0 : qa = 0
        · simp only [ha0, za.mp ha0, if_true]; exact wf_qnan hd
        · have : a.clss ≠ .zero := fun h => ha0 (za.mpr h)
          simp only [ha0, this, if_false]; exact wf_inf d _
      · rw [na, nb] at hz hc ⊢
        simp only [IsQuot, if_neg hb0]
        have hD : 0 < qb := by omega
        obtain ⟨r, hr⟩ := nearest_exists hd hM (qa * 2 ^ (bias d.expSize + d.em - 1)) hD
        have hok : qa = 0 ∨ DivOk d.em d.bias qa qb := by
          rcases hc with h | h | h
          · exact Or.inl h
          · exact absurd h hb0
          · exact Or.inr h
        exact isRounded_rounds (div_rounded hd.exp hd.frac hM ha hb na nb hb0 hok) hr (fun h => hz ⟨hD, r, hr, h⟩)

/-- C48 on bit patterns.  Missing: as above. -/
theorem div_pattern_partial {d : Desc} (hd : Fmt d) (hM : d.em ≠ 7 ∧ d.em ≠ 8) {p q : Nat} (hp : Canonical d p) (hq : Canonical d q)
    (hp' : ¬ TakenForZero d p) (hq' : ¬ TakenForZero d q)
    (hc : QuotCovered d.expSize d.em (decode d.expSize d.em d.one p) (decode d.expSize d.em d.one q))
    (hz : ¬ QuotFlushed d.expSize d.em (decode d.expSize d.em d.one p) (decode d.expSize d.em d.one q)) :
    IsQuot d.expSize d.em (decode d.expSize d.em d.one p) (decode d.expSize d.em d.one q)
      (decode d.expSize d.em d.one (pack (fcDiv .nearest (fromPattern .nearest d p) (fromPattern .nearest d q)).1)) := by
  obtain ⟨w1, n1⟩ := fromPattern_num_partial .nearest hd hp hp'
  obtain ⟨w2, n2⟩ := fromPattern_num_partial .nearest hd hq hq'
  rw [← n1, ← n2] at hz hc ⊢
  obtain ⟨h1, h2⟩ := fcDiv_spec_partial hd hM w1 w2 hc hz
  rw [pack_num hd h1]; exact h2

/-- in single and half precision no quotient is flushed wrongly -/
theorem div_pattern_small_partial {d : Desc} (hd : Fmt d) (h32 : d.em < 32) (hM : d.em ≠ 7 ∧ d.em ≠ 8) {p q : Nat} (hp : Canonical d p) (hq : Canonical d q)
    (hc : QuotCovered d.expSize d.em (decode d.expSize d.em d.one p) (decode d.expSize d.em d.one q)) :
    IsQuot d.expSize d.em (decode d.expSize d.em d.one p) (decode d.expSize d.em d.one q)
      (decode d.expSize d.em d.one (pack (fcDiv .nearest (fromPattern .nearest d p) (fromPattern .nearest d q)).1)) := by
  apply div_pattern_partial hd hM hp hq (not_taken_small hd h32 hp) (not_taken_small hd h32 hq) hc
  cases decode d.expSize d.em d.one p <;> cases decode d.expSize d.em d.one q <;> simp only [QuotFlushed, not_false_eq_true]
  rintro ⟨h1, h2⟩
  exact flushed_small h32 h1 h2

/-- two normal operands are covered -/
theorem quotCovered_normal {E M : Nat} {s t : Bool} {x y : Nat} (hx : 2 ^ M ≤ x) (hy : 2 ^ M ≤ y) : QuotCovered E M (.fin s x) (.fin t y) :=
  Or.inr (Or.inr (Or.inl ⟨hy, Or.inl hx⟩))

/-- witness: a normal number divided by a subnormal one is wrong by a factor of 4; in half precision `0x400 / 0x200` gives 8 instead of 2 -/
theorem div_wrong :
    decode 5 10 false (pack (fcDiv .nearest (fromPattern .nearest half 0x400) (fromPattern .nearest half 0x200)).1) = decode 5 10 false 0x4800 ∧
    ¬ IsQuot 5 10 (decode 5 10 false 0x400) (decode 5 10 false 0x200) (decode 5 10 false 0x4800) := by
  constructor
  · decide +kernel
  · intro h
    have h1 : decode 5 10 false 0x400 = .fin false 0x400 := by decide +kernel
    have h2 : decode 5 10 false 0x200 = .fin false 0x200 := by decide +kernel
    have h3 : decode 5 10 false 0x4800 = .fin false (2 ^ 27) := by decide +kernel
    rw [h1, h2, h3] at h
    simp only [IsQuot] at h
    rw [if_neg (by decide)] at h
    obtain ⟨m, hm, he⟩ := h
    have hm' : m = 2 ^ 25 := nearest_exact hm ⟨1, 25, by decide, by decide⟩ (by decide) (by decide)
    subst hm'
    revert he; decide +kernel

/-- witness: a subnormal number divided by a normal one is not correctly rounded, `0x1a6 / 0xb33d` in half precision -/
theorem div_wrong_rounding :
    decode 5 10 false (pack (fcDiv .nearest (fromPattern .nearest half 0x1a6) (fromPattern .nearest half 0xb33d)).1) = decode 5 10 false 0x8749 ∧
    ¬ IsQuot 5 10 (decode 5 10 false 0x1a6) (decode 5 10 false 0xb33d) (decode 5 10 false 0x8749) := by
  constructor
  · decide +kernel
  · intro h
    have h1 : decode 5 10 false 0x1a6 = .fin false 0x1a6 := by decide +kernel
    have h2 : decode 5 10 false 0xb33d = .fin true (0x73d * 2 ^ 11) := by decide +kernel
    have h3 : decode 5 10 false 0x8749 = .fin true 0x749 := by decide +kernel
    rw [h1, h2, h3] at h
    simp only [IsQuot] at h
    rw [if_neg (by decide)] at h
    obtain ⟨m, hm, he⟩ := h
    have hm' : m = 0x749 := by
      unfold finish at he
      split at he
      · injection he with _ h; exact h.symm
      · cases he
    subst hm'
    have := (hm.2 0x74a ⟨0x74a, 0, by decide, rfl⟩).1
    revert this; decide +kernel

/-- a NaN keeps a bit of its payload: the target has at least as many fraction bits, or the NaN is quiet -/
def NanKept (d d' : Desc) (v : Fp) : Prop := v.clss = .nan → d.em ≤ d'.em ∨ v.mant.testBit (d.em + 1) = true

theorem payload_iff (m n : Nat) : m / 4 % 2 ^ n ≠ 0 ↔ ∃ i, i < n ∧ m.testBit (i + 2) = true := by
  constructor
  · intro h
    obtain ⟨i, hi⟩ := Nat.exists_testBit_of_ne_zero h
    rw [Nat.testBit_mod_two_pow] at hi
    simp only [Bool.and_eq_true, decide_eq_true_eq] at hi
    refine ⟨i, hi.1, ?_⟩
    have := hi.2
    rw [show m / 4 = m >>> 2 from by rw [Nat.shiftRight_eq_div_pow], Nat.testBit_shiftRight, Nat.add_comm] at this
    exact this
  · rintro ⟨i, h1, h2⟩ h
    have : (m / 4 % 2 ^ n).testBit i = true := by
      rw [Nat.testBit_mod_two_pow, show m / 4 = m >>> 2 from by rw [Nat.shiftRight_eq_div_pow], Nat.testBit_shiftRight, Nat.add_comm, h2]
      simp [h1]
    rw [h] at this; simp at this

theorem cast_nan {d d' : Desc} (hd' : Fmt d') {a : Fp} (ha : Wf d a) (h : a.clss = .nan) (hk : NanKept d d' a) :
    Wf d' (fcCast .nearest a d') ∧ (fcCast .nearest a d').num = .nan := by
  unfold fcCast
  split
  · rename_i h1
    have hdd : d = d' := by rw [← ha.1]; exact h1
    subst hdd
    exact ⟨ha, by unfold Fp.num; rw [h]⟩
  · rw [h]
    refine ⟨⟨rfl, rfl, ?_⟩, rfl⟩
    have hp : a.mant / 4 % 2 ^ d.em ≠ 0 := by
      have := ha.2; rw [h] at this; exact this.2
    simp only [ha.1]
    have key : ∃ i, i < d'.em ∧ (if d'.em < d.em then a.mant / 2 ^ (d.em - d'.em) else a.mant * 2 ^ (d'.em - d.em)).testBit (i + 2) = true := by
      split
      · rename_i hlt
        have hq := (hk h).resolve_left (by omega)
        refine ⟨d'.em - 1, by have := hd'.frac; omega, ?_⟩
        rw [← Nat.shiftRight_eq_div_pow, Nat.testBit_shiftRight]
        rw [show d.em - d'.em + (d'.em - 1 + 2) = d.em + 1 by have := hd'.frac; omega]
        exact hq
      · obtain ⟨i, h1, h2⟩ := (payload_iff _ _).mp hp
        refine ⟨i + (d'.em - d.em), by omega, ?_⟩
        rw [← Nat.shiftLeft_eq, Nat.testBit_shiftLeft]
        simp only [Bool.and_eq_true, decide_eq_true_eq]
        refine ⟨by omega, ?_⟩
        rw [show i + (d'.em - d.em) + 2 - (d'.em - d.em) = i + 2 by omega]
        exact h2
    obtain ⟨i, h1, h2⟩ := key
    apply (payload_iff _ _).mpr
    refine ⟨i, h1, ?_⟩
    split
    · rw [Nat.testBit_or, h2]; rfl
    · exact h2

/-- a conversion that wrongly gives zero -/
def ConvFlushed (d d' : Desc) : Num → Prop
  | .fin _ x => Flushed d'.em (x * 2 ^ (d'.bias + d'.em - (d.bias + d.em))) (2 ^ (d.bias + d.em - (d'.bias + d'.em)))
  | _ => False

/-- C49 (values): `fc_cast` returns the datum correctly rounded in the new format.  Missing: targets with 7 or 8 fraction bits, results
wrongly flushed to zero, and signalling NaNs that lose their payload; see the witnesses below. -/
theorem fcCast_spec_partial {d d' : Desc} (hd : Fmt d) (hd' : Fmt d') (hM : d'.em ≠ 7 ∧ d'.em ≠ 8) {a : Fp} (ha : Wf d a)
    (hk : NanKept d d' a) (hz : ¬ ConvFlushed d d' a.num) :
    Wf d' (fcCast .nearest a d') ∧ IsConv d.expSize d.em d'.expSize d'.em a.num (fcCast .nearest a d').num := by
  rcases wf_cases hd ha with ⟨ca, na⟩ | ⟨ca, na, ea⟩ | ⟨ca, ca', ⟨qa, na, za⟩, ea⟩
  · have := cast_nan hd' ha ca hk
    rw [na]; exact this
  · unfold fcCast
    split
    · rename_i h1
      have hdd : d = d' := by rw [← ha.1]; exact h1
      subst hdd
      rw [na]
      exact ⟨ha, rfl⟩
    · rw [ca, na]
      exact wf_inf d' _
  · rw [na] at hz ⊢
    have hD : 0 < 2 ^ (d.bias + d.em - (d'.bias + d'.em)) := Nat.two_pow_pos _
    obtain ⟨r, hr⟩ := nearest_exists hd' hM (qa * 2 ^ (d'.bias + d'.em - (d.bias + d.em))) hD
    exact isRounded_rounds (cast_rounded hd.exp hd'.exp hd'.frac hM ha na) hr (fun h => hz ⟨r, hr, h⟩)

/-- C49 on bit patterns -/
theorem cast_pattern_partial {d d' : Desc} (hd : Fmt d) (hd' : Fmt d') (hM : d'.em ≠ 7 ∧ d'.em ≠ 8) {p : Nat} (hp : Canonical d p)
    (hp' : ¬ TakenForZero d p) (hk : decode d.expSize d.em d.one p = .nan → d.em ≤ d'.em ∨ p.testBit (d.em - 1) = true)
    (hz : ¬ ConvFlushed d d' (decode d.expSize d.em d.one p)) :
    IsConv d.expSize d.em d'.expSize d'.em (decode d.expSize d.em d.one p)
      (decode d'.expSize d'.em d'.one (pack (fcCast .nearest (fromPattern .nearest d p) d'))) := by
  obtain ⟨w1, n1⟩ := fromPattern_num_partial .nearest hd hp hp'
  have hk' : NanKept d d' (fromPattern .nearest d p) := by
    intro h
    have hn : (fromPattern .nearest d p).num = .nan := by unfold Fp.num; rw [h]
    rw [n1] at hn
    rcases hk hn with h1 | h1
    · exact Or.inl h1
    · right
      have he : expOf d p = 2 ^ d.expSize - 1 := by
        have := w1.2
        rw [h] at this
        by_contra hc
        unfold expOf at hc
        unfold decode at hn
        simp only [← em_eq d hd.size] at hn
        rw [if_neg hc] at hn
        split at hn <;> cases hn
      have hs := fromPattern_special .nearest d hd.exp hd.size p he
      rw [hs] at h ⊢
      have := hd.frac
      have hms : d.mantSize = d.em ∨ d.mantSize = d.em + 1 := by rw [em_eq d hd.size]; split <;> simp
      split at h
      · cases h
      · rename_i hne
        rw [if_neg hne]
        simp only
        rw [Nat.mul_comm, show (4 : Nat) = 2 ^ 2 from rfl, ← Nat.shiftLeft_eq, Nat.testBit_shiftLeft]
        unfold fracOf
        rw [show d.em + 1 - 2 = d.em - 1 by omega, Nat.testBit_mod_two_pow, h1]
        simp; omega
  rw [← n1] at hz ⊢
  obtain ⟨h1, h2⟩ := fcCast_spec_partial hd hd' hM w1 hk' hz
  rw [pack_num hd' h1]; exact h2

/-- C49 on bit patterns, from double to single precision and similar: the subnormal numbers of the old format are zero in the new one, which has
fewer than 32 fraction bits.  Only signalling NaNs are missing. -/
theorem cast_pattern_narrow {d d' : Desc} (hd : Fmt d) (hd' : Fmt d') (hM : d'.em ≠ 7 ∧ d'.em ≠ 8) (h32 : d'.em < 32)
    (hbig : d.em + 1 ≤ d.bias + d.em - (d'.bias + d'.em)) {p : Nat} (hp : Canonical d p)
    (hk : decode d.expSize d.em d.one p = .nan → d.em ≤ d'.em ∨ p.testBit (d.em - 1) = true) :
    IsConv d.expSize d.em d'.expSize d'.em (decode d.expSize d.em d.one p)
      (decode d'.expSize d'.em d'.one (pack (fcCast .nearest (fromPattern .nearest d p) d'))) := by
  by_cases hp' : TakenForZero d p
  · obtain ⟨h1, h2, h3⟩ := hp'
    obtain ⟨f1, f2⟩ := frac_lt d hd.size p
    have hE4 : 4 ≤ 2 ^ d.expSize := Nat.pow_le_pow_right (n := 2) (by omega) hd.exp
    have hf : fracOf d p < 2 ^ d.em := by
      cases ho : d.one with
      | false => exact f2 ho
      | true => have := hp ho; omega
    have hdec : decode d.expSize d.em d.one p = .fin (signOf d p) (fracOf d p) := by
      have h1' := h1
      unfold expOf at h1'
      unfold decode
      simp only [← em_eq d hd.size, h1']
      rw [if_neg (by omega)]
      rfl
    have hv : fromPattern .nearest d p = ⟨d, .zero, signOf d p, 0, 4 * fracOf d p⟩ := by
      rw [fromPattern_small .nearest d hd.exp hd.size p hp h1, if_pos (by unfold valueSize; omega)]
    have hne : d ≠ d' := by rintro rfl; omega
    have hc : fcCast .nearest (fromPattern .nearest d p) d' = getZero d' (signOf d p) := by
      rw [hv]; unfold fcCast; rw [if_neg hne]
    obtain ⟨z1, z2⟩ := wf_zero d' (signOf d p)
    rw [hc, pack_num hd' z1, z2, hdec]
    have hD : 0 < 2 ^ (d.bias + d.em - (d'.bias + d'.em)) := Nat.two_pow_pos _
    obtain ⟨r, hr⟩ := nearest_exists hd' hM (fracOf d p * 2 ^ (d'.bias + d'.em - (d.bias + d.em))) hD
    have h0 : r = 0 := by
      apply nearest_tiny hD hr
      rw [show d'.bias + d'.em - (d.bias + d.em) = 0 by omega, Nat.pow_zero, Nat.mul_one]
      have : 2 ^ (d.em + 1) ≤ 2 ^ (d.bias + d.em - (d'.bias + d'.em)) := Nat.pow_le_pow_right (by omega) hbig
      have : 2 ^ (d.em + 1) = 2 * 2 ^ d.em := by rw [Nat.pow_add]; ring
      omega
    subst h0
    exact ⟨0, hr, by rw [finish_fin (Nat.two_pow_pos _)]⟩
  · apply cast_pattern_partial hd hd' hM hp hp' hk
    cases decode d.expSize d.em d.one p <;> simp only [ConvFlushed, not_false_eq_true]
    exact flushed_small h32 (Nat.two_pow_pos _)

example : double.em + 1 ≤ double.bias + double.em - (single.bias + single.em) := by decide
example : pack (fcCast .nearest (fromPattern .nearest double 0x3fb999999999999a) single) = 0x3dcccccd := by decide +kernel

/-- C49: the conversion to a wider format is exact; the number of quanta is scaled.  Only results that are wrongly flushed to zero are missing,
which do not exist if the numbers of the old format are normal in the new one. -/
theorem cast_wider {d d' : Desc} (hd : Fmt d) (hd' : Fmt d') (hM : d'.em ≠ 7 ∧ d'.em ≠ 8) {a : Fp} (ha : Wf d a) {s : Bool} {q : Nat}
    (hn : a.num = .fin s q) (hE : d.expSize ≤ d'.expSize) (hm : d.em ≤ d'.em) (hnorm : d.bias + d.em ≤ d'.bias ∨ d'.em < 32) :
    Wf d' (fcCast .nearest a d') ∧ (fcCast .nearest a d').num = .fin s (q * 2 ^ (d'.bias + d'.em - (d.bias + d.em))) := by
  have hbb : d.bias ≤ d'.bias := by
    unfold Desc.bias
    have : 2 ^ (d.expSize - 1) ≤ 2 ^ (d'.expSize - 1) := Nat.pow_le_pow_right (by omega) (by omega)
    omega
  obtain ⟨h1, h2⟩ := finite_rep hd.exp ha hn
  have hr := cast_rounded hd.exp hd'.exp hd'.frac hM ha hn
  rw [show d.bias + d.em - (d'.bias + d'.em) = 0 by omega, Nat.pow_zero] at hr
  generalize hk : d'.bias + d'.em - (d.bias + d.em) = k at *
  have hrep : Rep d'.em (q * 2 ^ k) := by
    obtain ⟨t, j, h3, h4⟩ := h1
    exact ⟨t, j + k, Nat.lt_of_lt_of_le h3 (Nat.pow_le_pow_right (by omega) (by omega)), by rw [h4, Nat.pow_add, Nat.mul_assoc]⟩
  have hnear : Nearest d'.em (q * 2 ^ k) 1 (q * 2 ^ k) := by
    have := nearest_rep (M := d'.em) (D := 1) hrep (by omega)
    rwa [Nat.mul_one] at this
  have hlim : q * 2 ^ k < limit d'.expSize d'.em := by
    unfold limit at *
    have h3 : q * 2 ^ k < 2 ^ (d.em + 2 ^ d.expSize - 2) * 2 ^ k := Nat.mul_lt_mul_of_pos_right h2 (Nat.two_pow_pos _)
    rw [← Nat.pow_add] at h3
    apply Nat.lt_of_lt_of_le h3
    apply Nat.pow_le_pow_right (by omega)
    have hE1 := hd.exp
    have hE2 := hd'.exp
    have e1 : 2 ^ d.expSize = 2 * (d.bias + 1) := by
      unfold Desc.bias
      have := Nat.two_pow_pos (d.expSize - 1)
      rw [Nat.sub_add_cancel this, ← Nat.pow_succ']; congr 1; omega
    have e2 : 2 ^ d'.expSize = 2 * (d'.bias + 1) := by
      unfold Desc.bias
      have := Nat.two_pow_pos (d'.expSize - 1)
      rw [Nat.sub_add_cancel this, ← Nat.pow_succ']; congr 1; omega
    omega
  have hbug : ¬ ZeroBug d'.em (q * 2 ^ k) 1 (q * 2 ^ k) := by
    rcases hnorm with h | h
    · rintro ⟨h1, h2, _⟩
      have hq : 1 ≤ q := by
        rcases Nat.eq_zero_or_pos q with h | h
        · rw [h] at h2; simp at h2
        · exact h
      have : 2 ^ d'.em ≤ 2 ^ k := Nat.pow_le_pow_right (by omega) (by omega)
      have : 1 * 2 ^ k ≤ q * 2 ^ k := Nat.mul_le_mul_right _ hq
      omega
    · exact zeroBug_small h (by omega) hnear
  have := hr _ hnear hbug
  rw [finish_fin hlim] at this
  exact this

example : single.bias + single.em ≤ double.bias ∧ single.expSize ≤ double.expSize ∧ single.em ≤ double.em ∧
    fcCast .nearest (fromPattern .nearest single 0x3fc00000) double = fromPattern .nearest double 0x3ff8000000000000 := by decide +kernel

/-- witness: a signalling NaN of double precision whose payload is in the low bits becomes an infinity in single precision -/
theorem cast_nan_wrong :
    decode 11 52 false 0x7ff0000000000001 = .nan ∧
    decode 8 23 false (pack (fcCast .nearest (fromPattern .nearest double 0x7ff0000000000001) single)) = .inf false := by decide +kernel

/-- does the rounding mode move a value of this sign away from zero? -/
def awayFromZero : Rnd → Bool → Bool
  | .positive, sign => !sign
  | .negative, sign => sign
  | _, _ => false

/-- C46, directed rounding: the mantissa is cut off, and incremented iff the mode points away from zero for this sign and something
non-zero was cut off -/
theorem round_directed {rm : Rnd} (hrm : rm ≠ .nearest) (M : Nat) (hM : M ≠ 7 ∧ M ≠ 8) (sign : Bool) (s : NState) :
    (roundStep rm M sign s).mant = 4 * (s.mant / 4 + if awayFromZero rm sign = true ∧ (s.mant % 4 ≠ 0 ∨ s.sticky = true) then 1 else 0) := by
  have hlb : lastBits M s.mant = s.mant % 8 := by
    unfold lastBits
    split
    · rename_i h
      have h1 : (M + 2) % 8 = 3 ∨ (M + 2) % 8 = 4 ∨ (M + 2) % 8 = 5 ∨ (M + 2) % 8 = 6 ∨ (M + 2) % 8 = 7 := by omega
      rcases h1 with h1 | h1 | h1 | h1 | h1 <;> rw [h1] <;> norm_num <;> omega
    · rfl
  have key : ∀ l, l < 8 → ∀ st : Bool,
      roundDelta rm sign st l = 4 * (if awayFromZero rm sign = true ∧ (l % 4 ≠ 0 ∨ st = true) then 1 else 0) - ((l % 4 : Nat) : Int) := by
    intro l hl st
    have : l = 0 ∨ l = 1 ∨ l = 2 ∨ l = 3 ∨ l = 4 ∨ l = 5 ∨ l = 6 ∨ l = 7 := by omega
    cases rm
    · exact absurd rfl hrm
    all_goals rcases this with rfl | rfl | rfl | rfl | rfl | rfl | rfl | rfl <;> cases st <;> cases sign <;> rfl
  have hk := key (s.mant % 8) (by omega) s.sticky
  have e1 : s.mant % 8 % 4 = s.mant % 4 := by omega
  rw [e1] at hk
  unfold roundStep
  simp only [hlb, hk]
  split <;> omega

example : (roundStep .positive 23 false ⟨4 * 0x800000 + 1, 5, false, true⟩).mant = 4 * 0x800001 ∧
    (roundStep .positive 23 true ⟨4 * 0x800000 + 1, 5, false, true⟩).mant = 4 * 0x800000 ∧
    (roundStep .negative 23 true ⟨4 * 0x800000, 5, true, true⟩).mant = 4 * 0x800001 := by decide +kernel

/-- witness: on overflow the directed modes ignore the sign (ir/tv/fltcalc.c:215-247).  Rounding `-max - max` towards plus infinity
gives minus infinity although `-max` is the smallest float not below it; rounding towards minus infinity gives `-max`, which is too large. -/
theorem overflow_directed_wrong :
    (fcAdd .positive (getMax single true) (getMax single true)).1 = getInf single true ∧
    (fcAdd .negative (getMax single true) (getMax single true)).1 = getMax single true := by decide +kernel

end Verif.Props.Flt
