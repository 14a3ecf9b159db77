import Verif.Lemmas.StrCalcMisc
/-! Helper lemmas: `sc_divmod` computes truncated division. -/
namespace Verif.Model
open Verif.Spec

theorem scPush_length {d : Nat} {b : List Nat} (hn : 0 < b.length) : (scPush d b).length = b.length := by
  simp [scPush]; omega

theorem scPush_bytes {d : Nat} {b : List Nat} (hd : d < 256) (h : Bytes b) : Bytes (scPush d b) :=
  h.dropLast.cons hd

theorem scPush_value {d : Nat} {b : List Nat} (h : Bytes b) (hs : 256 * value b < 256 ^ b.length) :
    value (scPush d b) = d + 256 * value b := by
  unfold scPush
  rw [value, List.dropLast_eq_take, value_take h]
  by_cases hn : b.length = 0
  · have : b = [] := List.length_eq_zero_iff.1 hn
    subst this; simp [value, Nat.mod_one]
  · rw [Nat.mod_eq_of_lt]
    have : 256 ^ b.length = 256 * 256 ^ (b.length - 1) := by
      rw [← Nat.pow_succ', Nat.succ_eq_add_one, Nat.sub_add_cancel (by omega)]
    omega

/-- the subtraction loop: from signed value `X` it stops at the first
negative `X - k*D`, counting `k` into the low byte. -/
theorem scDivSub_spec {minusD : List Nat} {n : Nat} (hn : 0 < n) (lm : minusD.length = n)
    {D : Nat} (hm : svalue minusD = -(D : Int)) (hD2 : D ≤ 2 ^ (8 * n - 1)) :
    ∀ (fuel : Nat) (rem : List Nat) (q : Nat) (qs : List Nat) (X : Int),
      rem.length = n → Bytes rem → q < 256 → svalue rem = X → -(D:Int) ≤ X → X < (fuel : Int) * D - D →
      ∃ rem' k, scDivSub minusD fuel rem (q :: qs) = some (rem', (q + k) % 256 :: qs) ∧
        rem'.length = n ∧ Bytes rem' ∧ svalue rem' = X - (k : Int) * D ∧ svalue rem' < 0 ∧ -(D : Int) ≤ svalue rem' := by
  intro fuel
  induction fuel with
  | zero => intro rem q qs X _ _ _ _ h1 h2; exfalso; simp at h2; omega
  | succ fuel ih =>
    intro rem q qs X l1 b1 hq hX h1 h2
    unfold scDivSub
    by_cases hneg : scIsNegative rem = true
    · rw [if_pos hneg]
      refine ⟨rem, 0, ?_, l1, b1, ?_, (scIsNegative_iff b1 (by omega)).1 hneg, by omega⟩
      · rw [Nat.add_zero, Nat.mod_eq_of_lt hq]
      · simp [hX]
    · rw [if_neg hneg]
      simp only []
      have hX0 : 0 ≤ X := by
        rw [scIsNegative_iff b1 (by omega)] at hneg; omega
      have hb := svalue_bounds (l := rem) (by omega)
      rw [l1] at hb
      have hs : svalue (scAdd rem minusD) = X - D := by
        rw [scAdd_svalue (by omega), hX, hm, l1, ← Int.sub_eq_add_neg]
        exact bmod_of_range hn (by omega) (by omega)
      obtain ⟨r', k, hk, h4, h5, h6, h7, h8⟩ := ih (scAdd rem minusD) ((q + 1) % 256) qs (X - D)
        (by rw [scAdd_length (by omega)]; omega) (scAdd_bytes _ _) (by omega) hs (by omega)
        (by push_cast at h2; have : ((fuel:Int) + 1) * D = fuel * D + D := by ring
            omega)
      refine ⟨r', k + 1, ?_, h4, h5, ?_, h7, h8⟩
      · rw [hk]
        have : ((q + 1) % 256 + k) % 256 = (q + (k + 1)) % 256 := by omega
        rw [this]
      · rw [h6]; push_cast; ring

/-- one round brings down a digit. -/
theorem scDivStep_spec {d minusD : List Nat} {n : Nat} (hn : 0 < n) (ld : d.length = n) (lm : minusD.length = n)
    (bd : Bytes d) {D : Nat} (hD : 0 < D) (hd : value d = D) (hm : svalue minusD = -(D : Int))
    (hbig : 256 * D ≤ 2 ^ (8 * n - 1))
    {digit : Nat} (hdig : digit < 256) {rem quot : List Nat} (lr : rem.length = n) (lq : quot.length = n)
    (br : Bytes rem) (bq : Bytes quot) (hr : value rem < D) (hq : 256 * value quot + 256 ≤ 256 ^ n) :
    ∃ rem' quot', scDivStep d minusD digit rem quot = some (rem', quot') ∧
      rem'.length = n ∧ quot'.length = n ∧ Bytes rem' ∧ Bytes quot' ∧
      value rem' = (digit + 256 * value rem) % D ∧
      value quot' = 256 * value quot + (digit + 256 * value rem) / D := by
  have hh := half256 hn
  set R := digit + 256 * value rem with hR
  have hRD : R < 256 * D := by omega
  have vr : value (scPush digit rem) = R := by
    rw [scPush_value br (by rw [lr]; omega)]
  have vq : value (scPush 0 quot) = 256 * value quot := by
    rw [scPush_value bq (by rw [lq]; omega)]; omega
  have lr' : (scPush digit rem).length = n := by rw [scPush_length (by omega), lr]
  have lq' : (scPush 0 quot).length = n := by rw [scPush_length (by omega), lq]
  have br' := scPush_bytes hdig br
  have bq' := scPush_bytes (d := 0) (by decide) bq
  have sr : svalue (scPush digit rem) = R := by
    rw [svalue_of_nonneg (by omega) (by rw [vr, lr']; omega), vr]
  have sd : svalue d = D := by
    rw [svalue_of_nonneg (by omega) (by rw [hd, ld]; omega), hd]
  unfold scDivStep
  simp only []
  rw [scComp_eq (by omega) br' bd (by omega), sr, sd]
  by_cases hlt : R < D
  · have hle : (if (R : Int) = D then Rel.equal else if (R : Int) > D then Rel.greater else Rel.less) = Rel.less := by
      rw [if_neg (by omega), if_neg (by omega)]
    rw [if_neg (by simpa using hle)]
    refine ⟨_, _, rfl, lr', lq', br', bq', ?_, ?_⟩
    · rw [vr, Nat.mod_eq_of_lt hlt]
    · rw [vq, Nat.div_eq_of_lt hlt]; rfl
  · have hne : (if (R : Int) = D then Rel.equal else if (R : Int) > D then Rel.greater else Rel.less) ≠ Rel.less := by
      split
      · decide
      · rw [if_pos (by omega)]; decide
    rw [if_pos hne]
    have hs : svalue (scAdd (scPush digit rem) minusD) = (R : Int) - D := by
      rw [scAdd_svalue (by omega), sr, hm, lr', ← Int.sub_eq_add_neg]
      exact bmod_of_range hn (by omega) (by omega)
    have hpush : scPush 0 quot = 0 :: quot.dropLast := rfl
    rw [hpush]
    obtain ⟨r', k, hk, h4, h5, h6, h7, h8⟩ := scDivSub_spec hn lm hm (by omega) 300 (scAdd (scPush digit rem) minusD) 0
      quot.dropLast ((R : Int) - D) (by rw [scAdd_length (by omega)]; omega) (scAdd_bytes _ _) (by decide) hs
      (by omega) (by push_cast; omega)
    rw [hk]
    simp only []
    rw [h6] at h7 h8
    have hsr : svalue (scAdd r' d) = (R : Int) - k * D := by
      rw [scAdd_svalue (by omega), h6, sd, h4]
      rw [show (R : Int) - D - k * D + D = R - k * D by ring]
      exact bmod_of_range hn (by omega) (by omega)
    have h0 : 0 ≤ (R : Int) - k * D := by omega
    have hvr : (value (scAdd r' d) : Int) = (R : Int) - k * D := by
      have lrd : (scAdd r' d).length = n := by rw [scAdd_length (by omega), h4]
      by_contra hc
      have hnn : ¬ svalue (scAdd r' d) < 0 := by omega
      rw [← scIsNegative_iff (scAdd_bytes _ _) (by omega), scIsNegative_eq (scAdd_bytes _ _) (by omega)] at hnn
      have hnn' : value (scAdd r' d) < 2 ^ (8 * (scAdd r' d).length - 1) := by simpa using hnn
      rw [svalue_of_nonneg (by omega) hnn'] at hsr
      exact hc hsr
    have hkD : R = k * D + value (scAdd r' d) := by
      have : ((k * D : Nat) : Int) = (k : Int) * D := by push_cast; rfl
      omega
    have hvlt : value (scAdd r' d) < D := by omega
    have hdiv : R / D = k := by
      rw [hkD, Nat.mul_comm, Nat.mul_add_div hD, Nat.div_eq_of_lt hvlt]; rfl
    have hmod : R % D = value (scAdd r' d) := by
      rw [hkD, Nat.mul_comm, Nat.mul_add_mod, Nat.mod_eq_of_lt hvlt]
    have hk256 : k < 256 := by
      rw [← hdiv]; exact Nat.div_lt_of_lt_mul (by omega)
    refine ⟨_, _, rfl, by rw [scAdd_length (by omega), h4], ?_, scAdd_bytes _ _, ?_, hmod.symm, ?_⟩
    · rw [hpush] at lq'; simpa using lq'
    · exact (bytes_cons.1 (hpush ▸ bq')).2.cons (by omega)
    · rw [hdiv, Nat.zero_add, Nat.mod_eq_of_lt hk256]
      rw [hpush, value] at vq
      rw [value]; omega

theorem scDivLoop_spec {d minusD : List Nat} {n : Nat} (hn : 0 < n) (ld : d.length = n) (lm : minusD.length = n)
    (bd : Bytes d) {D : Nat} (hD : 0 < D) (hd : value d = D) (hm : svalue minusD = -(D : Int))
    (hbig : 256 * D ≤ 2 ^ (8 * n - 1)) :
    ∀ (digs : List Nat) (P : Nat) (rem quot : List Nat), Bytes digs → rem.length = n → quot.length = n →
      Bytes rem → Bytes quot → value rem = P % D → value quot = P / D →
      P * 256 ^ digs.length + value digs.reverse < 256 ^ n →
      ∃ rem' quot', scDivLoop d minusD digs rem quot = some (rem', quot') ∧
        rem'.length = n ∧ quot'.length = n ∧ Bytes rem' ∧ Bytes quot' ∧
        value rem' = (P * 256 ^ digs.length + value digs.reverse) % D ∧
        value quot' = (P * 256 ^ digs.length + value digs.reverse) / D := by
  intro digs
  induction digs with
  | nil =>
    intro P rem quot _ lr lq br bq hr hq _
    exact ⟨rem, quot, rfl, lr, lq, br, bq, by simpa [value] using hr, by simpa [value] using hq⟩
  | cons x xs ih =>
    intro P rem quot bx lr lq br bq hr hq hlt
    rw [bytes_cons] at bx
    have e : P * 256 ^ (x :: xs).length + value (x :: xs).reverse = (x + 256 * P) * 256 ^ xs.length + value xs.reverse := by
      rw [value_reverse_cons, List.length_cons, Nat.pow_succ]; ring
    rw [e] at hlt ⊢
    have hxl : (x + 256 * P) < 256 ^ n := by
      have : (x + 256 * P) * 1 ≤ (x + 256 * P) * 256 ^ xs.length := Nat.mul_le_mul_left _ (Nat.one_le_pow _ _ (by decide))
      omega
    have hPD : P / D ≤ P := Nat.div_le_self P D
    have h256 : 256 ^ n = 256 * 256 ^ (n - 1) := by
      rw [← Nat.pow_succ', Nat.succ_eq_add_one, Nat.sub_add_cancel (by omega)]
    obtain ⟨r', q', hs, a1, a2, a3, a4, a5, a6⟩ := scDivStep_spec hn ld lm bd hD hd hm hbig bx.1 lr lq br bq
      (by rw [hr]; exact Nat.mod_lt _ hD) (by rw [hq]; omega)
    unfold scDivLoop
    rw [hs]
    simp only []
    have hstep : x + 256 * (P % D) + 256 * (P / D) * D = x + 256 * P := by
      have := Nat.mod_add_div P D
      calc x + 256 * (P % D) + 256 * (P / D) * D = x + 256 * (P % D + D * (P / D)) := by ring
        _ = x + 256 * P := by rw [this]
    apply ih (x + 256 * P) r' q' bx.2 a1 a2 a3 a4
    · rw [a5, hr, ← hstep, Nat.add_mul_mod_self_right]
    · rw [a6, hq, hr, ← hstep, Nat.add_mul_div_right _ _ hD]; omega
    · exact hlt

theorem neg_svalue_of_value {v : List Nat} (h : Bytes v) (hn : 0 < v.length) (hs : value v < 2 ^ (8 * v.length - 1)) :
    svalue (scNeg v) = -(value v : Int) := by
  rw [scNeg_svalue h, svalue_of_nonneg hn hs]
  exact bmod_of_range hn (by omega) (by omega)

/-- `sc_divmod` is truncated division, with the carry flag telling whether
the remainder is non-zero. -/
theorem scDivmod_spec {a b : List Nat} (hn : 0 < a.length) (hl : a.length = b.length) (ha : Bytes a) (hb : Bytes b)
    (ra : svalue a ≠ -((2 ^ (8 * a.length - 1) : Nat) : Int))
    (rb : 256 * |svalue b| ≤ ((2 ^ (8 * a.length - 1) : Nat) : Int)) (hb0 : svalue b ≠ 0) :
    ∃ q r, scDivmod a b = some (q, r, !decide (svalue r = 0)) ∧ q.length = a.length ∧ r.length = a.length ∧ Bytes q ∧ Bytes r ∧
      svalue q = (svalue a).tdiv (svalue b) ∧ svalue r = (svalue a).tmod (svalue b) := by
  have hn' : 0 < b.length := by omega
  have hh := half256 hn
  have hvb : value b ≠ 0 := fun h => hb0 ((svalue_eq_zero_iff hb hn').2 h)
  have hpos : (0 : Nat) < 2 ^ (8 * a.length - 1) := by positivity
  have hA := abs_value ha hn ra
  have hB := abs_value hb hn' (by
    intro hc; rw [hc, abs_neg, Nat.abs_cast, ← hl] at rb
    omega)
  rw [← hl] at hB
  unfold scDivmod
  simp only []
  rw [hl, scIsZero_full hb, if_neg (by simpa using hvb), ← hl, scIsZero_full ha]
  by_cases ha0 : value a = 0
  · have hsa := (svalue_eq_zero_iff ha hn).2 ha0
    rw [if_pos (by simpa using ha0)]
    have z : svalue (scZero a.length) = 0 := by
      rw [svalue_eq_zero_iff (scZero_bytes _) (by rw [scZero_length]; exact hn)]; exact scZero_value _
    exact ⟨scZero a.length, scZero a.length, by simp [z], scZero_length _, scZero_length _, scZero_bytes _, scZero_bytes _,
      by rw [z, hsa]; simp, by rw [z, hsa]; simp⟩
  rw [if_neg (by simpa using ha0)]
  have hd : (if scIsNegative b = true then scNeg b else b) = (if scIsNegative b then scNeg b else b) := rfl
  set a' := (if scIsNegative a = true then scNeg a else a) with ha'
  set d := (if scIsNegative b = true then scNeg b else b) with hd'
  set md := (if scIsNegative b = true then b else scNeg b) with hmd'
  have la' : a'.length = a.length := by rw [ha']; split; exact scNeg_length a; rfl
  have ld' : d.length = a.length := by rw [hd']; split; rw [scNeg_length, hl]; exact hl.symm
  have lm' : md.length = a.length := by rw [hmd']; split; exact hl.symm; rw [scNeg_length, hl]
  have ba' : Bytes a' := by rw [ha']; split; exact scNeg_bytes ha; exact ha
  have bd' : Bytes d := by rw [hd']; split; exact scNeg_bytes hb; exact hb
  have sd : svalue d = |svalue b| := by
    rw [svalue_of_nonneg (by omega) (by rw [ld']; exact hB.2)]; exact hB.1
  have sa' : svalue a' = |svalue a| := by
    rw [svalue_of_nonneg (by omega) (by rw [la']; exact hA.2)]; exact hA.1
  have hDpos : 0 < value d := by
    have : 0 < |svalue b| := abs_pos.2 hb0
    have := hB.1; omega
  have smd : svalue md = -(value d : Int) := by
    rw [hB.1, hmd']
    split
    · next h => rw [scIsNegative_iff hb hn'] at h; rw [abs_of_neg h]; ring
    · next h =>
      have h' := h
      rw [scIsNegative_iff hb hn', not_lt] at h'
      have : d = b := by rw [hd', if_neg h]
      rw [this] at hB
      rw [neg_svalue_of_value hb hn' (by rw [← hl]; exact hB.2), hB.1]
  have hdbig : 256 * value d ≤ 2 ^ (8 * a.length - 1) := by have := hB.1; omega
  set A := value a' with hAdef
  set D := value d with hDdef
  -- the unsigned division
  have core : ∃ r q, (if scComp a' d = Rel.equal then some (scZero a.length, 1 :: scZero (a.length - 1))
      else if scComp a' d = Rel.less then some (a', scZero a.length)
      else scDivLoop d md a'.reverse (scZero a.length) (scZero a.length)) = some (r, q) ∧
      r.length = a.length ∧ q.length = a.length ∧ Bytes r ∧ Bytes q ∧ value r = A % D ∧ value q = A / D := by
    rw [scComp_eq (by omega) ba' bd' (by omega), sa', sd, ← hA.1, ← hB.1]
    by_cases e1 : (A : Int) = D
    · have e1' : A = D := by omega
      rw [if_pos e1, if_pos rfl]
      refine ⟨_, _, rfl, scZero_length _, by simp [scZero_length]; omega, scZero_bytes _, (scZero_bytes _).cons (by decide), ?_, ?_⟩
      · rw [scZero_value, e1', Nat.mod_self]
      · rw [value, scZero_value, e1', Nat.div_self hDpos]
    · rw [if_neg e1]
      by_cases e2 : (A : Int) > D
      · rw [if_pos e2, if_neg (by decide), if_neg (by decide)]
        obtain ⟨r, q, h1, h2, h3, h4, h5, h6, h7⟩ := scDivLoop_spec hn ld' lm' bd' hDpos rfl smd hdbig a'.reverse 0
          (scZero a.length) (scZero a.length) ba'.reverse (scZero_length _) (scZero_length _) (scZero_bytes _) (scZero_bytes _)
          (by rw [scZero_value, Nat.zero_mod]) (by rw [scZero_value, Nat.zero_div])
          (by rw [List.reverse_reverse, Nat.zero_mul, Nat.zero_add]
              have := value_lt ba'; rwa [la'] at this)
        rw [List.reverse_reverse, Nat.zero_mul, Nat.zero_add] at h6 h7
        exact ⟨r, q, h1, h2, h3, h4, h5, h6, h7⟩
      · rw [if_neg e2, if_neg (by decide), if_pos rfl]
        have hlt : A < D := by omega
        exact ⟨_, _, rfl, la', scZero_length _, ba', scZero_bytes _, by rw [Nat.mod_eq_of_lt hlt],
          by rw [scZero_value, Nat.div_eq_of_lt hlt]⟩
  obtain ⟨r, q, hc, lr, lq, br, bq, vr, vq⟩ := core
  rw [hc]
  simp only []
  have hqle : value q < 2 ^ (8 * a.length - 1) := by
    rw [vq]; exact lt_of_le_of_lt (Nat.div_le_self _ _) hA.2
  have hrle : value r < 2 ^ (8 * a.length - 1) := by
    rw [vr]; exact lt_of_le_of_lt (Nat.mod_le _ _) hA.2
  set q' := (if (scIsNegative a != scIsNegative b) = true then scNeg q else q) with hq'
  set r' := (if scIsNegative a = true then scNeg r else r) with hr'
  have lr' : r'.length = a.length := by rw [hr']; split; rw [scNeg_length, lr]; exact lr
  have lq' : q'.length = a.length := by rw [hq']; split; rw [scNeg_length, lq]; exact lq
  have br' : Bytes r' := by rw [hr']; split; exact scNeg_bytes br; exact br
  have bq' : Bytes q' := by rw [hq']; split; exact scNeg_bytes bq; exact bq
  have sr' : svalue r' = if svalue a < 0 then -((A % D : Nat) : Int) else ((A % D : Nat) : Int) := by
    rw [hr']
    by_cases hneg : scIsNegative a = true
    · rw [if_pos hneg, if_pos ((scIsNegative_iff ha hn).1 hneg), neg_svalue_of_value br (by omega) (by rw [lr]; exact hrle), vr]
    · rw [if_neg hneg, if_neg (fun h => hneg ((scIsNegative_iff ha hn).2 h)), svalue_of_nonneg (by omega) (by rw [lr]; exact hrle), vr]
  have sq' : svalue q' = if (svalue a < 0) ↔ (svalue b < 0) then ((A / D : Nat) : Int) else -((A / D : Nat) : Int) := by
    rw [hq']
    simp only [← scIsNegative_iff ha hn, ← scIsNegative_iff hb hn']
    cases hna : scIsNegative a <;> cases hnb : scIsNegative b <;> simp
    · rw [svalue_of_nonneg (by omega) (by rw [lq]; exact hqle), vq]; push_cast; rfl
    · rw [neg_svalue_of_value bq (by omega) (by rw [lq]; exact hqle), vq]; push_cast; rfl
    · rw [neg_svalue_of_value bq (by omega) (by rw [lq]; exact hqle), vq]; push_cast; rfl
    · rw [svalue_of_nonneg (by omega) (by rw [lq]; exact hqle), vq]; push_cast; rfl
  have tdm : (svalue a).tdiv (svalue b) = svalue q' ∧ (svalue a).tmod (svalue b) = svalue r' := by
    rw [sq', sr']
    have hA1 := hA.1
    have hB1 := hB.1
    have hdn : ((A / D : Nat) : Int) = ((A : Int)).tdiv D := by
      rw [Int.natCast_ediv]; exact (Int.tdiv_eq_ediv_of_nonneg (Int.natCast_nonneg _)).symm
    have hmn : ((A % D : Nat) : Int) = ((A : Int)).tmod D := by
      rw [Int.natCast_emod]; exact (Int.tmod_eq_emod_of_nonneg (Int.natCast_nonneg _)).symm
    rw [hdn, hmn]
    by_cases h1 : svalue a < 0 <;> by_cases h2 : svalue b < 0 <;> simp only [h1, h2, if_true, if_false, true_iff, false_iff, iff_true, not_true_eq_false, not_false_eq_true]
    · rw [abs_of_neg h1] at hA1; rw [abs_of_neg h2] at hB1
      have e1 : svalue a = -A := by omega
      have e2 : svalue b = -D := by omega
      rw [e1, e2, Int.neg_tdiv, Int.tdiv_neg, Int.neg_tmod, Int.tmod_neg]; simp
    · rw [abs_of_neg h1] at hA1; rw [abs_of_nonneg (by omega)] at hB1
      have e1 : svalue a = -A := by omega
      rw [e1, ← hB1, Int.neg_tdiv, Int.neg_tmod]; simp
    · rw [abs_of_nonneg (by omega)] at hA1; rw [abs_of_neg h2] at hB1
      have e2 : svalue b = -D := by omega
      rw [e2, ← hA1, Int.tdiv_neg, Int.tmod_neg]; simp
    · rw [abs_of_nonneg (by omega)] at hA1; rw [abs_of_nonneg (by omega)] at hB1
      rw [← hA1, ← hB1]; simp
  refine ⟨q', r', ?_, lq', lr', bq', br', tdm.1.symm, tdm.2.symm⟩
  have hz := scIsZero_full br'
  rw [lr'] at hz
  rw [hz]
  simp only [svalue_eq_zero_iff br' (by omega)]

end Verif.Model
