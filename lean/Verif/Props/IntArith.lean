import Verif.Lemmas.TarVal
/-!
# C01, C02: integer add, sub, mul, neg, abs

The specification is `Spec.wrap` (the unique representative modulo `2^n` in
the range of the mode) and `Spec.InRange`.
-/
namespace Verif.Props
open Verif.Spec Verif.Model

/-! ## the exact buffer contents before reduction -/

theorem tvArith_int {E : TvEnv} {op : List Nat → List Nat → List Nat} {md : Mode} (ok : ModeOk E md) (x y : List Nat) :
    tvArith E op (.int md x) (.int md y) md = some (getIntTarvalOverflow E (op x y) md) := by
  have := ok.twos
  unfold Mode.twos at this
  unfold tvArith
  cases h : md.sort <;> simp_all

theorem add_same_mode {E : TvEnv} {md : Mode} (ok : ModeOk E md) (x y : List Nat) :
    tarvalAdd E (.int md x) (.int md y) = some (getIntTarvalOverflow E (scAdd x y) md) := by
  unfold tarvalAdd
  have : (TarVal.int md x).mode = (TarVal.int md y).mode := rfl
  simp only [this, ne_eq, not_true_eq_false, and_false, if_false]
  exact tvArith_int ok x y

theorem sub_same_mode {E : TvEnv} {md : Mode} (ok : ModeOk E md) (hs : md.sort ≠ .reference) (x y : List Nat) :
    tarvalSub E (.int md x) (.int md y) = some (getIntTarvalOverflow E (scSub x y) md) := by
  unfold tarvalSub
  rw [if_neg (show ¬ (TarVal.int md x).mode.sort = .reference from hs), if_neg (by simp [TarVal.mode])]
  exact tvArith_int ok x y

theorem mul_same_mode {E : TvEnv} {md : Mode} (ok : ModeOk E md) (x y : List Nat) :
    tarvalMul E (.int md x) (.int md y) = some (getIntTarvalOverflow E (scMul E.m x y) md) := by
  unfold tarvalMul
  rw [if_neg (by simp [TarVal.mode])]
  exact tvArith_int ok x y

/-! ## C01: wrap-around arithmetic -/

/-- C01: addition of two values of the same mode. -/
theorem tarval_add_wraps {E : TvEnv} (hw : E.wrap = true) {a b : TarVal} {md : Mode} {x y : Int}
    (ha : Denotes E a md x) (hb : Denotes E b md y) :
    ∃ r, tarvalAdd E a b = some r ∧ Denotes E r md (wrap md.signed md.bits (x + y)) := by
  obtain ⟨p, rfl, lp, bp, sp⟩ := ha.repr
  obtain ⟨q, rfl, lq, bq, sq⟩ := hb.repr
  refine ⟨_, add_same_mode ha.ok p q, ?_⟩
  rw [getIntTarvalOverflow_wrap hw]
  apply getIntTarval_denotes_of_emod ha.ok (by rw [scAdd_length (by omega), lp]) (scAdd_bytes _ _)
  rw [scAdd_svalue (by omega), sp, sq]
  exact bmod256_emod (by have := modeOk_lt ha.ok; omega) _

/-- C01: subtraction of two integers of the same mode. -/
theorem tarval_sub_wraps {E : TvEnv} (hw : E.wrap = true) {a b : TarVal} {md : Mode} {x y : Int}
    (hs : md.sort ≠ .reference) (ha : Denotes E a md x) (hb : Denotes E b md y) :
    ∃ r, tarvalSub E a b = some r ∧ Denotes E r md (wrap md.signed md.bits (x - y)) := by
  obtain ⟨p, rfl, lp, bp, sp⟩ := ha.repr
  obtain ⟨q, rfl, lq, bq, sq⟩ := hb.repr
  refine ⟨_, sub_same_mode ha.ok hs p q, ?_⟩
  rw [getIntTarvalOverflow_wrap hw]
  apply getIntTarval_denotes_of_emod ha.ok
    (by rw [scSub_length (by omega), lp]) (scSub_bytes _ _)
  rw [scSub_svalue (by omega) bq, sp, sq]
  exact bmod256_emod (by have := modeOk_lt ha.ok; omega) _

/-- C01: multiplication. -/
theorem tarval_mul_wraps {E : TvEnv} (hw : E.wrap = true) {a b : TarVal} {md : Mode} {x y : Int}
    (ha : Denotes E a md x) (hb : Denotes E b md y) :
    ∃ r, tarvalMul E a b = some r ∧ Denotes E r md (wrap md.signed md.bits (x * y)) := by
  have hax := denotes_abs ha
  have hbx := denotes_abs hb
  have hm : 0 < E.m := by have := ha.ok.pos; have := ha.ok.le; omega
  obtain ⟨p, rfl, lp, bp, sp⟩ := ha.repr
  obtain ⟨q, rfl, lq, bq, sq⟩ := hb.repr
  refine ⟨_, mul_same_mode ha.ok p q, ?_⟩
  rw [getIntTarvalOverflow_wrap hw]
  apply getIntTarval_denotes_of_emod ha.ok (by rw [scMul_length, lp]) (scMul_bytes _ _ _)
  rw [scMul_svalue hm lp lq bp bq (by rw [sp]; exact hax) (by rw [sq]; exact hbx), sp, sq]
  exact bmod256_emod (by have := modeOk_lt ha.ok; omega) _

/-- C01: negation. -/
theorem tarval_neg_wraps {E : TvEnv} (hw : E.wrap = true) {a : TarVal} {md : Mode} {x : Int} (ha : Denotes E a md x) :
    ∃ r, tarvalNeg E a = some r ∧ Denotes E r md (wrap md.signed md.bits (-x)) := by
  obtain ⟨p, rfl, lp, bp, sp⟩ := ha.repr
  refine ⟨_, by unfold tarvalNeg; simp only [ha.ok.twos, if_true]; rfl, ?_⟩
  rw [getIntTarvalOverflow_wrap hw]
  apply getIntTarval_denotes_of_emod ha.ok (by rw [scNeg_length, lp]) (scNeg_bytes bp)
  rw [scNeg_svalue bp, sp]
  exact bmod256_emod (by have := modeOk_lt ha.ok; omega) _

/-- `tarval_is_negative` is the sign test. -/
theorem tarval_is_negative_spec {E : TvEnv} {a : TarVal} {md : Mode} {x : Int} (ha : Denotes E a md x) :
    tarvalIsNegative E a = some (decide (x < 0)) := by
  have hr := ha.inRange
  have hm : 0 < 2 * E.m := by have := modeOk_lt ha.ok; omega
  have hnull := modeNull_denotes ha.ok
  obtain ⟨p, rfl, lp, bp, sp⟩ := ha.repr
  obtain ⟨z, hz, lz, bz, sz⟩ := hnull.repr
  cases hs : md.signed with
  | false =>
    unfold InRange at hr
    simp only [hs, Bool.false_eq_true, if_false] at hr
    have : ¬ x < 0 := by omega
    simp [tarvalIsNegative, hs, this]
  | true =>
    have h1 : tarvalIsNegative E (.int md p) = some (scComp p z == Rel.less) := by
      simp [tarvalIsNegative, hs, hz]
    rw [h1, scComp_eq (by omega) bp bz (by omega), sp, sz]
    congr 1
    by_cases h0 : x < 0
    · rw [if_neg (by omega), if_neg (by omega)]; simp [h0]
    · by_cases h2 : x = 0
      · rw [if_pos h2, h2]; decide
      · rw [if_neg h2, if_pos (by omega)]; simp only [h0, decide_false]; decide

/-- C01: absolute value. -/
theorem tarval_abs_wraps {E : TvEnv} (hw : E.wrap = true) {a : TarVal} {md : Mode} {x : Int} (ha : Denotes E a md x) :
    ∃ r, tarvalAbs E a = some r ∧ Denotes E r md (wrap md.signed md.bits |x|) := by
  unfold tarvalAbs
  rw [tarval_is_negative_spec ha]
  by_cases h0 : x < 0
  · simp only [h0, decide_true]
    rw [abs_of_neg h0]; exact tarval_neg_wraps hw ha
  · simp only [h0, decide_false]
    refine ⟨a, rfl, ?_⟩
    rw [abs_of_nonneg (by omega), wrap_of_inRange ha.ok.pos ha.inRange]; exact ha

/-! ## C02: exact overflow detection -/

/-- C02: addition with wrap-around switched off. -/
theorem tarval_add_overflow {E : TvEnv} (hw : E.wrap = false) {a b : TarVal} {md : Mode} {x y : Int}
    (ha : Denotes E a md x) (hb : Denotes E b md y) :
    ∃ r, tarvalAdd E a b = some r ∧ (r = .bad ↔ ¬ InRange md.signed md.bits (x + y)) ∧
      (InRange md.signed md.bits (x + y) → Denotes E r md (x + y)) := by
  have hax := abs_lt.1 (denotes_abs ha)
  have hbx := abs_lt.1 (denotes_abs hb)
  have hlt := modeOk_lt ha.ok
  obtain ⟨p, rfl, lp, bp, sp⟩ := ha.repr
  obtain ⟨q, rfl, lq, bq, sq⟩ := hb.repr
  refine ⟨_, add_same_mode ha.ok p q, ?_⟩
  have hm : 0 < E.m := by have := ha.ok.pos; have := ha.ok.le; omega
  have hs : svalue (scAdd p q) = x + y := by
    rw [scAdd_svalue (by omega), sp, sq, lp]
    have : 2 * 256 ^ E.m ≤ 2 ^ (8 * (2 * E.m) - 1) := by
      rw [pow256, ← Nat.pow_succ']; exact Nat.pow_le_pow_right (by decide) (by omega)
    exact bmod_of_range (by omega) (by omega) (by omega)
  have key := getIntTarvalOverflow_strict hw ha.ok (v := scAdd p q) (by rw [scAdd_length (by omega), lp]) (scAdd_bytes _ _)
  rw [hs] at key
  refine ⟨⟨fun hbad hin => ?_, key.1⟩, key.2⟩
  obtain ⟨_, h', _⟩ := (key.2 hin).repr
  rw [hbad] at h'; cases h'

/-- C02: subtraction. -/
theorem tarval_sub_overflow {E : TvEnv} (hw : E.wrap = false) {a b : TarVal} {md : Mode} {x y : Int}
    (hsr : md.sort ≠ .reference) (ha : Denotes E a md x) (hb : Denotes E b md y) :
    ∃ r, tarvalSub E a b = some r ∧ (r = .bad ↔ ¬ InRange md.signed md.bits (x - y)) ∧
      (InRange md.signed md.bits (x - y) → Denotes E r md (x - y)) := by
  have hax := abs_lt.1 (denotes_abs ha)
  have hbx := abs_lt.1 (denotes_abs hb)
  have hlt := modeOk_lt ha.ok
  obtain ⟨p, rfl, lp, bp, sp⟩ := ha.repr
  obtain ⟨q, rfl, lq, bq, sq⟩ := hb.repr
  refine ⟨_, sub_same_mode ha.ok hsr p q, ?_⟩
  have hm : 0 < E.m := by have := ha.ok.pos; have := ha.ok.le; omega
  have hs : svalue (scSub p q) = x - y := by
    rw [scSub_svalue (by omega) bq, sp, sq, lp]
    have : 2 * 256 ^ E.m ≤ 2 ^ (8 * (2 * E.m) - 1) := by
      rw [pow256, ← Nat.pow_succ']; exact Nat.pow_le_pow_right (by decide) (by omega)
    exact bmod_of_range (by omega) (by omega) (by omega)
  have key := getIntTarvalOverflow_strict hw ha.ok (v := scSub p q)
    (by rw [scSub_length (by omega), lp]) (scSub_bytes _ _)
  rw [hs] at key
  refine ⟨⟨fun hbad hin => ?_, key.1⟩, key.2⟩
  obtain ⟨_, h', _⟩ := (key.2 hin).repr
  rw [hbad] at h'; cases h'

/-- C02: negation. -/
theorem tarval_neg_overflow {E : TvEnv} (hw : E.wrap = false) {a : TarVal} {md : Mode} {x : Int} (ha : Denotes E a md x) :
    ∃ r, tarvalNeg E a = some r ∧ (r = .bad ↔ ¬ InRange md.signed md.bits (-x)) ∧
      (InRange md.signed md.bits (-x) → Denotes E r md (-x)) := by
  have hax := abs_lt.1 (denotes_abs ha)
  have hlt := modeOk_lt ha.ok
  obtain ⟨p, rfl, lp, bp, sp⟩ := ha.repr
  refine ⟨_, by unfold tarvalNeg; simp only [ha.ok.twos, if_true]; rfl, ?_⟩
  have hm : 0 < E.m := by have := ha.ok.pos; have := ha.ok.le; omega
  have hs : svalue (scNeg p) = -x := by
    rw [scNeg_svalue bp, sp, lp]
    have : 2 * 256 ^ E.m ≤ 2 ^ (8 * (2 * E.m) - 1) := by
      rw [pow256, ← Nat.pow_succ']; exact Nat.pow_le_pow_right (by decide) (by omega)
    exact bmod_of_range (by omega) (by omega) (by omega)
  have key := getIntTarvalOverflow_strict hw ha.ok (v := scNeg p) (by rw [scNeg_length, lp]) (scNeg_bytes bp)
  rw [hs] at key
  refine ⟨⟨fun hbad hin => ?_, key.1⟩, key.2⟩
  obtain ⟨_, h', _⟩ := (key.2 hin).repr
  rw [hbad] at h'; cases h'

/-- C02: multiplication.  The double-width buffer can itself overflow for
unsigned modes of the maximal size; the overflow test still answers right. -/
theorem tarval_mul_overflow {E : TvEnv} (hw : E.wrap = false) {a b : TarVal} {md : Mode} {x y : Int}
    (ha : Denotes E a md x) (hb : Denotes E b md y) :
    ∃ r, tarvalMul E a b = some r ∧ (r = .bad ↔ ¬ InRange md.signed md.bits (x * y)) ∧
      (InRange md.signed md.bits (x * y) → Denotes E r md (x * y)) := by
  have hax := denotes_abs ha
  have hbx := denotes_abs hb
  have hm : 0 < E.m := by have := ha.ok.pos; have := ha.ok.le; omega
  have hlt := modeOk_lt ha.ok
  have ok := ha.ok
  have rx := ha.inRange
  have ry := hb.inRange
  obtain ⟨p, rfl, lp, bp, sp⟩ := ha.repr
  obtain ⟨q, rfl, lq, bq, sq⟩ := hb.repr
  refine ⟨_, mul_same_mode ok p q, ?_⟩
  have hs0 : svalue (scMul E.m p q) = (x * y).bmod (256 ^ (2 * E.m)) := by
    rw [scMul_svalue hm lp lq bp bq (by rw [sp]; exact hax) (by rw [sq]; exact hbx), sp, sq]
  have hp2 : (256 : Nat) ^ (2 * E.m) = 256 ^ E.m * 256 ^ E.m := by rw [two_mul, pow_add]
  have hhalf := half256 (n := 2 * E.m) (by omega)
  have habs : |x * y| < ((256 ^ (2 * E.m) : Nat) : Int) := by
    rw [abs_mul, hp2]; push_cast at hax hbx ⊢
    exact mul_lt_mul'' hax hbx (abs_nonneg _) (abs_nonneg _)
  have key := getIntTarvalOverflow_strict hw ok (v := scMul E.m p q) (by rw [scMul_length, lp]) (scMul_bytes _ _ _)
  -- the reduced product is in range exactly when the product is, and then equal
  have main : (InRange md.signed md.bits (svalue (scMul E.m p q)) ↔ InRange md.signed md.bits (x * y)) ∧
      (InRange md.signed md.bits (x * y) → svalue (scMul E.m p q) = x * y) := by
    by_cases hfit : -((2 ^ (8 * (2 * E.m) - 1) : Nat) : Int) ≤ x * y ∧ x * y < ((2 ^ (8 * (2 * E.m) - 1) : Nat) : Int)
    · rw [hs0, bmod_of_range (by omega) hfit.1 hfit.2]; simp
    · have hbm : (2:Int) ^ md.bits ≤ 2 ^ (8 * (2 * E.m) - 1) := pow_le_pow_right₀ (by decide) (by omega)
      rw [two_pow_cast (8 * (2 * E.m) - 1)] at hbm
      have hsmall : ∀ z, InRange md.signed md.bits z → |z| < ((2 ^ (8 * (2 * E.m) - 1) : Nat) : Int) := by
        intro z hz; have := inRange_abs ok.pos hz; omega
      have hout : ¬ InRange md.signed md.bits (x * y) := by
        intro hc; have := abs_lt.1 (hsmall _ hc); exact hfit ⟨by omega, by omega⟩
      refine ⟨⟨fun hc => ?_, fun hc => absurd hc hout⟩, fun hc => absurd hc hout⟩
      exfalso
      -- signed products always fit, so the mode is unsigned
      cases hsg : md.signed with
      | true =>
        rw [hsg] at rx ry
        unfold InRange at rx ry
        simp only [if_true] at rx ry
        have h8 : (2:Int) ^ (md.bits - 1) ≤ 2 ^ (8 * E.m - 1) := pow_le_pow_right₀ (by decide) (by have := ok.le; omega)
        have hx1 : |x| ≤ 2 ^ (8 * E.m - 1) := abs_le.2 ⟨by omega, by omega⟩
        have hy1 : |y| ≤ 2 ^ (8 * E.m - 1) := abs_le.2 ⟨by omega, by omega⟩
        have hmul : |x * y| ≤ 2 ^ (8 * E.m - 1) * 2 ^ (8 * E.m - 1) := by
          rw [abs_mul]; exact mul_le_mul hx1 hy1 (abs_nonneg _) (by positivity)
        have : (2:Int) ^ (8 * E.m - 1) * 2 ^ (8 * E.m - 1) < ((2 ^ (8 * (2 * E.m) - 1) : Nat) : Int) := by
          rw [← pow_add, ← two_pow_cast]; exact pow_lt_pow_right₀ (by decide) (by omega)
        have := abs_lt.1 (lt_of_le_of_lt hmul this)
        exact hfit ⟨by omega, by omega⟩
      | false =>
        rw [hsg] at rx ry hc
        unfold InRange at rx ry hc
        simp only [Bool.false_eq_true, if_false] at rx ry hc
        have h0 : 0 ≤ x * y := mul_nonneg rx.1 ry.1
        rw [abs_of_nonneg h0] at habs
        have hlow : ((2 ^ (8 * (2 * E.m) - 1) : Nat) : Int) ≤ x * y := by
          by_contra hcc; exact hfit ⟨by omega, by omega⟩
        have : svalue (scMul E.m p q) < 0 := by
          rw [hs0, ← Int.sub_bmod_right, hhalf]
          rw [hhalf] at habs
          generalize 2 ^ (8 * (2 * E.m) - 1) = P at *
          rw [Int.bmod_eq_of_le (by omega) (by omega)]; omega
        omega
  refine ⟨⟨fun hbad hin => ?_, fun hn => key.1 (fun hc => hn (main.1.1 hc))⟩, fun hin => ?_⟩
  · obtain ⟨_, h', _⟩ := (key.2 (main.1.2 hin)).repr
    rw [hbad] at h'; cases h'
  · have := key.2 (main.1.2 hin)
    rwa [main.2 hin] at this

/-! ## reference modes -/

/-- C01: pointer plus integer offset: the offset is converted to the reference
mode and the sum wraps there. -/
theorem tarval_add_reference {E : TvEnv} (hw : E.wrap = true) {a b : TarVal} {mr mi : Mode} {x y : Int}
    (hr : mr.sort = .reference) (hi : mi.sort = .intNumber)
    (ha : Denotes E a mr x) (hb : Denotes E b mi y) :
    ∃ r, tarvalAdd E a b = some r ∧ Denotes E r mr (wrap mr.signed mr.bits (x + y)) := by
  have hne : mi ≠ mr := by intro h; rw [h, hr] at hi; cases hi
  obtain ⟨q, rfl, lq, bq, sq⟩ := hb.repr
  have hc : tarvalConvertTo E (.int mi q) mr = getIntTarval q mr := by
    unfold tarvalConvertTo
    rw [if_neg (by simpa [TarVal.mode] using hne)]
    simp only [hi, hr, if_true, true_or]
    exact getIntTarvalOverflow_wrap hw _ _
  have hconv := getIntTarval_denotes ha.ok lq bq
  rw [sq] at hconv
  obtain ⟨r, h1, h2⟩ := tarval_add_wraps hw ha hconv
  refine ⟨r, ?_, ?_⟩
  · rw [← h1]
    obtain ⟨p, rfl, _⟩ := ha.repr
    unfold tarvalAdd
    have e1 : (TarVal.int mr p).mode = mr := rfl
    have e2 : (TarVal.int mi q).mode = mi := rfl
    have e3 : (getIntTarval q mr).mode = mr := rfl
    simp only [e1, e2, e3, hr, true_and, ne_eq, Ne.symm hne, not_false_eq_true, if_true, not_true_eq_false, if_false, hc]
  · have e : wrap mr.signed mr.bits (x + wrap mr.signed mr.bits y) = wrap mr.signed mr.bits (x + y) := by
      apply wrap_of_emod_eq
      rw [Int.add_emod, wrap_emod, ← Int.add_emod]
    rwa [e] at h2

/-- C01: pointer difference is computed in the offset mode of the pointer mode. -/
theorem tarval_sub_references {E : TvEnv} (hw : E.wrap = true) {a b : TarVal} {mr : Mode} {x y : Int}
    (hr : mr.sort = .reference) (ho : ModeOk E (E.offsetMode mr)) (hoi : (E.offsetMode mr).sort = .intNumber)
    (ha : Denotes E a mr x) (hb : Denotes E b mr y) :
    ∃ r, tarvalSub E a b = some r ∧
      Denotes E r (E.offsetMode mr) (wrap (E.offsetMode mr).signed (E.offsetMode mr).bits (x - y)) := by
  have hne : mr ≠ E.offsetMode mr := by intro h; rw [← h, hr] at hoi; cases hoi
  have hconv : ∀ (p : List Nat) (z : Int), Denotes E (.int mr p) mr z →
      ∃ t, tarvalConvertTo E (.int mr p) (E.offsetMode mr) = .int (E.offsetMode mr) t ∧
        Denotes E (.int (E.offsetMode mr) t) (E.offsetMode mr) (wrap (E.offsetMode mr).signed (E.offsetMode mr).bits z) := by
    intro p z hz
    obtain ⟨p', e, lp, bp, sp⟩ := hz.repr
    cases e
    have hx := extendBuf_svalue hz.ok lp bp
    rw [sp, wrap_of_inRange hz.ok.pos hz.inRange] at hx
    have hd := getIntTarval_denotes ho (v := extendBuf p mr) (by rw [extendBuf_length, lp]) (extendBuf_bytes bp mr)
    rw [hx] at hd
    refine ⟨extendBuf (extendBuf p mr) (E.offsetMode mr), ?_, hd⟩
    unfold tarvalConvertTo
    rw [if_neg (by simpa [TarVal.mode] using hne)]
    simp only [hr, ho.twos, if_true, reduceCtorEq, if_false]
    rw [getIntTarvalOverflow_wrap hw]
    rfl
  obtain ⟨p, rfl, _⟩ := ha.repr
  obtain ⟨q, rfl, _⟩ := hb.repr
  obtain ⟨t, ht, dt⟩ := hconv p x ha
  obtain ⟨u, hu, du⟩ := hconv q y hb
  have hsub := sub_same_mode ho (by rw [hoi]; decide) t u
  have hsub2 := tarval_sub_wraps hw (by rw [hoi]; decide) dt du
  obtain ⟨r, h1, h2⟩ := hsub2
  refine ⟨r, ?_, ?_⟩
  · rw [← h1, hsub]
    unfold tarvalSub
    have e1 : (TarVal.int mr p).mode = mr := rfl
    have e2 : (TarVal.int mr q).mode = mr := rfl
    simp only [e1, e2, hr, if_true, ne_eq, not_true_eq_false, if_false, ht, hu]
    exact tvArith_int ho t u
  · have e : wrap (E.offsetMode mr).signed (E.offsetMode mr).bits
        (wrap (E.offsetMode mr).signed (E.offsetMode mr).bits x - wrap (E.offsetMode mr).signed (E.offsetMode mr).bits y)
        = wrap (E.offsetMode mr).signed (E.offsetMode mr).bits (x - y) := by
      apply wrap_of_emod_eq
      rw [Int.sub_emod, wrap_emod, wrap_emod, ← Int.sub_emod]
    rwa [e] at h2

/-! ## non-vacuity: concrete cases meeting the hypotheses -/

/-- 200 + 100 in an unsigned 8-bit mode is 44. -/
example : tarvalAdd TvEnv.default (.int modeBu (200 :: scZero 33)) (.int modeBu (100 :: scZero 33))
    = some (.int modeBu (44 :: scZero 33)) := by decide +kernel

theorem envOk_default : EnvOk TvEnv.default := show 5 ≤ 17 by decide

theorem denotes_example : Denotes TvEnv.default (.int modeBu (200 :: scZero 33)) modeBu 200 :=
  ⟨⟨by decide, by decide, by decide⟩, by decide, _, rfl, by decide,
    (scZero_bytes _).cons (by decide), by
      rw [svalue_of_nonneg (by decide) (by
        simp only [value, scZero_value, List.length_cons, scZero_length]; decide)]
      simp [value, scZero_value]⟩

example : ∃ r, tarvalAdd TvEnv.default (.int modeBu (200 :: scZero 33)) (.int modeBu (200 :: scZero 33)) = some r ∧
    Denotes TvEnv.default r modeBu 144 := by
  have := tarval_add_wraps (E := TvEnv.default) rfl denotes_example denotes_example
  simpa [wrap, modeBu] using this

/-- 200 * 200 overflows 8 bits and is reported when wrap-around is off. -/
example : tarvalMul { m := 17, wrap := false } (.int modeBu (200 :: scZero 33)) (.int modeBu (200 :: scZero 33))
    = some .bad := by decide +kernel

end Verif.Props
