import Verif.Lemmas.MulDecomp2
/-!
# C20, C21: multiplication by constants with shifts, adds and subs
-/
namespace Verif.Props
open Verif.Model Verif.Spec

/-- a condensed representation as it occurs in the recursion -/
structure CondOk (bits : Nat) (R : List Nat) : Prop where
  ne : R ≠ []
  tail : ∀ x ∈ R.tail, 1 ≤ x
  sum : R.sum < bits ∨ R = [bits]

theorem valueToCondensed_ok {bits : Nat} (hb : bits ≤ 255) {x : Int} (hx : x % 2 ^ bits ≠ 0) : CondOk bits (valueToCondensed bits x) := by
  have hne : valueToCondensed bits x ≠ [] := by
    intro h
    have := valueToCondensed_val hb x
    rw [h, condVal] at this
    exact hx (by simpa using this.symm)
  refine ⟨hne, condense_tail _ _ 0 0 (Nat.le_refl _) (by omega), Or.inl ?_⟩
  have := condense_sum (ibit x) bits 0 0 (Nat.le_refl _) (by omega) hne
  unfold valueToCondensed
  omega

theorem leaFactor_mono {m : IMode} {N : Int} {r r' : Nat} (h : r' ≤ r) : ∀ k, leaFactor m N r k = none → leaFactor m N r' k = none := by
  intro k
  induction k with
  | zero => intro _; rfl
  | succ k ih =>
    intro hn
    rw [leaFactor] at hn ⊢
    split at hn
    · simp at hn
    · rename_i hc
      rw [if_neg (fun hc' => hc ⟨hc'.1, by omega⟩)]
      exact ih hn

/-- a factor found by the loop: `N = q * (2^i + 1)` modulo `2^bits` -/
theorem leaFactor_spec {m : IMode} {N : Int} {r i : Nat} {q : Int} : ∀ k, k < m.bits → leaFactor m N r k = some (i, q) →
    1 ≤ i ∧ i ≤ k ∧ q * (2 ^ i + 1) ≡ N [ZMOD 2 ^ m.bits] ∧ (valueToCondensed m.bits q).length < r := by
  intro k
  induction k with
  | zero => intro _ h; simp [leaFactor] at h
  | succ k ih =>
    intro hk h
    rw [leaFactor] at h
    split at h
    · rename_i hc
      simp only [Option.some.injEq, Prod.mk.injEq] at h
      obtain ⟨rfl, rfl⟩ := h
      refine ⟨by omega, by omega, ?_, hc.2⟩
      have hmod : N.tmod (m.wrap (2 ^ (k + 1) + 1)) ≡ 0 [ZMOD 2 ^ m.bits] := by
        have := (wrap_modEq m (N.tmod (m.wrap (2 ^ (k + 1) + 1)))).symm
        unfold irMod at hc
        rw [hc.1] at this
        exact this
      have hN := Int.mul_tdiv_add_tmod N (m.wrap (2 ^ (k + 1) + 1))
      calc irDiv m N (m.wrap (2 ^ (k + 1) + 1)) * (2 ^ (k + 1) + 1)
          ≡ N.tdiv (m.wrap (2 ^ (k + 1) + 1)) * m.wrap (2 ^ (k + 1) + 1) [ZMOD 2 ^ m.bits] :=
            (wrap_modEq m _).mul (wrap_modEq m _).symm
        _ ≡ N.tdiv (m.wrap (2 ^ (k + 1) + 1)) * m.wrap (2 ^ (k + 1) + 1) + N.tmod (m.wrap (2 ^ (k + 1) + 1)) [ZMOD 2 ^ m.bits] := by
            have := (Int.ModEq.refl (N.tdiv (m.wrap (2 ^ (k + 1) + 1)) * m.wrap (2 ^ (k + 1) + 1))).add hmod.symm (n := 2 ^ m.bits)
            simpa using this
        _ = N := by rw [Int.mul_comm]; exact hN
    · obtain ⟨a, b, c, d⟩ := ih (by omega) h
      exact ⟨a, by omega, c, d⟩

theorem condensedToValueLoop_spec {m : IMode} (hm : AmtOk m) : ∀ (R : List Nat) (tv : Int) (res : Option Int), (∀ x ∈ R, x < m.bits) → (R ≠ [] ∨ res ≠ none) →
    ∃ v, condensedToValueLoop m R tv res = some v ∧ v ≡ res.getD 0 + tv * condVal R [ZMOD 2 ^ m.bits] := by
  intro R
  induction R with
  | nil =>
    intro tv res _ h
    cases res with
    | none => simp at h
    | some v => exact ⟨v, rfl, by simp [condVal, Int.ModEq.refl]⟩
  | cons j rest ih =>
    intro tv res hR _
    rw [condensedToValueLoop]
    have htv : (if j ≠ 0 then irShl m tv j else tv) ≡ tv * 2 ^ j [ZMOD 2 ^ m.bits] := by
      by_cases h : j ≠ 0
      · rw [if_pos h]
        unfold irShl
        rw [amt_eq hm (hR j (by simp))]
        exact wrap_modEq m _
      · rw [if_neg h]; rw [not_not] at h; rw [h]; simp [Int.ModEq.refl]
    generalize (if j ≠ 0 then irShl m tv j else tv) = tv' at htv
    obtain ⟨v, e, hv⟩ := ih tv' (some (accAdd m res tv')) (fun x hx => hR x (List.mem_cons_of_mem _ hx)) (Or.inr (by simp))
    refine ⟨v, e, hv.trans ?_⟩
    have h1 : (some (accAdd m res tv')).getD 0 ≡ res.getD 0 + tv' [ZMOD 2 ^ m.bits] := by
      cases res with
      | none => simp [accAdd, Int.ModEq.refl]
      | some w => exact wrap_modEq m _
    refine (h1.add_right _).trans ?_
    have : res.getD 0 + tv * (condVal (j :: rest) : Int) = res.getD 0 + tv * 2 ^ j + (tv * 2 ^ j) * (condVal rest : Int) := by
      rw [condVal]; push_cast; ring
    rw [this]
    exact ((Int.ModEq.refl _).add htv).add (htv.mul_right _)

/-- the target value handed down is the value of `R`, or useless for the LEA factors -/
def NOk (m : IMode) (maxS : Nat) (R : List Nat) (N : Option Int) : Prop :=
  ∀ v, N = some v → v ≡ condVal R [ZMOD 2 ^ m.bits] ∨ leaFactor m v R.length maxS = none

theorem simple_spec {m : IMode} (hm : AmtOk m) {maxS : Nat} (hS : maxS < m.bits) {R : List Nat} (hR : CondOk m.bits R) (hl : R.length ≤ 2) :
    ∃ inst, decomposeSimple m.bits maxS R = some inst ∧ Computes m inst (condVal R) := by
  have hroot := computes_root m
  cases R with
  | nil => exact absurd rfl hR.ne
  | cons r0 rest =>
    cases rest with
    | nil =>
      have hr0 : r0 ≤ m.bits := by
        rcases hR.sum with h | h
        · simp at h; omega
        · simp at h; omega
      exact ⟨_, rfl, (computes_shift hm hr0 hroot).congr (by simp [condVal])⟩
    | cons r1 rest =>
      cases rest with
      | cons _ _ => simp at hl
      | nil =>
        have hs : r0 + r1 < m.bits := by
          rcases hR.sum with h | h
          · simpa using h
          · simp at h
        rw [decomposeSimple]
        by_cases h1 : r1 ≤ maxS
        · rw [if_pos h1]
          have hlea := computes_lea hm (s := r1) (by omega) hroot hroot
          by_cases h0 : r0 ≠ 0
          · simp only []; rw [if_pos h0]
            exact ⟨_, rfl, (computes_shift hm (by omega) hlea).congr (by simp [condVal]; ring)⟩
          · simp only []; rw [if_neg h0]
            rw [not_not] at h0
            exact ⟨_, rfl, hlea.congr (by simp [condVal, h0])⟩
        · rw [if_neg h1]
          have h2 := computes_shift hm (s := r0 + r1) (by omega) hroot
          by_cases h0 : r0 ≠ 0
          · simp only []; rw [if_pos h0]
            exact ⟨_, rfl, (computes_lea hm (by omega) (computes_shift hm (by omega) hroot) h2).congr (by simp [condVal, pow_add]; ring)⟩
          · simp only []; rw [if_neg h0]
            rw [not_not] at h0
            exact ⟨_, rfl, (computes_lea hm (by omega) hroot h2).congr (by simp [condVal, h0])⟩

/-- the array `R2` -/
theorem gainR2_spec {bits : Nat} (hb : bits ≤ 255) {R : List Nat} (hR : CondOk bits R) {g : Nat} (hg2 : 2 ≤ g) (hgl : g < R.length)
    (hnorm : g + 1 = R.length ∨ ∃ x, R[g]? = some x ∧ 2 ≤ x) :
    ∃ R2, gainR2 R g = some R2 ∧ CondOk bits R2 ∧ R2.length < R.length ∧
      condVal R2 + condVal (R.take g) = condVal R + 2 ^ ((R.take g).sum + 1) := by
  have hsum : R.sum < bits := by
    rcases hR.sum with h | h
    · exact h
    · rw [h] at hgl; simp at hgl; omega
  have hsplit : R = R.take g ++ R.drop g := (List.take_append_drop _ _).symm
  cases hd : R.drop g with
  | nil => have := congrArg List.length hd; rw [List.length_drop] at this; simp at this; omega
  | cons gd rest =>
    have hlen : R.length = g + 1 + rest.length := by
      have := congrArg List.length hd
      rw [List.length_drop, List.length_cons] at this; omega
    have hgetg : R[g]? = some gd := by
      have : R[g]? = (R.drop g)[0]? := by rw [List.getElem?_drop]; rfl
      rw [this, hd]; rfl
    have hsumR : R.sum = (R.take g).sum + (gd + rest.sum) := by
      conv_lhs => rw [hsplit, List.sum_append, hd, List.sum_cons]
    have hcv : condVal R = condVal (R.take g) + 2 ^ (R.take g).sum * (2 ^ gd * (1 + condVal rest)) := by
      conv_lhs => rw [hsplit, condVal_append, hd, condVal]
    have hmemtail : ∀ x ∈ gd :: rest, 1 ≤ x := by
      intro x hx
      apply hR.tail
      rw [← hd] at hx
      have : R.drop g = R.tail.drop (g - 1) := by
        rw [← List.drop_one, List.drop_drop]; congr 1; omega
      rw [this] at hx
      exact List.mem_of_mem_drop hx
    have hgd1 : 1 ≤ gd := hmemtail gd (by simp)
    have hrest1 : ∀ x ∈ rest, 1 ≤ x := fun x hx => hmemtail x (List.mem_cons_of_mem _ hx)
    have hu : u8 (gd + 255) = gd - 1 := by unfold u8; omega
    have hk : u8 (1 + (R.take g).sum) = 1 + (R.take g).sum := u8_of_lt (by omega)
    unfold gainR2
    rw [hd]
    simp only [hu, hk]
    by_cases h1 : gd - 1 = 0
    · rw [if_pos h1]
      have hgd : gd = 1 := by omega
      have hrest : rest = [] := by
        rcases hnorm with h | ⟨x, hx, h2⟩
        · exact List.length_eq_zero_iff.1 (by omega)
        · rw [hgetg] at hx; cases hx; omega
      rw [u8_of_lt (by omega)]
      refine ⟨_, rfl, ⟨by simp, by rw [hrest]; simp, ?_⟩, ?_, ?_⟩
      · rw [hrest]
        by_cases h : 1 + (R.take g).sum + 1 = bits
        · right; rw [h]
        · left; simp; omega
      · rw [List.length_cons, hrest]; simp; omega
      · rw [hcv, hrest, hgd, show condVal [1 + (R.take g).sum + 1] = 2 ^ (1 + (R.take g).sum + 1) * (1 + 0) from rfl, show condVal [] = 0 from rfl, show 1 + (R.take g).sum + 1 = (R.take g).sum + 1 + 1 by omega]
        simp only [pow_succ]; ring
    · rw [if_neg h1]
      refine ⟨_, rfl, ⟨by simp, ?_, Or.inl ?_⟩, ?_, ?_⟩
      · intro x hx
        rw [List.tail_cons] at hx
        rcases List.mem_cons.1 hx with rfl | hx
        · omega
        · exact hrest1 x hx
      · rw [List.sum_cons, List.sum_cons]; omega
      · rw [List.length_cons, List.length_cons]; omega
      · obtain ⟨e, rfl⟩ : ∃ e, gd = e + 1 := ⟨gd - 1, by omega⟩
        rw [hcv, condVal, condVal, show 1 + (R.take g).sum = (R.take g).sum + 1 by omega, Nat.add_sub_cancel]
        simp only [pow_succ]; ring

/-- C20 and C21 on condensed representations: the recursion ends within `2 r + 1` nested calls, and the instructions multiply by the value. -/
theorem decompose_spec {m : IMode} (hm : AmtOk m) (hb : m.bits ≤ 255) (subs : Bool) {maxS : Nat} (hS : maxS < m.bits) :
    ∀ (fuel : Nat) (R : List Nat) (N : Option Int), CondOk m.bits R → NOk m maxS R N →
      2 * R.length + (if R.head? = some 0 then 0 else 1) < fuel →
      ∃ inst, decomposeMul m subs maxS fuel R N = some inst ∧ Computes m inst (condVal R) := by
  intro fuel
  induction fuel with
  | zero => intro R N _ _ h; omega
  | succ fuel ih =>
    intro R N hR hN hf
    rw [decomposeMul]
    by_cases hl : R.length ≤ 2
    · rw [if_pos hl]; exact simple_spec hm hS hR hl
    · rw [if_neg hl]
      have hsum : R.sum < m.bits := by
        rcases hR.sum with h | h
        · exact h
        · rw [h] at hl; simp at hl
      obtain ⟨gain, eg, hgain⟩ := calculateGain_spec (R := R) (by omega)
      rw [eg]
      simp only []
      by_cases hc : subs = true ∧ gain > 0
      · rw [if_pos hc]
        obtain ⟨g, rfl, hg2, hgl, hgs, hnorm⟩ : ∃ g : Nat, gain = g ∧ 2 ≤ g ∧ g < R.length ∧ (R.take g).sum + 4 ≤ 2 * g ∧ (g + 1 = R.length ∨ ∃ x, R[g]? = some x ∧ 2 ≤ x) := by
          rcases hgain with h | h
          · omega
          · exact h
        rw [Int.toNat_natCast]
        have hlt : (R.take g).length = g := by rw [List.length_take]; omega
        have htake1 : R.take g ≠ [] := by intro h; rw [h] at hlt; simp at hlt; omega
        have htail : ∀ x ∈ (R.take g).tail, 1 ≤ x := by
          intro x hx
          apply hR.tail
          rw [← List.drop_one] at hx ⊢
          rw [List.drop_take] at hx
          exact List.mem_of_mem_take hx
        have hsumt : (R.take g).sum ≤ R.sum := by
          conv_rhs => rw [← List.take_append_drop g R, List.sum_append]
          omega
        obtain ⟨R1, e1, hv1, hl1, hne1, ht1, hs1⟩ := complementCondensed_spec hb htake1 htail (by omega)
        obtain ⟨R2, e2, hok2, hl2, hv2⟩ := gainR2_spec hb hR hg2 hgl hnorm
        rw [hlt] at hl1
        obtain ⟨i1, f1, c1⟩ := ih R1 none ⟨hne1, ht1, Or.inl (by omega)⟩ (by intro v h; simp at h) (by split <;> omega)
        obtain ⟨i2, f2, c2⟩ := ih R2 none hok2 (by intro v h; simp at h) (by split <;> omega)
        rw [e1, e2]
        simp only []
        rw [f1, f2]
        refine ⟨_, rfl, (computes_sub c2 c1).congr ?_⟩
        omega
      · rw [if_neg hc]
        -- the value used for the factors
        have hval : ∃ v, valueOr m R N = some v ∧
            (v ≡ condVal R [ZMOD 2 ^ m.bits] ∨ leaFactor m v R.length maxS = none) := by
          cases N with
          | some v => exact ⟨v, rfl, hN v rfl⟩
          | none =>
            have hmem : ∀ x ∈ R, x < m.bits := fun x hx => lt_of_le_of_lt (List.le_sum_of_mem hx) hsum
            obtain ⟨v, e, hv⟩ := condensedToValueLoop_spec hm R (m.wrap 1) none hmem (Or.inl hR.ne)
            refine ⟨v, e, Or.inl (hv.trans ?_)⟩
            have := (wrap_modEq m 1).mul_right (condVal R : Int)
            simpa using this
        obtain ⟨v, ev, hv⟩ := hval
        rw [ev]
        simp only []
        cases hlea : leaFactor m v R.length maxS with
        | some p =>
          obtain ⟨i, q⟩ := p
          simp only []
          obtain ⟨hi1, hi2, hq, hql⟩ := leaFactor_spec maxS hS hlea
          have hv' : v ≡ condVal R [ZMOD 2 ^ m.bits] := by
            rcases hv with h | h
            · exact h
            · rw [h] at hlea; simp at hlea
          have hq' : q * (2 ^ i + 1) ≡ condVal R [ZMOD 2 ^ m.bits] := hq.trans hv'
          have hq0 : q % 2 ^ m.bits ≠ 0 := by
            intro h0
            have h1 : q ≡ 0 [ZMOD 2 ^ m.bits] := by unfold Int.ModEq; rw [h0]; simp
            have h2 := ((h1.mul_right (2 ^ i + 1)).symm.trans hq').symm
            rw [Int.zero_mul] at h2
            have h3 := condVal_pos hR.ne
            have h4 : condVal R < 2 ^ m.bits := lt_of_lt_of_le (condVal_lt R hR.tail) (Nat.pow_le_pow_right (by omega) (by omega))
            unfold Int.ModEq at h2
            rw [Int.emod_eq_of_lt (by omega) (by exact_mod_cast h4), Int.zero_emod] at h2
            omega
          have hvc := valueToCondensed_val hb q
          obtain ⟨n1, f1, c1⟩ := ih (valueToCondensed m.bits q) (some q) (valueToCondensed_ok hb hq0) (by
            intro w hw; cases hw
            left
            rw [hvc]
            exact (Int.mod_modEq q _).symm) (by split <;> omega)
          rw [f1]
          refine ⟨_, rfl, ?_⟩
          have c2 := computes_lea hm (show i < m.bits by omega) c1 c1
          intro x
          refine (c2 x).trans (Int.ModEq.mul_right x ?_)
          rw [hvc]
          have : q % 2 ^ m.bits + q % 2 ^ m.bits * 2 ^ i = q % 2 ^ m.bits * (2 ^ i + 1) := by ring
          rw [this]
          exact ((Int.mod_modEq q _).mul_right _).trans hq'
        | none =>
          simp only []
          cases R with
          | nil => exact absurd rfl hR.ne
          | cons r0 rest =>
            cases rest with
            | nil => simp at hl
            | cons r1 rest =>
              have hr1 : 1 ≤ r1 := hR.tail r1 (by simp)
              rw [List.sum_cons, List.sum_cons] at hsum
              rw [List.length_cons, List.length_cons] at hlea hf
              have hrest : ∀ x ∈ rest, 1 ≤ x := fun x hx => hR.tail x (by simp [hx])
              rw [basicDecomposeMul]
              by_cases h0 : r0 = 0
              · rw [if_pos h0]
                have ht : (if r1 > max maxS r1 then 1 else 0) = 0 := by rw [if_neg (by omega)]
                rw [ht]
                simp only []
                rw [Nat.sub_zero, u8_of_lt (by omega)]
                obtain ⟨ns, f1, c1⟩ := ih (r1 :: rest) (some v) ⟨by simp, by simpa using hrest, Or.inl (by rw [List.sum_cons]; omega)⟩ (by
                  intro w hw; cases hw; exact Or.inr (leaFactor_mono (by rw [List.length_cons]; omega) _ hlea)) (by
                  rw [List.length_cons]; split <;> omega)
                rw [f1]
                refine ⟨_, rfl, (computes_lea hm (by omega) (computes_root m) c1).congr ?_⟩
                rw [h0]; simp [condVal]
              · rw [if_neg h0]
                by_cases h1 : r0 ≤ maxS
                · rw [if_pos h1, u8_of_lt (by omega)]
                  obtain ⟨ns, f1, c1⟩ := ih ((r1 + r0) :: rest) (some v) ⟨by simp, by simpa using hrest, Or.inl (by rw [List.sum_cons]; omega)⟩ (by
                    intro w hw; cases hw; exact Or.inr (leaFactor_mono (by rw [List.length_cons]; omega) _ hlea)) (by
                    rw [List.length_cons]; split <;> omega)
                  rw [f1]
                  refine ⟨_, rfl, (computes_lea hm (by omega) c1 (computes_root m)).congr ?_⟩
                  simp only [condVal]; push_cast; rw [pow_add]; ring
                · rw [if_neg h1]
                  have hf' : ¬ (some r0 = some 0) := by simp [h0]
                  rw [List.head?_cons, if_neg hf'] at hf
                  obtain ⟨ns, f1, c1⟩ := ih (0 :: r1 :: rest) (some v) ⟨by simp, by simpa using hR.tail, Or.inl (by rw [List.sum_cons, List.sum_cons]; omega)⟩ (by
                    intro w hw; cases hw; exact Or.inr (by rw [List.length_cons, List.length_cons]; exact hlea)) (by
                    rw [List.length_cons, List.length_cons, List.head?_cons, if_pos rfl]; omega)
                  rw [f1]
                  refine ⟨_, rfl, (computes_shift hm (by omega) c1).congr ?_⟩
                  simp only [condVal]; push_cast; ring

theorem in_zero (m : IMode) : m.In 0 := by
  unfold IMode.In InRange
  cases m.signed
  · simp
  · simp

theorem eval_in {m : IMode} (h : 0 < m.bits) {x : Int} (hx : m.In x) : ∀ inst : Insn, m.In (inst.eval m x) := by
  intro inst
  cases inst with
  | lea a b s => exact wrap_inRange _ h _
  | shift a s => exact wrap_inRange _ h _
  | sub a b => exact wrap_inRange _ h _
  | add a b => exact wrap_inRange _ h _
  | zero => exact in_zero m
  | root => exact hx

theorem emod_ne_zero {m : IMode} (h : 0 < m.bits) {x : Int} (hx : m.In x) (h0 : x ≠ 0) : x % 2 ^ m.bits ≠ 0 := by
  intro h'
  exact h0 (inRange_inj h hx (in_zero m) (by rw [h', Int.zero_emod]))

theorem decomposition_spec (m : IMode) (hm : m.modulo = 0 ∨ m.bits ≤ m.modulo) (h4 : 4 ≤ m.bits) (hb : m.bits ≤ 255) (subs : Bool)
    (tv : Int) (htv : m.In tv) (h0 : tv ≠ 0) : ∃ inst, doDecomposition m subs tv = some inst ∧ Computes m inst tv := by
  have hvc := valueToCondensed_val hb tv
  have hlen : (valueToCondensed m.bits tv).length ≤ m.bits := condense_length _ _ _ _
  have hcong : tv ≡ (condVal (valueToCondensed m.bits tv) : Int) [ZMOD 2 ^ m.bits] := by
    rw [hvc]; exact (Int.mod_modEq tv _).symm
  obtain ⟨inst, e, hc⟩ := decompose_spec hm hb subs (maxS := 3) (by omega) (2 * m.bits + 2) (valueToCondensed m.bits tv) (some tv)
    (valueToCondensed_ok hb (emod_ne_zero (by omega) htv h0)) (by intro v hv; cases hv; exact Or.inl hcong) (by split <;> omega)
  exact ⟨inst, e, fun x => (hc x).trans (hcong.symm.mul_right x)⟩

/-- C20: for every integer mode of 4 to 255 bits and every non-zero constant `tv`, the instruction sequence found (with or without
subtractions) evaluates to `tv * x` in the mode, for every operand value `x`. -/
theorem mul_decomposition_exact (m : IMode) (hm : m.modulo = 0 ∨ m.bits ≤ m.modulo) (h4 : 4 ≤ m.bits) (hb : m.bits ≤ 255) (subs : Bool)
    (tv : Int) (htv : m.In tv) (h0 : tv ≠ 0) (inst : Insn) (hd : doDecomposition m subs tv = some inst) (x : Int) (hx : m.In x) :
    inst.eval m x = m.wrap (tv * x) := by
  obtain ⟨inst', e, hc⟩ := decomposition_spec m hm h4 hb subs tv htv h0
  rw [hd] at e; cases e
  exact (wrap_unique (by omega) (eval_in (by omega) hx inst) (hc x)).symm

/-- C21: the search terminates with a result for every non-zero constant; the nesting depth of the calls is at most `2 * bits + 1`. -/
theorem mul_decomposition_terminates (m : IMode) (hm : m.modulo = 0 ∨ m.bits ≤ m.modulo) (h4 : 4 ≤ m.bits) (hb : m.bits ≤ 255) (subs : Bool)
    (tv : Int) (htv : m.In tv) (h0 : tv ≠ 0) : ∃ inst, doDecomposition m subs tv = some inst := by
  obtain ⟨inst, e, _⟩ := decomposition_spec m hm h4 hb subs tv htv h0
  exact ⟨inst, e⟩

/-- the restriction to non-zero constants is needed: zero violates the assertion (the caller leaves it alone) -/
theorem mul_decomposition_zero (m : IMode) (subs : Bool) (hb : m.bits ≤ 255) : doDecomposition m subs 0 = none := by
  have h : valueToCondensed m.bits 0 = [] := by
    have := valueToCondensed_val hb 0
    rw [Int.zero_emod] at this
    by_contra hne
    have := condVal_pos hne
    omega
  unfold doDecomposition
  rw [h, decomposeMul.eq_def]
  rfl

/-- a 32-bit constant with a run of ones: a subtraction is used -/
example : doDecomposition ⟨true, 32, 32⟩ true 0x7f = some (.sub (.shift .root 7) (.shift .root 0)) := by decide +kernel

/-- factors of the LEA form: 45 = 5 * 9 -/
example : doDecomposition ⟨false, 32, 32⟩ false 45 = some (.lea (.lea .root .root 2) (.lea .root .root 2) 3) := by decide +kernel

end Verif.Props
