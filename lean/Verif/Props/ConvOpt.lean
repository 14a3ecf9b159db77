import Verif.Lemmas.ConvOpt
import Verif.Lemmas.Float
/-!
# C118: conversions are moved and left out without changing values
-/
namespace Verif.Props.ConvOpt

open Verif.Spec Verif.Spec.ConvTree Verif.Model.ConvOpt Verif.Lemmas.ConvOpt

/-! ## moving conversions -/

/-- C118: `conv_transform` of a tree to a mode computes, in every world and at all times, the value of the tree converted to the mode; the result
has this mode, and all operands still have the modes of their nodes.  The estimate of what becomes zero does not matter. -/
theorem conv_transform_right {σ : Type} (W : World σ) (zero : Tree → IMode → Bool) {dest : IMode} (hd : 0 < dest.bits) {t : Tree} (h : WF t) :
    WF (transform zero dest t) ∧ (transform zero dest t).mode = dest ∧
      ∀ s, eval W s (transform zero dest t) = dest.wrap (eval W s t) := transform_good W zero hd t h

theorem walker_good {σ : Type} (W : World σ) {zero : Tree → IMode → Bool} {t t' : Tree} (h : WF t) (hw : walker zero t = some t') :
    WF t' ∧ t'.mode = t.mode ∧ ∀ s, eval W s t' = eval W s t := by
  cases t with
  | conv m s a =>
    unfold walker at hw
    dsimp only at hw
    split at hw
    · cases hw
    · split at hw
      · cases hw
      · cases hw
        exact transform_good W zero h.1 a h.2
  | _ => cases hw

theorem step_good {σ : Type} (W : World σ) {zero : Tree → IMode → Bool} {t t' : Tree} (hs : Step zero t t') (h : WF t) :
    WF t' ∧ t'.mode = t.mode ∧ ∀ s, eval W s t' = eval W s t := by
  induction hs with
  | here hw => exact walker_good W h hw
  | un _ ih =>
    obtain ⟨g1, g2, g3⟩ := ih h.2.2
    exact ⟨⟨h.1, g2.trans h.2.1, g1⟩, rfl, fun s => by simp only [eval, g3]⟩
  | left _ ih =>
    obtain ⟨h0, ha, hb, wa, wb⟩ := h
    obtain ⟨g1, g2, g3⟩ := ih wa
    exact ⟨⟨h0, g2.trans ha, hb, g1, wb⟩, rfl, fun s => by simp only [eval, g3]⟩
  | right _ ih =>
    obtain ⟨h0, ha, hb, wa, wb⟩ := h
    obtain ⟨g1, g2, g3⟩ := ih wb
    exact ⟨⟨h0, ha, g2.trans hb, wa, g1⟩, rfl, fun s => by simp only [eval, g3]⟩
  | shifted _ ih =>
    obtain ⟨h0, ha, wa, wc⟩ := h
    obtain ⟨g1, g2, g3⟩ := ih wa
    exact ⟨⟨h0, g2.trans ha, g1, wc⟩, rfl, fun s => by simp only [eval, g3]⟩
  | count _ ih =>
    obtain ⟨h0, ha, wa, wc⟩ := h
    obtain ⟨g1, g2, g3⟩ := ih wc
    exact ⟨⟨h0, ha, wa, g1⟩, rfl, fun s => by simp only [eval, g3, g2]⟩
  | @phi m s k n ops ops' i _ ho ih =>
    obtain ⟨g1, g2, g3⟩ := ih (h.2 i).2
    refine ⟨⟨h.1, fun j => ?_⟩, rfl, fun s => ?_⟩
    · by_cases hj : j = i
      · rw [hj]; exact ⟨g2.trans (h.2 i).1, g1⟩
      · rw [ho j hj]; exact h.2 j
    · show eval W _ (ops' _) = eval W _ (ops _)
      by_cases hj : W.pick s k n = i
      · rw [hj, g3]
      · rw [ho _ hj]
  | conv _ ih =>
    obtain ⟨g1, _, g3⟩ := ih h.2
    exact ⟨⟨h.1, g1⟩, rfl, fun s => by simp only [eval, g3]⟩

/-- C118: whatever nodes `conv_opt` exchanges in whatever order, and however often, the value of the tree stays the same. -/
theorem conv_opt_right {σ : Type} (W : World σ) {zero : Tree → IMode → Bool} {t t' : Tree} (hs : Steps zero t t') (h : WF t) :
    WF t' ∧ t'.mode = t.mode ∧ ∀ s, eval W s t' = eval W s t := by
  induction hs with
  | refl => exact ⟨h, rfl, fun _ => rfl⟩
  | step h1 _ ih =>
    obtain ⟨g1, g2, g3⟩ := step_good W h1 h
    obtain ⟨k1, k2, k3⟩ := ih g1
    exact ⟨k1, k2.trans g2, fun s => (k3 s).trans (g3 s)⟩

/-- C118: the costs are an upper bound of the conversions that are added: a tree that is exchanged does not have more conversions than before.
`ir_zero_when_converted`, which counts on a later folding, is left out here. -/
theorem conv_opt_does_not_add {t t' : Tree} (hw : walker (fun _ _ => false) t = some t') : convs t' ≤ convs t := by
  cases t with
  | conv m s a =>
    unfold walker at hw
    dsimp only at hw
    split at hw
    · cases hw
    · split at hw
      · cases hw
      · rename_i hc
        cases hw
        have := transform_convs m a
        show _ ≤ convs a + 1
        omega
  | _ => cases hw

instance (m : IMode) (x : Int) : Decidable (m.In x) := by unfold IMode.In; infer_instance

def is : IMode := ⟨true, 32, 32⟩
def hs : IMode := ⟨true, 16, 32⟩
def ls : IMode := ⟨true, 64, 64⟩
def bs : IMode := ⟨true, 8, 32⟩

/-- `(short)((int)x + phi((int)y, 70000))` -/
def sample : Tree :=
  .conv hs false (.bin .add is false (.conv is false (.leaf hs false 0))
    (.phi is false 0 1 fun i => if i = 0 then .conv is false (.leaf hs true 1) else .const is 70000))

example : WF sample := by
  refine ⟨by decide, by decide, rfl, rfl, ⟨by decide, by show 0 < hs.bits; decide⟩, by decide, fun i => ?_⟩
  dsimp only
  by_cases h : i = 0
  · rw [if_pos h]; exact ⟨rfl, by decide, by show 0 < hs.bits; decide⟩
  · rw [if_neg h]; exact ⟨rfl, by decide, by decide +kernel⟩

/-- the conversions are gone -/
example : (walker (fun _ _ => false) sample).map convs = some 0 ∧ convs sample = 3 := by decide +kernel

/-- the sum of two shorts wraps -/
example (W : World Unit) (h0 : W.leaf () 0 = 30000) (h1 : W.pick () 0 1 = 1) :
    eval W () sample = -31072 ∧ (walker (fun _ _ => false) sample).map (eval W ()) = some (-31072) := by
  have e : eval W () sample = hs.wrap (is.wrap (is.wrap (hs.wrap (W.leaf () 0)) + eval W (W.step () 0) (if W.pick () 0 1 = 0 then .conv is false (.leaf hs true 1) else .const is 70000))) := rfl
  have ev : eval W () sample = -31072 := by
    rw [e, h1, h0]
    rw [if_neg (by decide)]
    simp only [eval]
    decide +kernel
  refine ⟨ev, ?_⟩
  have hw : (walker (fun _ _ => false) sample).isSome = true := by decide +kernel
  obtain ⟨t', ht⟩ := Option.isSome_iff_exists.mp hw
  have wf : WF sample := by
    refine ⟨by decide, by decide, rfl, rfl, ⟨by decide, by show 0 < hs.bits; decide⟩, by decide, fun i => ?_⟩
    dsimp only
    by_cases h : i = 0
    · rw [if_pos h]; exact ⟨rfl, by decide, by show 0 < hs.bits; decide⟩
    · rw [if_neg h]; exact ⟨rfl, by decide, by decide +kernel⟩
  rw [ht, Option.map_some, (walker_good W wf ht).2.2 (), ev]

/-! ## leaving out a conversion in the middle -/

open Verif.Spec.Flt in
theorem nearest_ratio {M N D N' D' r : Nat} (hD : 0 < D) (hD' : 0 < D') (h : N * D' = N' * D) (hn : Nearest M N D r) : Nearest M N' D' r := by
  have h1 := (nearest_scale (M := M) (N := N) (D := D) (r := r) hD').mpr hn
  rw [h, Nat.mul_comm D D'] at h1
  exact (nearest_scale hD).mp h1

open Verif.Spec.Flt in
theorem rounds_unique {E M N D : Nat} {s : Bool} {r : Num} {m : Nat} (hD : 0 < D) (h : Rounds E M s N D r) (hm : Nearest M N D m) :
    r = finish E M s m := by
  obtain ⟨m', h1, h2⟩ := h
  rw [h2, nearest_unique h1 hm hD]

open Verif.Spec.Flt in
theorem rounds_exact {E M f : Nat} {s : Bool} {r : Num} (h : Rounds E M s f 1 r) (hf : Rep M f) (hl : f < limit E M) : r = .fin s f := by
  obtain ⟨m, h1, h2⟩ := h
  have := nearest_exact h1 hf (by omega) (by omega)
  rw [h2, this]
  unfold finish
  rw [if_pos hl]

/-- modes: an integer mode has a bit; the numbers of a format reach beyond the integers with `M + 1` bits -/
def Ok : CMode → Prop
  | .int m => 0 < m.bits
  | .flt E M => 1 ≤ M ∧ 2 ≤ E ∧ M ≤ Flt.bias E

/-- what is missing in the decision: the first conversion loses nothing, or the second one does not -/
def Kept : CMode → CMode → CMode → Prop
  | .int _, .int _, .int _ => True
  | .int _, .flt _ _, .int _ => True
  | .int m0, .int m1, .flt _ _ => m0.bits ≤ m1.bits
  | .int m0, .flt _ M, .flt _ _ => m0.bits ≤ M + 1
  | .flt E M, .flt E' M', _ => E ≤ E' ∧ M ≤ M'
  | .flt _ _, .int m1, .int m2 => m1.bits ≤ m2.bits
  | .flt _ _, .int _, .flt _ _ => True

theorem pow_bias {E : Nat} (hE : 2 ≤ E) : 2 ^ E = 2 * (Flt.bias E + 1) := by
  unfold Flt.bias
  have := Nat.two_pow_pos (E - 1)
  rw [Nat.sub_add_cancel this, ← Nat.pow_succ']; congr 1; omega

theorem in_abs {m : IMode} (h0 : 0 < m.bits) {x : Int} (h : m.In x) : x.natAbs < 2 ^ m.bits := by
  unfold IMode.In InRange at h
  have e : (2:Int) ^ m.bits = 2 * 2 ^ (m.bits - 1) := by exact_mod_cast half_pow h0
  have hp : (0:Int) < 2 ^ (m.bits - 1) := by positivity
  zify
  rw [abs_lt]
  split at h
  · omega
  · omega

open Verif.Spec.Flt in
theorem int_rep {E M : Nat} (h : Ok (.flt E M)) {n : Nat} (hn : n < 2 ^ (M + 1)) :
    Rep M (n * 2 ^ (bias E + M - 1)) ∧ n * 2 ^ (bias E + M - 1) < limit E M := by
  refine ⟨⟨n, _, hn, rfl⟩, ?_⟩
  unfold limit
  have h1 : n * 2 ^ (bias E + M - 1) < 2 ^ (M + 1) * 2 ^ (bias E + M - 1) := Nat.mul_lt_mul_of_pos_right hn (Nat.two_pow_pos _)
  rw [← Nat.pow_add] at h1
  apply Nat.lt_of_lt_of_le h1
  apply Nat.pow_le_pow_right (by omega)
  have := pow_bias h.2.1
  have := h.1
  have := h.2.2
  omega

theorem mayLeaveOut_int (m0 m1 m2 : IMode) : mayLeaveOut (.int m0) (.int m1) (.int m2) = Model.IrOpt.leaveOutMiddle m0 m1 m2 := by
  rfl

theorem leaveOut_sizes {m0 m1 m2 : CMode} (h : mayLeaveOut m0 m1 m2 = true) : significand m2 ≤ significand m1 ∨ significand m0 < significand m1 := by
  unfold mayLeaveOut at h
  dsimp only at h
  split at h
  · cases h
  · split at h
    · cases h
    · split at h
      · cases h
      · rename_i hn
        simp only [Bool.and_eq_true, decide_eq_true_eq] at hn
        omega

open Verif.Spec.Flt in
theorem signed_trunc (E M : Nat) (x : Int) :
    signed (decide (x < 0)) (truncate E M (x.natAbs * 2 ^ (bias E + M - 1))) = x := by
  unfold truncate
  rw [Nat.mul_div_cancel _ (Nat.two_pow_pos _)]
  unfold signed
  by_cases hx : x < 0
  · simp only [hx, decide_true, if_true]; omega
  · simp only [hx, decide_false, Bool.false_eq_true, if_false]; omega

/-- the same signedness and no fewer bits: integers stay the same -/
theorem wrap_wider {m0 m1 : IMode} (h1 : 0 < m1.bits) (hs : m0.signed = m1.signed) (hb : m0.bits ≤ m1.bits) {x : Int} (hx : m0.In x) :
    m1.wrap x = x := by
  apply wrap_of_in h1
  unfold IMode.In InRange at hx ⊢
  have hq : (2:Int) ^ (m0.bits - 1) ≤ 2 ^ (m1.bits - 1) := pow_le_pow_right₀ (by norm_num) (by omega)
  have hr : (2:Int) ^ m0.bits ≤ 2 ^ m1.bits := pow_le_pow_right₀ (by norm_num) (by omega)
  rw [hs] at hx
  cases e : m1.signed
  · rw [e] at hx
    simp only [Bool.false_eq_true, if_false] at hx ⊢
    omega
  · rw [e] at hx
    simp only [if_true] at hx ⊢
    omega

open Verif.Spec.Flt in
/-- a conversion to a wider format -/
theorem conv_wider {E M E' M' : Nat} (h : Ok (.flt E M)) (h' : Ok (.flt E' M')) (hE : E ≤ E') (hM : M ≤ M') {a b : Num}
    (ha : Datum E M a) (hc : IsConv E M E' M' a b) :
    bias E + M ≤ bias E' + M' ∧ b = match (generalizing := false) a with | .fin s q => .fin s (q * 2 ^ (bias E' + M' - (bias E + M))) | x => x := by
  have hbb : bias E ≤ bias E' := by
    unfold bias
    have : 2 ^ (E - 1) ≤ 2 ^ (E' - 1) := Nat.pow_le_pow_right (by omega) (by omega)
    omega
  refine ⟨by omega, ?_⟩
  cases a with
  | nan => exact hc
  | inf s => exact hc
  | fin s q =>
    unfold IsConv at hc
    dsimp only at hc ⊢
    rw [show bias E + M - (bias E' + M') = 0 by omega, Nat.pow_zero] at hc
    apply rounds_exact hc
    · obtain ⟨⟨t, j, h3, h4⟩, _⟩ := ha
      exact ⟨t, j + (bias E' + M' - (bias E + M)), Nat.lt_of_lt_of_le h3 (Nat.pow_le_pow_right (by omega) (by omega)),
        by rw [h4, Nat.pow_add, Nat.mul_assoc]⟩
    · obtain ⟨_, h2⟩ := ha
      unfold limit at *
      have h3 := Nat.mul_lt_mul_of_pos_right h2 (Nat.two_pow_pos (bias E' + M' - (bias E + M)))
      rw [← Nat.pow_add] at h3
      apply Nat.lt_of_lt_of_le h3
      apply Nat.pow_le_pow_right (by omega)
      have := pow_bias h.2.1
      have := pow_bias h'.2.1
      omega

open Verif.Spec.Flt in
/-- C118 (middle conversions): where `may_leave_out_middle_conv` says so, the direct conversion gives every result of the detour, for all integer
modes, all floating point formats and all values.  Missing: an integer narrowed before it is converted to floating point, an integer from
floating point that is narrowed, a number rounded twice, a number rounded before it is truncated (`Kept`); all of these are accepted by the code,
and all are wrong, see below. -/
theorem middle_conv_partial {m0 m1 m2 : CMode} (h0 : Ok m0) (h1 : Ok m1) (h2 : Ok m2) (h : mayLeaveOut m0 m1 m2 = true) (hk : Kept m0 m1 m2) :
    Superfluous m0 m1 m2 := by
  intro a b c hab hbc
  cases m0 with
  | int m0 =>
    cases m1 with
    | int m1 =>
      cases a with
      | flt _ => exact hab.elim
      | int x =>
      cases b with
      | flt _ => exact hab.elim
      | int y =>
      obtain ⟨hx, rfl⟩ := hab
      cases m2 with
      | int m2 =>
        cases c with
        | flt _ => exact hbc.elim
        | int z =>
        rw [mayLeaveOut_int] at h
        obtain ⟨_, rfl⟩ := hbc
        exact ⟨hx, middle h0 h1 h hx⟩
      | flt E M =>
        cases c with
        | int _ => exact hbc.elim
        | flt z =>
        have hs : m0.signed = m1.signed := by
          cases e0 : m0.signed <;> cases e1 : m1.signed <;> simp [mayLeaveOut, isFloat, isSigned, e0, e1] at h ⊢
        have hw := wrap_wider h1 hs hk hx
        obtain ⟨_, hr⟩ := hbc
        rw [hw] at hr
        exact ⟨hx, hr⟩
    | flt E M =>
      cases a with
      | flt _ => exact hab.elim
      | int x =>
      cases b with
      | int _ => exact hab.elim
      | flt y =>
      obtain ⟨hx, hr⟩ := hab
      have hB : 1 ≤ bias E + M := by have := h1.1; omega
      cases m2 with
      | int m2 =>
        cases c with
        | flt _ => cases y <;> exact hbc.elim
        | int z =>
        -- the integer is exact in the format
        have hsmall : x.natAbs < 2 ^ (M + 1) := by
          by_cases hb : m0.bits ≤ M + 1
          · exact Nat.lt_of_lt_of_le (in_abs h0 hx) (Nat.pow_le_pow_right (by omega) hb)
          · have h2le : m2.bits ≤ M + 1 := by
              have := leaveOut_sizes h
              simp only [significand] at this
              omega
            cases y with
            | nan => exact hbc.elim
            | inf _ => exact hbc.elim
            | fin s q =>
            obtain ⟨_, hz, hin⟩ := hbc
            have hza := in_abs h2 hin
            have hq : truncate E M q = z.natAbs := by
              rw [hz]; unfold signed; split <;> omega
            have hlt : q < 2 ^ (M + 1) * 2 ^ (bias E + M - 1) := by
              have : truncate E M q < 2 ^ (M + 1) := by
                rw [hq]; exact Nat.lt_of_lt_of_le hza (Nat.pow_le_pow_right (by omega) h2le)
              exact (Nat.div_lt_iff_lt_mul (Nat.two_pow_pos _)).mp this
            obtain ⟨m, hm, hfin⟩ := hr
            have hqm : q = m := by
              unfold finish at hfin
              split at hfin
              · cases hfin; rfl
              · cases hfin
            subst hqm
            by_contra hc
            have hge : 2 ^ (M + 1) * 2 ^ (bias E + M - 1) ≤ x.natAbs * 2 ^ (bias E + M - 1) := Nat.mul_le_mul_right _ (by omega)
            have := (hm.2 (2 ^ (M + 1) * 2 ^ (bias E + M - 1)) (rep_le (Nat.le_refl _))).1
            unfold dist at this
            omega
        obtain ⟨r1, r2⟩ := int_rep h1 hsmall
        have hy := rounds_exact hr r1 r2
        subst hy
        obtain ⟨_, hz, hin⟩ := hbc
        rw [signed_trunc] at hz
        subst hz
        exact ⟨hx, (wrap_of_in h2 hin).symm⟩
      | flt E' M' =>
        cases c with
        | int _ => cases y <;> exact hbc.elim
        | flt z =>
        have hsmall : x.natAbs < 2 ^ (M + 1) := Nat.lt_of_lt_of_le (in_abs h0 hx) (Nat.pow_le_pow_right (by omega) hk)
        obtain ⟨r1, r2⟩ := int_rep h1 hsmall
        have hy := rounds_exact hr r1 r2
        subst hy
        obtain ⟨_, m, hm, hz⟩ := hbc
        refine ⟨hx, m, nearest_ratio (Nat.two_pow_pos _) (by omega) ?_ hm, hz⟩
        have hB' : 1 ≤ bias E' + M' := by have := h2.1; omega
        rw [Nat.mul_one, Nat.mul_assoc, Nat.mul_assoc, ← Nat.pow_add, ← Nat.pow_add]
        congr 2
        omega
  | flt E M =>
    cases m1 with
    | int m1 =>
      cases a with
      | int _ => exact hab.elim
      | flt x =>
      cases b with
      | flt _ => cases x <;> exact hab.elim
      | int y =>
      cases x with
      | nan => exact hab.elim
      | inf _ => exact hab.elim
      | fin s q =>
      obtain ⟨hd, hy, hin⟩ := hab
      cases m2 with
      | int m2 =>
        cases c with
        | flt _ => exact hbc.elim
        | int z =>
        obtain ⟨_, hz⟩ := hbc
        have hs : m1.signed = m2.signed := by
          cases e0 : m1.signed <;> cases e1 : m2.signed <;> simp [mayLeaveOut, isFloat, isSigned, e0, e1] at h ⊢
        have hw := wrap_wider h2 hs hk hin
        rw [hw] at hz
        subst hz
        refine ⟨hd, hy, ?_⟩
        have := wrap_in h2 z
        rwa [hw] at this
      | flt E' M' =>
        simp [mayLeaveOut, isFloat] at h
    | flt E' M' =>
      cases a with
      | int _ => exact hab.elim
      | flt x =>
      cases b with
      | int _ => cases x <;> exact hab.elim
      | flt y =>
      have hab' : Datum E M x ∧ IsConv E M E' M' x y := by cases x <;> exact hab
      obtain ⟨hd, hc⟩ := hab'
      obtain ⟨hB, hy⟩ := conv_wider h0 h1 hk.1 hk.2 hd hc
      cases m2 with
      | int m2 =>
        cases c with
        | flt _ => cases y <;> exact hbc.elim
        | int z =>
        cases x with
        | nan => subst hy; exact hbc.elim
        | inf _ => subst hy; exact hbc.elim
        | fin s q =>
        subst hy
        obtain ⟨_, hz, hin⟩ := hbc
        refine ⟨hd, ?_, hin⟩
        rw [hz]
        congr 1
        unfold truncate
        have hB1 : 1 ≤ bias E + M := by have := h0.1; omega
        rw [show bias E' + M' - 1 = (bias E + M - 1) + (bias E' + M' - (bias E + M)) by omega, Nat.pow_add]
        exact Nat.mul_div_mul_right _ _ (Nat.two_pow_pos _)
      | flt E'' M'' =>
        cases c with
        | int _ => cases y <;> exact hbc.elim
        | flt z =>
        have hbc' : Datum E' M' y ∧ IsConv E' M' E'' M'' y z := by cases y <;> exact hbc
        have goal : Datum E M x ∧ IsConv E M E'' M'' x z := by
          refine ⟨hd, ?_⟩
          cases x with
          | nan => subst hy; exact hbc'.2
          | inf _ => subst hy; exact hbc'.2
          | fin s q =>
            subst hy
            obtain ⟨_, m, hm, hz⟩ := hbc'
            refine ⟨m, nearest_ratio (Nat.two_pow_pos _) (Nat.two_pow_pos _) ?_ hm, hz⟩
            rw [Nat.mul_assoc, Nat.mul_assoc, Nat.mul_assoc, ← Nat.pow_add, ← Nat.pow_add, ← Nat.pow_add]
            congr 2
            omega
        cases x <;> exact goal

abbrev single : CMode := .flt 8 23
abbrev double : CMode := .flt 11 52

/-- hypotheses met: `(int)(double)x` for 64 bits, `(double)(float)i` for a short, `(long)(float)d` -/
example : Ok (.int is) ∧ Ok double ∧ mayLeaveOut (.int ls) double (.int is) = true ∧ Kept (.int ls) double (.int is) ∧
    mayLeaveOut (.int hs) single double = true ∧ Kept (.int hs) single double ∧
    mayLeaveOut single double single = true ∧ Kept single double single := by
  refine ⟨by show 0 < is.bits; decide, ⟨by decide, by decide, by decide +kernel⟩, by decide, trivial, by decide, by show 16 ≤ 24; decide, by decide, by decide, by decide⟩

open Verif.Spec.Flt in
theorem convTo_int_flt {m : IMode} {E M : Nat} {x : Int} {r : Num} (h : m.In x)
    (hr : Rounds E M (decide (x < 0)) (x.natAbs * 2 ^ (bias E + M - 1)) 1 r) : ConvTo (.int m) (.flt E M) (.int x) (.flt r) := ⟨h, hr⟩

open Verif.Spec.Flt in
theorem convTo_flt_flt {E M E' M' q : Nat} {s : Bool} {r : Num} (h : Datum E M (.fin s q))
    (hr : Rounds E' M' s (q * 2 ^ (bias E' + M' - (bias E + M))) (2 ^ (bias E + M - (bias E' + M'))) r) :
    ConvTo (.flt E M) (.flt E' M') (.flt (.fin s q)) (.flt r) := ⟨h, hr⟩

open Verif.Spec.Flt in
/-- Refuted: `(float)(int)x` of a 64 bit integer becomes `(float)x`: `2^32 + 5` is 5 as an int. -/
theorem int_int_float_wrong : mayLeaveOut (.int ls) (.int is) single = true ∧ ¬ Superfluous (.int ls) (.int is) single := by
  refine ⟨by decide, fun h => ?_⟩
  have n1 : Nearest 23 (5 * 2 ^ 149) 1 (5 * 2 ^ 149) := by
    have := nearest_rep (M := 23) (D := 1) (f := 5 * 2 ^ 149) ⟨5, 149, by decide, rfl⟩ (by decide)
    rwa [Nat.mul_one] at this
  have n2 : Nearest 23 ((2 ^ 32 + 5 : Int).natAbs * 2 ^ (bias 8 + 23 - 1)) 1 (2 ^ 23 * 2 ^ 158) :=
    nearest_of_round (by decide) (by decide) (by decide) (by decide +kernel) (by decide +kernel) (by decide +kernel)
  have := h (.int (2 ^ 32 + 5)) (.int 5) (.flt (.fin false (5 * 2 ^ 149))) ⟨by decide +kernel, by decide +kernel⟩
    ⟨by decide +kernel, _, n1, by decide +kernel⟩
  have := rounds_unique (by decide) this.2 n2
  revert this
  decide +kernel

open Verif.Spec.Flt in
/-- Refuted: `(int)(long)d` of a double becomes `(int)d`, which is undefined: `2^32 + 5` does not fit. -/
theorem float_int_int_wrong : mayLeaveOut double (.int ls) (.int is) = true ∧ ¬ Superfluous double (.int ls) (.int is) := by
  refine ⟨by decide, fun h => ?_⟩
  have := h (.flt (.fin false ((2 ^ 32 + 5) * 2 ^ 1074))) (.int (2 ^ 32 + 5)) (.int 5)
    ⟨⟨⟨2 ^ 32 + 5, 1074, by decide, rfl⟩, by decide +kernel⟩, by decide +kernel, by decide +kernel⟩ ⟨by decide +kernel, by decide +kernel⟩
  have := this.2.1
  revert this
  decide +kernel

open Verif.Spec.Flt in
/-- Refuted: `(float)(double)x` of a 64 bit integer becomes `(float)x`, but rounding twice is something else: `2^60 + 2^36 + 1` is above the middle
of two floats, the double is the middle and is rounded down. -/
theorem int_float_float_wrong : mayLeaveOut (.int ls) double single = true ∧ ¬ Superfluous (.int ls) double single := by
  refine ⟨by decide, fun h => ?_⟩
  have n1 : Nearest 52 ((2 ^ 60 + 2 ^ 36 + 1 : Int).natAbs * 2 ^ (bias 11 + 52 - 1)) 1 ((2 ^ 52 + 2 ^ 28) * 2 ^ 1082) :=
    nearest_of_round (by decide) (by decide) (by decide) (by decide +kernel) (by decide +kernel) (by decide +kernel)
  have n2 : Nearest 23 ((2 ^ 52 + 2 ^ 28) * 2 ^ 1082 * 2 ^ (bias 8 + 23 - (bias 11 + 52))) (2 ^ (bias 11 + 52 - (bias 8 + 23))) (2 ^ 23 * 2 ^ 186) :=
    nearest_of_round (by decide) (Nat.two_pow_pos _) (by decide) (by decide +kernel) (by decide +kernel) (by decide +kernel)
  have n3 : Nearest 23 ((2 ^ 60 + 2 ^ 36 + 1 : Int).natAbs * 2 ^ (bias 8 + 23 - 1)) 1 ((2 ^ 23 + 1) * 2 ^ 186) :=
    nearest_of_round (by decide) (by decide) (by decide) (by decide +kernel) (by decide +kernel) (by decide +kernel)
  have q1 : Rounds 11 52 (decide ((2 ^ 60 + 2 ^ 36 + 1 : Int) < 0)) ((2 ^ 60 + 2 ^ 36 + 1 : Int).natAbs * 2 ^ (bias 11 + 52 - 1)) 1
      (.fin false ((2 ^ 52 + 2 ^ 28) * 2 ^ 1082)) := ⟨_, n1, by decide +kernel⟩
  have q2 : Rounds 8 23 false ((2 ^ 52 + 2 ^ 28) * 2 ^ 1082 * 2 ^ (bias 8 + 23 - (bias 11 + 52))) (2 ^ (bias 11 + 52 - (bias 8 + 23)))
      (.fin false (2 ^ 23 * 2 ^ 186)) := ⟨_, n2, by decide +kernel⟩
  have := h (.int (2 ^ 60 + 2 ^ 36 + 1)) (.flt (.fin false ((2 ^ 52 + 2 ^ 28) * 2 ^ 1082))) (.flt (.fin false (2 ^ 23 * 2 ^ 186)))
    (convTo_int_flt (by decide +kernel) q1) (convTo_flt_flt ⟨⟨2 ^ 52 + 2 ^ 28, 1082, by decide, by decide +kernel⟩, by decide +kernel⟩ q2)
  have := rounds_unique (by decide) this.2 n3
  revert this
  decide +kernel

open Verif.Spec.Flt in
/-- Refuted: `(char)(float)d` of a double becomes `(char)d`: `2 - 2^-40` is rounded up to 2, but truncated to 1. -/
theorem float_float_int_wrong : mayLeaveOut double single (.int bs) = true ∧ ¬ Superfluous double single (.int bs) := by
  refine ⟨by decide, fun h => ?_⟩
  have n1 : Nearest 23 ((2 ^ 41 - 1) * 2 ^ 1034 * 2 ^ (bias 8 + 23 - (bias 11 + 52))) (2 ^ (bias 11 + 52 - (bias 8 + 23))) (2 ^ 24 * 2 ^ 126) :=
    nearest_of_round (by decide) (Nat.two_pow_pos _) (by decide) (by decide +kernel) (by decide +kernel) (by decide +kernel)
  have q1 : Rounds 8 23 false ((2 ^ 41 - 1) * 2 ^ 1034 * 2 ^ (bias 8 + 23 - (bias 11 + 52))) (2 ^ (bias 11 + 52 - (bias 8 + 23)))
      (.fin false (2 ^ 24 * 2 ^ 126)) := ⟨_, n1, by decide +kernel⟩
  have := h (.flt (.fin false ((2 ^ 41 - 1) * 2 ^ 1034))) (.flt (.fin false (2 ^ 24 * 2 ^ 126))) (.int 2)
    (convTo_flt_flt ⟨⟨2 ^ 41 - 1, 1034, by decide, by decide +kernel⟩, by decide +kernel⟩ q1)
    ⟨⟨⟨1, 150, by decide, by decide +kernel⟩, by decide +kernel⟩, by decide +kernel, by decide +kernel⟩
  have := this.2.1
  revert this
  decide +kernel

end Verif.Props.ConvOpt
