import Verif.Spec.Digits
import Verif.Model.StrCalcIO
import Verif.Lemmas.TarVal
import Verif.Lemmas.StrCalcDiv
import Verif.Props.IntArith
/-!
# C12 (number parsing) and C13 (printing and parsing round-trips)
-/
namespace Verif.Props
open Verif.Spec Verif.Model

/-! ## digits -/

theorem lowerDigits_eq : lowerDigits = [48, 49, 50, 51, 52, 53, 54, 55, 56, 57, 97, 98, 99, 100, 101, 102] := by decide
theorem upperDigits_eq : upperDigits = [48, 49, 50, 51, 52, 53, 54, 55, 56, 57, 65, 66, 67, 68, 69, 70] := by decide

theorem digit_lt16 {d c : Nat} (h : lowerDigits[d]? = some c ∨ upperDigits[d]? = some c) : d < 16 := by
  rcases h with h | h
  · obtain ⟨h1, _⟩ := List.getElem?_eq_some_iff.1 h
    rw [lowerDigits_eq] at h1; exact h1
  · obtain ⟨h1, _⟩ := List.getElem?_eq_some_iff.1 h
    rw [upperDigits_eq] at h1; exact h1

theorem scDigit_of_isDigit {d c : Nat} (h : lowerDigits[d]? = some c ∨ upperDigits[d]? = some c) : scDigit c = some d := by
  have hd := digit_lt16 h
  rw [lowerDigits_eq, upperDigits_eq] at h
  have : d = 0 ∨ d = 1 ∨ d = 2 ∨ d = 3 ∨ d = 4 ∨ d = 5 ∨ d = 6 ∨ d = 7 ∨ d = 8 ∨ d = 9 ∨ d = 10 ∨ d = 11 ∨ d = 12 ∨ d = 13 ∨ d = 14 ∨ d = 15 := by omega
  rcases this with h' | h' | h' | h' | h' | h' | h' | h' | h' | h' | h' | h' | h' | h' | h' | h' <;> subst h' <;>
    (simp only [List.getElem?_cons_succ, List.getElem?_cons_zero, Option.some.injEq] at h; rcases h with h | h <;> subst h <;> decide)

theorem isDigit_of_scDigit {c d : Nat} (h : scDigit c = some d) : lowerDigits[d]? = some c ∨ upperDigits[d]? = some c := by
  rw [lowerDigits_eq, upperDigits_eq]
  unfold scDigit at h
  split at h
  · next hc =>
    have hd : d = c - 48 := by simpa using h.symm
    have : c = 48 ∨ c = 49 ∨ c = 50 ∨ c = 51 ∨ c = 52 ∨ c = 53 ∨ c = 54 ∨ c = 55 ∨ c = 56 ∨ c = 57 := by omega
    rcases this with h' | h' | h' | h' | h' | h' | h' | h' | h' | h' <;> subst h' <;> subst hd <;> left <;> rfl
  · split at h
    · next hc =>
      have hd : d = c - 65 + 10 := by simpa using h.symm
      have : c = 65 ∨ c = 66 ∨ c = 67 ∨ c = 68 ∨ c = 69 ∨ c = 70 := by omega
      rcases this with h' | h' | h' | h' | h' | h' <;> subst h' <;> subst hd <;> right <;> rfl
    · split at h
      · next hc =>
        have hd : d = c - 97 + 10 := by simpa using h.symm
        have : c = 97 ∨ c = 98 ∨ c = 99 ∨ c = 100 ∨ c = 101 ∨ c = 102 := by omega
        rcases this with h' | h' | h' | h' | h' | h' <;> subst h' <;> subst hd <;> left <;> rfl
      · cases h

theorem le_posValueFrom {base : Nat} (hb : 1 ≤ base) (a : Nat) (ds : List Nat) : a ≤ posValueFrom base a ds := by
  induction ds generalizing a with
  | nil => exact le_refl _
  | cons d ds ih =>
    refine le_trans ?_ (ih (a * base + d))
    have := Nat.mul_le_mul_left a hb
    omega

/-! ## C12 -/

theorem fromStrLoop_spec {m base : Nat} (hm : 0 < m) (hb : 2 ≤ base) (hb16 : base ≤ 16) {cs ds : List Nat} (h : Spells base cs ds) :
    ∀ (buf : List Nat), buf.length = 2 * m → Bytes buf → posValueFrom base (value buf) ds < 256 ^ m →
      ∃ r, scFromStrLoop m base cs buf = some r ∧ r.length = 2 * m ∧ Bytes r ∧ value r = posValueFrom base (value buf) ds := by
  induction h with
  | nil => intro buf hl hB _; exact ⟨buf, rfl, hl, hB, rfl⟩
  | @cons c d cs ds hd _ ih =>
    intro buf hl hB hv
    obtain ⟨hlt, hd⟩ := hd
    have hle := le_posValueFrom (base := base) (by omega) (value buf * base + d) ds
    have hv' : value buf * base + d < 256 ^ m := lt_of_le_of_lt hle hv
    have hvb : value buf < 256 ^ m := by
      have := Nat.mul_le_mul_left (value buf) (show 1 ≤ base by omega)
      omega
    have hpow : 256 ^ m ≤ 2 ^ (8 * (2 * m) - 1) := by
      rw [pow256]; exact Nat.pow_le_pow_right (by decide) (by omega)
    have h256 : 256 ≤ 256 ^ m := by
      calc 256 = 256 ^ 1 := rfl
        _ ≤ 256 ^ m := Nat.pow_le_pow_right (by decide) hm
    have hub : value (scFromUlong buf.length base) = base := by
      rw [scFromUlong_value, hl]
      apply Nat.mod_eq_of_lt
      have : 256 ^ m ≤ 256 ^ (2 * m) := Nat.pow_le_pow_right (by decide) (by omega)
      omega
    have s1 : svalue (scFromUlong buf.length base) = base := by
      rw [svalue_of_nonneg (by rw [scFromUlong_length]; omega) (by rw [hub, scFromUlong_length, hl]; omega), hub]
    have s2 : svalue buf = value buf := svalue_of_nonneg (by omega) (by rw [hl]; omega)
    have smul := scMul_svalue hm (a := scFromUlong buf.length base) (b := buf) (by rw [scFromUlong_length, hl]) hl
      (scFromUlong_bytes _ _) hB (by rw [s1, Nat.abs_cast]; exact_mod_cast (by omega)) (by rw [s2, Nat.abs_cast]; exact_mod_cast hvb)
    have lmul : (scMul m (scFromUlong buf.length base) buf).length = 2 * m := by rw [scMul_length, scFromUlong_length, hl]
    have bmul := scMul_bytes m (scFromUlong buf.length base) buf
    have vmul : value (scMul m (scFromUlong buf.length base) buf) = value buf * base := by
      have h1 : svalue (scMul m (scFromUlong buf.length base) buf) = ((value buf * base : Nat) : Int) := by
        rw [smul, s1, s2]
        have hh := half256 (n := 2 * m) (by omega)
        have hmul : value buf * base < 2 ^ (8 * (2 * m) - 1) := by omega
        have e : (base : Int) * (value buf : Int) = ((value buf * base : Nat) : Int) := by push_cast; ring
        rw [e]
        exact bmod_of_range (by omega) (by omega) (by exact_mod_cast hmul)
      have h2 := value_eq_svalue_emod bmul
      rw [h1, lmul] at h2
      have : value buf * base < 2 ^ (8 * (2 * m)) := by
        have : 2 ^ (8 * (2 * m) - 1) ≤ 2 ^ (8 * (2 * m)) := Nat.pow_le_pow_right (by decide) (by omega)
        omega
      rw [two_pow_cast, ← Int.natCast_emod, Nat.mod_eq_of_lt this] at h2
      exact_mod_cast h2
    have hl2 : (d :: scZero (buf.length - 1)).length = (scMul m (scFromUlong buf.length base) buf).length := by
      rw [lmul, List.length_cons, scZero_length]; omega
    have badd : Bytes (scAdd (d :: scZero (buf.length - 1)) (scMul m (scFromUlong buf.length base) buf)) := scAdd_bytes _ _
    have ladd : (scAdd (d :: scZero (buf.length - 1)) (scMul m (scFromUlong buf.length base) buf)).length = 2 * m := by
      rw [scAdd_length hl2, List.length_cons, scZero_length]; omega
    have vadd : value (scAdd (d :: scZero (buf.length - 1)) (scMul m (scFromUlong buf.length base) buf)) = value buf * base + d := by
      rw [scAdd_value hl2, vmul, value, scZero_value, List.length_cons, scZero_length, show buf.length - 1 + 1 = 2 * m by omega,
        Nat.mod_eq_of_lt]
      · omega
      · have : 256 ^ m ≤ 256 ^ (2 * m) := Nat.pow_le_pow_right (by decide) (by omega)
        omega
    obtain ⟨r, e, lr, br, vr⟩ := ih _ ladd badd (by rw [vadd]; exact hv)
    refine ⟨r, ?_, lr, br, by rw [vr, vadd]; rfl⟩
    rw [scFromStrLoop, scDigit_of_isDigit hd]
    simp only
    rw [if_neg (by omega), e]

/-- C12: a string of digits of the base is accepted and the buffer holds the
(possibly negated) positional value. -/
theorem val_from_str_value {m base : Nat} (hm : 0 < m) (hb : 2 ≤ base) (hb16 : base ≤ 16) (neg : Bool) {cs ds : List Nat}
    (h : Spells base cs ds) (hv : posValue base ds < 256 ^ m) :
    ∃ r, scFromStr m neg base cs = some r ∧ r.length = 2 * m ∧ Bytes r ∧
      svalue r = if neg then -(posValue base ds : Int) else posValue base ds := by
  have hpow : 256 ^ m ≤ 2 ^ (8 * (2 * m) - 1) := by
    rw [pow256]; exact Nat.pow_le_pow_right (by decide) (by omega)
  obtain ⟨r, e, lr, br, vr⟩ := fromStrLoop_spec hm hb hb16 h (scZero (2 * m)) (scZero_length _) (scZero_bytes _)
    (by rw [scZero_value]; exact hv)
  rw [scZero_value] at vr
  change value r = posValue base ds at vr
  have hsm : value r < 2 ^ (8 * r.length - 1) := by rw [vr, lr]; omega
  have sr : svalue r = posValue base ds := by rw [svalue_of_nonneg (by omega) hsm, vr]
  unfold scFromStr
  rw [e]
  cases neg with
  | false => exact ⟨r, rfl, lr, br, by rw [sr]; rfl⟩
  | true =>
    refine ⟨scNeg r, rfl, by rw [scNeg_length, lr], scNeg_bytes br, ?_⟩
    rw [neg_svalue_of_value br (by omega) hsm, vr]; rfl

theorem fromStrLoop_some {m base : Nat} {cs : List Nat} : ∀ {buf r : List Nat}, scFromStrLoop m base cs buf = some r →
    ∃ ds, Spells base cs ds := by
  induction cs with
  | nil => intro buf r _; exact ⟨[], .nil⟩
  | cons c cs ih =>
    intro buf r h
    rw [scFromStrLoop] at h
    cases hd : scDigit c with
    | none => rw [hd] at h; cases h
    | some v =>
      rw [hd] at h
      simp only at h
      by_cases hv : v ≥ base
      · rw [if_pos hv] at h; cases h
      · rw [if_neg hv] at h
        obtain ⟨ds, hds⟩ := ih h
        exact ⟨v :: ds, .cons ⟨by omega, isDigit_of_scDigit hd⟩ hds⟩

/-- C12: anything accepted is a digit string of the base (so a string with any
other character is rejected). -/
theorem val_from_str_accepts {m base : Nat} {neg : Bool} {cs r : List Nat} (h : scFromStr m neg base cs = some r) :
    ∃ ds, Spells base cs ds := by
  unfold scFromStr at h
  cases e : scFromStrLoop m base cs (scZero (2 * m)) with
  | none => rw [e] at h; cases h
  | some b => exact fromStrLoop_some e

/-- C12: a string containing a character that is no digit of the base is rejected. -/
theorem val_from_str_rejects {m base : Nat} {neg : Bool} {cs : List Nat} {c : Nat} (hc : c ∈ cs) (hn : ∀ d, ¬ IsDigit base c d) :
    scFromStr m neg base cs = none := by
  cases e : scFromStr m neg base cs with
  | none => rfl
  | some r =>
    obtain ⟨ds, h⟩ := val_from_str_accepts e
    exfalso
    clear e
    induction h with
    | nil => cases hc
    | cons hd _ ih =>
      cases hc with
      | head => exact hn _ hd
      | tail _ h => exact ih h

/-- C12 at the API: `new_integer_tarval_from_str` yields the parsed number
reduced to the mode (wrap-around mode). -/
theorem new_integer_from_str_wraps {E : TvEnv} (hE : EnvOk E) (hw : E.wrap = true) {md : Mode} (ok : ModeOk E md) {base : Nat}
    (hb : 2 ≤ base) (hb16 : base ≤ 16) (neg : Bool) {cs ds : List Nat} (h : Spells base cs ds) (hv : posValue base ds < 256 ^ E.m) :
    Denotes E (newIntegerTarvalFromStr E cs neg base md) md
      (wrap md.signed md.bits (if neg then -(posValue base ds : Int) else posValue base ds)) := by
  obtain ⟨r, e, lr, br, vr⟩ := val_from_str_value (m := E.m) (by unfold EnvOk at hE; omega) hb hb16 neg h hv
  unfold newIntegerTarvalFromStr
  rw [e]
  simp only
  rw [getIntTarvalOverflow_wrap hw, ← vr]
  exact getIntTarval_denotes ok lr br

/-- C12 at the API: a number in range parses to itself, in either overflow mode. -/
theorem new_integer_from_str_exact {E : TvEnv} (hE : EnvOk E) {md : Mode} (ok : ModeOk E md) {base : Nat}
    (hb : 2 ≤ base) (hb16 : base ≤ 16) (neg : Bool) {cs ds : List Nat} (h : Spells base cs ds) (hv : posValue base ds < 256 ^ E.m)
    (hr : InRange md.signed md.bits (if neg then -(posValue base ds : Int) else posValue base ds)) :
    Denotes E (newIntegerTarvalFromStr E cs neg base md) md (if neg then -(posValue base ds : Int) else posValue base ds) := by
  obtain ⟨r, e, lr, br, vr⟩ := val_from_str_value (m := E.m) (by unfold EnvOk at hE; omega) hb hb16 neg h hv
  cases hw : E.wrap with
  | true =>
    have := new_integer_from_str_wraps hE hw ok hb hb16 neg h hv
    rwa [wrap_of_inRange ok.pos hr] at this
  | false =>
    unfold newIntegerTarvalFromStr
    rw [e]
    simp only
    have := (getIntTarvalOverflow_strict hw ok lr br).2 (by rw [vr]; exact hr)
    rwa [vr] at this

/-- C12 at the API: the sign and the prefixes `0x`, `0b`, `0` of
`new_tarval_from_str` select the base of the digits that follow. -/
theorem new_tarval_from_str_prefix (E : TvEnv) (md : Mode) (neg : Bool) {cs : List Nat} (hne : cs ≠ []) :
    let sgn : List Nat := if neg then [45] else []
    newTarvalFromStrInt E (sgn ++ 48 :: 120 :: cs) md = some (newIntegerTarvalFromStr E cs neg 16 md) ∧
    newTarvalFromStrInt E (sgn ++ 48 :: 98 :: cs) md = some (newIntegerTarvalFromStr E cs neg 2 md) ∧
    (∀ d ds, Spells 8 cs (d :: ds) → newTarvalFromStrInt E (sgn ++ 48 :: cs) md = some (newIntegerTarvalFromStr E cs neg 8 md)) ∧
    (∀ d ds, Spells 10 cs (d :: ds) → d ≠ 0 → newTarvalFromStrInt E (sgn ++ cs) md = some (newIntegerTarvalFromStr E cs neg 10 md)) := by
  intro sgn
  refine ⟨?_, ?_, ?_, ?_⟩
  · cases neg <;> simp [sgn, newTarvalFromStrInt, strBase, newIntegerTarvalFromStr, hne] <;> split <;> rfl
  · cases neg <;> simp [sgn, newTarvalFromStrInt, strBase, newIntegerTarvalFromStr, hne] <;> split <;> rfl
  · intro d ds h
    cases h with
    | @cons c _ cs _ hd ht =>
      have hc := scDigit_of_isDigit hd.2
      have h8 := hd.1
      have hc' : c ≠ 120 ∧ c ≠ 88 ∧ c ≠ 98 ∧ c ≠ 66 := by
        refine ⟨?_, ?_, ?_, ?_⟩ <;> rintro rfl <;> simp [scDigit] at hc <;> omega
      cases neg <;> simp [sgn, newTarvalFromStrInt, strBase, newIntegerTarvalFromStr, hc'] <;> split <;> rfl
  · intro d ds h h0
    cases h with
    | @cons c _ cs _ hd ht =>
      have hc := scDigit_of_isDigit hd.2
      have hc' : c ≠ 48 ∧ c ≠ 45 ∧ c ≠ 43 := by
        refine ⟨?_, ?_, ?_⟩ <;> rintro rfl <;> simp [scDigit] at hc <;> omega
      have hb : strBase (c :: cs) = (10, c :: cs) := by cases cs <;> simp [strBase, hc']
      cases neg <;> simp [sgn, newTarvalFromStrInt, hb, newIntegerTarvalFromStr, hc'] <;> split <;> rfl

/-- non-vacuity: "1f" in base 16 -/
example : Spells 16 [49, 102] [1, 15] := .cons ⟨by decide, by decide⟩ (.cons ⟨by decide, by decide⟩ .nil)
example : newIntegerTarvalFromStr .default [49, 102] true 16 modeBs = .int modeBs (225 :: List.replicate 33 255) := by decide

/-! ## C13 -/

theorem printWords_value {v : List Nat} (h : Bytes v) {bits : Nat} (hb : bits ≤ 8 * v.length) :
    value (scPrintWords v bits) = value v % 2 ^ bits := by
  have hbits : bits = 8 * (bits / 8) + bits % 8 := by omega
  unfold scPrintWords
  by_cases hr : bits % 8 = 0
  · rw [if_neg (by omega), List.append_nil, value_take h, pow256]
    congr 2; omega
  · rw [if_pos hr]
    have hlen : bits / 8 < v.length := by omega
    rw [value_append, value_take h, List.length_take, Nat.min_eq_left (by omega), value, value, Nat.mul_zero, Nat.add_zero,
      maxDigit_eq (by omega), Nat.and_two_pow_sub_one_eq_mod]
    conv_rhs => rw [hbits, Nat.pow_add, ← pow256, Nat.mod_mul]
    congr 2
    rw [← value_drop h, List.drop_eq_getElem_cons hlen, value, List.getD_eq_getElem?_getD, List.getElem?_eq_getElem hlen, Option.getD_some]
    have e : (256 : Nat) = 2 ^ (bits % 8) * 2 ^ (8 - bits % 8) := by
      rw [← Nat.pow_add, show bits % 8 + (8 - bits % 8) = 8 by omega]
    conv_rhs => rw [e, Nat.mul_assoc, Nat.add_mul_mod_self_left]

theorem printWords_bytes {v : List Nat} (h : Bytes v) (bits : Nat) : Bytes (scPrintWords v bits) := by
  unfold scPrintWords
  rw [bytes_append]
  refine ⟨h.take _, ?_⟩
  split
  · exact Bytes.cons (and_lt256 _ _ (h.getD _)) Bytes.nil
  · exact Bytes.nil

theorem printWords_length {v : List Nat} {bits : Nat} (hb : bits ≤ 8 * v.length) (hpos : 0 < bits) :
    (scPrintWords v bits).length ≤ v.length ∧ 0 < (scPrintWords v bits).length := by
  unfold scPrintWords
  rw [List.length_append, List.length_take]
  split <;> simp <;> omega

theorem digit_isDigit {base d : Nat} (hd : d < base) (h16 : d < 16) : IsDigit base (scDigits.getD d 0) d := by
  refine ⟨hd, Or.inr ?_⟩
  rw [upperDigits_eq]
  have : d = 0 ∨ d = 1 ∨ d = 2 ∨ d = 3 ∨ d = 4 ∨ d = 5 ∨ d = 6 ∨ d = 7 ∨ d = 8 ∨ d = 9 ∨ d = 10 ∨ d = 11 ∨ d = 12 ∨ d = 13 ∨ d = 14 ∨ d = 15 := by omega
  rcases this with h' | h' | h' | h' | h' | h' | h' | h' | h' | h' | h' | h' | h' | h' | h' | h' <;> subst h' <;> rfl

theorem posValueFrom_linear (base a : Nat) (ds : List Nat) : posValueFrom base a ds = a * base ^ ds.length + posValueFrom base 0 ds := by
  induction ds generalizing a with
  | nil => simp [posValueFrom]
  | cons d ds ih =>
    rw [posValueFrom, ih, posValueFrom, ih (0 * base + d), List.length_cons, Nat.pow_succ]
    ring

theorem hexPush_spec : ∀ (ws cs ds : List Nat), Bytes ws → Spells 16 cs ds →
    ∃ ds', Spells 16 (scHexPush ws cs) ds' ∧ posValue 16 ds' = posValue 16 ds + 16 ^ ds.length * value ws ∧
      ds'.length = ds.length + 2 * ws.length := by
  intro ws
  induction ws with
  | nil => intro cs ds _ h; exact ⟨ds, h, by simp [value], rfl⟩
  | cons x xs ih =>
    intro cs ds hb h
    obtain ⟨hx, hxs⟩ := bytes_cons.1 hb
    have e1 : x >>> 4 &&& 15 = x / 16 := by
      rw [show (15:Nat) = 2 ^ 4 - 1 from rfl, Nat.and_two_pow_sub_one_eq_mod, Nat.shiftRight_eq_div_pow]; omega
    have e2 : x &&& 15 = x % 16 := by
      rw [show (15:Nat) = 2 ^ 4 - 1 from rfl, Nat.and_two_pow_sub_one_eq_mod]
    rw [scHexPush, e1, e2]
    obtain ⟨ds', h1, h2, h3⟩ := ih _ (x / 16 :: x % 16 :: ds) hxs
      (.cons (digit_isDigit (by omega) (by omega)) (.cons (digit_isDigit (by omega) (by omega)) h))
    refine ⟨ds', h1, ?_, by rw [h3]; simp; omega⟩
    rw [h2]
    simp only [posValue, List.length_cons, value]
    rw [posValueFrom, posValueFrom, posValueFrom_linear, Nat.pow_succ, Nat.pow_succ]
    have := Nat.div_add_mod x 16
    have e3 : (0 * 16 + x / 16) * 16 + x % 16 = x := by omega
    rw [e3]; ring

theorem killZeros_spec {cs ds : List Nat} (h : Spells 16 cs ds) :
    ∃ ds', Spells 16 (scKillZeros cs) ds' ∧ posValue 16 ds' = posValue 16 ds ∧ (ds ≠ [] → ds' ≠ []) ∧
      (2 ≤ ds'.length → ds'.head? ≠ some 0) := by
  induction h with
  | nil => exact ⟨[], .nil, rfl, id, by simp⟩
  | @cons c d cs ds hd ht ih =>
    cases ht with
    | nil => exact ⟨[d], .cons hd .nil, rfl, by simp, by simp⟩
    | @cons c2 d2 cs ds hd2 ht =>
      rw [scKillZeros]
      by_cases hc : c = 48
      · rw [if_pos hc]
        have hd0 : d = 0 := by
          have := scDigit_of_isDigit hd.2
          rw [hc] at this
          have h48 : scDigit 48 = some 0 := rfl
          rw [h48] at this
          exact (Option.some.inj this).symm
        obtain ⟨ds', h1, h2, h3, h4⟩ := ih
        exact ⟨ds', h1, by rw [h2, hd0]; rfl, fun _ => h3 (by simp), h4⟩
      · rw [if_neg hc]
        refine ⟨_, .cons hd (.cons hd2 ht), rfl, fun _ => by simp, fun _ h0 => hc ?_⟩
        have hd0 : d = 0 := by simpa using h0
        subst hd0
        have h2 := hd.2
        rw [lowerDigits_eq, upperDigits_eq] at h2
        simp only [List.getElem?_cons_zero, Option.some.injEq] at h2
        omega

/-- C13: hexadecimal printing spells the bit pattern of the value, without
superfluous leading zeros. -/
theorem print_hex_spells {v : List Nat} (h : Bytes v) {bits : Nat} (hb : bits ≤ 8 * v.length) (hpos : 0 < bits) (bufLen : Nat)
    (hbuf : 2 * v.length + 1 ≤ bufLen) :
    ∃ s ds, scPrintHex bufLen v bits = some s ∧ Spells 16 s ds ∧ posValue 16 ds = value v % 2 ^ bits ∧ ds ≠ [] ∧
      (2 ≤ ds.length → ds.head? ≠ some 0) := by
  obtain ⟨hl, hl0⟩ := printWords_length hb hpos
  obtain ⟨ds1, h1, h2, h3⟩ := hexPush_spec (scPrintWords v bits) [] [] (printWords_bytes h bits) .nil
  obtain ⟨ds2, g1, g2, g3, g4⟩ := killZeros_spec h1
  have hslen : ∀ {cs ds : List Nat}, Spells 16 cs ds → cs.length = ds.length := by
    intro cs ds hs
    induction hs with
    | nil => rfl
    | cons _ _ ih => simp [ih]
  refine ⟨_, ds2, ?_, g1, ?_, ?_, g4⟩
  · unfold scPrintHex; simp only; rw [if_pos]; rw [hslen h1, h3]; simp; omega
  · rw [g2, h2, printWords_value h hb]; simp [posValue, posValueFrom]
  · apply g3; intro hc; rw [hc] at h3; rw [List.length_nil] at h3; omega

/-- C13: `ir_tarval_from_ascii (ir_tarval_to_ascii tv) = tv` in the default
(wrap-around) overflow mode; `bufLen` is large enough for the buffer. -/
theorem ascii_roundtrip {E : TvEnv} (hE : EnvOk E) (hw : E.wrap = true) {t : TarVal} {md : Mode} {x : Int} (h : Denotes E t md x)
    (bufLen : Nat) (hbuf : 4 * E.m + 1 ≤ bufLen) :
    ∃ s, tarvalToAscii bufLen t = some s ∧ tarvalFromAscii E s md = t := by
  obtain ⟨buf, rfl, hl, hb, hx⟩ := h.repr
  have hlt := modeOk_lt h.ok
  obtain ⟨s, ds, e, hs, hv, _, _⟩ := print_hex_spells hb (bits := md.bits) (by omega) h.ok.pos bufLen (by omega)
  refine ⟨s, e, ?_⟩
  have hsm : posValue 16 ds < 256 ^ E.m := by
    rw [hv, pow256]
    exact lt_of_lt_of_le (Nat.mod_lt _ (by positivity)) (Nat.pow_le_pow_right (by decide) h.ok.le)
  have d := new_integer_from_str_wraps hE hw h.ok (by decide) (by decide) false hs hsm
  have hwx : wrap md.signed md.bits (if false = true then -(posValue 16 ds : Int) else posValue 16 ds) = x := by
    apply wrap_unique h.ok.pos h.inRange
    rw [if_neg (by decide), hv, Int.natCast_emod, ← two_pow_cast, Int.emod_emod, ← hx]
    exact bmod256_emod (by omega) _
  rw [hwx] at d
  exact denotes_unique d h

/-- The restriction to the wrap-around mode is needed: a negative number is
printed as its bit pattern, which is out of range when read back. -/
theorem ascii_roundtrip_strict_fails :
    tarvalToAscii 100 (.int modeBs (List.replicate 34 255)) = some [70, 70] ∧
    tarvalFromAscii { TvEnv.default with wrap := false } [70, 70] modeBs = .bad := by decide

/-! ### decimal -/

theorem all_zero_iff {v : List Nat} : (v.all (· == 0)) = true ↔ value v = 0 := by
  induction v with
  | nil => simp [value]
  | cons d ds ih =>
    rw [List.all_cons, Bool.and_eq_true, ih, value, beq_iff_eq]; omega

theorem decLoop_spec (n : Nat) (hn : 2 ≤ n) :
    ∀ (room : Nat) (v acc ds : List Nat), v.length = n → Bytes v → value v < 2 ^ (8 * n - 1) → value v < 10 ^ room → 0 < room →
      Spells 10 acc ds →
      ∃ s ds', scDecLoop room v acc = some s ∧ Spells 10 s ds' ∧ posValue 10 ds' = value v * 10 ^ ds.length + posValue 10 ds ∧
        ds'.length ≤ ds.length + room ∧ ds.length < ds'.length ∧ (value v ≠ 0 → ds'.head? ≠ some 0) ∧
        (value v = 0 → ds' = 0 :: ds) ∧ (∀ k, 0 < k → value v < 10 ^ k → ds'.length ≤ ds.length + k) := by
  intro room
  induction room with
  | zero => intro v acc ds _ _ _ _ h; omega
  | succ room ih =>
    intro v acc ds hl hb hs hr _ hsp
    have h256 : (256:Nat) ^ 2 ≤ 256 ^ n := Nat.pow_le_pow_right (by decide) hn
    have hh := half256 (n := n) (by omega)
    have ltn : (10 :: scZero (v.length - 1)).length = n := by simp [scZero_length]; omega
    have btn : Bytes (10 :: scZero (v.length - 1)) := Bytes.cons (by decide) (scZero_bytes _)
    have v10 : value (10 :: scZero (v.length - 1)) = 10 := by rw [value, scZero_value]
    have s10 : svalue (10 :: scZero (v.length - 1)) = 10 := by
      rw [svalue_of_nonneg (by omega) (by rw [v10, ltn]; omega), v10]; rfl
    have sv : svalue v = value v := svalue_of_nonneg (by omega) (by rw [hl]; exact hs)
    obtain ⟨q, r, e, lq, lr, bq, br, hq, hr2⟩ := scDivmod_spec (a := v) (b := 10 :: scZero (v.length - 1)) (by omega) (by rw [ltn, hl]) hb btn
      (by rw [sv, hl]; have : (0:Int) ≤ value v := Int.natCast_nonneg _; have : 0 < 2 ^ (8 * n - 1) := by positivity
          omega)
      (by rw [s10, hl]; have : (256:Nat) * 10 ≤ 2 ^ (8 * n - 1) := by omega
          have h10 : |(10:Int)| = 10 := rfl
          rw [h10]; omega)
      (by rw [s10]; decide)
    rw [sv, s10] at hq hr2
    rw [show (10:Int) = ((10:Nat):Int) from rfl, Int.tdiv_eq_ediv_of_nonneg (Int.natCast_nonneg _), ← Int.natCast_ediv] at hq
    rw [show (10:Int) = ((10:Nat):Int) from rfl, Int.tmod_eq_emod_of_nonneg (Int.natCast_nonneg _), ← Int.natCast_emod] at hr2
    have back : ∀ {w : List Nat} {y : Nat}, Bytes w → w.length = n → svalue w = (y : Int) → y < 2 ^ (8 * n - 1) → value w = y := by
      intro w y bw lw sw hy
      have h2 := value_eq_svalue_emod bw
      have : y < 2 ^ (8 * n) := lt_of_lt_of_le hy (Nat.pow_le_pow_right (by decide) (by omega))
      rw [sw, lw, two_pow_cast, ← Int.natCast_emod, Nat.mod_eq_of_lt this] at h2
      exact_mod_cast h2
    have vq : value q = value v / 10 := back bq (by omega) hq (lt_of_le_of_lt (Nat.div_le_self _ _) hs)
    have vr : value r = value v % 10 := back br (by omega) hr2 (by omega)
    have r0 : r.getD 0 0 = value v % 10 := by
      have hb2 := br.getD 0
      cases r with
      | nil => simp at lr; omega
      | cons a as =>
        rw [List.getD_cons_zero] at hb2 ⊢
        rw [value] at vr
        have := Nat.zero_le (value as)
        omega
    have hsp' : Spells 10 (scDigits.getD (value v % 10) 0 :: acc) (value v % 10 :: ds) :=
      .cons (digit_isDigit (by omega) (by omega)) hsp
    have hdm := Nat.div_add_mod (value v) 10
    rw [scDecLoop, e]
    simp only [r0]
    by_cases hz : (q.all (· == 0)) = true
    · rw [if_pos hz]
      rw [all_zero_iff, vq] at hz
      have hlt : value v < 10 := by omega
      rw [Nat.mod_eq_of_lt hlt] at hsp' ⊢
      refine ⟨_, _, rfl, hsp', ?_, by simp, by simp, by simp, ?_, by intro k hk _; simp; omega⟩
      · simp only [posValue]
        rw [posValueFrom, posValueFrom_linear]; ring
      · intro h0; rw [h0]
    · rw [if_neg hz]
      rw [all_zero_iff, vq] at hz
      have hge : 10 ≤ value v := by omega
      have hroom : 0 < room := by
        rcases Nat.eq_zero_or_pos room with h0 | h0
        · subst h0; simp at hr; omega
        · exact h0
      obtain ⟨s, ds', h1, h2, h3, h4, h5, h6, h7, h8⟩ := ih q _ _ (by omega) bq (by rw [vq]; omega)
        (by rw [vq, Nat.div_lt_iff_lt_mul (by decide), ← Nat.pow_succ]; exact hr) hroom hsp'
      refine ⟨s, ds', h1, h2, ?_, by simp at h4; omega, by simp at h5; omega, fun _ => h6 (by rw [vq]; exact hz), fun h0 => by omega, ?_⟩
      · rw [h3, vq]
        simp only [posValue, List.length_cons]
        rw [posValueFrom, posValueFrom_linear 10 (0 * 10 + _), Nat.pow_succ]
        have : value v = 10 * (value v / 10) + value v % 10 := hdm.symm
        conv_rhs => rw [this]
        ring
      · intro k hk hlt
        have hk2 : 2 ≤ k := by
          rcases Nat.lt_or_ge k 2 with h | h
          · have : k = 1 := by omega
            subst this; simp at hlt; omega
          · exact h
        have := h8 (k - 1) (by omega) (by
          rw [vq, Nat.div_lt_iff_lt_mul (by decide), ← Nat.pow_succ, Nat.succ_eq_add_one, Nat.sub_add_cancel hk]; exact hlt)
        simp at this; omega

/-- C13: decimal printing spells the absolute value, with a `-` for negative
numbers and no superfluous leading zero. -/
theorem print_dec_spells {E : TvEnv} (hE : EnvOk E) {buf : List Nat} {md : Mode} {x : Int} (h : Denotes E (.int md buf) md x)
    (bufLen : Nat) (hbuf : 8 * E.m + 1 ≤ bufLen) :
    ∃ s ds, scPrintDec bufLen buf md.bits md.signed = some (if x < 0 then 45 :: s else s) ∧ Spells 10 s ds ∧
      posValue 10 ds = x.natAbs ∧ ds ≠ [] ∧ (2 ≤ ds.length → ds.head? ≠ some 0) := by
  obtain ⟨buf', heq, hl, hb, hx⟩ := h.repr
  obtain rfl : buf = buf' := by injection heq
  have hpos := h.ok.pos
  have hle := h.ok.le
  have hlt := modeOk_lt h.ok
  have hm : 5 ≤ E.m := hE
  have hr := h.inRange
  have hn : 0 < buf.length := by omega
  -- the sign test
  have hsign : (md.signed && scGetBitAt buf (md.bits - 1)) = decide (x < 0) := by
    have hbit : scGetBitAt buf (md.bits - 1) = ibit x (md.bits - 1) := by
      rw [scGetBitAt_eq hb, ← hx, ibit_svalue hb hn]
      rw [if_pos (by omega)]
    rw [hbit]
    unfold InRange at hr
    cases hsg : md.signed with
    | false =>
      rw [hsg] at hr
      simp only [Bool.false_eq_true, if_false] at hr
      simp; omega
    | true =>
      rw [hsg] at hr
      simp only [if_true] at hr
      rw [Bool.true_and]
      by_cases hx0 : x < 0
      · rw [ibit_ge_neg hx0 (by omega)]; simp [hx0]
      · rw [ibit_ge_nonneg (by omega) (by omega)]; simp [hx0]
  have habs : x.natAbs < 2 ^ md.bits := by
    have := inRange_abs hpos hr
    rw [two_pow_cast] at this
    have h2 : |x| = (x.natAbs : Int) := Int.abs_eq_natAbs x
    rw [h2] at this; exact_mod_cast this
  have hbm : (2:Nat) ^ md.bits ≤ 2 ^ (8 * E.m) := Nat.pow_le_pow_right (by decide) hle
  have hmm : (2:Nat) ^ (8 * E.m) ≤ 2 ^ (8 * buf.length - 1) := Nat.pow_le_pow_right (by decide) (by omega)
  -- the magnitude buffer
  have hp : ∃ p : List Nat, (if (md.signed && scGetBitAt buf (md.bits - 1)) = true then scNeg buf else buf) = p ∧ p.length = buf.length ∧ Bytes p ∧
      value p % 2 ^ md.bits = x.natAbs := by
    refine ⟨_, rfl, ?_⟩
    rw [hsign]
    by_cases hx0 : x < 0
    · simp only [hx0, decide_true, if_true]
      refine ⟨scNeg_length _, scNeg_bytes hb, ?_⟩
      have h1 := value_eq_svalue_emod (scNeg_bytes hb)
      rw [scNeg_svalue hb, hx] at h1
      have h2 : (-x).bmod (256 ^ buf.length) = -x := by
        apply bmod_of_range hn
        · omega
        · omega
      rw [h2, scNeg_length] at h1
      have h3 : (-x) % 2 ^ (8 * buf.length) = -x := by
        apply Int.emod_eq_of_lt (by omega)
        have : (2:Nat) ^ (8 * buf.length - 1) ≤ 2 ^ (8 * buf.length) := Nat.pow_le_pow_right (by decide) (by omega)
        rw [two_pow_cast]; omega
      rw [h3] at h1
      have h4 : value (scNeg buf) = x.natAbs := by omega
      rw [h4, Nat.mod_eq_of_lt habs]
    · simp only [hx0, decide_false, Bool.false_eq_true, if_false]
      refine ⟨trivial, hb, ?_⟩
      have h1 := value_eq_svalue_emod hb
      rw [hx] at h1
      have h3 : x % 2 ^ (8 * buf.length) = x := by
        apply Int.emod_eq_of_lt (by omega)
        have : (2:Nat) ^ (8 * buf.length - 1) ≤ 2 ^ (8 * buf.length) := Nat.pow_le_pow_right (by decide) (by omega)
        rw [two_pow_cast]; omega
      rw [h3] at h1
      have h4 : value buf = x.natAbs := by omega
      rw [h4, Nat.mod_eq_of_lt habs]
  obtain ⟨p, ep, lp, bp, vp⟩ := hp
  obtain ⟨hwl, hw0⟩ := printWords_length (v := p) (bits := md.bits) (by omega) hpos
  have hwv := printWords_value bp (bits := md.bits) (by omega)
  have hroom : value (scPrintWords p md.bits) < 10 ^ (8 * E.m - 1) := by
    rw [hwv, vp]
    have h1 : x.natAbs < 2 ^ (8 * E.m) := by omega
    have h2 : (2:Nat) ^ (8 * E.m) ≤ 10 ^ (8 * E.m - 1) := by
      have e1 : (2:Nat) ^ (8 * E.m) = 2 ^ (8 * E.m - 1) * 2 := by rw [← Nat.pow_succ]; congr 1; omega
      have e2 : (10:Nat) ^ (8 * E.m - 1) = 2 ^ (8 * E.m - 1) * 5 ^ (8 * E.m - 1) := by rw [← Nat.mul_pow]
      rw [e1, e2]
      apply Nat.mul_le_mul_left
      calc 2 ≤ 5 ^ 1 := by decide
        _ ≤ 5 ^ (8 * E.m - 1) := Nat.pow_le_pow_right (by decide) (by omega)
    omega
  have hvz : value (scPrintWords p md.bits ++ scZero (buf.length - (scPrintWords p md.bits).length)) = x.natAbs := by
    rw [value_append, scZero_value, Nat.mul_zero, Nat.add_zero, hwv, vp]
  obtain ⟨s, ds, h1, h2, h3, h4, h5, h6, h7, h8⟩ := decLoop_spec buf.length (by omega) (bufLen - 1)
    (scPrintWords p md.bits ++ scZero (buf.length - (scPrintWords p md.bits).length)) [] []
    (by rw [List.length_append, scZero_length]; omega)
    (by rw [bytes_append]; exact ⟨printWords_bytes bp _, scZero_bytes _⟩)
    (by rw [hvz]; omega)
    (by rw [hvz]
        have : (10:Nat) ^ (8 * E.m - 1) ≤ 10 ^ (bufLen - 1) := Nat.pow_le_pow_right (by decide) (by omega)
        rw [hwv, vp] at hroom; omega)
    (by omega) .nil
  have hk := h8 (8 * E.m - 1) (by omega) (by rw [hvz]; rw [hwv, vp] at hroom; exact hroom)
  simp only [List.length_nil, Nat.zero_add, Nat.pow_zero, Nat.mul_one] at h3 h4 h5 hk
  have hslen : ∀ {cs ds : List Nat}, Spells 10 cs ds → cs.length = ds.length := by
    intro cs ds hs
    induction hs with
    | nil => rfl
    | cons _ _ ih => simp [ih]
  have hsl := hslen h2
  refine ⟨s, ds, ?_, h2, ?_, ?_, ?_⟩
  · unfold scPrintDec
    simp only [ep, h1]
    rw [hsign]
    by_cases hx0 : x < 0
    · simp only [hx0, decide_true, if_true]
      rw [if_pos (by omega)]
    · simp only [hx0, decide_false, Bool.false_eq_true, if_false]
  · rw [h3, hvz]; simp [posValue, posValueFrom]
  · intro hc; rw [hc] at h5; simp at h5
  · intro h2l
    by_cases hz : x.natAbs = 0
    · rw [h7 (by rw [hvz]; exact hz)] at h2l; simp at h2l
    · exact h6 (by rw [hvz]; exact hz)

theorem spells_head {c : Nat} {cs ds : List Nat} (h : Spells 10 (c :: cs) ds) : 48 ≤ c ∧ c ≤ 57 ∧ ds.head? = some (c - 48) ∧ ds.length = cs.length + 1 := by
  cases h with
  | @cons _ d _ ds' hd ht =>
    have h1 := hd.2
    have hlt := hd.1
    have hslen : ∀ {cs ds : List Nat}, Spells 10 cs ds → ds.length = cs.length := by
      intro cs ds hs
      induction hs with
      | nil => rfl
      | cons _ _ ih => simp [ih]
    rw [lowerDigits_eq, upperDigits_eq] at h1
    have : d = 0 ∨ d = 1 ∨ d = 2 ∨ d = 3 ∨ d = 4 ∨ d = 5 ∨ d = 6 ∨ d = 7 ∨ d = 8 ∨ d = 9 := by omega
    rcases this with h' | h' | h' | h' | h' | h' | h' | h' | h' | h' <;> subst h' <;>
      (simp only [List.getElem?_cons_succ, List.getElem?_cons_zero, Option.some.injEq, or_self] at h1; subst h1; simp [hslen ht])

/-- C13: parsing the decimal text of a value gives the value back, in either
overflow mode.  `tarval` parsing is `new_tarval_from_str`, which recognises the
sign and would take a leading `0` as an octal prefix. -/
theorem decimal_roundtrip {E : TvEnv} (hE : EnvOk E) {buf : List Nat} {md : Mode} {x : Int} (h : Denotes E (.int md buf) md x)
    (bufLen : Nat) (hbuf : 8 * E.m + 1 ≤ bufLen) :
    ∃ s, scPrintDec bufLen buf md.bits md.signed = some s ∧ newTarvalFromStrInt E s md = some (.int md buf) := by
  obtain ⟨s, ds, h1, h2, h3, h4, h5⟩ := print_dec_spells hE h bufLen hbuf
  refine ⟨_, h1, ?_⟩
  have hpos := h.ok.pos
  have habs : x.natAbs < 256 ^ E.m := by
    have := inRange_abs hpos h.inRange
    rw [two_pow_cast] at this
    have h2 : |x| = (x.natAbs : Int) := Int.abs_eq_natAbs x
    rw [h2] at this
    have h3 : x.natAbs < 2 ^ md.bits := by exact_mod_cast this
    rw [pow256]
    exact lt_of_lt_of_le h3 (Nat.pow_le_pow_right (by decide) h.ok.le)
  obtain ⟨c, cs, rfl⟩ : ∃ c cs, s = c :: cs := by
    cases s with
    | nil => cases h2; exact absurd rfl h4
    | cons c cs => exact ⟨c, cs, rfl⟩
  obtain ⟨hc1, hc2, hc3, hc4⟩ := spells_head h2
  -- base selection: decimal
  have hbase : strBase (c :: cs) = (10, c :: cs) := by
    cases cs with
    | nil => rfl
    | cons d cs =>
      have hne : c ≠ 48 := by
        intro h48
        apply h5 (by rw [hc4]; simp)
        rw [hc3, h48]
      simp [strBase, hne]
  have key : ∀ neg : Bool, (if neg then -(x.natAbs : Int) else x.natAbs) = x →
      (match scFromStr E.m neg 10 (c :: cs) with
        | none => some TarVal.bad
        | some v => some (getIntTarvalOverflow E v md)) = some (.int md buf) := by
    intro neg hneg
    have d := new_integer_from_str_exact hE h.ok (base := 10) (by decide) (by decide) neg h2 (by rw [h3]; exact habs)
      (by rw [h3, hneg]; exact h.inRange)
    rw [h3, hneg] at d
    have e := denotes_unique d h
    unfold newIntegerTarvalFromStr at e
    obtain ⟨r, er, _⟩ := val_from_str_value (m := E.m) (by have : 5 ≤ E.m := hE; omega) (by decide) (by decide) neg h2 (by rw [h3]; exact habs)
    rw [er] at e ⊢
    simp only at e ⊢
    rw [e]
  by_cases hx0 : x < 0
  · rw [if_pos hx0]
    unfold newTarvalFromStrInt
    simp only [if_true]
    rw [hbase]
    simp only
    rw [if_neg (by simp)]
    exact key true (by rw [if_pos rfl]; omega)
  · rw [if_neg hx0]
    unfold newTarvalFromStrInt
    have n45 : c ≠ 45 := by omega
    have n43 : c ≠ 43 := by omega
    simp only [n45, n43, if_false]
    rw [hbase]
    simp only
    rw [if_neg (by simp)]
    exact key false (by rw [if_neg (by decide)]; omega)

/-- non-vacuity -/
example : scPrintDec 137 (200 :: scZero 33) 8 false = some [50, 48, 48] := by decide
example : Denotes TvEnv.default (.int modeBu (200 :: scZero 33)) modeBu 200 := denotes_example

end Verif.Props
