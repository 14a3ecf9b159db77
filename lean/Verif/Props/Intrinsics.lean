import Verif.Model.Intrinsics
import Verif.Spec.BlockCopy
/-!
# Calls of library functions (C123)
-/
namespace Verif.Props.Intrinsics

open Verif.Spec.CString Verif.Spec.BlockCopy Verif.Model.Intrinsics

/-- the bytes of an initializer, and what follows in memory -/
def bytes (ρ : Nat → BitVec 8) (l : List Entry) (rest : Bytes) : Bytes := l.map (Entry.byte ρ) ++ rest

/-- all elements are evaluated -/
def Known (l : List Entry) : Prop := ∀ x ∈ l, ∀ i, x ≠ .unknown i

/-- C123: a length that is found is the length, if all elements are constants.  (False in general: `strlen_unknown_wrong`.) -/
theorem strlen_right_partial (ρ : Nat → BitVec 8) (l : List Entry) (rest : Bytes) (hk : Known l) : ∀ n, evalStrlen l = some n → IsStrlen (bytes ρ l rest) n := by
  induction l with
  | nil => intro n h; cases h
  | cons x l ih =>
    intro n h
    rw [evalStrlen] at h
    have hx : isNull x = true ↔ x.byte ρ = 0 := by
      cases x with
      | null => exact ⟨fun _ => rfl, fun _ => rfl⟩
      | val s b => exact ⟨fun h => eq_of_beq h, fun h => by show (b == 0) = true; rw [show b = 0 from h]; rfl⟩
      | unknown i => exact absurd rfl (hk _ List.mem_cons_self i)
    by_cases hn : isNull x = true
    · rw [if_pos hn] at h
      cases h
      exact ⟨by show some (x.byte ρ) = some 0; rw [hx.1 hn], fun i hi => absurd hi (by omega)⟩
    · rw [if_neg hn] at h
      rcases he : evalStrlen l with _ | k
      · rw [he] at h; cases h
      · rw [he] at h
        cases h
        obtain ⟨h1, h2⟩ := ih (fun y hy => hk y (List.mem_cons_of_mem _ hy)) k he
        refine ⟨h1, fun i hi => ?_⟩
        cases i with
        | zero => exact ⟨x.byte ρ, rfl, fun h => hn (hx.2 h)⟩
        | succ i => exact h2 i (Nat.lt_of_succ_lt_succ hi)

/-- C123 fails: an element that is not evaluated yet (such as an Offset) counts as not zero -/
theorem strlen_unknown_wrong : ∃ l ρ n, evalStrlen l = some n ∧ ¬ IsStrlen (bytes ρ l []) n := by
  refine ⟨[.unknown 0, .null], fun _ => 0, 1, rfl, fun h => ?_⟩
  obtain ⟨b, h1, h2⟩ := h.2 0 (by decide)
  have h1 : some (0 : BitVec 8) = some b := h1
  cases h1
  exact h2 rfl

/-- all constants have the same mode -/
def OfMode (m : Bool) (l : List Entry) : Prop := ∀ x ∈ l, ∀ s b, x = .val s b → s = m

/-- characters of the mode are not negative -/
def Plain (m : Bool) (b : BitVec 8) : Prop := m = false ∨ b.toNat < 128

theorem widen_plain {m : Bool} {b : BitVec 8} (h : Plain m b) : widen (m, b) = b.toNat := by
  unfold widen
  cases m
  · rfl
  · have hb : b.toNat < 128 := h.resolve_left (by decide)
    dsimp only
    rw [if_pos rfl, BitVec.toInt_eq_toNat_of_lt (by omega)]

theorem value_byte (ρ : Nat → BitVec 8) {m : Bool} {x : Entry} {t : Bool × BitVec 8} (hm : ∀ s b, x = .val s b → s = m) (h : value m x = some t) : t = (m, x.byte ρ) := by
  cases x with
  | null => cases h; rfl
  | val s b => cases h; rw [hm s b rfl]; rfl
  | unknown i => cases h

/-- C123: a comparison that is evaluated has the right sign, if both strings have elements of one mode and no element is negative.  (False in general:
`strcmp_signed_wrong`, `strcmp_modes_wrong`.) -/
theorem strcmp_right_partial (ρ : Nat → BitVec 8) (m : Bool) (restl restr : Bytes) : ∀ (l r : List Entry) (z : Int), OfMode m l → OfMode m r →
    (∀ x ∈ l, Plain m (x.byte ρ)) → (∀ x ∈ r, Plain m (x.byte ρ)) → evalStrcmp m l r = some z → IsStrcmp (bytes ρ l restl) (bytes ρ r restr) z := by
  intro l
  induction l with
  | nil => intro r z _ _ _ _ h; cases r <;> cases h
  | cons x l ih =>
    intro r z hl hr pl pr h
    cases r with
    | nil => cases h
    | cons y r =>
      rw [evalStrcmp] at h
      rcases hx : value m x with _ | a
      · rw [hx] at h; cases h
      rcases hy : value m y with _ | b
      · rw [hx, hy] at h; cases h
      rw [hx, hy] at h
      dsimp only at h
      have ha := value_byte ρ (fun s b => hl x List.mem_cons_self s b) hx
      have hb := value_byte ρ (fun s b => hr y List.mem_cons_self s b) hy
      subst ha hb
      have wx := widen_plain (pl x List.mem_cons_self)
      have wy := widen_plain (pr y List.mem_cons_self)
      by_cases hne : (m, x.byte ρ) ≠ (m, y.byte ρ)
      · rw [if_pos hne, wx, wy] at h
        cases h
        refine ⟨0, x.byte ρ, y.byte ρ, rfl, rfl, fun i hi => absurd hi (by omega), .inl (fun h => hne (by rw [h])), by omega, by omega⟩
      · rw [if_neg hne] at h
        have he : x.byte ρ = y.byte ρ := by
          have := Decidable.not_not.1 hne
          exact (Prod.mk.inj this).2
        by_cases h0 : x.byte ρ = 0
        · rw [if_pos h0] at h
          cases h
          exact ⟨0, x.byte ρ, y.byte ρ, rfl, rfl, fun i hi => absurd hi (by omega), .inr h0, by rw [he]; omega, by rw [he]; omega⟩
        · rw [if_neg h0] at h
          obtain ⟨n, u, v, h1, h2, h3, h4, h5⟩ := ih r z (fun q hq => hl q (List.mem_cons_of_mem _ hq)) (fun q hq => hr q (List.mem_cons_of_mem _ hq))
            (fun q hq => pl q (List.mem_cons_of_mem _ hq)) (fun q hq => pr q (List.mem_cons_of_mem _ hq)) h
          refine ⟨n + 1, u, v, h1, h2, fun i hi => ?_, h4, h5⟩
          cases i with
          | zero => exact ⟨x.byte ρ, rfl, by show some (y.byte ρ) = _; rw [he], h0⟩
          | succ i => exact h3 i (by omega)

/-- C123: all comparisons that are replaced have the right sign under the same condition; `s` is the string that is not known. -/
theorem map_strcmp_right_partial (ρ : Nat → BitVec 8) (m : Bool) (first : BitVec 8) (s rest : Bytes) (l : List Entry) (z : Int) (hf : Plain m first) :
    (mapStrcmp m (some l) none first = some z → IsStrcmp (bytes ρ l rest) (first :: s) z) ∧
    (mapStrcmp m none (some l) first = some z → IsStrcmp (first :: s) (bytes ρ l rest) z) := by
  cases l with
  | nil => exact ⟨(fun h => nomatch (show (none : Option Int) = some z from h)), (fun h => nomatch (show (none : Option Int) = some z from h))⟩
  | cons x l =>
    have hx : isNull x = true → x.byte ρ = 0 := by
      intro h
      cases x with
      | null => rfl
      | val s b => exact eq_of_beq h
      | unknown i => cases h
    have hw := widen_plain hf
    constructor
    · intro h
      have h : (if isNull x = true then some (-widen (m, first)) else none) = some z := h
      by_cases hn : isNull x = true
      · rw [if_pos hn, hw] at h
        cases h
        refine ⟨0, 0, first, by show some (x.byte ρ) = _; rw [hx hn], rfl, fun i hi => absurd hi (by omega), .inr rfl, ?_, ?_⟩
        · rw [show (0 : BitVec 8).toNat = 0 from rfl]; omega
        · rw [show (0 : BitVec 8).toNat = 0 from rfl]; omega
      · rw [if_neg hn] at h; cases h
    · intro h
      have h : (if isNull x = true then some (widen (m, first)) else none) = some z := h
      by_cases hn : isNull x = true
      · rw [if_pos hn, hw] at h
        cases h
        refine ⟨0, first, 0, rfl, by show some (x.byte ρ) = _; rw [hx hn], fun i hi => absurd hi (by omega), ?_, ?_, ?_⟩
        · by_cases h0 : first = 0
          · exact .inr h0
          · exact .inl h0
        · rw [show (0 : BitVec 8).toNat = 0 from rfl]; omega
        · rw [show (0 : BitVec 8).toNat = 0 from rfl]; omega
      · rw [if_neg hn] at h; cases h

theorem strcmp_first {a b : Bytes} {x y : BitVec 8} {r : Int} (hne : x ≠ y) (h : IsStrcmp (x :: a) (y :: b) r) :
    (r < 0 ↔ x.toNat < y.toNat) ∧ (0 < r ↔ y.toNat < x.toNat) := by
  obtain ⟨n, u, v, h1, h2, h3, _, h5⟩ := h
  cases n with
  | zero =>
    have h1 : some x = some u := h1
    have h2 : some y = some v := h2
    cases h1
    cases h2
    exact h5
  | succ n =>
    obtain ⟨c, c1, c2, _⟩ := h3 0 (by omega)
    have c1 : some x = some c := c1
    have c2 : some y = some c := c2
    cases c1
    cases c2
    exact absurd rfl hne

/-- C123 fails where char is signed: `strcmp("\x80", "a")` becomes -225, but is positive -/
theorem strcmp_signed_wrong : ∃ z, evalStrcmp true [.val true 0x80, .null] [.val true 0x61, .null] = some z ∧
    ∀ ρ, ¬ IsStrcmp (bytes ρ [.val true 0x80, .null] []) (bytes ρ [.val true 0x61, .null] []) z := by
  refine ⟨-225, by decide, fun ρ h => ?_⟩
  have h : IsStrcmp [0x80, 0] [0x61, 0] (-225) := h
  have := (strcmp_first (by decide) h).1
  revert this
  decide

/-- C123 fails where char is signed: `strcmp(s, "")` becomes `*s`, which is negative for 0x80 -/
theorem strcmp_empty_wrong : ∃ z, mapStrcmp true none (some [.null]) 0x80 = some z ∧ ∀ ρ, ¬ IsStrcmp [0x80, 0] (bytes ρ [.null] []) z := by
  refine ⟨-128, by decide, fun ρ h => ?_⟩
  have h : IsStrcmp [0x80, 0] [0] (-128) := h
  have := (strcmp_first (by decide) h).1
  revert this
  decide

/-- C123 fails for arrays of different modes (signed and unsigned char): "ab" and "ac" compare equal -/
theorem strcmp_modes_wrong : ∃ z, evalStrcmp false [.val true 0x61, .val true 0x62, .null] [.val false 0x61, .val false 0x63, .null] = some z ∧
    ∀ ρ, ¬ IsStrcmp (bytes ρ [.val true 0x61, .val true 0x62, .null] []) (bytes ρ [.val false 0x61, .val false 0x63, .null] []) z := by
  refine ⟨0, by decide, fun ρ h => ?_⟩
  obtain ⟨n, u, v, h1, h2, h3, h4, h5⟩ := h
  match n with
  | 0 =>
    have h1 : some (0x61 : BitVec 8) = some u := h1
    have h2 : some (0x61 : BitVec 8) = some v := h2
    cases h1
    cases h2
    revert h4
    decide
  | 1 =>
    have h1 : some (0x62 : BitVec 8) = some u := h1
    have h2 : some (0x63 : BitVec 8) = some v := h2
    cases h1
    cases h2
    revert h5
    decide
  | n + 2 =>
    obtain ⟨c, c1, c2, _⟩ := h3 1 (by omega)
    have c1 : some (0x62 : BitVec 8) = some c := c1
    have c2 : some (0x63 : BitVec 8) = some c := c2
    cases c1
    revert c2
    decide

/-- C123: a string compared with itself -/
theorem strcmp_same (s : Bytes) (n : Nat) (h : IsStrlen s n) : IsStrcmp s s 0 :=
  ⟨n, 0, 0, h.1, h.1, fun i hi => by obtain ⟨b, h1, h2⟩ := h.2 i hi; exact ⟨b, h1, h1, h2⟩, .inr rfl, by decide, by decide⟩

/-- C123: copies that are dropped do nothing -/
theorem copy_dropped_right (m : Mem) (dst src len : Nat) (h : dropped dst src len = true) : copied src dst len m = m := by
  unfold dropped at h
  funext a
  unfold copied
  by_cases hc : dst ≤ a ∧ a < dst + len
  · rw [if_pos hc]
    rcases Bool.or_eq_true _ _ ▸ h with h | h
    · have := eq_of_beq h
      subst this
      congr 1
      omega
    · have := eq_of_beq h
      omega
  · rw [if_neg hc]

/-- C123: comparisons that are dropped give 0 -/
theorem memcmp_dropped_right (m : Mem) (a b len : Nat) (h : dropped a b len = true) : IsMemcmp m a b len 0 := by
  unfold dropped at h
  refine .inl ⟨fun i hi => ?_, rfl⟩
  rcases Bool.or_eq_true _ _ ▸ h with h | h
  · rw [eq_of_beq h]
  · have := eq_of_beq h
    omega

/-- C123: abs, but for the number without a positive counterpart -/
theorem abs_right {w : Nat} (x : BitVec w) (h : x ≠ BitVec.intMin w) : (abs x).toInt = x.toInt.natAbs := by
  unfold abs
  by_cases hs : x.slt 0 = true
  · rw [if_pos hs]
    have hlt : x.toInt < 0 := by
      have := of_decide_eq_true hs
      simpa using this
    rw [BitVec.toInt_neg_of_ne_intMin h]
    omega
  · rw [if_neg hs]
    have hlt : ¬ x.toInt < 0 := by
      intro hc
      apply hs
      apply decide_eq_true
      simpa using hc
    omega

/-- C123: the argument of an even function, if it is not the conversion of an unsigned number.  (False in general: `even_unsigned_wrong`.) -/
theorem even_arg_right_partial {α : Type} {w : Nat} (f : Int → α) (hf : ∀ z, f (-z) = f z) (a : Arg w) (h : ∀ b, a = .conv (.minus b) → b.int.1 = true) :
    f (evenArg a).eval = f a.eval := by
  match a, h with
  | .leaf _ _, _ => rfl
  | .real _, _ => rfl
  | .minus a, _ => exact (hf _).symm
  | .conv (.leaf _ _), _ => rfl
  | .conv (.conv _), _ => rfl
  | .conv (.real _), _ => rfl
  | .conv (.minus b), h =>
    have hb := h b rfl
    show f (if b.int.1 then b.int.2.toInt else b.int.2.toNat) = f (if b.int.1 then (-b.int.2).toInt else (-b.int.2).toNat)
    rw [hb, if_pos rfl, if_pos rfl]
    by_cases hm : b.int.2 = BitVec.intMin w
    · rw [hm, BitVec.neg_intMin]
    · rw [BitVec.toInt_neg_of_ne_intMin hm, hf]

/-- C123 fails for `cos((double)-1u)`, which becomes `cos(1.0)` -/
theorem even_unsigned_wrong : ∃ (a : Arg 32), a.eval = 4294967295 ∧ (evenArg a).eval = 1 :=
  ⟨.conv (.minus (.leaf false 1)), by decide, by decide⟩

/-! Cases -/

example : evalStrlen [.val true 0x61, .val true 0x62, .null] = some 2 ∧ Known [.val true 0x61, .val true 0x62, .null] :=
  ⟨by decide, fun x hx i h => by subst h; simp at hx⟩
example : evalStrcmp true [.val true 0x61, .val true 0x62, .null] [.val true 0x61, .null] = some 98 := by decide
example : mapStrcmp true (some [.null]) none 0x61 = some (-97) := by decide
example : abs (-5#8) = 5#8 ∧ abs (BitVec.intMin 8) = BitVec.intMin 8 := by decide
example : dropped 5 5 3 = true ∧ dropped 5 6 0 = true := by decide
example : evenArg (.conv (.minus (.leaf true (5#32)))) = .conv (.leaf true 5#32) := rfl

end Verif.Props.Intrinsics
