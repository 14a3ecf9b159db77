import Verif.Spec.Bytes
import Mathlib.Tactic.Ring
import Mathlib.Tactic.Linarith
/-! Helper lemmas about `Spec.value`. -/
namespace Verif.Spec

theorem Bytes.nil : Bytes [] := by intro b hb; cases hb

theorem Bytes.cons {d : Nat} {l : List Nat} (hd : d < 256) (hl : Bytes l) : Bytes (d :: l) := by
  intro b hb
  cases hb with
  | head => exact hd
  | tail _ h => exact hl b h

theorem bytes_cons {d : Nat} {l : List Nat} : Bytes (d :: l) ↔ d < 256 ∧ Bytes l := by
  constructor
  · intro h
    exact ⟨h d (List.mem_cons_self ..), fun b hb => h b (List.mem_cons_of_mem _ hb)⟩
  · rintro ⟨h1, h2⟩; exact h2.cons h1

theorem bytes_append {a b : List Nat} : Bytes (a ++ b) ↔ Bytes a ∧ Bytes b := by
  unfold Bytes; simp only [List.mem_append]
  constructor
  · intro h; exact ⟨fun x hx => h x (Or.inl hx), fun x hx => h x (Or.inr hx)⟩
  · rintro ⟨h1, h2⟩ x (hx | hx); exact h1 x hx; exact h2 x hx

theorem Bytes.take {l : List Nat} (h : Bytes l) (n : Nat) : Bytes (l.take n) :=
  fun b hb => h b (List.mem_of_mem_take hb)

theorem Bytes.drop {l : List Nat} (h : Bytes l) (n : Nat) : Bytes (l.drop n) :=
  fun b hb => h b (List.mem_of_mem_drop hb)

theorem Bytes.dropLast {l : List Nat} (h : Bytes l) : Bytes l.dropLast :=
  fun b hb => h b ((List.dropLast_sublist l).subset hb)

theorem Bytes.reverse {l : List Nat} (h : Bytes l) : Bytes l.reverse :=
  fun b hb => h b (List.mem_reverse.1 hb)

theorem Bytes.replicate {n d : Nat} (h : d < 256) : Bytes (List.replicate n d) := by
  intro b hb; rw [List.mem_replicate] at hb; omega

theorem Bytes.getD {l : List Nat} (h : Bytes l) (i : Nat) : l.getD i 0 < 256 := by
  rw [List.getD_eq_getElem?_getD]
  by_cases hi : i < l.length
  · rw [List.getElem?_eq_getElem hi]; exact h _ (List.getElem_mem hi)
  · rw [List.getElem?_eq_none (by omega)]; simp

theorem value_lt {l : List Nat} (h : Bytes l) : value l < 256 ^ l.length := by
  induction l with
  | nil => simp [value]
  | cons d ds ih =>
    rw [bytes_cons] at h
    have := ih h.2
    simp only [value, List.length_cons, Nat.pow_succ]
    omega

theorem value_append (a b : List Nat) : value (a ++ b) = value a + 256 ^ a.length * value b := by
  induction a with
  | nil => simp [value]
  | cons d ds ih => simp only [List.cons_append, value, ih, List.length_cons, Nat.pow_succ]; ring

theorem value_replicate_zero (n : Nat) : value (List.replicate n 0) = 0 := by
  induction n with
  | zero => rfl
  | succ n ih => simp [List.replicate_succ, value, ih]

theorem value_replicate_255 (n : Nat) : value (List.replicate n 255) + 1 = 256 ^ n := by
  induction n with
  | zero => rfl
  | succ n ih => simp only [List.replicate_succ, value, Nat.pow_succ]; omega

theorem testBit_add_mul_256 {d x i : Nat} (hd : d < 256) :
    (d + 256 * x).testBit i = if i < 8 then d.testBit i else x.testBit (i - 8) := by
  have h := Nat.testBit_two_pow_mul_add x (b := d) (i := 8) (by simpa using hd) i
  rw [show (256:Nat) = 2 ^ 8 from rfl, Nat.add_comm]
  exact h

theorem testBit_value {l : List Nat} (h : Bytes l) (i : Nat) :
    (value l).testBit i = (l.getD (i / 8) 0).testBit (i % 8) := by
  induction l generalizing i with
  | nil => simp [value]
  | cons d ds ih =>
    rw [bytes_cons] at h
    simp only [value]
    rw [testBit_add_mul_256 h.1]
    by_cases hi : i < 8
    · rw [if_pos hi, Nat.div_eq_of_lt hi, Nat.mod_eq_of_lt hi]; rfl
    · rw [if_neg hi, ih h.2]
      have h1 : i / 8 = (i - 8) / 8 + 1 := by omega
      have h2 : i % 8 = (i - 8) % 8 := by omega
      rw [h1, h2]; rfl

theorem value_inj {a b : List Nat} (hl : a.length = b.length) (ha : Bytes a) (hb : Bytes b)
    (h : value a = value b) : a = b := by
  induction a generalizing b with
  | nil => cases b with
    | nil => rfl
    | cons _ _ => simp at hl
  | cons d ds ih => cases b with
    | nil => simp at hl
    | cons e es =>
      rw [bytes_cons] at ha hb
      simp only [value] at h
      have h1 : d = e := by omega
      have h2 : value ds = value es := by omega
      rw [h1, ih (by simpa using hl) ha.2 hb.2 h2]

theorem pow256 (n : Nat) : 256 ^ n = 2 ^ (8 * n) := by
  rw [Nat.pow_mul]

theorem value_take {l : List Nat} (h : Bytes l) (n : Nat) :
    value (l.take n) = value l % 256 ^ n := by
  by_cases hn : n ≤ l.length
  · have e := value_append (l.take n) (l.drop n)
    rw [List.take_append_drop, List.length_take, Nat.min_eq_left hn] at e
    rw [e, Nat.add_mul_mod_self_left, Nat.mod_eq_of_lt]
    have := value_lt (h.take n)
    rwa [List.length_take, Nat.min_eq_left hn] at this
  · rw [List.take_of_length_le (by omega), Nat.mod_eq_of_lt]
    exact lt_of_lt_of_le (value_lt h) (Nat.pow_le_pow_right (by decide) (by omega))

theorem value_drop {l : List Nat} (h : Bytes l) (n : Nat) :
    value (l.drop n) = value l / 256 ^ n := by
  by_cases hn : n ≤ l.length
  · have e := value_append (l.take n) (l.drop n)
    rw [List.take_append_drop, List.length_take, Nat.min_eq_left hn] at e
    have := value_lt (h.take n)
    rw [List.length_take, Nat.min_eq_left hn] at this
    rw [e, Nat.add_mul_div_left _ _ (by positivity), Nat.div_eq_of_lt this, Nat.zero_add]
  · rw [List.drop_eq_nil_of_le (by omega), Nat.div_eq_of_lt]; rfl
    exact lt_of_lt_of_le (value_lt h) (Nat.pow_le_pow_right (by decide) (by omega))

end Verif.Spec
