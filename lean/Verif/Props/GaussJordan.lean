import Verif.Model.GaussJordan
import Mathlib.Algebra.BigOperators.Intervals
import Mathlib.Algebra.BigOperators.Ring.Finset
import Mathlib.Algebra.Order.Ring.Rat
import Mathlib.Tactic.Ring
import Mathlib.Tactic.FieldSimp
import Mathlib.Tactic.Linarith
/-!
# Systems of linear equations (C128)
-/
namespace Verif.Props.GaussJordan

open Verif.Spec.Linear Verif.Model.GaussJordan

theorem sw_sw (a b i : Nat) : sw a b (sw a b i) = i := by
  unfold sw; split_ifs <;> omega

theorem sw_lt {a b i n : Nat} (ha : a < n) (hb : b < n) (hi : i < n) : sw a b i < n := by
  unfold sw; split_ifs <;> omega

theorem sw_low {a b i : Nat} (hb : a ≤ b) (hi : i < a) : sw a b i = i := by
  unfold sw; split_ifs <;> omega

theorem sw_high {a b i : Nat} (hb : a ≤ b) (hi : a ≤ i) : a ≤ sw a b i := by
  unfold sw; split_ifs <;> omega

theorem sum_sw {n a b : Nat} (ha : a < n) (hb : b < n) (f : Nat → Rat) : ∑ j ∈ Finset.range n, f (sw a b j) = ∑ j ∈ Finset.range n, f j := by
  refine Finset.sum_nbij' (sw a b) (sw a b) ?_ ?_ ?_ ?_ ?_
  · intro i hi; exact Finset.mem_range.2 (sw_lt ha hb (Finset.mem_range.1 hi))
  · intro i hi; exact Finset.mem_range.2 (sw_lt ha hb (Finset.mem_range.1 hi))
  · intro i _; exact sw_sw a b i
  · intro i _; exact sw_sw a b i
  · intro i _; rfl

/-- the largest entry is in the box, and it is not 0 -/
theorem largest_spec (n col : Nat) (A : Nat → Nat → Rat) (h : ¬ (largest n col A).2.2 < small) :
    (col ≤ (largest n col A).1 ∧ (largest n col A).1 < n) ∧ (col ≤ (largest n col A).2.1 ∧ (largest n col A).2.1 < n) ∧
    A (largest n col A).1 (largest n col A).2.1 ≠ 0 := by
  have key : ∀ (l : List (Nat × Nat)) (b : Nat × Nat × Rat), 0 ≤ b.2.2 →
      (b.2.2 = 0 ∨ ((col ≤ b.1 ∧ b.1 < n) ∧ (col ≤ b.2.1 ∧ b.2.1 < n) ∧ A b.1 b.2.1 ≠ 0)) →
      (∀ p ∈ l, (col ≤ p.1 ∧ p.1 < n) ∧ (col ≤ p.2 ∧ p.2 < n)) →
      ((l.foldl (look A) b).2.2 = 0 ∨ ((col ≤ (l.foldl (look A) b).1 ∧ (l.foldl (look A) b).1 < n) ∧
        (col ≤ (l.foldl (look A) b).2.1 ∧ (l.foldl (look A) b).2.1 < n) ∧ A (l.foldl (look A) b).1 (l.foldl (look A) b).2.1 ≠ 0)) := by
    intro l
    induction l with
    | nil => intro b _ hb _; exact hb
    | cons p l ih =>
      intro b h0 hb hl
      rw [List.foldl_cons]
      have hp := hl p (List.mem_cons_self ..)
      refine ih _ ?_ ?_ fun q hq => hl q (List.mem_cons_of_mem _ hq)
      · unfold look
        split_ifs with hc
        · exact le_of_lt (lt_of_le_of_lt h0 hc)
        · exact h0
      · unfold look
        split_ifs with hc
        · refine Or.inr ⟨hp.1, hp.2, fun e => ?_⟩
          dsimp only at e
          rw [e] at hc
          have : Verif.Model.GaussJordan.abs 0 = 0 := by unfold Verif.Model.GaussJordan.abs; simp
          rw [this] at hc
          exact absurd hc (not_lt.2 h0)
        · exact hb
  have hc : ∀ p ∈ cells n col, (col ≤ p.1 ∧ p.1 < n) ∧ (col ≤ p.2 ∧ p.2 < n) := by
    intro p hp
    unfold cells at hp
    obtain ⟨r, hr, hp⟩ := List.mem_flatMap.1 hp
    obtain ⟨c, hc, rfl⟩ := List.mem_map.1 hp
    rw [List.mem_range'_1] at hr hc
    exact ⟨⟨hr.1, by omega⟩, ⟨hc.1, by omega⟩⟩
  rcases key (cells n col) (0, 0, 0) (le_refl _) (Or.inl rfl) hc with e | e
  · refine absurd ?_ h
    show (largest n col A).2.2 < small
    unfold largest
    rw [e]
    unfold small
    norm_num
  · exact e

/-- the columns before `col` are done -/
structure Inv (n col : Nat) (A : Nat → Nat → Rat) (v : Nat → Rat) (s : State) : Prop where
  zero : ∀ j, j < col → ∀ r, j < r → r < n → s.A r j = 0
  diag : ∀ i, i < col → s.A i i ≠ 0
  bound : ∀ i, i < n → s.x i < n
  inj : ∀ i j, i < n → j < n → s.x i = s.x j → i = j
  sol : ∀ y z, (∀ j, j < n → y j = z (s.x j)) → Solves n s.A s.v y → Solves n A v z

theorem inv_exchange {n col r c : Nat} {A : Nat → Nat → Rat} {v : Nat → Rat} {s : State} (h : Inv n col A v s)
    (hr : col ≤ r ∧ r < n) (hc : col ≤ c ∧ c < n) : Inv n col A v (exchange col r c s) := by
  have hn : col < n := by omega
  refine ⟨fun j hj i hi hin => ?_, fun i hi => ?_, fun i hi => h.bound _ (sw_lt hn hc.2 hi), fun i j hi hj e => ?_, fun y z hy hs => ?_⟩
  · show s.A (sw col r i) (sw col c j) = 0
    rw [sw_low hc.1 hj]
    refine h.zero j hj _ ?_ (sw_lt hn hr.2 hin)
    by_cases hic : i < col
    · rw [sw_low hr.1 hic]; exact hi
    · have := sw_high hr.1 (Nat.le_of_not_lt hic); omega
  · show s.A (sw col r i) (sw col c i) ≠ 0
    rw [sw_low hc.1 hi, sw_low hr.1 hi]
    exact h.diag i hi
  · have := h.inj _ _ (sw_lt hn hc.2 hi) (sw_lt hn hc.2 hj) e
    rw [← sw_sw col c i, this, sw_sw]
  · refine h.sol (fun j => z (s.x j)) z (fun _ _ => rfl) fun i hi => ?_
    have := hs (sw col r i) (sw_lt hn hr.2 hi)
    dsimp only [exchange] at this
    rw [sw_sw] at this
    rw [← this, ← sum_sw hn hc.2]
    exact Finset.sum_congr rfl fun j hj => by rw [hy j (Finset.mem_range.1 hj)]; rfl

theorem inv_annihilate {n col : Nat} {A : Nat → Nat → Rat} {v : Nat → Rat} {s : State} (hn : col < n) (h : Inv n col A v s)
    (hp : s.A col col ≠ 0) : Inv n (col + 1) A v (annihilate col s) := by
  have e : ∀ r i, r < n → i < n → (annihilate col s).A r i = if col < r then s.A r i - s.A r col / s.A col col * s.A col i else s.A r i := by
    intro r i hr hi
    show (if col < r ∧ col ≤ i then _ else _) = _
    by_cases h1 : col < r
    · by_cases h2 : col ≤ i
      · rw [if_pos ⟨h1, h2⟩, if_pos h1]
      · rw [if_neg fun q => h2 q.2, if_pos h1, h.zero i (by omega) col (by omega) hn, mul_zero, sub_zero]
    · rw [if_neg fun q => h1 q.1, if_neg h1]
  refine ⟨fun j hj r hjr hr => ?_, fun i hi => ?_, h.bound, h.inj, fun y z hy hs => ?_⟩
  · rw [e r j hr (by omega)]
    by_cases hc : j = col
    · subst hc
      rw [if_pos hjr, div_mul_cancel₀ _ hp, sub_self]
    · have h0 := h.zero j (by omega) r hjr hr
      by_cases h1 : col < r
      · rw [if_pos h1, h0, h.zero j (by omega) col (by omega) hn, mul_zero, sub_zero]
      · rw [if_neg h1, h0]
  · rw [e i i (by omega) (by omega), if_neg (by omega)]
    by_cases hc : i = col
    · subst hc; exact hp
    · exact h.diag i (by omega)
  · refine h.sol y z hy fun r hr => ?_
    have hcol : ∑ j ∈ Finset.range n, s.A col j * y j = s.v col := by
      have := hs col hn
      rw [show (annihilate col s).v col = s.v col from if_neg (by omega)] at this
      rw [← this]
      exact Finset.sum_congr rfl fun j hj => by rw [e col j hn (Finset.mem_range.1 hj), if_neg (by omega)]
    have := hs r hr
    by_cases h1 : col < r
    · rw [show (annihilate col s).v r = s.v r - s.A r col / s.A col col * s.v col from if_pos h1] at this
      have e2 : ∑ j ∈ Finset.range n, (annihilate col s).A r j * y j =
          ∑ j ∈ Finset.range n, s.A r j * y j - s.A r col / s.A col col * ∑ j ∈ Finset.range n, s.A col j * y j := by
        rw [Finset.mul_sum, ← Finset.sum_sub_distrib]
        refine Finset.sum_congr rfl fun j hj => ?_
        rw [e r j hr (Finset.mem_range.1 hj), if_pos h1]
        ring
      rw [e2, hcol] at this
      linarith
    · rw [show (annihilate col s).v r = s.v r from if_neg h1] at this
      rw [← this]
      exact Finset.sum_congr rfl fun j hj => by rw [e r j hr (Finset.mem_range.1 hj), if_neg h1]

theorem inv_triangle {n : Nat} {A : Nat → Nat → Rat} {v : Nat → Rat} : ∀ (k col : Nat) (s s' : State), col + k < n → Inv n col A v s →
    triangle n k col s = some s' → Inv n (col + k) A v s' := by
  intro k
  induction k with
  | zero => intro col s s' _ h hs; cases hs; exact h
  | succ k ih =>
    intro col s s' hk h hs
    rw [triangle] at hs
    by_cases hb : (largest n col s.A).2.2 < small
    · rw [if_pos hb] at hs; cases hs
    · rw [if_neg hb] at hs
      obtain ⟨h1, h2, h3⟩ := largest_spec n col s.A hb
      have := ih (col + 1) _ s' (by omega) (inv_annihilate (by omega) (inv_exchange h h1 h2) (by
        show s.A (sw col _ col) (sw col _ col) ≠ 0
        unfold sw
        rw [if_pos rfl, if_pos rfl]; exact h3)) hs
      rw [show col + (k + 1) = col + 1 + k by omega]
      exact this

theorem acc_id (f : Nat → Rat) (lo : Nat) : ∀ k, acc id f lo k = ∑ i ∈ Finset.range k, f (lo + i) := by
  intro k
  induction k with
  | zero => rfl
  | succ k ih => rw [acc, ih, Finset.sum_range_succ]; rfl

theorem back_row {n : Nat} (hn : 0 < n) {s : State} (hd : ∀ i, i < n → s.A i i ≠ 0) : ∀ k, k < n → ∀ i, n - 1 - k ≤ i → i < n →
    s.A i i * back id n s k i + ∑ j ∈ Finset.range (n - 1 - i), s.A i (i + 1 + j) * back id n s k (i + 1 + j) = s.v i := by
  intro k
  induction k with
  | zero =>
    intro _ i h1 h2
    have : i = n - 1 := by omega
    subst this
    rw [Nat.sub_self, Finset.sum_range_zero, add_zero]
    show s.A (n - 1) (n - 1) * upd _ _ _ _ = _
    unfold upd
    rw [if_pos rfl, mul_div_cancel₀ _ (hd _ h2)]
  | succ k ih =>
    intro hk i h1 h2
    have hu : ∀ j, n - 1 - k ≤ j → back id n s (k + 1) j = back id n s k j := by
      intro j hj
      show upd _ _ _ _ = _
      unfold upd
      rw [if_neg (by omega)]
    by_cases hi : n - 1 - k ≤ i
    · rw [hu i hi]
      rw [← ih (by omega) i hi h2]
      congr 1
      exact Finset.sum_congr rfl fun j _ => by rw [hu _ (by omega)]
    · have hi' : i = n - 2 - k := by omega
      have e : back id n s (k + 1) i = (s.v i - ∑ j ∈ Finset.range (k + 1), s.A i (n - 1 - k + j) * back id n s k (n - 1 - k + j)) / s.A i i := by
        subst hi'
        show upd _ _ _ _ = _
        unfold upd
        rw [if_pos rfl, acc_id]
      rw [e, mul_div_cancel₀ _ (hd i h2), show n - 1 - i = k + 1 by omega, show i + 1 = n - 1 - k by omega]
      have : ∑ j ∈ Finset.range (k + 1), s.A i (n - 1 - k + j) * back id n s (k + 1) (n - 1 - k + j) =
          ∑ j ∈ Finset.range (k + 1), s.A i (n - 1 - k + j) * back id n s k (n - 1 - k + j) :=
        Finset.sum_congr rfl fun j _ => by rw [hu _ (by omega)]
      rw [this]
      ring

theorem reorder_spec {n : Nat} {x : Nat → Nat} (y v : Nat → Rat) : ∀ k, k ≤ n → (∀ i j, i < n → j < n → x i = x j → i = j) →
    ∀ j, j < k → y j = reorder x y k v (x j) := by
  intro k
  induction k with
  | zero => intro _ _ j hj; exact absurd hj (Nat.not_lt_zero j)
  | succ k ih =>
    intro hk hx j hj
    show _ = upd _ _ _ _
    unfold upd
    by_cases e : j = k
    · subst e; rw [if_pos rfl]
    · rw [if_neg fun q => e (hx j k (by omega) (by omega) q)]
      exact ih (by omega) hx j (by omega)

theorem inv_start (n : Nat) (A : Nat → Nat → Rat) (v : Nat → Rat) : Inv n 0 A v ⟨A, v, fun i => i⟩ := by
  refine ⟨fun j hj => absurd hj (Nat.not_lt_zero j), fun j hj => absurd hj (Nat.not_lt_zero j), fun _ h => h, fun _ _ _ _ e => e, fun y z hy hs r hr => ?_⟩
  refine Eq.trans ?_ (hs r hr)
  exact Finset.sum_congr rfl fun j hj => by rw [hy j (Finset.mem_range.1 hj)]

theorem row_split {n r : Nat} (hr : r < n) (f : Nat → Rat) :
    ∑ j ∈ Finset.range n, f j = ∑ j ∈ Finset.range r, f j + (f r + ∑ j ∈ Finset.range (n - 1 - r), f (r + 1 + j)) := by
  have e1 : n = (r + 1) + (n - 1 - r) := by omega
  have e2 := Finset.sum_range_add f (r + 1) (n - 1 - r)
  rw [← e1, Finset.sum_range_succ] at e2
  rw [e2, add_assoc]

/-- With exact sums, what is returned solves all equations.  Missing: the code computes the sums as `int`, for which it does not hold, see `solve_wrong`. -/
theorem solve_partial (n : Nat) (A : Nat → Nat → Rat) (v z : Nat → Rat) (h : solve id n A v = .solved z) : Solves n A v z := by
  unfold solve at h
  by_cases hn : n = 0
  · rw [if_pos hn] at h; cases h
  · rw [if_neg hn] at h
    have h0 := inv_start n A v
    rcases ht : triangle n (n - 1) 0 ⟨A, v, fun i => i⟩ with _ | s
    · rw [ht] at h; cases h
    · rw [ht] at h
      dsimp only at h
      by_cases hl : s.A (n - 1) (n - 1) = 0
      · rw [if_pos hl] at h; cases h
      · rw [if_neg hl] at h
        cases h
        have hi := inv_triangle (n - 1) 0 _ s (by omega) h0 ht
        rw [Nat.zero_add] at hi
        have hd : ∀ i, i < n → s.A i i ≠ 0 := by
          intro i hin
          by_cases e : i = n - 1
          · subst e; exact hl
          · exact hi.diag i (by omega)
        refine hi.sol (back id n s (n - 1)) _ (reorder_spec _ _ n (Nat.le_refl n) hi.inj) fun r hr => ?_
        rw [← back_row (by omega) hd (n - 1) (by omega) r (by omega) hr]
        rw [row_split hr]
        have hz : ∑ j ∈ Finset.range r, s.A r j * back id n s (n - 1) j = 0 :=
          Finset.sum_eq_zero fun j hj => by
            have := Finset.mem_range.1 hj
            rw [hi.zero j (by omega) r this hr, zero_mul]
        rw [hz, zero_add]

/-- the right hand side does not change what happens to the matrix -/
theorem triangle_zero {n : Nat} : ∀ (k col : Nat) (s s' : State), triangle n k col s = some s' →
    triangle n k col ⟨s.A, fun _ => 0, s.x⟩ = some ⟨s'.A, fun _ => 0, s'.x⟩ := by
  intro k
  induction k with
  | zero => intro col s s' hs; cases hs; rfl
  | succ k ih =>
    intro col s s' hs
    rw [triangle] at hs ⊢
    by_cases hb : (largest n col s.A).2.2 < small
    · rw [if_pos hb] at hs; cases hs
    · rw [if_neg hb] at hs
      rw [if_neg hb]
      have := ih _ _ _ hs
      rw [← this]
      congr 1
      unfold annihilate exchange
      congr 1
      funext r
      dsimp only
      split_ifs <;> simp

/-- If the equations have no solution but 0 for the right hand side 0, nothing is divided by 0. -/
theorem solve_regular (t : Rat → Rat) (n : Nat) (A : Nat → Nat → Rat) (v : Nat → Rat)
    (hreg : ∀ z, Solves n A (fun _ => 0) z → ∀ j, j < n → z j = 0) : solve t n A v ≠ .divZero := by
  intro h
  unfold solve at h
  by_cases hn : n = 0
  · rw [if_pos hn] at h; cases h
  · rw [if_neg hn] at h
    rcases ht : triangle n (n - 1) 0 ⟨A, v, fun i => i⟩ with _ | s
    · rw [ht] at h; cases h
    · rw [ht] at h
      dsimp only at h
      by_cases hl : s.A (n - 1) (n - 1) = 0
      · have hi := inv_triangle (n - 1) 0 _ _ (by omega) (inv_start n A fun _ => 0) (triangle_zero _ _ _ _ ht)
        rw [Nat.zero_add] at hi
        let s2 : State := ⟨fun i j => if i = n - 1 ∧ j = n - 1 then 1 else s.A i j, fun i => if i = n - 1 then 1 else 0, s.x⟩
        have hd : ∀ i, i < n → s2.A i i ≠ 0 := by
          intro i hin
          show (if i = n - 1 ∧ i = n - 1 then (1 : Rat) else s.A i i) ≠ 0
          by_cases e : i = n - 1
          · rw [if_pos ⟨e, e⟩]; exact one_ne_zero
          · rw [if_neg fun q => e q.1]; exact hi.diag i (by omega)
        have hb := back_row (by omega) hd (n - 1) (by omega)
        have hlast : back id n s2 (n - 1) (n - 1) = 1 := by
          have := hb (n - 1) (by omega) (by omega)
          rw [Nat.sub_self, Finset.sum_range_zero, add_zero] at this
          have e1 : s2.A (n - 1) (n - 1) = 1 := if_pos ⟨rfl, rfl⟩
          have e2 : s2.v (n - 1) = 1 := if_pos rfl
          rw [e1, e2, one_mul] at this
          exact this
        have hsol : Solves n s.A (fun _ => 0) (back id n s2 (n - 1)) := by
          intro r hr
          rw [row_split hr]
          have hz : ∑ j ∈ Finset.range r, s.A r j * back id n s2 (n - 1) j = 0 :=
            Finset.sum_eq_zero fun j hj => by
              have := Finset.mem_range.1 hj
              have h0 : s.A r j = 0 := hi.zero j (by omega) r this hr
              rw [h0, zero_mul]
          rw [hz, zero_add]
          by_cases e : r = n - 1
          · subst e
            rw [hl, zero_mul, Nat.sub_self, Finset.sum_range_zero, add_zero]
          · have := hb r (by omega) hr
            have e2 : s2.v r = 0 := if_neg e
            have e1 : ∀ j, s2.A r j = s.A r j := fun j => if_neg fun q => e q.1
            rw [e2] at this
            simp only [e1] at this
            exact this
        have hz := reorder_spec (x := s.x) (back id n s2 (n - 1)) (fun _ => 0) n (Nat.le_refl n) hi.inj
        have := hreg _ (hi.sol _ _ hz hsol) (s.x (n - 1)) (hi.bound _ (by omega))
        rw [← hz (n - 1) (by omega), hlast] at this
        exact one_ne_zero this
      · rw [if_neg hl] at h; cases h

theorem toInt_int (m : Int) : toInt (m : Rat) = m := by
  unfold toInt
  rw [Rat.num_intCast, Rat.den_intCast]
  simp

theorem acc_int {f : Nat → Rat} {lo : Nat} : ∀ k, (∀ i, i < k → ∃ m : Int, f (lo + i) = m) → acc toInt f lo k = acc id f lo k ∧ ∃ m : Int, acc id f lo k = m := by
  intro k
  induction k with
  | zero => intro _; exact ⟨rfl, 0, by rw [acc]; simp⟩
  | succ k ih =>
    intro h
    obtain ⟨h1, m, h2⟩ := ih fun i hi => h i (by omega)
    obtain ⟨m', h3⟩ := h k (by omega)
    have e : acc id f lo (k + 1) = ((m + m' : Int) : Rat) := by
      rw [acc, h2, h3]; simp
    refine ⟨?_, m + m', e⟩
    rw [e, acc, h1, h2, h3, ← Int.cast_add, toInt_int]

theorem back_stable (t : Rat → Rat) (n : Nat) (s : State) (k : Nat) : ∀ d, k + d < n → ∀ j, n - 1 - k ≤ j → back t n s (k + d) j = back t n s k j := by
  intro d
  induction d with
  | zero => intro _ j _; rfl
  | succ d ih =>
    intro hk j hj
    rw [← ih (by omega) j hj]
    rw [← Nat.add_assoc, back]
    unfold upd
    rw [if_neg (by omega)]

/-- The code, with its sums of type `int`: if all terms of the sums are integers, what is returned solves all equations. -/
theorem solve_int_partial (n : Nat) (A : Nat → Nat → Rat) (v z : Nat → Rat) (h : solve toInt n A v = .solved z)
    (hint : ∀ s, triangle n (n - 1) 0 ⟨A, v, fun i => i⟩ = some s → ∀ i j, i < j → j < n → ∃ m : Int, s.A i j * back id n s (n - 1) j = m) :
    Solves n A v z := by
  apply solve_partial
  rw [← h]
  unfold solve
  by_cases hn : n = 0
  · rw [if_pos hn, if_pos hn]
  · rw [if_neg hn, if_neg hn]
    rcases ht : triangle n (n - 1) 0 ⟨A, v, fun i => i⟩ with _ | s
    · rfl
    · have key : ∀ k, k < n → back toInt n s k = back id n s k := by
        intro k
        induction k with
        | zero => intro _; rfl
        | succ k ih =>
          intro hk
          have hb := ih (by omega)
          rw [back, back, hb]
          rw [(acc_int (f := fun j => s.A (n - 2 - k) j * back id n s k j) (lo := n - 1 - k) (k + 1) fun i hi => by
            have := hint s ht (n - 2 - k) (n - 1 - k + i) (by omega) (by omega)
            have e := back_stable id n s k (n - 1 - k) (by omega) (n - 1 - k + i) (by omega)
            rw [show k + (n - 1 - k) = n - 1 by omega] at e
            rw [e] at this
            exact this).1]
      dsimp only
      rw [key (n - 1) (by omega)]

/-! What goes wrong -/

/-- 2 x + y = 1, y = 1/2 -/
def A1 : Nat → Nat → Rat := fun i j => if i = 0 then (if j = 0 then 2 else 1) else (if j = 0 then 0 else 1)
def v1 : Nat → Rat := fun i => if i = 0 then 1 else 1 / 2

/-- **The sums are cut off**: x becomes 1/2 instead of 1/4, and 0 is returned. -/
theorem solve_wrong : ∃ z, solve toInt 2 A1 v1 = .solved z ∧ z 0 = 1 / 2 ∧ z 1 = 1 / 2 ∧ ¬ Solves 2 A1 v1 z := by
  have key : ∀ o : Outcome, (match o with | .solved z => decide (z 0 = 1 / 2 ∧ z 1 = 1 / 2) | _ => false) = true →
      ∃ z, o = .solved z ∧ z 0 = 1 / 2 ∧ z 1 = 1 / 2 := by
    intro o ho
    cases o with
    | solved z => exact ⟨z, rfl, of_decide_eq_true ho⟩
    | _ => cases ho
  obtain ⟨z, h, h0, h1⟩ := key (solve toInt 2 A1 v1) (by decide +kernel)
  refine ⟨z, h, h0, h1, fun hs => ?_⟩
  have := hs 0 (by omega)
  rw [Finset.sum_range_succ, Finset.sum_range_succ, Finset.sum_range_zero, h0, h1] at this
  have e0 : A1 0 0 = 2 := rfl
  have e1 : A1 0 1 = 1 := rfl
  have e2 : v1 0 = 1 := rfl
  rw [e0, e1, e2] at this
  norm_num at this

/-- **A singular matrix is not noticed** in the last column: the code divides by 0 and returns 0. -/
theorem singular_unnoticed (t : Rat → Rat) : solve t 2 (fun _ _ => 1) (fun _ => 1) = .divZero := by
  have h : (match triangle 2 1 0 ⟨fun _ _ => 1, fun _ => 1, fun i => i⟩ with | none => false | some s => decide (s.A 1 1 = 0)) = true := by decide +kernel
  unfold solve
  rw [if_neg (by omega)]
  split at h
  · cases h
  · next s hs =>
    show (match triangle 2 1 0 ⟨fun _ _ => 1, fun _ => 1, fun i => i⟩ with | none => Outcome.singular | some s => _) = _
    rw [hs]
    exact if_pos (of_decide_eq_true h)

/-- **A regular matrix is taken for a singular one** if its entries are small: x / 1000000 = 1, y / 1000000 = 1. -/
theorem regular_rejected (t : Rat → Rat) : solve t 2 (fun i j => if i = j then 1 / 1000000 else 0) (fun _ => 1) = .singular ∧
    Solves 2 (fun i j => if i = j then 1 / 1000000 else 0) (fun _ => 1) (fun _ => 1000000) := by
  constructor
  · have h : (triangle 2 1 0 ⟨fun i j => if i = j then 1 / 1000000 else 0, fun _ => 1, fun i => i⟩).isNone = true := by decide +kernel
    rw [Option.isNone_iff_eq_none] at h
    unfold solve
    rw [if_neg (by omega)]
    show (match triangle 2 1 0 ⟨fun i j => if i = j then 1 / 1000000 else 0, fun _ => 1, fun i => i⟩ with | none => Outcome.singular | some s => _) = _
    rw [h]
  · intro r hr
    rw [Finset.sum_range_succ, Finset.sum_range_succ, Finset.sum_range_zero]
    have : r = 0 ∨ r = 1 := by omega
    rcases this with e | e <;> subst e <;> norm_num

/-- A system with exchanged rows and columns: 0 x + 2 y = 2, 4 x + y = 5 -/
example : ∃ z, solve id 2 (fun i j => if i = 0 then (if j = 0 then 0 else 2) else (if j = 0 then 4 else 1)) (fun i => if i = 0 then 2 else 5) = .solved z ∧
    z 0 = 1 ∧ z 1 = 1 := by
  have key : ∀ o : Outcome, (match o with | .solved z => decide (z 0 = 1 ∧ z 1 = 1) | _ => false) = true → ∃ z, o = .solved z ∧ z 0 = 1 ∧ z 1 = 1 := by
    intro o ho
    cases o with
    | solved z => exact ⟨z, rfl, of_decide_eq_true ho⟩
    | _ => cases ho
  exact key _ (by decide +kernel)

/-- 2 x + y = 5, y = 1: the only term is the integer 1 -/
example : (match triangle 2 1 0 ⟨A1, fun i => if i = 0 then 5 else 1, fun i => i⟩ with
    | none => false
    | some s => decide (s.A 0 1 * back id 2 s 1 1 = 1)) = true ∧
    (match solve toInt 2 A1 (fun i => if i = 0 then 5 else 1) with | .solved z => decide (z 0 = 2 ∧ z 1 = 1) | _ => false) = true := by
  constructor <;> decide +kernel

/-- a regular system -/
example : ∀ z, Solves 2 A1 (fun _ => 0) z → ∀ j, j < 2 → z j = 0 := by
  intro z h j hj
  have h0 := h 0 (by omega)
  have h1 := h 1 (by omega)
  rw [Finset.sum_range_succ, Finset.sum_range_succ, Finset.sum_range_zero] at h0 h1
  rw [show A1 0 0 = 2 from rfl, show A1 0 1 = 1 from rfl] at h0
  rw [show A1 1 0 = 0 from rfl, show A1 1 1 = 1 from rfl] at h1
  have : j = 0 ∨ j = 1 := by omega
  rcases this with e | e <;> subst e <;> linarith

end Verif.Props.GaussJordan
