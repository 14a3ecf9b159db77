import Verif.Model.Array
import Verif.Lemmas.Bytes
/-!
# C56: flexible arrays keep their contents
-/
namespace Verif.Props
open Verif.Model

variable {α : Type}

/-- the elements of the array as the user sees them -/
def ArrF.elems (a : ArrF α) : List (Option α) := a.cells.take a.nelts

/-- capacity at least the length -/
def ArrOk (a : ArrF α) : Prop := a.nelts ≤ a.cells.length

/-- `t` is `s` brought to length `n`: the common prefix is unchanged -/
def Resized (s t : List (Option α)) (n : Nat) : Prop := t.length = n ∧ t.take s.length = s.take n

theorem elems_length {a : ArrF α} (h : ArrOk a) : (ArrF.elems a).length = a.nelts := by
  unfold ArrF.elems; rw [List.length_take]; exact Nat.min_eq_left h

theorem reallocCells_length (cells : List (Option α)) (n : Nat) : (reallocCells cells n).length = n := by
  unfold reallocCells; rw [List.length_append, List.length_take, List.length_replicate]; omega

theorem reallocCells_take (cells : List (Option α)) (n m : Nat) (h : m ≤ n) (h' : m ≤ cells.length) : (reallocCells cells n).take m = cells.take m := by
  unfold reallocCells
  rw [List.take_append_of_le_length (by rw [List.length_take]; omega), List.take_take, Nat.min_eq_left h]

theorem arrGrow_spec (nelts : Nat) (hn : nelts ≤ 2 ^ 63) : ∀ (fuel n : Nat), 1 ≤ n → nelts ≤ n * 2 ^ fuel →
    ∃ m, arrGrow nelts fuel n = some m ∧ nelts ≤ m ∧ n ≤ m ∧ (m = n ∨ m < 2 * nelts) := by
  intro fuel
  induction fuel with
  | zero =>
    intro n h1 h2
    rw [Nat.pow_zero, Nat.mul_one] at h2
    exact ⟨n, by rw [arrGrow, if_neg (by omega)], h2, Nat.le_refl _, Or.inl rfl⟩
  | succ fuel ih =>
    intro n h1 h2
    rw [arrGrow]
    by_cases h : nelts > n
    · rw [if_pos h]
      have hmod : n * 2 % 2 ^ 64 = n * 2 := Nat.mod_eq_of_lt (by omega)
      rw [hmod]
      obtain ⟨m, e, a, b, c⟩ := ih (n * 2) (by omega) (by rw [Nat.pow_succ] at h2; rw [Nat.mul_assoc, Nat.mul_comm 2]; exact h2)
      exact ⟨m, e, a, by omega, by omega⟩
    · rw [if_neg h]; exact ⟨n, rfl, by omega, Nat.le_refl _, Or.inl rfl⟩

theorem arrHalve_spec (nelts : Nat) : ∀ (fuel n : Nat), nelts ≤ n → n < 2 ^ fuel →
    ∃ m, arrHalve (3 * nelts) fuel n = some m ∧ nelts ≤ m ∧ m ≤ 3 * nelts ∧ m ≤ n := by
  intro fuel
  induction fuel with
  | zero => intro n h1 h2; rw [Nat.pow_zero] at h2; exact ⟨n, by rw [arrHalve, if_neg (by omega)], h1, by omega, Nat.le_refl _⟩
  | succ fuel ih =>
    intro n h1 h2
    rw [arrHalve]
    by_cases h : 3 * nelts < n
    · rw [if_pos h]
      obtain ⟨m, e, a, b, c⟩ := ih (n / 2) (by omega) (by rw [Nat.pow_succ] at h2; omega)
      exact ⟨m, e, a, b, by omega⟩
    · rw [if_neg h]; exact ⟨n, rfl, h1, by omega, Nat.le_refl _⟩

theorem resized_of_take {a : ArrF α} (h : ArrOk a) {cells : List (Option α)} {n : Nat} (hn : n ≤ cells.length)
    (ht : cells.take (min a.nelts n) = a.cells.take (min a.nelts n)) : Resized (ArrF.elems a) (ArrF.elems ⟨cells, n⟩) n := by
  refine ⟨?_, ?_⟩
  · unfold ArrF.elems; rw [List.length_take]; exact Nat.min_eq_left hn
  · rw [elems_length h]
    unfold ArrF.elems
    rw [List.take_take, List.take_take, ht, Nat.min_comm a.nelts n]

/-- C56: `ARR_RESIZE` succeeds, keeps the common prefix, sets the length, and leaves a capacity between the length and three times the length. -/
theorem arr_resize (a : ArrF α) (h : ArrOk a) (ha : a.cells.length < 2 ^ 63) (n : Nat) (hn : n ≤ 2 ^ 62) :
    ∃ b, arrResize a n = some b ∧ ArrOk b ∧ b.nelts = n ∧ b.cells.length ≤ 3 * n ∧ b.cells.length < 2 ^ 63 ∧
      Resized (ArrF.elems a) (ArrF.elems b) n := by
  have h64 : n ≤ max 1 a.cells.length * 2 ^ 64 := by
    have : 1 ≤ max 1 a.cells.length := by omega
    calc n ≤ 1 * 2 ^ 64 := by omega
      _ ≤ _ := Nat.mul_le_mul_right _ this
  obtain ⟨n1, e1, l1, g1, k1⟩ := arrGrow_spec n (by omega) 64 (max 1 a.cells.length) (by omega) h64
  obtain ⟨n2, e2, l2, u2, g2⟩ := arrHalve_spec n 64 n1 l1 (by omega)
  have hmod : 3 * n % 2 ^ 64 = 3 * n := Nat.mod_eq_of_lt (by omega)
  have hv : arrVerify a = true := by unfold arrVerify; exact decide_eq_true h
  have hres : arrResize a n = some ⟨if n2 ≠ a.cells.length then reallocCells a.cells n2 else a.cells, n⟩ := by
    unfold arrResize
    simp only [hv, e1, hmod, e2, not_true_eq_false, if_false, l2, Option.bind_eq_bind, Option.bind_some, Option.pure_def]
  refine ⟨_, hres, ?_, rfl, ?_, ?_, ?_⟩
  · unfold ArrOk
    by_cases hc : n2 ≠ a.cells.length
    · simp only [hc, ne_eq, not_false_eq_true, if_true, reallocCells_length]; exact l2
    · rw [if_neg hc]; rw [not_not] at hc; rw [← hc]; exact l2
  · by_cases hc : n2 ≠ a.cells.length
    · simp only [hc, ne_eq, not_false_eq_true, if_true, reallocCells_length]; exact u2
    · rw [if_neg hc]; rw [not_not] at hc; rw [← hc]; exact u2
  · by_cases hc : n2 ≠ a.cells.length
    · simp only [hc, ne_eq, not_false_eq_true, if_true, reallocCells_length]; omega
    · rw [if_neg hc]; exact ha
  · have hcell : ∃ cells, (if n2 ≠ a.cells.length then reallocCells a.cells n2 else a.cells) = cells ∧ cells.length = n2 ∧
        ∀ m ≤ n2, m ≤ a.cells.length → cells.take m = a.cells.take m := by
      by_cases hc : n2 ≠ a.cells.length
      · rw [if_pos hc]; exact ⟨_, rfl, reallocCells_length _ _, fun m h1 h2 => reallocCells_take _ _ _ h1 h2⟩
      · rw [if_neg hc]; rw [not_not] at hc; exact ⟨_, rfl, hc.symm, fun _ _ _ => rfl⟩
    obtain ⟨cells, e, hl, ht⟩ := hcell
    simp only [e]
    exact resized_of_take h (by omega) (ht _ (by omega) (by unfold ArrOk at h; omega))

theorem arr_setlen (a : ArrF α) (h : ArrOk a) (n : Nat) :
    ∃ b, arrSetlen a n = some b ∧ ArrOk b ∧ b.nelts = n ∧ b.cells.length = n ∧ Resized (ArrF.elems a) (ArrF.elems b) n := by
  have hv : arrVerify a = true := by unfold arrVerify; exact decide_eq_true h
  refine ⟨⟨reallocCells a.cells n, n⟩, by unfold arrSetlen; rw [if_pos hv], ?_, rfl, reallocCells_length _ _, ?_⟩
  · unfold ArrOk; simp only [reallocCells_length, Nat.le_refl]
  · exact resized_of_take h (by rw [reallocCells_length]) (reallocCells_take _ _ _ (Nat.min_le_right _ _) (by unfold ArrOk at h; omega))

/-! ## Histories -/

/-- an operation on a flexible array -/
inductive ArrOp (α : Type)
  | resize (n : Nat)
  | setlen (n : Nat)
  | shrink (n : Nat)
  | extend (delta : Nat)
  | exto (n : Nat)
  | app1 (x : α)
  | store (i : Nat) (x : α)

/-- run an operation -/
def arrStep (a : ArrF α) : ArrOp α → Option (ArrF α)
  | .resize n => arrResize a n
  | .setlen n => arrSetlen a n
  | .shrink n => arrShrinklen a n
  | .extend d => arrExtend a d
  | .exto n => arrExto a n
  | .app1 x => arrApp1 a x
  | .store i x => arrStore a i x

/-- run operations -/
def arrRun (a : ArrF α) : List (ArrOp α) → Option (ArrF α)
  | [] => some a
  | op :: ops => match arrStep a op with
    | none => none
    | some b => arrRun b ops

/-- specification: what an operation may do to the sequence of elements.  It states also the precondition: lengths up to `2^62`,
shrinking does not lengthen, stores are in range. -/
inductive ArrSpec : List (Option α) → ArrOp α → List (Option α) → Prop
  | resize {s t n} : Resized s t n → ArrSpec s (.resize n) t
  | setlen {s t n} : Resized s t n → ArrSpec s (.setlen n) t
  | shrink {s n} : n ≤ s.length → ArrSpec s (.shrink n) (s.take n)
  | extend {s t d} : Resized s t (s.length + d) → ArrSpec s (.extend d) t
  | exto {s t n} : Resized s t (max s.length (n + 1)) → ArrSpec s (.exto n) t
  | app1 {s x} : ArrSpec s (.app1 x) (s ++ [some x])
  | store {s i x} : i < s.length → ArrSpec s (.store i x) (s.set i (some x))

/-- specification of a history -/
inductive ArrSpecRun : List (Option α) → List (ArrOp α) → List (Option α) → Prop
  | nil {s} : ArrSpecRun s [] s
  | cons {s op t ops u} : ArrSpec s op t → ArrSpecRun t ops u → ArrSpecRun s (op :: ops) u

/-- precondition of an operation on an array of length `len`, and the length it leaves -/
def ArrLegal (len : Nat) : ArrOp α → Prop
  | .resize n => n ≤ 2 ^ 62
  | .setlen n => n ≤ 2 ^ 62
  | .shrink n => n ≤ len
  | .extend d => len + d ≤ 2 ^ 62
  | .exto n => n + 1 ≤ 2 ^ 62
  | .app1 _ => len + 1 ≤ 2 ^ 62
  | .store i _ => i < len

/-- length after an operation -/
def arrLen (len : Nat) : ArrOp α → Nat
  | .resize n => n
  | .setlen n => n
  | .shrink n => n
  | .extend d => len + d
  | .exto n => max len (n + 1)
  | .app1 _ => len + 1
  | .store _ _ => len

/-- preconditions of a history -/
def ArrLegalRun : Nat → List (ArrOp α) → Prop
  | _, [] => True
  | len, op :: ops => ArrLegal len op ∧ ArrLegalRun (arrLen len op) ops

/-- invariant -/
def ArrInv (a : ArrF α) : Prop := ArrOk a ∧ a.cells.length < 2 ^ 63

/-- C56: every operation succeeds under its precondition, keeps the capacity at least the length, and does to the elements what the specification says. -/
theorem arr_step (a : ArrF α) (h : ArrInv a) (op : ArrOp α) (hl : ArrLegal a.nelts op) :
    ∃ b, arrStep a op = some b ∧ ArrInv b ∧ b.nelts = arrLen a.nelts op ∧ ArrSpec (ArrF.elems a) op (ArrF.elems b) := by
  have hv : arrVerify a = true := by unfold arrVerify; exact decide_eq_true h.1
  have hlen := elems_length h.1
  cases op with
  | resize n =>
    obtain ⟨b, e, h1, h2, _, h4, h5⟩ := arr_resize a h.1 h.2 n hl
    exact ⟨b, e, ⟨h1, h4⟩, h2, .resize h5⟩
  | setlen n =>
    obtain ⟨b, e, h1, h2, h3, h5⟩ := arr_setlen a h.1 n
    have hl' : n ≤ 2 ^ 62 := hl
    exact ⟨b, e, ⟨h1, by omega⟩, h2, .setlen h5⟩
  | shrink n =>
    have hl' : n ≤ a.nelts := hl
    have hok : a.nelts ≤ a.cells.length := h.1
    refine ⟨⟨a.cells, n⟩, ?_, ⟨?_, h.2⟩, rfl, ?_⟩
    · show arrShrinklen a n = _
      unfold arrShrinklen
      rw [if_neg (not_not.2 hv), if_neg (not_not.2 hl')]
    · show n ≤ a.cells.length; omega
    · have : ArrF.elems (⟨a.cells, n⟩ : ArrF α) = (ArrF.elems a).take n := by
        unfold ArrF.elems; rw [List.take_take, Nat.min_eq_left hl']
      rw [this]
      exact .shrink (by rw [hlen]; exact hl')
  | extend d =>
    have hl' : a.nelts + d ≤ 2 ^ 62 := hl
    obtain ⟨b, e, h1, h2, _, h4, h5⟩ := arr_resize a h.1 h.2 (a.nelts + d) hl'
    refine ⟨b, ?_, ⟨h1, h4⟩, h2, .extend (by rw [hlen]; exact h5)⟩
    show arrExtend a d = _
    unfold arrExtend
    rw [if_neg (not_not.2 hv), Nat.mod_eq_of_lt (by omega), e]
  | exto n =>
    have hl' : n + 1 ≤ 2 ^ 62 := hl
    by_cases hc : n ≥ a.nelts
    · obtain ⟨b, e, h1, h2, _, h4, h5⟩ := arr_resize a h.1 h.2 (n + 1) hl'
      refine ⟨b, ?_, ⟨h1, h4⟩, ?_, .exto ?_⟩
      · show arrExto a n = _
        unfold arrExto
        rw [if_neg (not_not.2 hv), if_pos hc, Nat.mod_eq_of_lt (by omega), e]
      · rw [h2]; show n + 1 = max a.nelts (n + 1); omega
      · rw [hlen, Nat.max_eq_right (by omega)]; exact h5
    · refine ⟨a, ?_, h, ?_, .exto ?_⟩
      · show arrExto a n = _
        unfold arrExto
        rw [if_neg (not_not.2 hv), if_neg hc]
      · show a.nelts = max a.nelts (n + 1); omega
      · rw [hlen, Nat.max_eq_left (by omega)]
        exact ⟨hlen, by rw [hlen]⟩
  | app1 x =>
    have hl' : a.nelts + 1 ≤ 2 ^ 62 := hl
    obtain ⟨b, e, h1, h2, _, h4, h5⟩ := arr_resize a h.1 h.2 (a.nelts + 1) hl'
    have hvb : arrVerify b = true := by unfold arrVerify; exact decide_eq_true h1
    have hb : a.nelts + 1 ≤ b.cells.length := by rw [← h2]; exact h1
    refine ⟨⟨b.cells.set a.nelts (some x), b.nelts⟩, ?_, ⟨?_, ?_⟩, h2, ?_⟩
    · show arrApp1 a x = _
      have e' : arrExtend a 1 = some b := by
        unfold arrExtend
        rw [if_neg (not_not.2 hv), Nat.mod_eq_of_lt (by omega), e]
      unfold arrApp1
      simp only [e', hvb, not_true_eq_false, if_false, Option.bind_eq_bind, Option.bind_some]
      unfold arrStore
      rw [h2, Nat.add_sub_cancel]
      rw [if_pos (by omega)]
    · unfold ArrOk; simp only [List.length_set]; exact h1
    · simp only [List.length_set]; exact h4
    · have hpre : b.cells.take a.nelts = ArrF.elems a := by
        have h6 := h5.2
        rw [hlen] at h6
        have h7 : ArrF.elems b = b.cells.take (a.nelts + 1) := by unfold ArrF.elems; rw [h2]
        rw [h7, List.take_take, Nat.min_eq_left (by omega), List.take_of_length_le (l := ArrF.elems a) (by rw [hlen]; omega)] at h6
        exact h6
      have : ArrF.elems (⟨b.cells.set a.nelts (some x), b.nelts⟩ : ArrF α) = ArrF.elems a ++ [some x] := by
        unfold ArrF.elems at hpre ⊢
        simp only [h2]
        rw [List.take_add_one, List.take_set_of_le (Nat.le_refl _), hpre, List.getElem?_set, if_pos rfl, if_pos (by omega)]
        rfl
      rw [this]
      exact .app1
  | store i x =>
    have hl' : i < a.nelts := hl
    have hok : a.nelts ≤ a.cells.length := h.1
    refine ⟨⟨a.cells.set i (some x), a.nelts⟩, ?_, ⟨?_, ?_⟩, rfl, ?_⟩
    · show arrStore a i x = _
      unfold arrStore; rw [if_pos (by omega)]
    · unfold ArrOk; simp only [List.length_set]; exact h.1
    · simp only [List.length_set]; exact h.2
    · have : ArrF.elems (⟨a.cells.set i (some x), a.nelts⟩ : ArrF α) = (ArrF.elems a).set i (some x) := by
        unfold ArrF.elems; simp only []; rw [List.take_set]
      rw [this]
      exact .store (by rw [hlen]; exact hl')

/-- C56: any history of operations that respects the preconditions runs to its end, keeps the capacity at least the length, and
does to the sequence of elements what the specification says. -/
theorem arr_history : ∀ (ops : List (ArrOp α)) (a : ArrF α), ArrInv a → ArrLegalRun a.nelts ops →
    ∃ b, arrRun a ops = some b ∧ ArrInv b ∧ ArrSpecRun (ArrF.elems a) ops (ArrF.elems b) := by
  intro ops
  induction ops with
  | nil => intro a h _; exact ⟨a, rfl, h, .nil⟩
  | cons op ops ih =>
    intro a h hl
    obtain ⟨b, e, h1, h2, h3⟩ := arr_step a h op hl.1
    obtain ⟨c, e2, h4, h5⟩ := ih b h1 (by rw [h2]; exact hl.2)
    exact ⟨c, by rw [arrRun, e]; exact e2, h4, .cons h3 h5⟩

theorem arr_new_inv (n : Nat) (hn : n < 2 ^ 63) : ArrInv (arrNew n : ArrF α) := by
  refine ⟨?_, ?_⟩
  · show n ≤ (List.replicate n none).length; rw [List.length_replicate]
  · show (List.replicate n none).length < 2 ^ 63; rw [List.length_replicate]; exact hn

/-- C56: appending `xs` to a fresh empty array gives an array with exactly the elements `xs`. -/
theorem arr_appends (xs : List α) (hx : xs.length ≤ 2 ^ 62) :
    ∃ b, arrRun (arrNew 0) (xs.map ArrOp.app1) = some b ∧ ArrF.elems b = xs.map some ∧ b.nelts = xs.length := by
  have key : ∀ (xs : List α) (a : ArrF α), ArrInv a → a.nelts + xs.length ≤ 2 ^ 62 →
      ∃ b, arrRun a (xs.map ArrOp.app1) = some b ∧ ArrF.elems b = ArrF.elems a ++ xs.map some ∧ b.nelts = a.nelts + xs.length := by
    intro xs
    induction xs with
    | nil => intro a _ _; exact ⟨a, rfl, by simp, rfl⟩
    | cons x xs ih =>
      intro a h hl
      rw [List.length_cons] at hl
      obtain ⟨b, e, h1, h2, h3⟩ := arr_step a h (.app1 x) (show a.nelts + 1 ≤ 2 ^ 62 by omega)
      have h2' : b.nelts = a.nelts + 1 := h2
      obtain ⟨c, e2, h4, h5⟩ := ih b h1 (by omega)
      refine ⟨c, by rw [List.map_cons, arrRun, e]; exact e2, ?_, by rw [h5, h2', List.length_cons]; omega⟩
      rw [h4]
      generalize ArrF.elems b = t at h3 ⊢
      cases h3
      simp
  obtain ⟨b, e, h1, h2⟩ := key xs (arrNew 0) (arr_new_inv 0 (by omega)) (by show 0 + _ ≤ _; omega)
  exact ⟨b, e, by simpa [ArrF.elems, arrNew] using h1, by rw [h2]; show 0 + _ = _; omega⟩

/-- the bound on the length is needed: the growth loop does not end for lengths above `2^63` -/
theorem arr_resize_hangs (fuel : Nat) : arrGrow (2 ^ 63 + 1) (64 + fuel) 1 = none := by
  have h0 : ∀ fuel, arrGrow (2 ^ 63 + 1) fuel 0 = none := by
    intro fuel
    induction fuel with
    | zero => rw [arrGrow, if_pos (by decide)]
    | succ f ih => rw [arrGrow, if_pos (by decide)]; exact ih
  have key : ∀ k, k ≤ 64 → arrGrow (2 ^ 63 + 1) (k + fuel) (2 ^ (64 - k) % 2 ^ 64) = none := by
    intro k
    induction k with
    | zero => intro _; exact h0 _
    | succ k ih =>
      intro hk
      have e1 : k + 1 + fuel = (k + fuel) + 1 := by omega
      have hlt : 2 ^ (64 - (k + 1)) ≤ 2 ^ 63 := Nat.pow_le_pow_right (by omega) (by omega)
      have e2 : 2 ^ (64 - (k + 1)) * 2 = 2 ^ (64 - k) := by rw [← Nat.pow_succ]; congr 1; omega
      rw [Nat.mod_eq_of_lt (by omega), e1, arrGrow, if_pos (by omega), e2]
      exact ih (by omega)
  have := key 64 (Nat.le_refl _)
  simpa using this

example : arrRun (arrNew 2 : ArrF Nat) [.store 0 7, .store 1 8, .app1 9, .app1 10, .app1 11, .shrink 1, .resize 1] =
    some ⟨[some 7, some 8], 1⟩ := by decide

end Verif.Props
