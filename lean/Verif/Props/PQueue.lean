import Verif.Model.PQueue
import Mathlib.Tactic.Linarith
/-!
# C33: the priority queue
-/
namespace Verif.Props
open Verif.Model

variable {D : Type}

theorem set_perm {α : Type} {l : List α} {i : Nat} {a x : α} (h : l[i]? = some a) : (a :: l.set i x).Perm (x :: l) := by
  induction l generalizing i with
  | nil => simp at h
  | cons y ys ih =>
    cases i with
    | zero =>
      simp only [List.getElem?_cons_zero, Option.some.injEq] at h
      subst h
      exact List.Perm.swap _ _ _
    | succ i =>
      rw [List.getElem?_cons_succ] at h
      rw [List.set_cons_succ]
      exact (List.Perm.swap _ _ _).trans (((ih h).cons y).trans (List.Perm.swap _ _ _))

theorem pqSwap_perm {l : List (D × Int)} {i j : Nat} {a b : D × Int} (hij : i ≠ j) (hi : l[i]? = some a) (hj : l[j]? = some b) :
    (pqSwap l i j a b).Perm l := by
  unfold pqSwap
  have h1 := set_perm (x := b) hi
  have h2 : (l.set i b)[j]? = some b := by rw [List.getElem?_set_ne hij]; exact hj
  have h3 := set_perm (x := a) h2
  exact (h3.trans h1).cons_inv

theorem pqSwap_length (l : List (D × Int)) (i j : Nat) (a b : D × Int) : (pqSwap l i j a b).length = l.length := by
  simp [pqSwap]

theorem pqSwap_get {l : List (D × Int)} {i j : Nat} {a b : D × Int} (hij : i ≠ j) (hi : l[i]? = some a) (hj : l[j]? = some b) (k : Nat) :
    (pqSwap l i j a b)[k]? = if k = i then some b else if k = j then some a else l[k]? := by
  have hil : i < l.length := by
    by_contra h; rw [List.getElem?_eq_none (by omega)] at hi; cases hi
  have hjl : j < l.length := by
    by_contra h; rw [List.getElem?_eq_none (by omega)] at hj; cases hj
  unfold pqSwap
  by_cases h1 : k = i
  · rw [if_pos h1, h1, List.getElem?_set_ne (by omega), List.getElem?_set_self hil]
  · rw [if_neg h1]
    by_cases h2 : k = j
    · rw [if_pos h2, h2, List.getElem?_set_self (by simpa using hjl)]
    · rw [if_neg h2, List.getElem?_set_ne (by omega), List.getElem?_set_ne (by omega)]

/-- heap order: no element has a larger priority than its parent -/
def Heap (l : List (D × Int)) : Prop :=
  ∀ i x y, l[i]? = some x → l[i / 2]? = some y → x.2 ≤ y.2

/-- heap order except between `pos` and its children -/
structure HeapDown (l : List (D × Int)) (pos : Nat) : Prop where
  away : ∀ i x y, i / 2 ≠ pos → l[i]? = some x → l[i / 2]? = some y → x.2 ≤ y.2
  skip : ∀ i x y, pos ≠ 0 → i / 2 = pos → l[i]? = some x → l[pos / 2]? = some y → x.2 ≤ y.2

/-- heap order except between `pos` and its parent -/
structure HeapUp (l : List (D × Int)) (pos : Nat) : Prop where
  away : ∀ i x y, i ≠ pos → l[i]? = some x → l[i / 2]? = some y → x.2 ≤ y.2
  skip : ∀ i x y, i ≠ pos → i / 2 = pos → l[i]? = some x → l[pos / 2]? = some y → x.2 ≤ y.2

theorem get_some {α : Type} {l : List α} {i : Nat} (h : i < l.length) : ∃ x, l[i]? = some x := ⟨l[i], List.getElem?_eq_getElem h⟩

theorem lt_of_get {α : Type} {l : List α} {i : Nat} {x : α} (h : l[i]? = some x) : i < l.length := by
  by_contra hn; rw [List.getElem?_eq_none (by omega)] at h; cases h

theorem swap_down {l : List (D × Int)} {pos e : Nat} {a x : D × Int} (h : HeapDown l pos) (hpe : pos < e) (he : e / 2 = pos)
    (ha : l[pos]? = some a) (hx : l[e]? = some x) (hlt : a.2 < x.2)
    (hmax : ∀ i y, i / 2 = pos → i ≠ pos → l[i]? = some y → y.2 ≤ x.2) : HeapDown (pqSwap l pos e a x) e := by
  have hg := pqSwap_get (by omega) ha hx
  refine ⟨?_, ?_⟩
  · intro i y z hi hy hz
    rw [hg] at hy hz
    by_cases h1 : i / 2 = pos
    · rw [if_pos h1] at hz
      cases hz
      by_cases h2 : i = pos
      · rw [if_pos h2] at hy; cases hy; exact le_refl _
      · rw [if_neg h2] at hy
        by_cases h3 : i = e
        · rw [if_pos h3] at hy; cases hy; omega
        · rw [if_neg h3] at hy; exact hmax i y h1 h2 hy
    · rw [if_neg h1, if_neg (by omega)] at hz
      by_cases h2 : i = pos
      · rw [if_pos h2] at hy; cases hy
        have : pos ≠ 0 := by intro h0; apply h1; rw [h2, h0]
        exact h.skip e x z this he hx (by rw [← h2]; exact hz)
      · rw [if_neg h2, if_neg (by omega)] at hy
        exact h.away i y z h1 hy hz
  · intro i y z _ hi hy hz
    rw [hg] at hy hz
    rw [if_neg (by omega), if_neg (by omega)] at hy
    rw [if_pos he] at hz
    cases hz
    exact h.away i y x (by omega) hy (by rw [hi]; exact hx)

theorem heapify_spec (fuel : Nat) : ∀ (l : List (D × Int)) (pos : Nat), HeapDown l pos → pos < l.length → l.length - pos < fuel →
    ∃ l', pqHeapify fuel l pos = some l' ∧ l'.Perm l ∧ Heap l' := by
  induction fuel with
  | zero => intro l pos _ _ h; omega
  | succ fuel ih =>
    intro l pos h hpos hf
    rw [pqHeapify]
    obtain ⟨a, ha⟩ := get_some hpos
    -- finishing without exchange
    have fin : (∀ i y, i / 2 = pos → i ≠ pos → l[i]? = some y → y.2 ≤ a.2) → Heap l := by
      intro hall i x y hx hy
      by_cases h1 : i / 2 = pos
      · rw [h1, ha] at hy; cases hy
        by_cases h2 : i = pos
        · rw [h2, ha] at hx; cases hx; exact le_refl _
        · exact hall i x h1 h2 hx
      · exact h.away i x y h1 hx hy
    by_cases h2 : 2 * pos < l.length
    · rw [if_pos h2]
      obtain ⟨b, hb⟩ := get_some h2
      have step : ∀ e x, pos < e → e / 2 = pos → l[e]? = some x → a.2 < x.2 →
          (∀ i y, i / 2 = pos → i ≠ pos → l[i]? = some y → y.2 ≤ x.2) →
          ∃ l', pqHeapify fuel (pqSwap l pos e a x) e = some l' ∧ l'.Perm l ∧ Heap l' := by
        intro e x hpe he hx hlt hmax
        have hel := lt_of_get hx
        obtain ⟨l', e1, e2, e3⟩ := ih (pqSwap l pos e a x) e (swap_down h hpe he ha hx hlt hmax)
          (by rw [pqSwap_length]; exact hel) (by rw [pqSwap_length]; omega)
        exact ⟨l', e1, e2.trans (pqSwap_perm (by omega) ha hx), e3⟩
      have two : ∀ i, i / 2 = pos → i = 2 * pos ∨ i = 2 * pos + 1 := by intro i; omega
      by_cases h3 : 2 * pos + 1 < l.length
      · obtain ⟨c, hc⟩ := get_some h3
        by_cases hab : a.2 < b.2
        · have hp0 : pos ≠ 0 := by
            intro h0; rw [h0] at ha hb; rw [Nat.mul_zero, ha] at hb; cases hb; omega
          by_cases hbc : b.2 < c.2
          · obtain ⟨l', e1, e2⟩ := step (2 * pos + 1) c (by omega) (by omega) hc (by omega) (by
              intro i y hi _ hy
              rcases two i hi with h | h <;> rw [h] at hy
              · rw [hb] at hy; cases hy; omega
              · rw [hc] at hy; cases hy; omega)
            refine ⟨l', ?_, e2⟩
            simp only [ha, hb, hc, hab, hbc, if_true, Option.bind_eq_bind, Option.bind_some, Option.pure_def, h3,
              show ¬ (2 * pos + 1 = pos) by omega, if_false]
            exact e1
          · obtain ⟨l', e1, e2⟩ := step (2 * pos) b (by omega) (by omega) hb hab (by
              intro i y hi _ hy
              rcases two i hi with h | h <;> rw [h] at hy
              · rw [hb] at hy; cases hy; omega
              · rw [hc] at hy; cases hy; omega)
            refine ⟨l', ?_, e2⟩
            simp only [ha, hb, hc, hab, hbc, if_true, Option.bind_eq_bind, Option.bind_some, Option.pure_def, h3,
              show ¬ (2 * pos = pos) by omega, if_false]
            exact e1
        · by_cases hac : a.2 < c.2
          · obtain ⟨l', e1, e2⟩ := step (2 * pos + 1) c (by omega) (by omega) hc (by omega) (by
              intro i y hi _ hy
              rcases two i hi with h | h <;> rw [h] at hy
              · rw [hb] at hy; cases hy; omega
              · rw [hc] at hy; cases hy; omega)
            refine ⟨l', ?_, e2⟩
            simp only [ha, hb, hc, hab, hac, if_true, Option.bind_eq_bind, Option.bind_some, Option.pure_def, h3,
              show ¬ (2 * pos + 1 = pos) by omega, if_false]
            exact e1
          · refine ⟨l, ?_, List.Perm.refl _, fin ?_⟩
            · simp only [ha, hb, hc, hab, hac, if_true, Option.bind_eq_bind, Option.bind_some, Option.pure_def, h3, if_false]
            · intro i y hi _ hy
              rcases two i hi with h | h <;> rw [h] at hy
              · rw [hb] at hy; cases hy; omega
              · rw [hc] at hy; cases hy; omega
      · have one : ∀ i y, i / 2 = pos → l[i]? = some y → y = b := by
          intro i y hi hy
          rcases two i hi with h | h <;> rw [h] at hy
          · rw [hb] at hy; cases hy; rfl
          · have := lt_of_get hy; omega
        by_cases hab : a.2 < b.2
        · have hp0 : pos ≠ 0 := by
            intro h0; rw [h0] at ha hb; rw [Nat.mul_zero, ha] at hb; cases hb; omega
          obtain ⟨l', e1, e2⟩ := step (2 * pos) b (by omega) (by omega) hb hab (by
            intro i y hi _ hy
            rw [one i y hi hy])
          refine ⟨l', ?_, e2⟩
          simp only [ha, hb, hab, if_true, Option.bind_eq_bind, Option.bind_some, Option.pure_def, h3,
            show ¬ (2 * pos = pos) by omega, if_false]
          exact e1
        · refine ⟨l, ?_, List.Perm.refl _, fin ?_⟩
          · simp only [ha, hb, hab, if_true, Option.bind_eq_bind, Option.bind_some, Option.pure_def, h3, if_false]
          · intro i y hi _ hy
            rw [one i y hi hy]; omega
    · rw [if_neg h2]
      refine ⟨l, rfl, List.Perm.refl _, fin ?_⟩
      intro i y hi _ hy
      have := lt_of_get hy
      omega

theorem siftUp_spec (fuel : Nat) : ∀ (l : List (D × Int)) (pos : Nat), HeapUp l pos → pos < l.length → pos < fuel →
    ∃ l', pqSiftUp fuel l pos = some l' ∧ l'.Perm l ∧ Heap l' := by
  induction fuel with
  | zero => intro l pos _ _ h; omega
  | succ fuel ih =>
    intro l pos h hpos hf
    rw [pqSiftUp]
    obtain ⟨a, ha⟩ := get_some hpos
    obtain ⟨b, hb⟩ := get_some (l := l) (i := pos / 2) (by omega)
    simp only [ha, hb, Option.bind_eq_bind, Option.bind_some]
    by_cases hab : a.2 > b.2
    · rw [if_pos hab]
      have hp0 : pos ≠ 0 := by
        intro h0; rw [h0] at ha hb; rw [Nat.zero_div, ha] at hb; cases hb; omega
      have hg := pqSwap_get (i := pos) (j := pos / 2) (by omega) ha hb
      obtain ⟨l', e1, e2, e3⟩ := ih (pqSwap l pos (pos / 2) a b) (pos / 2) (by
        refine ⟨?_, ?_⟩
        · intro i x y hi hx hy
          rw [hg] at hx hy
          by_cases h1 : i = pos
          · rw [if_pos h1] at hx; cases hx
            rw [h1, if_neg (by omega), if_pos rfl] at hy; cases hy; omega
          · rw [if_neg h1, if_neg hi] at hx
            by_cases h2 : i / 2 = pos
            · rw [if_pos h2] at hy; cases hy
              exact h.skip i x b h1 h2 hx hb
            · rw [if_neg h2] at hy
              by_cases h3 : i / 2 = pos / 2
              · rw [if_pos h3] at hy; cases hy
                have := h.away i x b h1 hx (by rw [h3]; exact hb)
                omega
              · rw [if_neg h3] at hy
                exact h.away i x y h1 hx hy
        · intro i x y hi h2 hx hy
          rw [hg] at hx hy
          rw [if_neg (by omega)] at hy
          by_cases h0 : pos / 2 / 2 = pos / 2
          · rw [if_pos h0] at hy; cases hy
            by_cases h1 : i = pos
            · rw [if_pos h1] at hx; cases hx; omega
            · rw [if_neg h1, if_neg hi] at hx
              have := h.away i x b h1 hx (by rw [h2]; exact hb)
              omega
          · rw [if_neg h0] at hy
            have hby := h.away (pos / 2) b y (by omega) hb hy
            by_cases h1 : i = pos
            · rw [if_pos h1] at hx; cases hx; exact hby
            · rw [if_neg h1, if_neg hi] at hx
              have := h.away i x b h1 hx (by rw [h2]; exact hb)
              omega)
        (by rw [pqSwap_length]; omega) (by omega)
      exact ⟨l', e1, e2.trans (pqSwap_perm (by omega) ha hb), e3⟩
    · rw [if_neg hab]
      refine ⟨l, rfl, List.Perm.refl _, ?_⟩
      intro i x y hx hy
      by_cases h1 : i = pos
      · rw [h1] at hx hy; rw [ha] at hx; rw [hb] at hy; cases hx; cases hy; omega
      · exact h.away i x y h1 hx hy

theorem heap_root {l : List (D × Int)} (h : Heap l) {r : D × Int} (hr : l[0]? = some r) :
    ∀ (i : Nat) (x : D × Int), l[i]? = some x → x.2 ≤ r.2 := by
  intro i
  induction i using Nat.strong_induction_on with
  | _ i ih =>
    intro x hx
    by_cases h0 : i = 0
    · rw [h0, hr] at hx; cases hx; exact le_refl _
    · obtain ⟨y, hy⟩ := get_some (l := l) (i := i / 2) (by have := lt_of_get hx; omega)
      have := ih (i / 2) (by omega) y hy
      have := h i x y hx hy
      omega

/-- C33: `pqueue_put` adds exactly the given element. -/
theorem pqueue_put_spec {l : List (D × Int)} (h : Heap l) (d : D) (p : Int) :
    ∃ l', pqPut l d p = some l' ∧ l'.Perm ((d, p) :: l) ∧ Heap l' := by
  unfold pqPut
  have hlast : (l ++ [(d, p)])[l.length]? = some (d, p) := by simp
  obtain ⟨l', e1, e2, e3⟩ := siftUp_spec (l.length + 1) (l ++ [(d, p)]) l.length (by
    have hlt : ∀ {i x}, i ≠ l.length → (l ++ [(d, p)])[i]? = some x → l[i]? = some x := by
      intro i x hi hx
      have := lt_of_get hx
      simp at this
      rw [List.getElem?_append_left (by omega)] at hx
      exact hx
    refine ⟨?_, ?_⟩
    · intro i x y hi hx hy
      have hx' := hlt hi hx
      have := lt_of_get hx'
      exact h i x y hx' (hlt (by omega) hy)
    · intro i x y hi h2 hx hy
      have hx' := hlt hi hx
      have := lt_of_get hx'
      omega) (by simp) (by omega)
  exact ⟨l', e1, e2.trans (List.perm_append_comm (l₁ := l) (l₂ := [(d, p)])), e3⟩

/-- C33: `pqueue_pop_front` returns an element of maximal priority and removes
exactly it; it panics exactly on the empty queue. -/
theorem pqueue_pop_spec {l : List (D × Int)} (h : Heap l) :
    match pqPop l with
    | none => l = []
    | some (l', r) => l.Perm (r :: l') ∧ (∀ x ∈ l, x.2 ≤ r.2) ∧ Heap l' := by
  match l, h with
  | [], _ => rfl
  | [x], _ =>
    refine ⟨List.Perm.refl _, ?_, ?_⟩
    · intro y hy; rw [List.mem_singleton] at hy; rw [hy]
    · intro i x y hx; simp at hx
  | x :: y :: rest, h =>
    have hlen : rest.length + 1 < (x :: y :: rest).length := by simp
    obtain ⟨last, hl⟩ := get_some hlen
    have hroot := heap_root h (r := x) rfl
    -- the list without its last element
    have hsplit : x :: y :: rest = (x :: y :: rest).take (rest.length + 1) ++ [last] := by
      have h1 : (x :: y :: rest)[rest.length + 1]'hlen = last := by
        rw [List.getElem?_eq_getElem hlen] at hl; exact Option.some.inj hl
      rw [← h1, List.take_append_getElem]
      rw [List.take_of_length_le (by simp)]
    have hl' : ((x :: y :: rest).set 0 last).take (rest.length + 1) = last :: (y :: rest).take rest.length := by
      simp
    have hd : HeapDown (last :: (y :: rest).take rest.length) 0 := by
      have hsame : ∀ {i z}, i ≠ 0 → (last :: (y :: rest).take rest.length)[i]? = some z → (x :: y :: rest)[i]? = some z := by
        intro i z hi hz
        obtain ⟨j, rfl⟩ : ∃ j, i = j + 1 := ⟨i - 1, by omega⟩
        rw [List.getElem?_cons_succ] at hz ⊢
        have := lt_of_get hz
        rw [List.length_take] at this
        rw [List.getElem?_take_of_lt (by omega)] at hz
        exact hz
      refine ⟨?_, ?_⟩
      · intro i a b hi ha hb
        exact h i a b (hsame (by omega) ha) (hsame hi hb)
      · intro i a b h0; omega
    obtain ⟨l'', e1, e2, e3⟩ := heapify_spec (rest.length + 1 + 1) _ 0 hd (by simp) (by simp)
    have ep : pqPop (x :: y :: rest) = some (l'', x) := by
      unfold pqPop
      simp only [hl, Option.bind_eq_bind, Option.bind_some, hl', e1, Option.pure_def]
    rw [ep]
    refine ⟨?_, ?_, e3⟩
    · refine List.Perm.trans ?_ (e2.symm.cons x)
      have h2 : y :: rest = (y :: rest).take rest.length ++ [last] := by
        rw [List.take_succ_cons] at hsplit
        exact List.cons.inj hsplit |>.2
      rw [show (x :: y :: rest).Perm (x :: last :: (y :: rest).take rest.length) ↔ _ from Iff.rfl]
      apply List.Perm.cons
      conv_lhs => rw [h2]
      exact List.perm_append_comm
    · intro z hz
      obtain ⟨i, hi⟩ := List.mem_iff_getElem?.1 hz
      exact hroot i z hi

/-! ## all operation sequences -/

inductive PqOp (D : Type)
  | put (d : D) (p : Int)
  | pop

/-- the model run on a sequence; `none` when an operation fails -/
def pqRun : List (D × Int) → List (PqOp D) → Option (List (D × Int) × List (D × Int))
  | l, [] => some (l, [])
  | l, .put d p :: ops => do let l ← pqPut l d p; pqRun l ops
  | l, .pop :: ops => do let (l, r) ← pqPop l; let (l, rs) ← pqRun l ops; pure (l, r :: rs)

/-- specification: a bag of elements; pop takes any element of maximal priority -/
inductive PqSpec : List (D × Int) → List (PqOp D) → List (D × Int) → List (D × Int) → Prop
  | nil {B} : PqSpec B [] B []
  | put {B d p ops B' rs} : PqSpec ((d, p) :: B) ops B' rs → PqSpec B (.put d p :: ops) B' rs
  | pop {B B1 r ops B' rs} : B.Perm (r :: B1) → (∀ x ∈ B, x.2 ≤ r.2) → PqSpec B1 ops B' rs →
      PqSpec B (.pop :: ops) B' (r :: rs)

/-- C33: every sequence of operations on a new queue behaves as a bag from which
elements of maximal priority are taken, and only popping the empty bag fails. -/
theorem pqueue_refines (ops : List (PqOp D)) : ∀ {l B : List (D × Int)}, Heap l → l.Perm B →
    match pqRun l ops with
    | some (l', rs) => ∃ B', PqSpec B ops B' rs ∧ l'.Perm B' ∧ l'.length = B'.length
    | none => ∃ pre post rs, ops = pre ++ .pop :: post ∧ PqSpec B pre [] rs := by
  induction ops with
  | nil => intro l B _ hp; exact ⟨B, .nil, hp, hp.length_eq⟩
  | cons op ops ih =>
    intro l B h hp
    cases op with
    | put d p =>
      obtain ⟨l1, e1, p1, h1⟩ := pqueue_put_spec h d p
      have := ih h1 (p1.trans (hp.cons (d, p)))
      rw [pqRun, e1]
      simp only [Option.bind_eq_bind, Option.bind_some]
      cases e : pqRun l1 ops with
      | none =>
        rw [e] at this
        obtain ⟨pre, post, rs, a, b⟩ := this
        exact ⟨.put d p :: pre, post, rs, by rw [a]; rfl, .put b⟩
      | some q =>
        rw [e] at this
        obtain ⟨B', a, b⟩ := this
        exact ⟨B', .put a, b⟩
    | pop =>
      have hpop := pqueue_pop_spec h
      rw [pqRun]
      cases e0 : pqPop l with
      | none =>
        rw [e0] at hpop
        simp only at hpop
        rw [hpop] at hp
        rw [List.Perm.nil_eq hp]
        exact ⟨[], ops, [], rfl, .nil⟩
      | some q =>
        obtain ⟨l1, r⟩ := q
        rw [e0] at hpop
        obtain ⟨p1, hmax, h1⟩ := hpop
        have := ih h1 (List.Perm.refl l1)
        have hB : B.Perm (r :: l1) := hp.symm.trans p1
        have hm : ∀ x ∈ B, x.2 ≤ r.2 := fun x hx => hmax x (hp.mem_iff.2 hx)
        simp only [Option.bind_eq_bind, Option.bind_some]
        cases e : pqRun l1 ops with
        | none =>
          rw [e] at this
          obtain ⟨pre, post, rs, a, b⟩ := this
          exact ⟨.pop :: pre, post, r :: rs, by rw [a]; rfl, .pop hB hm b⟩
        | some q =>
          rw [e] at this
          obtain ⟨B', a, b⟩ := this
          exact ⟨B', .pop hB hm a, b⟩

/-- C33, from `new_pqueue`. -/
theorem pqueue_new_refines (ops : List (PqOp D)) :
    match pqRun [] ops with
    | some (l', rs) => ∃ B', PqSpec [] ops B' rs ∧ l'.Perm B' ∧ l'.length = B'.length
    | none => ∃ pre post rs, ops = pre ++ .pop :: post ∧ PqSpec [] pre [] rs :=
  pqueue_refines ops (fun i x y hx => by simp at hx) (List.Perm.refl _)

/-- non-vacuity -/
example : (pqRun [] [.put 'a' 3, .put 'b' 9, .put 'c' (-2), .put 'd' 5, .put 'e' 9, .pop, .pop, .pop, .pop]).map (·.2) =
    some [('b', 9), ('e', 9), ('d', 5), ('a', 3)] := by decide
example : Heap [('b', (9:Int)), ('d', 5), ('a', 3)] := by
  intro i x y hx hy
  match i with
  | 0 => simp_all
  | 1 => simp_all; obtain ⟨rfl⟩ := hx; obtain ⟨rfl⟩ := hy; decide
  | 2 => simp_all; obtain ⟨rfl⟩ := hx; obtain ⟨rfl⟩ := hy; decide
  | i + 3 => simp at hx

end Verif.Props
