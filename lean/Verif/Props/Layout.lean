import Verif.Model.Layout
import Mathlib.Tactic.Ring
/-!
# C51: default layout of compound types
-/
namespace Verif.Props
open Verif.Model.Layout

/-! ## Specification -/

/-- the members that are laid out, with the space they take and their offsets; the size of a flexible array at the end is 0 -/
def placed : List Member → List (Option Nat) → List (Nat × Nat × Nat)
  | m :: ms, some off :: offs => (off, (if ms = [] ∧ m.flexible = true then 0 else m.size), m.align) :: placed ms offs
  | _ :: ms, none :: offs => placed ms offs
  | _, _ => []

/-- exactly the members that are not methods get an offset -/
def Assigned (ms : List Member) (offs : List (Option Nat)) : Prop := offs.map Option.isSome = ms.map (fun m => !m.isMethod)

/-- the members lie one after the other from `lo` on, aligned, and with no more padding than alignment requires -/
def Consecutive : Nat → List (Nat × Nat × Nat) → Nat → Prop
  | lo, [], hi => hi = lo
  | lo, (off, size, align) :: ps, hi => lo ≤ off ∧ (0 < align → align ∣ off) ∧ off < lo + max align 1 ∧ Consecutive (off + size) ps hi

/-- space taken when every member is padded fully: used to bound the size -/
def room (ms : List Member) : Nat := (ms.map (fun m => m.size + m.align)).sum

theorem alignUp_spec {size align : Nat} (ha : 0 < align) (h : size + align < 2 ^ 32) :
    size ≤ alignUp size align ∧ align ∣ alignUp size align ∧ alignUp size align < size + align := by
  unfold alignUp uadd
  have hm := Nat.mod_lt size ha
  split
  · rw [Nat.mod_eq_of_lt (by omega)]
    refine ⟨by omega, ?_, by omega⟩
    have h1 : size + (align - size % align) = (size - size % align) + align := by
      have := Nat.mod_le size align
      omega
    rw [h1]
    exact Nat.dvd_add (Nat.dvd_sub_mod size) (Nat.dvd_refl _)
  · rename_i h0
    have h0 : size % align = 0 := by simpa using h0
    exact ⟨Nat.le_refl _, Nat.dvd_of_mod_eq_zero h0, by omega⟩

theorem room_cons (m : Member) (ms : List Member) : room (m :: ms) = m.size + m.align + room ms := by simp [room]

theorem isEmpty_eq (ms : List Member) : ms.isEmpty = decide (ms = []) := by cases ms <;> simp

theorem entitySize_eq (ms : List Member) (m : Member) : entitySize ms.isEmpty m = if ms = [] ∧ m.flexible = true then 0 else m.size := by
  unfold entitySize
  rw [isEmpty_eq]
  simp

theorem layoutLoop_spec (ms : List Member) : ∀ (size aa : Nat), size + room ms < 2 ^ 32 → 0 < aa →
    ∀ offs hi aa', layoutLoop false ms size aa = (offs, hi, aa') →
      Assigned ms offs ∧ Consecutive size (placed ms offs) hi ∧ hi ≤ size + room ms ∧ aa ≤ aa' ∧
      (∀ p ∈ placed ms offs, p.2.2 ≤ aa') ∧ (aa' = aa ∨ ∃ p ∈ placed ms offs, aa' = p.2.2) := by
  induction ms with
  | nil =>
    intro size aa h ha offs hi aa' h
    cases h
    exact ⟨rfl, rfl, by omega, Nat.le_refl _, by simp [placed], .inl rfl⟩
  | cons m ms ih =>
    intro size aa h ha offs hi aa' h'
    rw [room_cons] at h
    unfold layoutLoop at h'
    by_cases hm : m.isMethod = true
    · rw [if_pos hm] at h'
      cases hr : layoutLoop false ms size aa with
      | mk o r =>
        obtain ⟨r1, r2⟩ := r
        rw [hr] at h'
        cases h'
        obtain ⟨h1, h2, h3, h4, h5, h6⟩ := ih size aa (by omega) ha _ _ _ hr
        refine ⟨?_, h2, by rw [room_cons]; omega, h4, h5, h6⟩
        unfold Assigned at h1 ⊢
        simp [h1, hm]
    · rw [if_neg hm] at h'
      simp only [Bool.false_eq_true, if_false] at h'
      have hoff : ∃ off, (if m.align ≠ 0 then alignUp size m.align else size) = off ∧ size ≤ off ∧ (0 < m.align → m.align ∣ off) ∧
          off < size + max m.align 1 := by
        by_cases hz : m.align = 0
        · rw [if_neg (by simpa using hz)]
          exact ⟨_, rfl, Nat.le_refl _, by omega, by omega⟩
        · rw [if_pos hz]
          obtain ⟨a1, a2, a3⟩ := alignUp_spec (size := size) (align := m.align) (by omega) (by omega)
          exact ⟨_, rfl, a1, fun _ => a2, by omega⟩
      obtain ⟨off, hoe, o1, o2, o3⟩ := hoff
      rw [hoe, entitySize_eq] at h'
      have hes : (if ms = [] ∧ m.flexible = true then 0 else m.size) ≤ m.size := by split <;> omega
      generalize hE : (if ms = [] ∧ m.flexible = true then 0 else m.size) = es at *
      have hu : uadd off es = off + es := Nat.mod_eq_of_lt (by omega)
      rw [hu] at h'
      cases hr : layoutLoop false ms (off + es) (max m.align aa) with
      | mk o r =>
        obtain ⟨r1, r2⟩ := r
        rw [hr] at h'
        cases h'
        have hbound : off + es + room ms < 2 ^ 32 := by omega
        obtain ⟨h1, h2, h3, h4, h5, h6⟩ := ih (off + es) (max m.align aa) hbound (by omega) _ _ _ hr
        have hpl : placed (m :: ms) (some off :: o) = (off, es, m.align) :: placed ms o := by
          rw [placed, hE]
        rw [hpl]
        refine ⟨?_, ⟨o1, o2, o3, h2⟩, by rw [room_cons]; omega, by omega, ?_, ?_⟩
        · unfold Assigned at h1 ⊢
          simp [h1, hm]
        · intro p hp
          rcases List.mem_cons.1 hp with rfl | hp
          · simp only; omega
          · exact h5 p hp
        · rcases h6 with h6 | ⟨p, hp, h6⟩
          · by_cases hle : m.align ≤ aa
            · left; omega
            · right
              exact ⟨_, List.mem_cons_self .., by simp only; omega⟩
          · right
            exact ⟨p, List.mem_cons_of_mem _ hp, h6⟩

theorem consecutive_bounds {ps : List (Nat × Nat × Nat)} : ∀ {lo hi : Nat}, Consecutive lo ps hi → lo ≤ hi ∧
    (∀ p ∈ ps, lo ≤ p.1 ∧ p.1 + p.2.1 ≤ hi ∧ (0 < p.2.2 → p.2.2 ∣ p.1)) ∧ ps.Pairwise (fun p q => p.1 + p.2.1 ≤ q.1) := by
  induction ps with
  | nil =>
    intro lo hi h
    unfold Consecutive at h
    exact ⟨by omega, by simp, by simp⟩
  | cons p ps ih =>
    intro lo hi h
    obtain ⟨off, size, align⟩ := p
    unfold Consecutive at h
    obtain ⟨h1, h2, h3, h4⟩ := h
    obtain ⟨i1, i2, i3⟩ := ih h4
    refine ⟨by omega, ?_, ?_⟩
    · intro q hq
      rcases List.mem_cons.1 hq with rfl | hq
      · exact ⟨h1, by simp only; omega, h2⟩
      · have := i2 q hq
        exact ⟨by omega, this.2⟩
    · rw [List.pairwise_cons]
      exact ⟨fun q hq => (i2 q hq).1, i3⟩

/-- C51, structs: members are aligned, in order, do not overlap, lie within the type, and there is no more padding than necessary; size and
alignment of the type -/
theorem layout_struct {ms : List Member} (h : room ms + (layout false ms).align < 2 ^ 32) :
    Assigned ms (layout false ms).offsets ∧
    (∀ p ∈ placed ms (layout false ms).offsets, (0 < p.2.2 → p.2.2 ∣ p.1) ∧ p.1 + p.2.1 ≤ (layout false ms).size ∧ p.2.2 ≤ (layout false ms).align) ∧
    (placed ms (layout false ms).offsets).Pairwise (fun p q => p.1 + p.2.1 ≤ q.1) ∧
    (layout false ms).align ∣ (layout false ms).size ∧
    ((layout false ms).align = 1 ∨ ∃ p ∈ placed ms (layout false ms).offsets, (layout false ms).align = p.2.2) ∧
    ∃ hi, Consecutive 0 (placed ms (layout false ms).offsets) hi ∧ hi ≤ (layout false ms).size ∧ (layout false ms).size < hi + (layout false ms).align := by
  unfold layout at h ⊢
  simp only at h ⊢
  cases hr : layoutLoop false ms 0 1 with
  | mk offs r =>
    obtain ⟨hi, aa⟩ := r
    rw [hr] at h
    simp only at h ⊢
    obtain ⟨h1, h2, h3, h4, h5, h6⟩ := layoutLoop_spec ms 0 1 (by omega) (by omega) _ _ _ hr
    obtain ⟨b1, b2, b3⟩ := consecutive_bounds h2
    obtain ⟨a1, a2, a3⟩ := alignUp_spec (size := hi) (align := aa) (by omega) (by omega)
    refine ⟨h1, ?_, b3, a2, h6, hi, h2, a1, a3⟩
    intro p hp
    have := b2 p hp
    exact ⟨this.2.2, by omega, h5 p hp⟩

/-- C51, alignment of arrays of the type: when alignments are powers of two, the alignment of every member divides the size and the alignment of
the type, so members of the elements of an array are aligned as well -/
theorem layout_align_divides {ms : List Member} (h : room ms + (layout false ms).align < 2 ^ 32)
    (hpow : ∀ m ∈ ms, ∃ k, m.align = 2 ^ k) : ∀ p ∈ placed ms (layout false ms).offsets, p.2.2 ∣ (layout false ms).align ∧ p.2.2 ∣ (layout false ms).size := by
  obtain ⟨_, h2, _, h4, h5, _⟩ := layout_struct h
  have hmem : ∀ (ms : List Member) (offs : List (Option Nat)) (p : Nat × Nat × Nat), p ∈ placed ms offs → ∃ m ∈ ms, p.2.2 = m.align := by
    intro ms
    induction ms with
    | nil => intro offs p hp; cases offs <;> simp [placed] at hp
    | cons m ms ih =>
      intro offs p hp
      match offs with
      | [] => simp [placed] at hp
      | some o :: offs =>
        rw [placed] at hp
        rcases List.mem_cons.1 hp with rfl | hp
        · exact ⟨m, by simp, rfl⟩
        · obtain ⟨m', hm', he⟩ := ih offs p hp
          exact ⟨m', List.mem_cons_of_mem _ hm', he⟩
      | none :: offs =>
        rw [placed] at hp
        obtain ⟨m', hm', he⟩ := ih offs p hp
        exact ⟨m', List.mem_cons_of_mem _ hm', he⟩
  have hp2 : ∀ p ∈ placed ms (layout false ms).offsets, ∃ k, p.2.2 = 2 ^ k := by
    intro p hp
    obtain ⟨m, hm, he⟩ := hmem ms _ p hp
    rw [he]
    exact hpow m hm
  have hall : ∃ k, (layout false ms).align = 2 ^ k := by
    rcases h5 with h5 | ⟨p, hp, h5⟩
    · exact ⟨0, h5⟩
    · rw [h5]
      exact hp2 p hp
  obtain ⟨k, hk⟩ := hall
  intro p hp
  obtain ⟨j, hj⟩ := hp2 p hp
  have hle := (h2 p hp).2.2
  rw [hj, hk] at hle
  have hjk : j ≤ k := (Nat.pow_le_pow_iff_right (by decide)).1 hle
  have hd : p.2.2 ∣ (layout false ms).align := by
    rw [hj, hk]
    exact Nat.pow_dvd_pow 2 hjk
  exact ⟨hd, Nat.dvd_trans hd h4⟩

/-- C51, unions -/
theorem layout_union {ms : List Member} (h : room ms + (layout true ms).align < 2 ^ 32) :
    Assigned ms (layout true ms).offsets ∧
    (∀ p ∈ placed ms (layout true ms).offsets, p.1 = 0 ∧ p.2.1 ≤ (layout true ms).size ∧ p.2.2 ≤ (layout true ms).align) ∧
    (layout true ms).align ∣ (layout true ms).size := by
  have key : ∀ (ms : List Member) (size aa : Nat), 0 < aa → ∀ offs hi aa', layoutLoop true ms size aa = (offs, hi, aa') →
      Assigned ms offs ∧ size ≤ hi ∧ hi ≤ size + room ms ∧ aa ≤ aa' ∧ ∀ p ∈ placed ms offs, p.1 = 0 ∧ p.2.1 ≤ hi ∧ p.2.2 ≤ aa' := by
    intro ms
    induction ms with
    | nil =>
      intro size aa ha offs hi aa' h
      cases h
      exact ⟨rfl, Nat.le_refl _, by omega, Nat.le_refl _, by simp [placed]⟩
    | cons m ms ih =>
      intro size aa ha offs hi aa' h'
      rw [room_cons]
      unfold layoutLoop at h'
      by_cases hm : m.isMethod = true
      · rw [if_pos hm] at h'
        cases hr : layoutLoop true ms size aa with
        | mk o r =>
          obtain ⟨r1, r2⟩ := r
          rw [hr] at h'
          cases h'
          obtain ⟨h1, h2, h3, h4, h5⟩ := ih size aa ha _ _ _ hr
          refine ⟨?_, h2, by omega, h4, h5⟩
          unfold Assigned at h1 ⊢
          simp [h1, hm]
      · rw [if_neg hm] at h'
        simp only [if_true] at h'
        rw [entitySize_eq] at h'
        have hes : (if ms = [] ∧ m.flexible = true then 0 else m.size) ≤ m.size := by split <;> omega
        generalize hE : (if ms = [] ∧ m.flexible = true then 0 else m.size) = es at *
        cases hr : layoutLoop true ms (max size es) (max m.align aa) with
        | mk o r =>
          obtain ⟨r1, r2⟩ := r
          rw [hr] at h'
          cases h'
          obtain ⟨h1, h2, h3, h4, h5⟩ := ih (max size es) (max m.align aa) (by omega) _ _ _ hr
          have hpl : placed (m :: ms) (some 0 :: o) = (0, es, m.align) :: placed ms o := by
            rw [placed, hE]
          rw [hpl]
          refine ⟨?_, by omega, by omega, by omega, ?_⟩
          · unfold Assigned at h1 ⊢
            simp [h1, hm]
          · intro p hp
            rcases List.mem_cons.1 hp with rfl | hp
            · exact ⟨rfl, by simp only; omega, by simp only; omega⟩
            · exact h5 p hp
  unfold layout at h ⊢
  simp only at h ⊢
  cases hr : layoutLoop true ms 0 1 with
  | mk offs r =>
    obtain ⟨hi, aa⟩ := r
    rw [hr] at h
    simp only at h ⊢
    obtain ⟨h1, h2, h3, h4, h5⟩ := key ms 0 1 (by omega) _ _ _ hr
    obtain ⟨a1, a2, a3⟩ := alignUp_spec (size := hi) (align := aa) (by omega) (by omega)
    refine ⟨h1, ?_, a2⟩
    intro p hp
    have := h5 p hp
    exact ⟨this.1, by omega, this.2.2⟩

/-- why the bound on the size is needed: the size is computed in 32 bits and wraps, so two members of 2^31 bytes overlap a third -/
theorem layout_overflow : layout false [⟨false, false, 2 ^ 31, 4⟩, ⟨false, false, 2 ^ 31, 4⟩, ⟨false, false, 4, 4⟩] = ⟨[some 0, some (2 ^ 31), some 0], 4, 4⟩ := by
  decide

/-- a struct of a char, an int, a method, a short and a flexible array -/
example : layout false [⟨false, false, 1, 1⟩, ⟨false, false, 4, 4⟩, ⟨true, false, 0, 0⟩, ⟨false, false, 2, 2⟩, ⟨false, true, 0, 8⟩] =
    ⟨[some 0, some 4, none, some 8, some 16], 16, 8⟩ ∧
    room [⟨false, false, 1, 1⟩, ⟨false, false, 4, 4⟩, ⟨true, false, 0, 0⟩, ⟨false, false, 2, 2⟩, ⟨false, true, 0, 8⟩] + 8 < 2 ^ 32 := by decide

end Verif.Props
