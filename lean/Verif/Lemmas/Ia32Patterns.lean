import Verif.Model.Ia32Patterns
import Verif.Props.X86Cond
/-! # Lemmas about the instruction patterns -/
namespace Verif.Lemmas.Ia32Patterns
open Verif.Spec.X86Small Verif.Spec.X86 Verif.Model.X86Cond Verif.Model.Ia32Patterns

/-! ### Bits -/

theorem bit_of_mask {val m c : BitVec 32} (h : val &&& m = c) (i : Nat) (hm : m.getLsbD i = true) :
    val.getLsbD i = c.getLsbD i := by
  rw [← h, BitVec.getLsbD_and, hm, Bool.and_true]

theorem getLsbD_writeLow8 (r : BitVec 32) (v : BitVec 8) (i : Nat) (hi : i < 32) :
    (writeLow r v).getLsbD i = if i < 8 then v.getLsbD i else r.getLsbD i := by
  have hm : ∀ i : Fin 32, (~~~ BitVec.ofNat 32 (2 ^ 8 - 1)).getLsbD i.val = decide (8 ≤ i.val) := by
    decide +kernel
  unfold writeLow
  rw [BitVec.getLsbD_or, BitVec.getLsbD_and, hm ⟨i, hi⟩, BitVec.getLsbD_setWidth]
  by_cases h : i < 8
  · simp [h, hi, show ¬ 8 ≤ i by omega]
  · simp [h, hi, show 8 ≤ i by omega, BitVec.getLsbD_of_ge v i (by omega)]

theorem getLsbD_writeLow16 (r : BitVec 32) (v : BitVec 16) (i : Nat) (hi : i < 32) :
    (writeLow r v).getLsbD i = if i < 16 then v.getLsbD i else r.getLsbD i := by
  have hm : ∀ i : Fin 32, (~~~ BitVec.ofNat 32 (2 ^ 16 - 1)).getLsbD i.val
      = decide (16 ≤ i.val) := by
    decide +kernel
  unfold writeLow
  rw [BitVec.getLsbD_or, BitVec.getLsbD_and, hm ⟨i, hi⟩, BitVec.getLsbD_setWidth]
  by_cases h : i < 16
  · simp [h, hi, show ¬ 16 ≤ i by omega]
  · simp [h, hi, show 16 ≤ i by omega, BitVec.getLsbD_of_ge v i (by omega)]

theorem getLsbD_writeHigh (r : BitVec 32) (v : BitVec 8) (i : Nat) (hi : i < 32) :
    (writeHigh r v).getLsbD i
      = if 8 ≤ i ∧ i < 16 then v.getLsbD (i - 8) else r.getLsbD i := by
  have hm : ∀ i : Fin 32, (~~~ (0xFF00 : BitVec 32)).getLsbD i.val
      = decide (¬ (8 ≤ i.val ∧ i.val < 16)) := by
    decide +kernel
  unfold writeHigh
  rw [BitVec.getLsbD_or, BitVec.getLsbD_and, hm ⟨i, hi⟩, BitVec.getLsbD_shiftLeft,
    BitVec.getLsbD_setWidth]
  by_cases h : 8 ≤ i ∧ i < 16
  · simp [h, hi, show ¬ i < 8 by omega, show i - 8 < 32 by omega]
  · by_cases h8 : i < 8
    · simp [h8, hi, show ¬ (8 ≤ i ∧ i < 16) by omega]
    · have : ¬ i < 16 := by omega
      simp [h, h8, hi, BitVec.getLsbD_of_ge v (i - 8) (by omega)]

theorem getLsbD_high (r : BitVec 32) (i : Nat) :
    (high r).getLsbD i = (decide (i < 8) && r.getLsbD (8 + i)) := by
  simp [high, BitVec.getLsbD_setWidth]

theorem bits_eq {x y : BitVec 32} (h : ∀ i, i < 32 → x.getLsbD i = y.getLsbD i) : x = y :=
  BitVec.eq_of_getLsbD_eq (fun i hi => h i hi)

theorem getLsbD_low {n : Nat} (r : BitVec 32) (i : Nat) (h : i < n) :
    (r.setWidth n).getLsbD i = r.getLsbD i := by
  simp [BitVec.getLsbD_setWidth, h]

theorem getLsbD_rolw (r : BitVec 32) (i : Nat) (hi : i < 32) :
    (writeLow r ((r.setWidth 16).rotateLeft 8)).getLsbD i
      = r.getLsbD (if i < 8 then i + 8 else if i < 16 then i - 8 else i) := by
  rw [getLsbD_writeLow16 _ _ _ hi, BitVec.getLsbD_rotateLeft]
  by_cases h8 : i < 8
  · rw [if_pos (by omega), if_pos h8]
    simp only [show i < 8 % 16 by omega, decide_true, cond_true]
    rw [getLsbD_low _ _ (by omega), show 16 - 8 % 16 + i = i + 8 by omega]
  · by_cases h16 : i < 16
    · rw [if_pos h16, if_neg h8, if_pos h16]
      simp only [show ¬ i < 8 % 16 by omega, decide_false, cond_false, h16, decide_true, Bool.true_and]
      rw [getLsbD_low _ _ (by omega), show i - 8 % 16 = i - 8 by omega]
    · rw [if_neg h16, if_neg h8, if_neg h16]

theorem getLsbD_roll (r : BitVec 32) (i : Nat) (hi : i < 32) :
    (r.rotateLeft 16).getLsbD i = r.getLsbD (if i < 16 then i + 16 else i - 16) := by
  rw [BitVec.getLsbD_rotateLeft]
  by_cases h16 : i < 16
  · rw [if_pos h16]
    simp only [show i < 16 % 32 by omega, decide_true, cond_true]
    rw [show 32 - 16 % 32 + i = i + 16 by omega]
  · rw [if_neg h16]
    simp only [show ¬ i < 16 % 32 by omega, decide_false, cond_false, hi, decide_true, Bool.true_and]

/-! ### The bits of the constants -/

theorem bit_0xFFFF0000 (i : Nat) (hi : i < 32) : (0xFFFF0000 : BitVec 32).getLsbD i = decide (16 ≤ i) := by
  have h : ∀ i : Fin 32, (0xFFFF0000 : BitVec 32).getLsbD i.val = decide (16 ≤ i.val) := by
    decide +kernel
  exact h ⟨i, hi⟩

theorem bit_0xFFFFFF00 (i : Nat) (hi : i < 32) : (0xFFFFFF00 : BitVec 32).getLsbD i = decide (8 ≤ i) := by
  have h : ∀ i : Fin 32, (0xFFFFFF00 : BitVec 32).getLsbD i.val = decide (8 ≤ i.val) := by
    decide +kernel
  exact h ⟨i, hi⟩

theorem bit_0xFFFF00FF (i : Nat) (hi : i < 32) : (0xFFFF00FF : BitVec 32).getLsbD i = decide (¬ (8 ≤ i ∧ i < 16)) := by
  have h : ∀ i : Fin 32, (0xFFFF00FF : BitVec 32).getLsbD i.val = decide (¬ (8 ≤ i.val ∧ i.val < 16)) := by
    decide +kernel
  exact h ⟨i, hi⟩

theorem bit_0xFFFFFF80 (i : Nat) (hi : i < 32) : (0xFFFFFF80 : BitVec 32).getLsbD i = decide (7 ≤ i) := by
  have h : ∀ i : Fin 32, (0xFFFFFF80 : BitVec 32).getLsbD i.val = decide (7 ≤ i.val) := by
    decide +kernel
  exact h ⟨i, hi⟩

theorem bit_0xFF (i : Nat) (hi : i < 32) : (0xFF : BitVec 32).getLsbD i = decide (i < 8) := by
  have h : ∀ i : Fin 32, (0xFF : BitVec 32).getLsbD i.val = decide (i.val < 8) := by
    decide +kernel
  exact h ⟨i, hi⟩

theorem bit_0x00000080 (i : Nat) (hi : i < 32) : (0x00000080 : BitVec 32).getLsbD i = decide (i = 7) := by
  have h : ∀ i : Fin 32, (0x00000080 : BitVec 32).getLsbD i.val = decide (i.val = 7) := by
    decide +kernel
  exact h ⟨i, hi⟩

theorem bit_0x0000FFFF (i : Nat) (hi : i < 32) : (0x0000FFFF : BitVec 32).getLsbD i = decide (i < 16) := by
  have h : ∀ i : Fin 32, (0x0000FFFF : BitVec 32).getLsbD i.val = decide (i.val < 16) := by
    decide +kernel
  exact h ⟨i, hi⟩

theorem bit_0x0000FF00 (i : Nat) (hi : i < 32) : (0x0000FF00 : BitVec 32).getLsbD i = decide (8 ≤ i ∧ i < 16) := by
  have h : ∀ i : Fin 32, (0x0000FF00 : BitVec 32).getLsbD i.val = decide (8 ≤ i.val ∧ i.val < 16) := by
    decide +kernel
  exact h ⟨i, hi⟩

theorem bit_0xFFFF80FF (i : Nat) (hi : i < 32) : (0xFFFF80FF : BitVec 32).getLsbD i = decide (¬ (8 ≤ i ∧ i < 15)) := by
  have h : ∀ i : Fin 32, (0xFFFF80FF : BitVec 32).getLsbD i.val = decide (¬ (8 ≤ i.val ∧ i.val < 15)) := by
    decide +kernel
  exact h ⟨i, hi⟩

theorem bit_0xFF80FFFF (i : Nat) (hi : i < 32) : (0xFF80FFFF : BitVec 32).getLsbD i = decide (¬ (16 ≤ i ∧ i < 23)) := by
  have h : ∀ i : Fin 32, (0xFF80FFFF : BitVec 32).getLsbD i.val = decide (¬ (16 ≤ i.val ∧ i.val < 23)) := by
    decide +kernel
  exact h ⟨i, hi⟩

theorem bit_0x00FFFFFF (i : Nat) (hi : i < 32) : (0x00FFFFFF : BitVec 32).getLsbD i = decide (i < 24) := by
  have h : ∀ i : Fin 32, (0x00FFFFFF : BitVec 32).getLsbD i.val = decide (i.val < 24) := by
    decide +kernel
  exact h ⟨i, hi⟩

/-! ### Constants -/

theorem popcount_one {t : BitVec 32} (h : popcount t = 1) : (1 : BitVec 32) <<< lowestBit t = t := by
  unfold popcount at h
  unfold lowestBit
  cases hf : (List.range 32).find? (fun i => t.getLsbD i) with
  | none =>
    rw [List.find?_eq_none] at hf
    rw [List.countP_eq_zero.mpr (by simpa using hf)] at h
    simp at h
  | some k =>
    have hk : t.getLsbD k = true := by simpa using List.find?_some hf
    have hk32 : k < 32 := by simpa using List.mem_of_find?_eq_some hf
    simp only [Option.getD_some]
    apply bits_eq
    intro i hi
    by_cases hik : i = k
    · subst hik
      simp [BitVec.getLsbD_shiftLeft, hk, hi]
    · have hti : t.getLsbD i = false := by
        apply Classical.byContradiction
        intro hne
        have hti : t.getLsbD i = true := by simpa using hne
        have h2 : 2 ≤ (List.range 32).countP (fun i => t.getLsbD i) := by
          have hsub : List.Sublist (if i < k then [i, k] else [k, i]) (List.range 32) := by
            have hs : ∀ a b : Nat, a < b → b < 32 → List.Sublist [a, b] (List.range 32) := by
              intro a b hab hb
              have e : List.range 32 = List.range (a + 1) ++ List.range' (a + 1) (32 - (a + 1)) := by
                rw [List.range_eq_range', List.range_eq_range',
                  show (32 : Nat) = (a + 1) + (32 - (a + 1)) by omega]
                rw [← List.range'_append_1]
                simp
              rw [e]
              have : ([a, b] : List Nat) = [a] ++ [b] := rfl
              rw [this]
              refine List.Sublist.append ?_ ?_
              · exact List.singleton_sublist.mpr (by simp)
              · exact List.singleton_sublist.mpr (by simp [List.mem_range'_1]; omega)
            split
            · exact hs i k (by assumption) hk32
            · exact hs k i (by omega) hi
          have := List.Sublist.countP_le (p := fun i => t.getLsbD i) hsub
          split at this <;> simp [hti, hk] at this <;> exact this
        omega
      have : (1 : BitVec 32).getLsbD (i - k) = decide (i - k = 0) := by simp [BitVec.getLsbD_one]
      rw [BitVec.getLsbD_shiftLeft, hti]
      by_cases hlt : i < k
      · simp [hlt]
      · rw [this]
        simp
        omega

theorem neg_one_and (t : BitVec 32) : (-1 : BitVec 32) &&& t = t := by
  have : (-1 : BitVec 32) = BitVec.allOnes 32 := by decide
  rw [this, BitVec.allOnes_and]

/-- The value of the sequence where the condition holds or not. -/
theorem constSteps_nil (t : BitVec 32) :
    execSteps 1 (constSteps [] t) = some t ∧ execSteps 0 (constSteps [] t) = some 0 := by
  unfold constSteps
  repeat' split
  all_goals try (rename_i h; subst h; exact ⟨by decide, by decide⟩)
  · simp only [execSteps, execStep, List.nil_append, List.cons_append, List.reverse_cons,
      List.reverse_nil, List.foldl_cons, List.foldl_nil, Option.map_some]
    refine ⟨?_, ?_⟩
    · rw [neg_one_and]
    · simp
  · rename_i hp
    simp only [ne_eq, Classical.not_not] at hp
    simp only [execSteps, execStep, List.nil_append, List.cons_append, List.reverse_cons,
      List.reverse_nil, List.foldl_cons, List.foldl_nil, Option.map_some]
    refine ⟨?_, ?_⟩
    · rw [popcount_one hp]
    · simp

theorem constSteps_add (f t : BitVec 32) (hf : f ≠ 0) :
    execSteps 1 (constSteps [{ tr := .add, val := f }] t) = some (t + f)
    ∧ execSteps 0 (constSteps [{ tr := .add, val := f }] t) = some f := by
  unfold constSteps mergeAdd
  simp only [List.getLast?_singleton, if_true, List.dropLast_singleton, List.nil_append, hf, if_false]
  repeat' split
  all_goals try (rename_i h; subst h; simp [execSteps, execStep]; try decide)
  · rename_i hp
    simp only [execSteps, execStep, List.nil_append, List.cons_append, List.reverse_cons,
      List.reverse_nil, List.foldl_cons, List.foldl_nil, Option.map_some]
    refine ⟨?_, ?_⟩
    · rw [neg_one_and]
    · simp
  · rename_i hp
    simp only [ne_eq, Classical.not_not] at hp
    simp only [execSteps, execStep, List.nil_append, List.cons_append, List.reverse_cons,
      List.reverse_nil, List.foldl_cons, List.foldl_nil, Option.map_some]
    refine ⟨?_, ?_⟩
    · rw [popcount_one hp]
    · simp

theorem constSteps_or (f : BitVec 32) :
    execSteps 1 (constSteps [{ tr := .or, val := f }] (BitVec.allOnes 32))
        = some (BitVec.allOnes 32)
    ∧ execSteps 0 (constSteps [{ tr := .or, val := f }] (BitVec.allOnes 32)) = some f := by
  have h1 : (-1 : BitVec 32) = BitVec.allOnes 32 := by decide
  have h2 : BitVec.allOnes 32 ≠ 1 := by decide
  simp only [constSteps, h2, if_false, if_true, execSteps, execStep, List.cons_append,
    List.nil_append, List.reverse_cons, List.reverse_nil, List.foldl_cons, List.foldl_nil,
    Option.map_some]
  refine ⟨?_, ?_⟩
  · rw [h1, BitVec.allOnes_or]
  · simp

theorem findConst_exec (cc : Cc) (t e : BitVec 32) (f : EFlags) :
    execSteps (BitVec.ofNat 32 (ccMeans (findConst cc t e).1 f).toNat) (findConst cc t e).2
      = some (if ccMeans cc f then t else e) := by
  have key : ∀ (c : Cc) (x y : BitVec 32),
      execSteps (BitVec.ofNat 32 (ccMeans (if y = 0 then (c, constSteps [] x)
        else if x = BitVec.allOnes 32 then (c, constSteps [{ tr := .or, val := y }] x)
        else (c, constSteps [{ tr := .add, val := y }] (x - y))).1 f).toNat)
        (if y = 0 then (c, constSteps [] x)
        else if x = BitVec.allOnes 32 then (c, constSteps [{ tr := .or, val := y }] x)
        else (c, constSteps [{ tr := .add, val := y }] (x - y))).2
      = some (if ccMeans c f then x else y) := by
    intro c x y
    split
    · rename_i hy
      subst hy
      obtain ⟨h1, h0⟩ := constSteps_nil x
      cases hc : ccMeans c f <;> simp only [Bool.toNat_true, Bool.toNat_false] <;> simp <;> assumption
    · rename_i hy
      split
      · rename_i hx
        subst hx
        obtain ⟨h1, h0⟩ := constSteps_or y
        cases hc : ccMeans c f <;> simp <;> assumption
      · obtain ⟨h1, h0⟩ := constSteps_add y (x - y) hy
        rw [BitVec.sub_add_cancel] at h1
        cases hc : ccMeans c f <;> simp <;> assumption
  by_cases ht : t = 0
  · have e1 : findConst cc t e = (if t = 0 then (negate cc, constSteps [] e)
        else if e = BitVec.allOnes 32 then (negate cc, constSteps [{ tr := .or, val := t }] e)
        else (negate cc, constSteps [{ tr := .add, val := t }] (e - t))) := by
      unfold findConst
      rw [if_pos ht]
    rw [e1, key, Verif.Props.X86Cond.cc_negate_correct]
    cases ccMeans cc f <;> simp
  · by_cases hlt : t.ult e = true
    · have e1 : findConst cc t e = (if t = 0 then (negate cc, constSteps [] e)
          else if e = BitVec.allOnes 32 then (negate cc, constSteps [{ tr := .or, val := t }] e)
          else (negate cc, constSteps [{ tr := .add, val := t }] (e - t))) := by
        unfold findConst
        rw [if_neg ht, if_pos hlt]
      rw [e1, key, Verif.Props.X86Cond.cc_negate_correct]
      cases ccMeans cc f <;> simp
    · have e1 : findConst cc t e = (if e = 0 then (cc, constSteps [] t)
          else if t = BitVec.allOnes 32 then (cc, constSteps [{ tr := .or, val := e }] t)
          else (cc, constSteps [{ tr := .add, val := e }] (t - e))) := by
        unfold findConst
        rw [if_neg ht, if_neg hlt]
      rw [e1, key]

/-- Agreement on the low bits. -/
def LowEq (n : Nat) (x y : Option (BitVec 32)) : Prop :=
  (x.map (·.setWidth n)) = y.map (·.setWidth n)

theorem execStep_low {n : Nat} (hn : n ≤ 32) {s s' : BitVec 32} (hs : s.setWidth n = s'.setWidth n)
    {x y : Option (BitVec 32)} (h : LowEq n x y) (st : SetStep) :
    LowEq n (execStep s x st) (execStep s' y st) := by
  have shl : ∀ (a b : BitVec 32) (k : Nat), a.setWidth n = b.setWidth n →
      (a <<< k).setWidth n = (b <<< k).setWidth n := by
    intro a b k hab
    ext i hi
    have := congrArg (fun z => z.getLsbD (i - k)) hab
    simp only [BitVec.getLsbD_setWidth] at this
    have h1 : i - k < n := by omega
    simp only [h1, decide_true, Bool.true_and] at this
    simp only [BitVec.getElem_setWidth, BitVec.getLsbD_shiftLeft, this]
  unfold LowEq at *
  cases x with
  | none =>
    cases y with
    | none => cases hst : st.tr <;> simp [execStep, hst, hs]
    | some y => simp at h
  | some x =>
    cases y with
    | none => simp at h
    | some y =>
      simp only [Option.map_some, Option.some.injEq] at h
      have hsh := shl x y st.logScale h
      cases hst : st.tr <;>
        simp [execStep, hst, hs, h, hsh, BitVec.setWidth_add _ _ hn, BitVec.setWidth_neg_of_le hn,
          BitVec.setWidth_not hn]

theorem execSteps_low {n : Nat} (hn : n ≤ 32) {s s' : BitVec 32}
    (hs : s.setWidth n = s'.setWidth n) (l : List SetStep) :
    LowEq n (execSteps s l) (execSteps s' l) := by
  unfold execSteps
  have : ∀ (l : List SetStep) (x y : Option (BitVec 32)), LowEq n x y →
      LowEq n (l.foldl (execStep s) x) (l.foldl (execStep s') y) := by
    intro l
    induction l with
    | nil => intro x y h; exact h
    | cons a l ih => intro x y h; exact ih _ _ (execStep_low hn hs h a)
  exact this _ _ _ rfl

theorem setReg_wide {n : Nat} (h : n > 8) (junk : BitVec 32) (c : Bool) :
    setReg n junk c = BitVec.ofNat 32 c.toNat := by
  unfold setReg
  simp only [h, if_true]
  apply bits_eq
  intro i hi
  rw [BitVec.getLsbD_setWidth, BitVec.getLsbD_setWidth, getLsbD_writeLow8 _ _ _ hi]
  cases c
  · by_cases h8 : i < 8 <;> simp [h8]
  · by_cases h8 : i < 8
    · simp [h8, hi]
    · simp [h8, hi]
      omega

theorem setReg_low (n : Nat) (junk : BitVec 32) (c : Bool) :
    (setReg n junk c).setWidth 8 = (BitVec.ofNat 32 c.toNat).setWidth 8 := by
  by_cases h : n > 8
  · rw [setReg_wide h]
  · unfold setReg
    simp only [h, if_false]
    apply BitVec.eq_of_getLsbD_eq
    intro i hi
    rw [getLsbD_low _ _ hi, getLsbD_writeLow8 _ _ _ (by omega), if_pos hi, getLsbD_low _ _ hi]
    cases c
    · simp
    · simp [BitVec.getLsbD_one]

end Verif.Lemmas.Ia32Patterns
