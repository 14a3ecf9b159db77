import Verif.Model.Setsort
import Mathlib.Data.BitVec
import Mathlib.Tactic.Ring
import Mathlib.Algebra.BigOperators.Ring.Finset
/-!
# Helper lemmas: rebuilding sums
-/
namespace Verif.Lemmas.Setsort

open Verif.Spec.Setsort Verif.Model.Setsort

variable {w : Nat}

theorem addAll_some (l : List (BitVec w)) (x : BitVec w) : addAll (some x) l = some (x + l.sum) := by
  unfold addAll
  induction l generalizing x with
  | nil => simp
  | cons y l ih => rw [List.foldl_cons]; dsimp only; rw [ih, List.sum_cons, add_assoc]

theorem addAll_none (l : List (BitVec w)) (h : l ≠ []) : addAll none l = some l.sum := by
  cases l with
  | nil => exact absurd rfl h
  | cons y l =>
    have := addAll_some l y
    unfold addAll at this ⊢
    rw [List.foldl_cons]; dsimp only; rw [this, List.sum_cons]

theorem addAll_opt (c : Option (BitVec w)) (l : List (BitVec w)) (h : l ≠ []) : addAll c l = some (c.getD 0 + l.sum) := by
  cases c with
  | none => rw [addAll_none l h]; simp
  | some x => rw [addAll_some]; rfl

theorem foldl_sub (l : List (BitVec w)) (x : BitVec w) : l.foldl (· - ·) x = x - l.sum := by
  induction l generalizing x with
  | nil => simp
  | cons y l ih => rw [List.foldl_cons, ih, List.sum_cons]; ring

/-- what a coefficient adds -/
def part (d : Dic w) (k : BitVec w) : BitVec w := k * ((d.get k).getD []).sum

def keys (d : Dic w) : List (BitVec w) := d.map (·.1)

theorem get_mem (d : Dic w) (k : BitVec w) (h : k ∈ keys d) : ∃ l, d.get k = some l ∧ (k, l) ∈ d := by
  unfold Dic.get
  cases hf : d.find? (fun e => e.1 == k) with
  | none =>
    rw [List.find?_eq_none] at hf
    obtain ⟨e, he, hk⟩ := List.mem_map.1 h
    exact absurd (by simpa using hk) (hf e he)
  | some e =>
    have h1 := List.find?_some hf
    have h2 := List.mem_of_find?_eq_some hf
    have : e.1 = k := by simpa using h1
    subst this
    exact ⟨e.2, rfl, h2⟩

theorem get_keys (d : Dic w) (k : BitVec w) (h : (d.get k).isSome = true) : k ∈ keys d := by
  unfold Dic.get at h
  cases hf : d.find? (fun e => e.1 == k) with
  | none => rw [hf] at h; cases h
  | some e =>
    have h1 := List.find?_some hf
    have h2 := List.mem_of_find?_eq_some hf
    have : e.1 = k := by simpa using h1
    subst this
    exact List.mem_map.2 ⟨e, h2, rfl⟩

theorem get_none (d : Dic w) (k : BitVec w) (h : d.get k = none) : k ∉ keys d := by
  intro hk
  obtain ⟨l, hl, _⟩ := get_mem d k hk
  rw [h] at hl; cases hl

/-- invariant after the coefficients `pre` -/
structure PInv (signed : Bool) (d : Dic w) (pre : List (BitVec w)) (s : PolySt w) : Prop where
  val : s.curr.getD 0 = (s.done.map (part d)).sum
  nodup : (s.done ++ s.negs).Nodup
  sub : ∀ k ∈ s.done, k ∈ keys d
  negSub : ∀ k ∈ s.negs, k ∈ pre
  negNot : ∀ k ∈ s.negs, -k ∉ keys d
  closed : signed = true → ∀ k ∈ s.done, -k ∈ keys d → -k ∈ s.done
  all : ∀ k ∈ pre, k ∈ s.done ∨ k ∈ s.negs

theorem polyStep_inv (signed : Bool) (d : Dic w) (hne : ∀ e ∈ d, e.2 ≠ []) (pre : List (BitVec w)) (key : BitVec w) (hk : key ∈ keys d)
    (hpre : key ∉ pre) (s : PolySt w) (inv : PInv signed d pre s) :
    ∃ s', polyStep signed d s key = some s' ∧ PInv signed d (pre ++ [key]) s' := by
  by_cases hd : key ∈ s.done
  · refine ⟨s, by rw [polyStep, if_pos hd], inv.val, inv.nodup, inv.sub, ?_, inv.negNot, inv.closed, ?_⟩
    · intro k h; exact List.mem_append_left _ (inv.negSub k h)
    · intro k h
      rcases List.mem_append.1 h with h | h
      · exact inv.all k h
      · rw [List.mem_singleton.1 h]; exact Or.inl hd
  have hkn : key ∉ s.negs := fun h => hpre (inv.negSub key h)
  by_cases hc : (decide (-key = key) || (d.get (-key)).isSome || !isNeg signed key) = true
  · -- a group of one or two coefficients
    rw [polyStep, if_neg hd, if_pos hc]
    by_cases hp : (decide (-key = key) || !isNeg signed key) = true
    · simp only [hp, if_true]
      obtain ⟨ps, hps, hmem⟩ := get_mem d key hk
      have hpsne := hne _ hmem
      rw [hps]
      dsimp only
      rw [addAll_opt _ _ hpsne]
      dsimp only
      refine ⟨_, rfl, ?_⟩
      by_cases hn : ∃ l, (if -key ≠ key ∧ signed = true then d.get (-key) else none) = some l
      · obtain ⟨l, hl⟩ := hn
        have hcond : -key ≠ key ∧ signed = true := by
          by_cases h : -key ≠ key ∧ signed = true
          · exact h
          · rw [if_neg h] at hl; cases hl
        rw [if_pos hcond] at hl
        have hnk : -key ∈ keys d := get_keys d _ (by rw [hl]; rfl)
        have hnd : -key ∉ s.done := by
          intro h
          have := inv.closed hcond.2 (-key) h (by rw [neg_neg]; exact hk)
          rw [neg_neg] at this
          exact hd this
        have hnn : -key ∉ s.negs := by
          intro h
          have := inv.negNot _ h
          rw [neg_neg] at this
          exact this hk
        simp only [if_pos hcond, hl, Option.getD_some, Option.isSome_some, if_true]
        refine ⟨?_, ?_, ?_, ?_, inv.negNot, ?_, ?_⟩
        · simp only [Option.getD_some, List.map_append, List.sum_append, List.map_cons, List.map_nil, List.sum_cons, List.sum_nil, ← inv.val, part, hps, hl,
            foldl_sub]
          by_cases h1 : key = 1
          · subst h1
            simp only [if_true]
            cases s.curr with
            | none => simp only [Option.getD_none]; ring
            | some c => simp only [Option.getD_some]; ring
          · simp only [if_neg h1]
            cases s.curr with
            | none => simp only [Option.getD_none]; ring
            | some c => simp only [Option.getD_none, Option.getD_some]; ring
        · show (([key, -key] ++ s.done) ++ s.negs).Nodup
          rw [List.append_assoc]
          show (key :: -key :: (s.done ++ s.negs)).Nodup
          refine List.nodup_cons.2 ⟨?_, List.nodup_cons.2 ⟨?_, inv.nodup⟩⟩
          · intro h
            rcases List.mem_cons.1 h with h | h
            · exact hcond.1 h.symm
            · rcases List.mem_append.1 h with h | h
              · exact hd h
              · exact hkn h
          · intro h
            rcases List.mem_append.1 h with h | h
            · exact hnd h
            · exact hnn h
        · intro k h
          rcases List.mem_append.1 h with h | h
          · simp only [List.mem_cons, List.not_mem_nil, or_false] at h
            rcases h with h | h <;> rw [h] <;> assumption
          · exact inv.sub k h
        · intro k h; exact List.mem_append_left _ (inv.negSub k h)
        · intro hs k h hk'
          rcases List.mem_append.1 h with h | h
          · simp only [List.mem_cons, List.not_mem_nil, or_false] at h
            rcases h with h | h
            · rw [h]; exact List.mem_append_left _ (by simp)
            · rw [h, neg_neg]; exact List.mem_append_left _ (by simp)
          · exact List.mem_append_right _ (inv.closed hs k h hk')
        · intro k h
          rcases List.mem_append.1 h with h | h
          · rcases inv.all k h with h | h
            · exact Or.inl (List.mem_append_right _ h)
            · exact Or.inr h
          · rw [List.mem_singleton.1 h]; exact Or.inl (List.mem_append_left _ (by simp))
      · have hn' : (if -key ≠ key ∧ signed = true then d.get (-key) else none) = none := by
          cases h : (if -key ≠ key ∧ signed = true then d.get (-key) else none) with
          | none => rfl
          | some l => exact absurd ⟨l, h⟩ hn
        simp only [hn', Option.getD_none, Option.isSome_none, List.foldl_nil]
        refine ⟨?_, ?_, ?_, ?_, inv.negNot, ?_, ?_⟩
        · simp only [Bool.false_eq_true, if_false, Option.getD_some, List.map_append, List.sum_append, List.map_cons, List.map_nil, List.sum_cons,
            List.sum_nil, ← inv.val, part, hps]
          by_cases h1 : key = 1
          · subst h1
            simp only [if_true]
            cases s.curr with
            | none => simp only [Option.getD_none]; ring
            | some c => simp only [Option.getD_some]; ring
          · simp only [if_neg h1]
            cases s.curr with
            | none => simp only [Option.getD_none]; ring
            | some c => simp only [Option.getD_none, Option.getD_some]; ring
        · show (key :: (s.done ++ s.negs)).Nodup
          refine List.nodup_cons.2 ⟨?_, inv.nodup⟩
          intro h
          rcases List.mem_append.1 h with h | h
          · exact hd h
          · exact hkn h
        · intro k h
          rcases List.mem_cons.1 (show k ∈ key :: s.done from h) with h | h
          · rw [h]; exact hk
          · exact inv.sub k h
        · intro k h; exact List.mem_append_left _ (inv.negSub k h)
        · intro hs k h hk'
          show -k ∈ key :: s.done
          rcases List.mem_cons.1 (show k ∈ key :: s.done from h) with h | h
          · rw [h] at hk' ⊢
            by_cases h2 : -key = key
            · rw [h2]; exact List.mem_cons_self ..
            · rw [if_pos ⟨h2, hs⟩] at hn'
              exact absurd hk' (get_none d _ hn')
          · exact List.mem_cons_of_mem _ (inv.closed hs k h hk')
        · intro k h
          rcases List.mem_append.1 h with h | h
          · rcases inv.all k h with h | h
            · exact Or.inl (List.mem_append_right _ h)
            · exact Or.inr h
          · rw [List.mem_singleton.1 h]; exact Or.inl (List.mem_append_left _ (by simp))
    · -- a negative coefficient with its positive one
      have hp' : (decide (-key = key) || !isNeg signed key) = false := by
        cases h : (decide (-key = key) || !isNeg signed key) with
        | true => exact absurd h hp
        | false => rfl
      rw [Bool.or_eq_false_iff] at hp'
      have hmax : -key ≠ key := by simpa using hp'.1
      have hng : isNeg signed key = true := by simpa using hp'.2
      have hsg : signed = true := by
        unfold isNeg at hng
        exact (Bool.and_eq_true _ _ ▸ hng).1
      have hnk : -key ∈ keys d := by
        apply get_keys
        rw [hp'.1, hng] at hc
        simpa using hc
      simp only [hp, if_false]
      obtain ⟨ps, hps, hmem⟩ := get_mem d (-key) hnk
      have hpsne := hne _ hmem
      obtain ⟨l, hl, _⟩ := get_mem d key hk
      have hcond : -key ≠ key ∧ signed = true := ⟨hmax, hsg⟩
      have hnd : -key ∉ s.done := by
        intro h
        have := inv.closed hsg (-key) h (by rw [neg_neg]; exact hk)
        rw [neg_neg] at this
        exact hd this
      have hnn : -key ∉ s.negs := by
        intro h
        have := inv.negNot _ h
        rw [neg_neg] at this
        exact this hk
      simp only [Bool.false_eq_true, if_false, hps]
      rw [addAll_opt _ _ hpsne]
      simp only [if_pos hcond, hl, Option.getD_some, Option.isSome_some, if_true]
      refine ⟨_, rfl, ?_, ?_, ?_, ?_, inv.negNot, ?_, ?_⟩
      · simp only [Option.getD_some, List.map_append, List.sum_append, List.map_cons, List.map_nil, List.sum_cons, List.sum_nil, ← inv.val, part, hps, hl,
          foldl_sub]
        by_cases h1 : -key = 1
        · have hk1 : key = -1 := by rw [← h1, neg_neg]
          simp only [h1, if_true]
          rw [hk1]
          cases s.curr with
          | none => simp only [Option.getD_none]; ring
          | some c => simp only [Option.getD_some]; ring
        · simp only [if_neg h1]
          cases s.curr with
          | none => simp only [Option.getD_none]; ring
          | some c => simp only [Option.getD_none, Option.getD_some]; ring
      · show (([-key, key] ++ s.done) ++ s.negs).Nodup
        rw [List.append_assoc]
        show (-key :: key :: (s.done ++ s.negs)).Nodup
        refine List.nodup_cons.2 ⟨?_, List.nodup_cons.2 ⟨?_, inv.nodup⟩⟩
        · intro h
          rcases List.mem_cons.1 h with h | h
          · exact hmax h
          · rcases List.mem_append.1 h with h | h
            · exact hnd h
            · exact hnn h
        · intro h
          rcases List.mem_append.1 h with h | h
          · exact hd h
          · exact hkn h
      · intro k h
        rcases List.mem_append.1 h with h | h
        · simp only [List.mem_cons, List.not_mem_nil, or_false] at h
          rcases h with h | h <;> rw [h] <;> assumption
        · exact inv.sub k h
      · intro k h; exact List.mem_append_left _ (inv.negSub k h)
      · intro hs k h hk'
        rcases List.mem_append.1 h with h | h
        · simp only [List.mem_cons, List.not_mem_nil, or_false] at h
          rcases h with h | h
          · rw [h, neg_neg]; exact List.mem_append_left _ (by simp)
          · rw [h]; exact List.mem_append_left _ (by simp)
        · exact List.mem_append_right _ (inv.closed hs k h hk')
      · intro k h
        rcases List.mem_append.1 h with h | h
        · rcases inv.all k h with h | h
          · exact Or.inl (List.mem_append_right _ h)
          · exact Or.inr h
        · rw [List.mem_singleton.1 h]; exact Or.inl (List.mem_append_left _ (by simp))
  · -- kept for later
    refine ⟨{ s with negs := s.negs ++ [key] }, by rw [polyStep, if_neg hd, if_neg hc], inv.val, ?_, inv.sub, ?_, ?_, inv.closed, ?_⟩
    · show (s.done ++ (s.negs ++ [key])).Nodup
      rw [← List.append_assoc, List.nodup_append]
      refine ⟨inv.nodup, by simp, ?_⟩
      intro a ha b hb
      rw [List.mem_singleton.1 hb]
      intro h
      rw [h] at ha
      rcases List.mem_append.1 ha with h | h
      · exact hd h
      · exact hkn h
    · intro k h
      rcases List.mem_append.1 h with h | h
      · exact List.mem_append_left _ (inv.negSub k h)
      · exact List.mem_append_right _ h
    · intro k h
      rcases List.mem_append.1 h with h | h
      · exact inv.negNot k h
      · rw [List.mem_singleton.1 h]
        intro hk'
        apply hc
        obtain ⟨l, hl, _⟩ := get_mem d _ hk'
        rw [hl]; simp
    · intro k h
      rcases List.mem_append.1 h with h | h
      · rcases inv.all k h with h | h
        · exact Or.inl h
        · exact Or.inr (List.mem_append_left _ h)
      · exact Or.inr (List.mem_append_right _ h)

theorem polySteps_inv (signed : Bool) (d : Dic w) (hne : ∀ e ∈ d, e.2 ≠ []) (l : List (BitVec w)) :
    ∀ (pre : List (BitVec w)) (s : PolySt w), (pre ++ l).Nodup → (∀ k ∈ l, k ∈ keys d) → PInv signed d pre s →
      ∃ s', l.foldlM (polyStep signed d) s = some s' ∧ PInv signed d (pre ++ l) s' := by
  induction l with
  | nil => intro pre s _ _ inv; exact ⟨s, rfl, by simpa using inv⟩
  | cons k l ih =>
    intro pre s hnd hk inv
    have hkp : k ∉ pre := by
      intro h
      rw [List.nodup_append] at hnd
      exact hnd.2.2 k h k (List.mem_cons_self ..) rfl
    obtain ⟨s1, h1, inv1⟩ := polyStep_inv signed d hne pre k (hk k (List.mem_cons_self ..)) hkp s inv
    obtain ⟨s2, h2, inv2⟩ := ih (pre ++ [k]) s1 (by simpa using hnd) (fun k' h => hk k' (List.mem_cons_of_mem _ h)) inv1
    refine ⟨s2, ?_, by simpa using inv2⟩
    rw [List.foldlM_cons, h1]
    exact h2

theorem polyNeg_right (d : Dic w) (hne : ∀ e ∈ d, e.2 ≠ []) (l : List (BitVec w)) :
    ∀ (c : Option (BitVec w)), (∀ k ∈ l, k ∈ keys d) → ∃ c', l.foldlM (polyNeg d) c = some c' ∧ c'.getD 0 = c.getD 0 + (l.map (part d)).sum := by
  induction l with
  | nil => intro c _; exact ⟨c, rfl, by simp⟩
  | cons k l ih =>
    intro c hk
    obtain ⟨ps, hps, hmem⟩ := get_mem d k (hk k (List.mem_cons_self ..))
    obtain ⟨x, hx, hxv⟩ : ∃ x, polyNeg d c k = some (some x) ∧ x = c.getD 0 + part d k := by
      rw [polyNeg, hps]
      dsimp only
      rw [addAll_none ps (hne _ hmem)]
      refine ⟨_, rfl, ?_⟩
      rw [part, hps]
      by_cases h1 : -k = 1
      · have hk1 : k = -1 := by rw [← h1, neg_neg]
        rw [if_pos h1, hk1]
        cases c with
        | none => simp only [Option.getD_none, Option.getD_some]; ring
        | some c => simp only [Option.getD_some]; ring
      · rw [if_neg h1]
        cases c with
        | none => simp only [Option.getD_none, Option.getD_some]; ring
        | some c => simp only [Option.getD_some]; ring
    obtain ⟨c', h1, h2⟩ := ih (some x) (fun k' h => hk k' (List.mem_cons_of_mem _ h))
    refine ⟨c', ?_, ?_⟩
    · rw [List.foldlM_cons, hx]; exact h1
    · rw [h2, hxv, List.map_cons, List.sum_cons, Option.getD_some, add_assoc]

theorem parts_sum (d : Dic w) (hnd : (keys d).Nodup) : ((keys d).map (part d)).sum = (d.map fun e => e.1 * e.2.sum).sum := by
  congr 1
  unfold keys
  rw [List.map_map]
  apply List.map_congr_left
  intro e he
  have : d.get e.1 = some e.2 := by
    obtain ⟨l, hl, hm⟩ := get_mem d e.1 (List.mem_map.2 ⟨e, he, rfl⟩)
    have : (e.1, l) = e := by
      have := List.inj_on_of_nodup_map hnd hm he rfl
      exact this
    rw [hl, ← this]
  simp only [Function.comp, part, this, Option.getD_some]

end Verif.Lemmas.Setsort
