import Verif.Model.Bipartite
/-!
# C42: bipartite matching
-/
namespace Verif.Props
open Verif.Model

/-- a matching of the graph: left nodes `l < nLeft` are assigned adjacent right nodes, no right node twice -/
structure IsMatching (nLeft nRight : Nat) (adj : Nat → Nat → Bool) (m : Nat → Option Nat) : Prop where
  edge : ∀ l r, m l = some r → l < nLeft ∧ r < nRight ∧ adj l r = true
  inj : ∀ l l' r, m l = some r → m l' = some r → l = l'

/-- number of edges of the matching -/
def matchSize (nLeft : Nat) (m : Nat → Option Nat) : Nat := (List.range nLeft).countP (fun l => (m l).isSome)

structure BInv (gr : BGraph) (st : BState) : Prop where
  matching : IsMatching gr.nLeft gr.nRight gr.adj st.matching
  left : ∀ l, st.mLeft l = (st.matching l).isSome
  right : ∀ r, st.mRight r = true ↔ ∃ l, st.matching l = some r

theorem countP_upd {n i : Nat} {p q : Nat → Bool} (hi : i < n) (hp : p i = false) (hq : q i = true) (h : ∀ k, k ≠ i → q k = p k) :
    (List.range n).countP q = (List.range n).countP p + 1 := by
  induction n with
  | zero => omega
  | succ n ih =>
    rw [List.range_succ, List.countP_append, List.countP_append, List.countP_singleton, List.countP_singleton]
    by_cases hin : i = n
    · subst hin
      rw [hp, hq]
      have : (List.range i).countP q = (List.range i).countP p := by
        apply List.countP_congr
        intro x hx
        have := List.mem_range.1 hx
        rw [h x (by omega)]
      rw [this]; simp
    · rw [ih (by omega), h n (by omega)]; omega

theorem bpFree_spec {gr : BGraph} {st : BState} {left r : Nat} (h : bpFree gr st left = some r) :
    r < gr.nRight ∧ gr.adj left r = true ∧ st.mRight r = false := by
  have h1 := List.find?_some h
  have h2 := List.mem_of_find?_eq_some h
  rw [Bool.and_eq_true, Bool.not_eq_true'] at h1
  exact ⟨List.mem_range.1 h2, h1.1, h1.2⟩

theorem bpFree_none {gr : BGraph} {st : BState} {left : Nat} (h : bpFree gr st left = none) :
    ∀ r < gr.nRight, gr.adj left r = true → st.mRight r = true := by
  intro r hr ha
  have := List.find?_eq_none.1 h r (List.mem_range.2 hr)
  rw [ha] at this
  simpa using this

theorem bpOther_spec {gr : BGraph} {st : BState} {left o i : Nat} (h : bpOther gr st left o = some i) :
    i < gr.nLeft ∧ i ≠ left ∧ gr.adj i o = true ∧ st.mLeft i = false := by
  have h1 := List.find?_some h
  have h2 := List.mem_of_find?_eq_some h
  rw [Bool.and_eq_true, Bool.and_eq_true, Bool.not_eq_true', bne_iff_ne] at h1
  exact ⟨List.mem_range.1 h2, h1.1.1, h1.1.2, h1.2⟩

/-- what one step of the loop does -/
theorem bpStep_spec {gr : BGraph} {st : BState} {left : Nat} (h : BInv gr st) (hl : left < gr.nLeft) :
    ∃ st' d, bpStep gr st left = some (st', d) ∧ BInv gr st' ∧
      matchSize gr.nLeft st'.matching = matchSize gr.nLeft st.matching + (if d then 1 else 0) ∧
      (d = false → st' = st ∧ (st.matching left = none → ∀ r < gr.nRight, gr.adj left r = true → st.mRight r = true)) := by
  unfold bpStep
  cases hm : st.matching left with
  | some o =>
    simp only []
    by_cases hc : bpContained gr st left = true
    · rw [if_pos hc]
      exact ⟨st, false, rfl, h, by simp, fun _ => ⟨rfl, fun e => by simp at e⟩⟩
    · rw [if_neg hc]
      cases hf : bpFree gr st left with
      | none =>
        exfalso
        apply hc
        unfold bpContained
        rw [List.all_eq_true]
        intro r hr
        have := bpFree_none hf r (List.mem_range.1 hr)
        cases ha : gr.adj left r
        · rfl
        · rw [this ha]; rfl
      | some r =>
        obtain ⟨hr1, hr2, hr3⟩ := bpFree_spec hf
        cases ho : bpOther gr st left o with
        | none => exact ⟨st, false, rfl, h, by simp, fun _ => ⟨rfl, fun e => by simp at e⟩⟩
        | some i =>
          obtain ⟨hi1, hi2, hi3, hi4⟩ := bpOther_spec ho
          have hmi : st.matching i = none := by
            rw [h.left] at hi4
            exact Option.not_isSome_iff_eq_none.1 (by rw [hi4]; simp)
          have hrn : ∀ l, st.matching l ≠ some r := by
            intro l e
            have := (h.right r).2 ⟨l, e⟩
            rw [this] at hr3; simp at hr3
          have hor : o ≠ r := by rintro rfl; exact hrn left hm
          obtain ⟨_, ho1, _⟩ := h.matching.edge left o hm
          refine ⟨_, true, rfl, ⟨⟨?_, ?_⟩, ?_, ?_⟩, ?_, by simp⟩
          · intro l q
            simp only [upd]
            by_cases e1 : l = i
            · rw [if_pos e1]; intro e; cases e; rw [e1]; exact ⟨hi1, ho1, hi3⟩
            · rw [if_neg e1]
              by_cases e2 : l = left
              · rw [if_pos e2]; intro e; cases e; rw [e2]; exact ⟨hl, hr1, hr2⟩
              · rw [if_neg e2]; exact h.matching.edge l q
          · intro l l' q
            have key : ∀ l q, upd (upd st.matching left (some r)) i (some o) l = some q →
                (l = i ∧ q = o) ∨ (l = left ∧ q = r) ∨ (l ≠ left ∧ st.matching l = some q) := by
              intro l q
              simp only [upd]
              by_cases e1 : l = i
              · rw [if_pos e1]; intro e; cases e; exact Or.inl ⟨e1, rfl⟩
              · rw [if_neg e1]
                by_cases e2 : l = left
                · rw [if_pos e2]; intro e; cases e; exact Or.inr (Or.inl ⟨e2, rfl⟩)
                · rw [if_neg e2]; exact fun e => Or.inr (Or.inr ⟨e2, e⟩)
            intro a b
            rcases key l q a with ⟨rfl, rfl⟩ | ⟨rfl, rfl⟩ | ⟨n1, m1⟩ <;> rcases key l' _ b with ⟨rfl, e⟩ | ⟨rfl, e⟩ | ⟨n2, m2⟩
            · rfl
            · exact absurd e hor
            · exact absurd (h.matching.inj _ _ _ m2 hm) n2
            · exact absurd e.symm hor
            · rfl
            · exact absurd m2 (hrn _)
            · rw [e] at m1; exact absurd (h.matching.inj _ _ _ m1 hm) n1
            · rw [e] at m1; exact absurd m1 (hrn _)
            · exact h.matching.inj _ _ _ m1 m2
          · intro l
            simp only [upd]
            by_cases e1 : l = i
            · rw [if_pos e1, if_pos e1]; rfl
            · rw [if_neg e1, if_neg e1, h.left]
              by_cases e2 : l = left
              · rw [if_pos e2, e2, hm]; rfl
              · rw [if_neg e2]
          · intro q
            simp only [upd]
            by_cases e1 : q = r
            · rw [if_pos e1]
              refine ⟨fun _ => ⟨left, ?_⟩, fun _ => rfl⟩
              rw [if_neg hi2.symm, if_pos rfl, e1]
            · rw [if_neg e1, h.right]
              constructor
              · rintro ⟨l, e⟩
                by_cases e2 : l = left
                · rw [e2, hm] at e; cases e
                  exact ⟨i, by rw [if_pos rfl]⟩
                · have e3 : l ≠ i := by rintro rfl; rw [hmi] at e; simp at e
                  exact ⟨l, by rw [if_neg e3, if_neg e2, e]⟩
              · rintro ⟨l, e⟩
                by_cases e3 : l = i
                · rw [if_pos e3] at e; cases e; exact ⟨left, hm⟩
                · rw [if_neg e3] at e
                  by_cases e2 : l = left
                  · rw [if_pos e2] at e; cases e; exact absurd rfl e1
                  · rw [if_neg e2] at e; exact ⟨l, e⟩
          · rw [if_pos rfl]
            apply countP_upd hi1
            · rw [hmi]; rfl
            · simp only [upd, if_true, Option.isSome_some]
            · intro k hk
              simp only [upd]
              rw [if_neg hk]
              by_cases e2 : k = left
              · rw [if_pos e2, e2, hm]; rfl
              · rw [if_neg e2]
  | none =>
    simp only []
    have hml : st.mLeft left = false := by rw [h.left, hm]; rfl
    rw [hml]; simp only [Bool.false_eq_true, if_false]
    cases hf : bpFree gr st left with
    | none => exact ⟨st, false, rfl, h, by simp, fun _ => ⟨rfl, fun _ => bpFree_none hf⟩⟩
    | some r =>
      obtain ⟨hr1, hr2, hr3⟩ := bpFree_spec hf
      have hrn : ∀ l, st.matching l ≠ some r := by
        intro l e
        have := (h.right r).2 ⟨l, e⟩
        rw [this] at hr3; simp at hr3
      simp only [hr3, Bool.false_eq_true, if_false]
      refine ⟨_, true, rfl, ⟨⟨?_, ?_⟩, ?_, ?_⟩, ?_, by simp⟩
      · intro l q
        simp only [upd]
        by_cases e2 : l = left
        · rw [if_pos e2]; intro e; cases e; rw [e2]; exact ⟨hl, hr1, hr2⟩
        · rw [if_neg e2]; exact h.matching.edge l q
      · intro l l' q
        simp only [upd]
        by_cases e2 : l = left <;> by_cases e2' : l' = left
        · intros; rw [e2, e2']
        · rw [if_pos e2, if_neg e2']; intro a b; cases a; exact absurd b (hrn _)
        · rw [if_neg e2, if_pos e2']; intro a b; cases b; exact absurd a (hrn _)
        · rw [if_neg e2, if_neg e2']; exact h.matching.inj l l' q
      · intro l
        simp only [upd]
        by_cases e1 : l = left
        · rw [if_pos e1, if_pos e1]; rfl
        · rw [if_neg e1, if_neg e1, h.left]
      · intro q
        simp only [upd]
        by_cases e1 : q = r
        · rw [if_pos e1]
          exact ⟨fun _ => ⟨left, by rw [if_pos rfl, e1]⟩, fun _ => rfl⟩
        · rw [if_neg e1, h.right]
          constructor
          · rintro ⟨l, e⟩
            exact ⟨l, by rw [if_neg, e]; rintro rfl; rw [hm] at e; simp at e⟩
          · rintro ⟨l, e⟩
            by_cases e2 : l = left
            · rw [if_pos e2] at e; cases e; exact absurd rfl e1
            · rw [if_neg e2] at e; exact ⟨l, e⟩
      · rw [if_pos rfl]
        apply countP_upd hl
        · rw [hm]; rfl
        · simp only [upd, if_true, Option.isSome_some]
        · intro k hk; simp only [upd]; rw [if_neg hk]

theorem bpPass_spec {gr : BGraph} : ∀ (ls : List Nat) {st : BState}, BInv gr st → (∀ l ∈ ls, l < gr.nLeft) →
    ∃ st' d, bpPass gr ls st = some (st', d) ∧ BInv gr st' ∧
      matchSize gr.nLeft st.matching + (if d then 1 else 0) ≤ matchSize gr.nLeft st'.matching ∧
      (d = false → st' = st ∧ ∀ l ∈ ls, st.matching l = none → ∀ r < gr.nRight, gr.adj l r = true → st.mRight r = true) := by
  intro ls
  induction ls with
  | nil => intro st h _; exact ⟨st, false, rfl, h, by simp, fun _ => ⟨rfl, by simp⟩⟩
  | cons l ls ih =>
    intro st h hl
    obtain ⟨st1, d1, e1, h1, s1, k1⟩ := bpStep_spec h (hl l (by simp))
    obtain ⟨st2, d2, e2, h2, s2, k2⟩ := ih h1 (fun x hx => hl x (List.mem_cons_of_mem _ hx))
    refine ⟨st2, d1 || d2, ?_, h2, ?_, ?_⟩
    · rw [bpPass, e1]; simp only []; rw [e2]
    · cases d1 <;> cases d2 <;> simp at * <;> omega
    · intro hd
      rw [Bool.or_eq_false_iff] at hd
      obtain ⟨a1, b1⟩ := k1 hd.1
      obtain ⟨a2, b2⟩ := k2 hd.2
      refine ⟨a2.trans a1, ?_⟩
      intro x hx
      rcases List.mem_cons.1 hx with rfl | hx
      · exact b1
      · rw [← a1]; exact b2 x hx

theorem matchSize_le (n : Nat) (m : Nat → Option Nat) : matchSize n m ≤ n :=
  Nat.le_trans List.countP_le_length (by simp)

theorem bpLoop_spec {gr : BGraph} : ∀ (fuel : Nat) {st : BState}, BInv gr st → gr.nLeft + 1 ≤ fuel + matchSize gr.nLeft st.matching →
    ∃ st', bpLoop gr fuel st = some st' ∧ BInv gr st' ∧
      ∀ l < gr.nLeft, st'.matching l = none → ∀ r < gr.nRight, gr.adj l r = true → st'.mRight r = true := by
  intro fuel
  induction fuel with
  | zero => intro st _ hf; have := matchSize_le gr.nLeft st.matching; omega
  | succ fuel ih =>
    intro st h hf
    obtain ⟨st1, d, e, h1, s1, k1⟩ := bpPass_spec (List.range gr.nLeft) h (fun l hl => List.mem_range.1 hl)
    rw [bpLoop, e]
    simp only []
    cases d with
    | false =>
      obtain ⟨a, b⟩ := k1 rfl
      refine ⟨st1, by simp, h1, ?_⟩
      rw [a]
      intro l hl
      exact b l (List.mem_range.2 hl)
    | true =>
      rw [if_pos rfl] at s1
      obtain ⟨st2, e2, h2⟩ := ih h1 (by omega)
      exact ⟨st2, by simpa using e2, h2⟩

/-- C42, partial: `bipartite_matching` terminates without violating an assertion, its result is a matching, and no single edge of
the graph can be added to it.  Missing: maximum size, which does not hold, see `bipartite_matching_not_maximum`. -/
theorem bipartite_matching_partial (gr : BGraph) :
    ∃ m, bipartiteMatching gr = some m ∧ IsMatching gr.nLeft gr.nRight gr.adj m ∧
      ∀ l < gr.nLeft, ∀ r < gr.nRight, gr.adj l r = true → m l ≠ none ∨ ∃ l', m l' = some r := by
  have h0 : BInv gr ⟨fun _ => none, fun _ => false, fun _ => false⟩ :=
    ⟨⟨fun _ _ h => by simp at h, fun _ _ _ h => by simp at h⟩, fun _ => rfl, fun r => by simp⟩
  obtain ⟨st, e, h, hm⟩ := bpLoop_spec (gr.nLeft + 1) h0 (by omega)
  refine ⟨st.matching, by unfold bipartiteMatching; rw [e]; rfl, h.matching, ?_⟩
  intro l hl r hr ha
  cases hml : st.matching l with
  | none => exact Or.inr ((h.right r).1 (hm l hl hml r hr ha))
  | some q => exact Or.inl (by simp)

/-- three left nodes with neighbours {0,1}, {1,2}, {0} -/
def bpWitness : BGraph := ⟨3, 3, fun l r => [(0, 0), (0, 1), (1, 1), (1, 2), (2, 0)].contains (l, r)⟩

/-- a perfect matching of `bpWitness` -/
def bpPerfect : Nat → Option Nat := fun l => if l = 0 then some 1 else if l = 1 then some 2 else if l = 2 then some 0 else none

/-- C42, the claim of maximum size is false: `bipartite_matching` finds a matching of size two, there is one of size three. -/
theorem bipartite_matching_not_maximum :
    (∃ m, bipartiteMatching bpWitness = some m ∧ matchSize 3 m = 2) ∧ IsMatching 3 3 bpWitness.adj bpPerfect ∧ matchSize 3 bpPerfect = 3 := by
  refine ⟨?_, ⟨?_, ?_⟩, by decide⟩
  · have h : (bipartiteMatching bpWitness).map (matchSize 3) = some 2 := by decide
    cases hm : bipartiteMatching bpWitness with
    | none => rw [hm] at h; simp at h
    | some m => rw [hm] at h; exact ⟨m, rfl, by simpa using h⟩
  · intro l r h
    unfold bpPerfect at h
    split at h
    · next e => cases h; subst e; decide
    · split at h
      · next e => cases h; subst e; decide
      · split at h
        · next e => cases h; subst e; decide
        · simp at h
  · intro l l' r h h'
    unfold bpPerfect at h h'
    repeat' split at h
    all_goals repeat' split at h'
    all_goals (simp_all; try omega)

end Verif.Props
