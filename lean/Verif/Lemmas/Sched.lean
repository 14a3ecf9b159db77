import Verif.Spec.Sched
/-!
# Lemmas: schedule of a block
-/
namespace Verif.Lemmas.Sched
open Verif.Spec.Sched Verif.Model.Sched

theorem chain_append {s : Sched} {A : List Nat} {y : Nat} {B : List Nat} :
    Chain s (A ++ y :: B) ↔ Chain s (A ++ [y]) ∧ Chain s (y :: B) := by
  induction A with
  | nil => exact ⟨fun h => ⟨.one y, h⟩, fun h => h.2⟩
  | cons a A ih =>
    cases A with
    | nil =>
      constructor
      · intro h
        cases h with
        | cons h1 h2 h3 => exact ⟨.cons h1 h2 (.one y), h3⟩
      · rintro ⟨h1, h2⟩
        cases h1 with
        | cons h3 h4 _ => exact .cons h3 h4 h2
    | cons b A =>
      constructor
      · intro h
        cases h with
        | cons h1 h2 h3 => exact ⟨.cons h1 h2 (ih.1 h3).1, (ih.1 h3).2⟩
      · rintro ⟨h1, h2⟩
        cases h1 with
        | cons h3 h4 h5 => exact .cons h3 h4 (ih.2 ⟨h5, h2⟩)

theorem chain_congr {s s' : Sched} {L : List Nat} (h : Chain s L) (h1 : ∀ x ∈ L.dropLast, s'.next x = s.next x)
    (h2 : ∀ x ∈ L.tail, s'.prev x = s.prev x) : Chain s' L := by
  induction h with
  | one x => exact .one x
  | @cons x y l a b c ih =>
    refine .cons ?_ ?_ (ih (fun z hz => h1 z (by simp [hz])) fun z hz => h2 z ?_)
    · rw [h1 x (by simp), a]
    · rw [h2 y (by simp), b]
    · simp only [List.tail_cons] at hz ⊢
      exact List.mem_cons_of_mem _ hz

theorem chain_pair {s : Sched} {A : List Nat} {x y : Nat} {B : List Nat} (h : Chain s (A ++ x :: y :: B)) :
    s.next x = some y ∧ s.prev y = some x := by
  have := (chain_append.1 h).2
  cases this with
  | cons a b _ => exact ⟨a, b⟩

theorem upd_self {α : Type} (f : Nat → α) (x : Nat) (a : α) : upd f x a x = a := by simp [upd]
theorem upd_ne {α : Type} {f : Nat → α} {x y : Nat} {a : α} (h : y ≠ x) : upd f x a y = f y := by simp [upd, h]

/-- where the sources and the targets of the pointers are -/
theorem split_nodup {A B : List Nat} {p x : Nat} (h1 : (A ++ p :: x :: B).dropLast.Nodup) (h2 : (A ++ p :: x :: B).tail.Nodup) :
    p ∉ A ∧ p ∉ (x :: B).dropLast ∧ x ∉ (A ++ [p]).tail ∧ x ∉ B := by
  have e1 : (A ++ p :: x :: B).dropLast = A ++ p :: (x :: B).dropLast := by
    rw [List.dropLast_append_of_ne_nil (by simp)]; rfl
  have e2 : (A ++ p :: x :: B).tail = (A ++ [p]).tail ++ x :: B := by
    cases A with
    | nil => rfl
    | cons a A => simp
  rw [e1, List.nodup_append] at h1
  rw [e2, List.nodup_append] at h2
  obtain ⟨-, a1, a2⟩ := h1
  obtain ⟨-, b1, b2⟩ := h2
  refine ⟨fun h => a2 p h p (by simp) rfl, (List.nodup_cons.1 a1).1, fun h => b2 x h x (by simp) rfl, (List.nodup_cons.1 b1).1⟩

theorem mem_dropLast {L : List Nat} {x : Nat} (h : x ∈ L.dropLast) : x ∈ L := List.dropLast_subset L h

theorem chain_insert {s s' : Sched} {A B : List Nat} {p x i : Nat} (h : Chain s (A ++ p :: x :: B))
    (n1 : (A ++ p :: x :: B).dropLast.Nodup) (n2 : (A ++ p :: x :: B).tail.Nodup) (hi : i ∉ A ++ p :: x :: B)
    (hn : ∀ y, y ≠ i → y ≠ p → s'.next y = s.next y) (hp : ∀ y, y ≠ i → y ≠ x → s'.prev y = s.prev y)
    (h1 : s'.next p = some i) (h2 : s'.prev i = some p) (h3 : s'.next i = some x) (h4 : s'.prev x = some i) :
    Chain s' (A ++ p :: i :: x :: B) := by
  obtain ⟨m1, m2, m3, m4⟩ := split_nodup n1 n2
  obtain ⟨c1, c2⟩ := chain_append.1 h
  have hiA : ∀ y ∈ A, y ≠ i := fun y hy e => hi (by rw [← e]; simp [hy])
  have hiB : ∀ y ∈ B, y ≠ i := fun y hy e => hi (by rw [← e]; simp [hy])
  have hip : i ≠ p := fun e => hi (by rw [e]; simp)
  have hix : i ≠ x := fun e => hi (by rw [e]; simp)
  rw [chain_append]
  constructor
  · refine chain_congr c1 (fun y hy => ?_) (fun y hy => ?_)
    · rw [List.dropLast_concat] at hy
      exact hn y (hiA y hy) (fun e => m1 (e ▸ hy))
    · refine hp y ?_ (fun e => m3 (e ▸ hy))
      rcases List.mem_append.1 (List.mem_of_mem_tail hy) with h | h
      · exact hiA y h
      · rw [List.mem_singleton.1 h]; exact Ne.symm hip
  · refine .cons h1 h2 (.cons h3 h4 ?_)
    cases c2 with
    | cons _ _ c3 =>
      refine chain_congr c3 (fun y hy => hn y ?_ (fun e => m2 (e ▸ hy))) (fun y hy => hp y (hiB y hy) (fun e => m4 (e ▸ hy)))
      rcases List.mem_cons.1 (mem_dropLast hy) with h | h
      · rw [h]; exact Ne.symm hix
      · exact hiB y h

theorem chain_remove {s s' : Sched} {A B : List Nat} {p x i : Nat} (h : Chain s (A ++ p :: i :: x :: B))
    (n1 : (A ++ p :: x :: B).dropLast.Nodup) (n2 : (A ++ p :: x :: B).tail.Nodup) (hi : i ∉ A ++ p :: x :: B)
    (hn : ∀ y, y ≠ i → y ≠ p → s'.next y = s.next y) (hp : ∀ y, y ≠ i → y ≠ x → s'.prev y = s.prev y)
    (h1 : s'.next p = some x) (h4 : s'.prev x = some p) :
    Chain s' (A ++ p :: x :: B) := by
  obtain ⟨m1, m2, m3, m4⟩ := split_nodup n1 n2
  obtain ⟨c1, c2⟩ := chain_append.1 h
  have hiA : ∀ y ∈ A, y ≠ i := fun y hy e => hi (by rw [← e]; simp [hy])
  have hiB : ∀ y ∈ B, y ≠ i := fun y hy e => hi (by rw [← e]; simp [hy])
  have hip : i ≠ p := fun e => hi (by rw [e]; simp)
  have hix : i ≠ x := fun e => hi (by rw [e]; simp)
  rw [chain_append]
  constructor
  · refine chain_congr c1 (fun y hy => ?_) (fun y hy => ?_)
    · rw [List.dropLast_concat] at hy
      exact hn y (hiA y hy) (fun e => m1 (e ▸ hy))
    · refine hp y ?_ (fun e => m3 (e ▸ hy))
      rcases List.mem_append.1 (List.mem_of_mem_tail hy) with h | h
      · exact hiA y h
      · rw [List.mem_singleton.1 h]; exact Ne.symm hip
  · refine .cons h1 h4 ?_
    cases c2 with
    | cons _ _ c3 =>
      cases c3 with
      | cons _ _ c4 =>
        refine chain_congr c4 (fun y hy => hn y ?_ (fun e => m2 (e ▸ hy))) (fun y hy => hp y (hiB y hy) (fun e => m4 (e ▸ hy)))
        rcases List.mem_cons.1 (mem_dropLast hy) with h | h
        · rw [h]; exact Ne.symm hix
        · exact hiB y h

theorem chain_replace {s s' : Sched} {A B : List Nat} {p x i o : Nat} (h : Chain s (A ++ p :: o :: x :: B))
    (n1 : (A ++ p :: x :: B).dropLast.Nodup) (n2 : (A ++ p :: x :: B).tail.Nodup) (hi : i ∉ A ++ p :: x :: B)
    (ho : o ∉ A ++ p :: x :: B)
    (hn : ∀ y, y ≠ i → y ≠ p → y ≠ o → s'.next y = s.next y) (hp : ∀ y, y ≠ i → y ≠ x → y ≠ o → s'.prev y = s.prev y)
    (h1 : s'.next p = some i) (h2 : s'.prev i = some p) (h3 : s'.next i = some x) (h4 : s'.prev x = some i) :
    Chain s' (A ++ p :: i :: x :: B) := by
  let t : Sched := ⟨fun y => if y = p then some x else s.next y, fun y => if y = x then some p else s.prev y, s.ts⟩
  have c := chain_remove (s' := t) h n1 n2 ho (fun y _ hy => if_neg hy) (fun y _ hy => if_neg hy) (if_pos rfl) (if_pos rfl)
  obtain ⟨m1, m2, m3, m4⟩ := split_nodup n1 n2
  obtain ⟨c1, c2⟩ := chain_append.1 c
  have hiA : ∀ y ∈ A, y ≠ i ∧ y ≠ o := fun y hy => ⟨fun e => hi (by rw [← e]; simp [hy]), fun e => ho (by rw [← e]; simp [hy])⟩
  have hiB : ∀ y ∈ B, y ≠ i ∧ y ≠ o := fun y hy => ⟨fun e => hi (by rw [← e]; simp [hy]), fun e => ho (by rw [← e]; simp [hy])⟩
  have hip : p ≠ i ∧ p ≠ o := ⟨fun e => hi (by rw [← e]; simp), fun e => ho (by rw [← e]; simp)⟩
  have hix : x ≠ i ∧ x ≠ o := ⟨fun e => hi (by rw [← e]; simp), fun e => ho (by rw [← e]; simp)⟩
  rw [chain_append]
  constructor
  · refine chain_congr c1 (fun y hy => ?_) (fun y hy => ?_)
    · rw [List.dropLast_concat] at hy
      have hyp : y ≠ p := fun e => m1 (e ▸ hy)
      rw [hn y (hiA y hy).1 hyp (hiA y hy).2]
      exact (if_neg hyp).symm
    · have hyx : y ≠ x := fun e => m3 (e ▸ hy)
      have : y ≠ i ∧ y ≠ o := by
        rcases List.mem_append.1 (List.mem_of_mem_tail hy) with h | h
        · exact hiA y h
        · rw [List.mem_singleton.1 h]; exact hip
      rw [hp y this.1 hyx this.2]
      exact (if_neg hyx).symm
  · refine .cons h1 h2 (.cons h3 h4 ?_)
    cases c2 with
    | cons _ _ c3 =>
      refine chain_congr c3 (fun y hy => ?_) (fun y hy => ?_)
      · have hyp : y ≠ p := fun e => m2 (e ▸ hy)
        have : y ≠ i ∧ y ≠ o := by
          rcases List.mem_cons.1 (mem_dropLast hy) with h | h
          · rw [h]; exact hix
          · exact hiB y h
        rw [hn y this.1 hyp this.2]
        exact (if_neg hyp).symm
      · have hyx : y ≠ x := fun e => m4 (e ▸ hy)
        rw [hp y (hiB y hy).1 hyx (hiB y hy).2]
        exact (if_neg hyx).symm

/-! ## Numbers -/

/-- the time steps grow along the list, from the block on -/
def Sorted (s : Sched) (block : Nat) (l : List Nat) : Prop := s.ts block = 0 ∧ (block :: l).Pairwise fun a b => s.ts a < s.ts b

/-- the pointers are the same -/
def SamePtr (s s' : Sched) : Prop := s'.next = s.next ∧ s'.prev = s.prev

theorem renumberLoop_spec {block : Nat} (l : List Nat) : ∀ (fuel irn step : Nat) (s : Sched),
    Chain s (irn :: (l ++ [block])) → block ∉ l → (irn :: l).Nodup → l.length < fuel → step + l.length * granularity ≤ limit + granularity - 1 →
    step < limit → s.ts irn < step →
    ∃ s', renumberLoop block fuel irn step s = some s' ∧ SamePtr s s' ∧ (∀ x, x ∉ l → s'.ts x = s.ts x) ∧
      (irn :: l).Pairwise (fun a b => s'.ts a < s'.ts b) ∧ ∀ x ∈ l, s'.ts x + granularity ≤ step + l.length * granularity ∧ s'.ts x < limit := by
  induction l with
  | nil =>
    intro fuel irn step s hc hb hn hf hl hs ht
    cases fuel with
    | zero => simp at hf
    | succ fuel =>
      cases hc with
      | cons h1 _ _ =>
        refine ⟨s, ?_, ⟨rfl, rfl⟩, fun _ _ => rfl, by simp, by simp⟩
        simp [renumberLoop, h1]
  | cons a l ih =>
    intro fuel irn step s hc hb hn hf hl hs ht
    cases fuel with
    | zero => simp at hf
    | succ fuel =>
      cases hc with
      | cons h1 h2 h3 =>
        simp only [List.length_cons] at hf hl
        obtain ⟨hir, hn'⟩ := List.nodup_cons.1 hn
        have hab : a ≠ block := fun e => hb (by simp [e])
        have hia : irn ≠ a := fun e => hir (by simp [e])
        have g0 : 0 < granularity := by decide
        have gl : granularity < limit := by decide
        have hmul : (l.length + 1) * granularity = l.length * granularity + granularity := by rw [Nat.add_mul, Nat.one_mul]
        rw [hmul] at hl
        generalize hs' : ({ s with ts := upd s.ts a step } : Sched) = s1
        have hsame : SamePtr s s1 := by rw [← hs']; exact ⟨rfl, rfl⟩
        have hts : s1.ts = upd s.ts a step := by rw [← hs']
        have hr : renumberLoop block (fuel + 1) irn step s = renumberLoop block fuel a ((step + granularity) % limit) s1 := by
          rw [renumberLoop, h1]
          simp [hab, hs']
        rw [hr]
        have hc1 : Chain s1 (a :: (l ++ [block])) :=
          chain_congr h3 (fun _ _ => by rw [hsame.1]) (fun _ _ => by rw [hsame.2])
        by_cases hl0 : l = []
        · subst hl0
          cases fuel with
          | zero => simp at hf
          | succ fuel =>
            cases hc1 with
            | cons k1 k2 k3 =>
              refine ⟨s1, by simp [renumberLoop, k1], hsame, fun x hx => ?_, ?_, ?_⟩
              · rw [hts, upd_ne (fun e => hx (by simp [e]))]
              · rw [List.pairwise_cons]
                refine ⟨fun b hb' => ?_, by simp⟩
                rw [List.mem_singleton.1 hb', hts, upd_self, upd_ne hia]
                exact ht
              · intro x hx
                rw [List.mem_singleton.1 hx, hts, upd_self]
                simp; omega
        · have hlen : 0 < l.length := List.length_pos_iff.2 hl0
          have hge : granularity ≤ l.length * granularity := Nat.le_mul_of_pos_left _ hlen
          have hmod : (step + granularity) % limit = step + granularity := Nat.mod_eq_of_lt (by omega)
          rw [hmod]
          obtain ⟨s2, r1, r2, r3, r4, r5⟩ := ih fuel a (step + granularity) s1 hc1 (fun h => hb (by simp [h])) hn' (by omega) (by omega)
            (by omega) (by rw [hts, upd_self]; omega)
          have hts2a : s2.ts a = step := by rw [r3 a (List.nodup_cons.1 hn').1, hts, upd_self]
          refine ⟨s2, r1, ⟨r2.1.trans hsame.1, r2.2.trans hsame.2⟩, fun x hx => ?_, ?_, ?_⟩
          · rw [r3 x (fun h => hx (by simp [h])), hts, upd_ne (fun e => hx (by simp [e]))]
          · rw [List.pairwise_cons]
            refine ⟨fun b hb' => ?_, r4⟩
            have hi2 : s2.ts irn = s.ts irn := by
              rw [r3 irn (fun h => hir (by simp [h])), hts, upd_ne hia]
            rw [hi2]
            rcases List.mem_cons.1 hb' with e | hm
            · rw [e, hts2a]; exact ht
            · have := (List.pairwise_cons.1 r4).1 b hm
              omega
          · intro x hx
            rw [List.length_cons, hmul]
            rcases List.mem_cons.1 hx with e | hm
            · rw [e, hts2a]; omega
            · have := r5 x hm; omega

theorem renumber_spec {s : Sched} {block fuel : Nat} {l : List Nat} (h : Ring s block l) (hz : s.ts block = 0) (hf : l.length < fuel)
    (hl : l.length < 2 ^ 18) :
    ∃ s', renumber fuel block s = some s' ∧ SamePtr s s' ∧ Sorted s' block l ∧
      ∀ x ∈ l, s'.ts x ≤ l.length * granularity ∧ s'.ts x < limit := by
  have hb : block ∉ l := (List.nodup_cons.1 h.nodup).1
  obtain ⟨s', r1, r2, r3, r4, r5⟩ := renumberLoop_spec l fuel block granularity s h.chain hb h.nodup hf (by
    have : l.length * granularity ≤ (2 ^ 18 - 1) * granularity := Nat.mul_le_mul_right _ (by omega)
    have : limit = 2 ^ 18 * granularity := by decide
    have e : (2 ^ 18 - 1) * granularity + granularity = 2 ^ 18 * granularity := by decide
    have g0 : 0 < granularity := by decide
    omega) (by decide) (by rw [hz]; decide)
  refine ⟨s', r1, r2, ⟨by rw [r3 block hb, hz], r4⟩, fun x hx => ⟨?_, (r5 x hx).2⟩⟩
  have := (r5 x hx).1
  omega

/-- the time stamp of a node that was linked into the list -/
theorem setTimeStamp_spec {s : Sched} {block fuel i M : Nat} {l1 l2 : List Nat} (h : Ring s block (l1 ++ i :: l2))
    (hso : Sorted s block (l1 ++ l2)) (hf : (l1 ++ i :: l2).length < fuel) (hl : (l1 ++ i :: l2).length < 2 ^ 18)
    (hov : l2 = [] ∨ ∀ x ∈ l1 ++ l2, s.ts x ≤ 2 ^ 31) (hlim : ∀ x ∈ l1 ++ l2, s.ts x < limit)
    (hM : ∀ x ∈ l1 ++ l2, s.ts x ≤ M) (hM' : (l1 ++ l2).length * granularity ≤ M) :
    ∃ s', setTimeStamp fuel block i s = some s' ∧ SamePtr s s' ∧ Sorted s' block (l1 ++ i :: l2) ∧
      (∀ x ∈ l1 ++ i :: l2, s'.ts x ≤ M + granularity ∧ s'.ts x < limit) ∧
      (l2 = [] → ∀ p, s.prev i = some p → s.ts p + granularity < limit → s' = { s with ts := upd s.ts i (s.ts p + granularity) }) := by
  obtain ⟨hz, hpw⟩ := hso
  have hnd := h.nodup
  rw [List.nodup_cons, List.nodup_append, List.nodup_cons] at hnd
  obtain ⟨hb, hn1, ⟨hi2, hn2⟩, hdis⟩ := hnd
  have hib : i ≠ block := fun e => hb (by simp [e])
  have hi1 : i ∉ l1 := fun hm => hdis i hm i (by simp) rfl
  have hlen : (l1 ++ i :: l2).length = (l1 ++ l2).length + 1 := by simp; omega
  have gl : granularity < limit := by decide
  have g0 : 0 < granularity := by decide
  -- the node before
  have ⟨A, p, hA⟩ : ∃ A p, block :: l1 = A ++ [p] := ⟨_, _, (List.dropLast_concat_getLast (by simp : block :: l1 ≠ [])).symm⟩
  have hpm : p ∈ block :: l1 := by rw [hA]; simp
  have hpi : p ≠ i := by
    rcases List.mem_cons.1 hpm with e | hm
    · rw [e]; exact Ne.symm hib
    · exact fun e => hi1 (e ▸ hm)
  have hprev : s.prev i = some p := by
    have hc := h.chain
    rw [List.append_assoc, ← List.cons_append, hA, List.append_assoc] at hc
    exact (chain_pair hc).2
  have ⟨x, B, hB⟩ : ∃ x B, l2 ++ [block] = x :: B := by cases l2 with
    | nil => exact ⟨_, _, rfl⟩
    | cons a l => exact ⟨_, _, rfl⟩
  have hnext : s.next i = some x := by
    have hc := h.chain
    rw [List.append_assoc, List.cons_append, hB, ← List.cons_append] at hc
    exact (chain_pair hc).1
  have hpl : ∀ q ∈ block :: l1, s.ts q ≤ s.ts p := by
    intro q hq
    rw [hA] at hq
    rcases List.mem_append.1 hq with hq | hq
    · have hpw' := hpw
      rw [← List.cons_append, hA, List.append_assoc, List.pairwise_append] at hpw'
      exact Nat.le_of_lt (hpw'.2.2 q hq p (by simp))
    · rw [List.mem_singleton.1 hq]; exact Nat.le_refl _
  have hcross : ∀ a ∈ block :: l1, ∀ b ∈ l2, s.ts a < s.ts b := by
    rw [← List.cons_append, List.pairwise_append] at hpw
    exact hpw.2.2
  have hpM : s.ts p ≤ M := by
    rcases List.mem_cons.1 hpm with e | hm
    · rw [e, hz]; omega
    · exact hM p (by simp [hm])
  have hpL : s.ts p < limit := by
    rcases List.mem_cons.1 hpm with e | hm
    · rw [e, hz]; decide
    · exact hlim p (by simp [hm])
  -- a new number between the neighbours
  have put : ∀ t, s.ts p < t → (∀ b ∈ l2, t < s.ts b) → t < limit → t ≤ M + granularity →
      SamePtr s { s with ts := upd s.ts i t } ∧ Sorted { s with ts := upd s.ts i t } block (l1 ++ i :: l2) ∧
      ∀ y ∈ l1 ++ i :: l2, upd s.ts i t y ≤ M + granularity ∧ upd s.ts i t y < limit := by
    intro t ht1 ht2 ht3 ht4
    have u1 : ∀ y ∈ block :: l1, upd s.ts i t y = s.ts y := fun y hy => upd_ne (by
      rcases List.mem_cons.1 hy with e | hm
      · rw [e]; exact Ne.symm hib
      · exact fun e => hi1 (e ▸ hm))
    have u2 : ∀ y ∈ l2, upd s.ts i t y = s.ts y := fun y hy => upd_ne fun e => hi2 (e ▸ hy)
    refine ⟨⟨rfl, rfl⟩, ⟨?_, ?_⟩, fun y hy => ?_⟩
    · show upd s.ts i t block = 0
      rw [u1 block (by simp), hz]
    · show (block :: (l1 ++ i :: l2)).Pairwise fun a b => upd s.ts i t a < upd s.ts i t b
      rw [← List.cons_append, List.pairwise_append] at hpw ⊢
      refine ⟨?_, ?_, ?_⟩
      · refine hpw.1.imp_of_mem fun {a b} ha hb' hab => ?_
        rw [u1 a ha, u1 b hb']; exact hab
      · rw [List.pairwise_cons]
        refine ⟨fun b hb' => ?_, hpw.2.1.imp_of_mem fun {a b} ha hb' hab => ?_⟩
        · rw [upd_self, u2 b hb']; exact ht2 b hb'
        · rw [u2 a ha, u2 b hb']; exact hab
      · intro a ha b hb'
        rw [u1 a ha]
        rcases List.mem_cons.1 hb' with e | hm
        · rw [e, upd_self]
          exact Nat.lt_of_le_of_lt (hpl a ha) ht1
        · rw [u2 b hm]; exact hcross a ha b hm
    · rcases List.mem_append.1 hy with hm | hm
      · rw [u1 y (by simp [hm])]
        have := hM y (by simp [hm]); have := hlim y (by simp [hm]); omega
      · rcases List.mem_cons.1 hm with e | hm
        · rw [e, upd_self]; exact ⟨ht4, ht3⟩
        · rw [u2 y hm]
          have := hM y (by simp [hm]); have := hlim y (by simp [hm]); omega
  -- renumbering
  have ren : ∀ s1 : Sched, SamePtr s s1 → s1.ts block = 0 →
      ∃ s', renumber fuel block s1 = some s' ∧ SamePtr s s' ∧ Sorted s' block (l1 ++ i :: l2) ∧
        ∀ y ∈ l1 ++ i :: l2, s'.ts y ≤ M + granularity ∧ s'.ts y < limit := by
    intro s1 hs1 hz1
    have hr : Ring s1 block (l1 ++ i :: l2) :=
      ⟨chain_congr h.chain (fun _ _ => by rw [hs1.1]) (fun _ _ => by rw [hs1.2]), h.nodup, fun y hy => by rw [hs1.1]; exact h.out y hy⟩
    obtain ⟨s', r1, r2, r3, r4⟩ := renumber_spec hr hz1 hf hl
    refine ⟨s', r1, ⟨r2.1.trans hs1.1, r2.2.trans hs1.2⟩, r3, fun y hy => ⟨?_, (r4 y hy).2⟩⟩
    have := (r4 y hy).1
    rw [hlen, Nat.add_mul] at this
    omega
  unfold setTimeStamp
  rw [hprev, hnext]
  simp only
  cases l2 with
  | nil =>
    have hxb : x = block := by cases hB; rfl
    rw [if_pos (by rw [hxb, hz]; omega)]
    by_cases hwrap : (s.ts p + granularity) % limit ≤ s.ts p
    · rw [if_pos hwrap]
      obtain ⟨s', r1, r2, r3, r4⟩ := ren { s with ts := upd s.ts i ((s.ts p + granularity) % limit) } ⟨rfl, rfl⟩
        (by show upd s.ts i _ block = 0; rw [upd_ne (Ne.symm hib), hz])
      refine ⟨s', r1, r2, r3, r4, fun _ q hq hlt => ?_⟩
      cases hq
      rw [Nat.mod_eq_of_lt hlt] at hwrap
      omega
    · rw [if_neg hwrap]
      have hlt : s.ts p + granularity < limit := by
        refine Nat.lt_of_not_le fun hle => hwrap ?_
        rw [Nat.mod_eq_sub_mod hle, Nat.mod_eq_of_lt (by omega)]
        omega
      have hme := Nat.mod_eq_of_lt hlt
      obtain ⟨q1, q2, q3⟩ := put ((s.ts p + granularity) % limit) (by omega) (by simp) (Nat.mod_lt _ (by decide)) (by rw [hme]; omega)
      refine ⟨_, rfl, q1, q2, q3, fun _ q hq _ => ?_⟩
      cases hq
      rw [hme]
  | cons a l2 =>
    have hxa : x = a := by cases hB; rfl
    subst hxa
    have hlt : s.ts p < s.ts x := hcross p hpm x (by simp)
    rw [if_neg (by omega)]
    have hx31 : s.ts x ≤ 2 ^ 31 := by
      rcases hov with h | h
      · cases h
      · exact h x (by simp)
    have hme : (s.ts p + s.ts x) % limit = s.ts p + s.ts x := Nat.mod_eq_of_lt (by
      have : limit = 2 ^ 31 + 2 ^ 31 := by decide
      omega)
    rw [hme]
    by_cases hc : (s.ts p + s.ts x) / 2 = s.ts p ∨ (s.ts p + s.ts x) / 2 = s.ts x
    · rw [if_pos hc]
      obtain ⟨s', r1, r2, r3, r4⟩ := ren s ⟨rfl, rfl⟩ hz
      exact ⟨s', r1, r2, r3, r4, fun hh => nomatch hh⟩
    · rw [if_neg hc]
      have hxM := hM x (by simp)
      have hxL := hlim x (by simp)
      obtain ⟨q1, q2, q3⟩ := put ((s.ts p + s.ts x) / 2) (by omega) (fun b hb' => by
        rcases List.mem_cons.1 hb' with e | hm
        · rw [e]; omega
        · have hpw' := hpw
          rw [← List.cons_append, List.pairwise_append] at hpw'
          have := (List.pairwise_cons.1 hpw'.2.1).1 b hm
          omega) (by omega) (by omega)
      exact ⟨_, rfl, q1, q2, q3, fun hh => nomatch hh⟩

/-! ## Operations -/

theorem mem_split {l : List Nat} {x : Nat} (h : x ∈ l) : ∃ l1 l2, l = l1 ++ x :: l2 ∧ x ∉ l1 := by
  induction l with
  | nil => cases h
  | cons a l ih =>
    by_cases e : a = x
    · exact ⟨[], l, by rw [e]; rfl, by simp⟩
    · rcases List.mem_cons.1 h with h | h
      · exact absurd h.symm e
      · obtain ⟨l1, l2, h1, h2⟩ := ih h
        exact ⟨a :: l1, l2, by rw [h1]; rfl, by simp [h2]; exact Ne.symm e⟩

theorem insertBefore_split {x y : Nat} {l1 l2 : List Nat} (h : x ∉ l1) : insertBefore x y (l1 ++ x :: l2) = l1 ++ y :: x :: l2 := by
  induction l1 with
  | nil => simp [insertBefore]
  | cons a l1 ih =>
    have : a ≠ x := fun e => h (by simp [e])
    simp only [List.cons_append, insertBefore, this, if_false]
    rw [ih (fun hm => h (by simp [hm]))]

theorem insertAfter_split {x y : Nat} {l1 l2 : List Nat} (h : x ∉ l1) : insertAfter x y (l1 ++ x :: l2) = l1 ++ x :: y :: l2 := by
  induction l1 with
  | nil => simp [insertAfter]
  | cons a l1 ih =>
    have : a ≠ x := fun e => h (by simp [e])
    simp only [List.cons_append, insertAfter, this, if_false]
    rw [ih (fun hm => h (by simp [hm]))]

/-- the neighbours around a gap in the list -/
theorem gap (block : Nat) (l1 l2 : List Nat) : ∃ A p x B, block :: l1 = A ++ [p] ∧ l2 ++ [block] = x :: B := by
  refine ⟨(block :: l1).dropLast, (block :: l1).getLast (by simp), ?_⟩
  cases l2 with
  | nil => exact ⟨_, _, (List.dropLast_concat_getLast (by simp)).symm, rfl⟩
  | cons a l => exact ⟨_, _, (List.dropLast_concat_getLast (by simp)).symm, rfl⟩

/-- the ring around a gap -/
theorem ring_gap {block : Nat} {l1 l2 A B : List Nat} {p x : Nat} (hA : block :: l1 = A ++ [p]) (hB : l2 ++ [block] = x :: B) :
    block :: ((l1 ++ l2) ++ [block]) = A ++ p :: x :: B := by
  rw [List.append_assoc, hB, ← List.cons_append, hA, List.append_assoc]; rfl

theorem ring_nodup {block : Nat} {l : List Nat} (h : (block :: l).Nodup) :
    (block :: (l ++ [block])).dropLast.Nodup ∧ (block :: (l ++ [block])).tail.Nodup := by
  have e : block :: (l ++ [block]) = (block :: l) ++ [block] := rfl
  refine ⟨by rw [e, List.dropLast_concat]; exact h, ?_⟩
  rw [List.tail_cons, List.nodup_append]
  rw [List.nodup_cons] at h
  refine ⟨h.2, by simp, fun a ha b hb => ?_⟩
  rw [List.mem_singleton.1 hb]
  exact fun e => h.1 (e ▸ ha)

/-- a node is linked between two neighbours -/
theorem ring_insert {s s' : Sched} {block i p x : Nat} {l1 l2 A B : List Nat} (h : Ring s block (l1 ++ l2)) (hi : i ∉ block :: (l1 ++ l2))
    (hA : block :: l1 = A ++ [p]) (hB : l2 ++ [block] = x :: B)
    (hn : s'.next = upd (upd s.next i (some x)) p (some i)) (hp : s'.prev = upd (upd s.prev i (some p)) x (some i)) :
    Ring s' block (l1 ++ i :: l2) := by
  have hc := h.chain
  obtain ⟨n1, n2⟩ := ring_nodup h.nodup
  have hiL : i ∉ A ++ p :: x :: B := by
    rw [← ring_gap hA hB]
    intro hm
    apply hi
    rcases List.mem_cons.1 hm with e | hm
    · simp [e]
    · rcases List.mem_append.1 hm with hm | hm
      · exact List.mem_cons_of_mem _ hm
      · rw [List.mem_singleton.1 hm]; simp
  have hip : i ≠ p := fun e => hiL (by rw [e]; simp)
  have hix : i ≠ x := fun e => hiL (by rw [e]; simp)
  rw [ring_gap hA hB] at hc n1 n2
  refine ⟨?_, ?_, ?_⟩
  · have := chain_insert (s' := s') hc n1 n2 hiL (fun y a b => by rw [hn, upd_ne b, upd_ne a]) (fun y a b => by rw [hp, upd_ne b, upd_ne a])
      (by rw [hn, upd_self]) (by rw [hp, upd_ne hix, upd_self]) (by rw [hn, upd_ne hip, upd_self]) (by rw [hp, upd_self])
    have e : block :: (l1 ++ i :: l2 ++ [block]) = A ++ p :: i :: x :: B := by
      rw [List.append_assoc, List.cons_append, hB, ← List.cons_append, hA, List.append_assoc]; rfl
    rw [e]; exact this
  · have := h.nodup
    rw [List.nodup_cons, List.nodup_append] at this ⊢
    obtain ⟨a1, a2, a3, a4⟩ := this
    refine ⟨?_, a2, ?_, ?_⟩
    · intro hm
      rcases List.mem_append.1 hm with hm | hm
      · exact a1 (by simp [hm])
      · rcases List.mem_cons.1 hm with e | hm
        · exact hi (by simp [e])
        · exact a1 (by simp [hm])
    · exact List.nodup_cons.2 ⟨fun hm => hi (by simp [hm]), a3⟩
    · intro a ha b hb
      rcases List.mem_cons.1 hb with e | hb
      · rw [e]; exact fun e' => hi (by simp [← e', ha])
      · exact a4 a ha b hb
  · intro y hy
    have h1 : y ≠ i := fun e => hy (by simp [e])
    have h2 : y ∉ block :: (l1 ++ l2) := by
      intro hm
      apply hy
      rcases List.mem_cons.1 hm with e | hm
      · simp [e]
      · rcases List.mem_append.1 hm with hm | hm <;> simp [hm]
    have h3 : y ≠ p := by
      rintro rfl
      apply h2
      have : y ∈ block :: l1 := by rw [hA]; simp
      rcases List.mem_cons.1 this with e | hm
      · simp [e]
      · simp [hm]
    rw [hn, upd_ne h3, upd_ne h1]
    exact h.out y h2

/-- what holds after `k` additions -/
structure Good (s : Sched) (block k : Nat) (l : List Nat) : Prop where
  ring : Ring s block l
  sorted : Sorted s block l
  len : l.length ≤ k
  bound : ∀ x ∈ l, s.ts x ≤ k * granularity
  lim : ∀ x ∈ l, s.ts x < limit

theorem good_init (block : Nat) : Good (initBlock block) block 0 [] := by
  refine ⟨⟨?_, by simp, ?_⟩, ⟨rfl, by simp⟩, by simp, by simp, by simp⟩
  · exact .cons (upd_self (fun _ => none) block (some block)) (upd_self (fun _ => none) block (some block)) (.one block)
  · intro x hx
    exact upd_ne (f := fun _ => none) (by simpa using hx)

/-- linking and numbering a new node -/
theorem good_insert {s s3 : Sched} {block k i p x fuel : Nat} {l1 l2 A B : List Nat} (h : Good s block k (l1 ++ l2)) (hi : i ∉ block :: (l1 ++ l2))
    (hA : block :: l1 = A ++ [p]) (hB : l2 ++ [block] = x :: B)
    (hn : s3.next = upd (upd s.next i (some x)) p (some i)) (hp : s3.prev = upd (upd s.prev i (some p)) x (some i)) (ht : s3.ts = s.ts)
    (hk : l2 = [] ∨ k ≤ 2 ^ 17) (hf : k + 1 < fuel) (hk' : k + 1 < 2 ^ 18) :
    ∃ s', setTimeStamp fuel block i s3 = some s' ∧ Good s' block (k + 1) (l1 ++ i :: l2) ∧
      (l2 = [] → s.ts p + granularity < limit → s'.ts = upd s.ts i (s.ts p + granularity)) := by
  have hr := ring_insert h.ring hi hA hB hn hp
  have hlen : (l1 ++ i :: l2).length = (l1 ++ l2).length + 1 := by simp; omega
  have hl := h.len
  obtain ⟨s', r1, r2, r3, r4, r5⟩ := setTimeStamp_spec (fuel := fuel) (M := k * granularity) hr (by unfold Sorted; rw [ht]; exact h.sorted) (by omega)
    (by omega) (by
      rw [ht]
      rcases hk with hk | hk
      · exact Or.inl hk
      · refine Or.inr fun y hy => ?_
        have := h.bound y hy
        have : k * granularity ≤ 2 ^ 17 * granularity := Nat.mul_le_mul_right _ hk
        have e : 2 ^ 17 * granularity = 2 ^ 31 := by decide
        omega) (by rw [ht]; exact h.lim) (by rw [ht]; exact h.bound) (Nat.mul_le_mul_right _ hl)
  refine ⟨s', r1, ⟨⟨?_, hr.nodup, ?_⟩, r3, by omega, fun y hy => ?_, fun y hy => (r4 y hy).2⟩, fun e hlt => ?_⟩
  · exact chain_congr hr.chain (fun _ _ => by rw [r2.1]) (fun _ _ => by rw [r2.2])
  · intro y hy; rw [r2.1]; exact hr.out y hy
  · rw [Nat.add_mul, Nat.one_mul]; exact (r4 y hy).1
  · have hip : s3.prev i = some p := by
      have hix : i ≠ x := by
        rintro rfl
        have : i ∈ l2 ++ [block] := by rw [hB]; simp
        apply hi
        rcases List.mem_append.1 this with hm | hm
        · simp [hm]
        · simp [List.mem_singleton.1 hm]
      rw [hp, upd_ne hix, upd_self]
    rw [r5 e p hip (by rw [ht]; exact hlt), ht]

theorem good_addBefore {s : Sched} {block k b i fuel : Nat} {l : List Nat} (h : Good s block k l) (hok : Op.Ok block (.addBefore b i) l)
    (hk : b = block ∨ k ≤ 2 ^ 17) (hf : k + 1 < fuel) (hk' : k + 1 < 2 ^ 18) :
    ∃ s', addBefore fuel block b i s = some s' ∧ Good s' block (k + 1) (Op.list block (.addBefore b i) l) ∧
      (b = block → ∀ p, s.prev block = some p → s.ts p + granularity < limit → s'.ts = upd s.ts i (s.ts p + granularity)) := by
  obtain ⟨hb, hi⟩ := hok
  have hbi : b ≠ i := fun e => hi (e ▸ hb)
  -- the gap
  have ⟨l1, l2, hl, hnew, hhead, hl2⟩ : ∃ l1 l2, l = l1 ++ l2 ∧ Op.list block (.addBefore b i) l = l1 ++ i :: l2 ∧
      (∃ B, l2 ++ [block] = b :: B) ∧ (b = block → l2 = []) := by
    simp only [Op.list]
    by_cases e : b = block
    · rw [if_pos e]
      exact ⟨l, [], by simp, rfl, ⟨[], by simp [e]⟩, fun _ => rfl⟩
    · rw [if_neg e]
      obtain ⟨l1, l2, h1, h2⟩ := mem_split (by simpa [e] using hb : b ∈ l)
      exact ⟨l1, b :: l2, h1, by rw [h1, insertBefore_split h2], ⟨_, rfl⟩, fun h => absurd h e⟩
  obtain ⟨B, hB⟩ := hhead
  obtain ⟨A, p, -, -, hA, -⟩ := gap block l1 l2
  rw [hnew]
  subst hl
  have hc := h.ring.chain
  rw [ring_gap hA hB] at hc
  obtain ⟨q1, q2⟩ := chain_pair hc
  have hnb : ∃ y, s.next b = some y := by
    have hc := h.ring.chain
    have hm : b ∈ block :: (l1 ++ l2) := hb
    obtain ⟨m1, m2, hm', -⟩ := mem_split hm
    have e : block :: (l1 ++ l2 ++ [block]) = m1 ++ b :: (m2 ++ [block]) := by
      rw [← List.cons_append, hm', List.append_assoc]; rfl
    rw [e] at hc
    cases m2 with
    | nil => exact ⟨_, (chain_pair hc).1⟩
    | cons a m2 => exact ⟨_, (chain_pair hc).1⟩
  obtain ⟨y, hy⟩ := hnb
  unfold addBefore
  rw [if_neg (by simp [h.ring.out i hi]), hy, q2]
  simp only
  obtain ⟨s', r1, r2, r3⟩ := good_insert h hi hA hB (s3 := ⟨upd (upd s.next i (some b)) p (some i), upd (upd s.prev i (some p)) b (some i), s.ts⟩)
    rfl rfl rfl (hk.imp hl2 id) hf hk'
  refine ⟨s', r1, r2, fun e p' hp' hlt => ?_⟩
  rw [e, hp'] at q2
  cases q2
  exact r3 (hl2 e) hlt

theorem good_addAfter {s : Sched} {block k a i fuel : Nat} {l : List Nat} (h : Good s block k l) (hok : Op.Ok block (.addAfter a i) l)
    (hk : k ≤ 2 ^ 17) (hf : k + 1 < fuel) (hk' : k + 1 < 2 ^ 18) :
    ∃ s', addAfter fuel block a i s = some s' ∧ Good s' block (k + 1) (Op.list block (.addAfter a i) l) := by
  obtain ⟨ha, hi⟩ := hok
  have ⟨l1, l2, hl, hnew, A, hA⟩ : ∃ l1 l2, l = l1 ++ l2 ∧ Op.list block (.addAfter a i) l = l1 ++ i :: l2 ∧ (∃ A, block :: l1 = A ++ [a]) := by
    simp only [Op.list]
    by_cases e : a = block
    · rw [if_pos e]
      exact ⟨[], l, rfl, rfl, ⟨[], by simp [e]⟩⟩
    · rw [if_neg e]
      obtain ⟨l1, l2, h1, h2⟩ := mem_split (by simpa [e] using ha : a ∈ l)
      exact ⟨l1 ++ [a], l2, by simp [h1], by rw [h1, insertAfter_split h2]; simp, ⟨block :: l1, rfl⟩⟩
  obtain ⟨-, -, x, B, -, hB⟩ := gap block l1 l2
  rw [hnew]
  subst hl
  have hc := h.ring.chain
  rw [ring_gap hA hB] at hc
  obtain ⟨q1, q2⟩ := chain_pair hc
  unfold addAfter
  rw [if_neg (by simp [h.ring.out i hi]), q1]
  simp only
  obtain ⟨s', r1, r2, r3⟩ := good_insert h hi hA hB (s3 := ⟨upd (upd s.next i (some x)) a (some i), upd (upd s.prev i (some a)) x (some i), s.ts⟩)
    rfl rfl rfl (Or.inr hk) hf hk'
  exact ⟨s', r1, r2⟩

theorem filter_split {i : Nat} {l1 l2 : List Nat} (h1 : i ∉ l1) (h2 : i ∉ l2) : (l1 ++ i :: l2).filter (· ≠ i) = l1 ++ l2 := by
  rw [List.filter_append, List.filter_cons]
  have e : ∀ l : List Nat, i ∉ l → l.filter (· ≠ i) = l := fun l hl => List.filter_eq_self.2 fun a ha => by
    simp; exact fun e => hl (e ▸ ha)
  rw [e l1 h1, e l2 h2]
  simp

theorem good_remove {s : Sched} {block k i : Nat} {l : List Nat} (h : Good s block k l) (hok : Op.Ok block (.remove i) l) :
    ∃ s', remove i s = some s' ∧ Good s' block k (Op.list block (.remove i) l) := by
  obtain ⟨hi, hib⟩ := hok
  obtain ⟨l1, l2, rfl, hi1⟩ := mem_split hi
  have hnd := h.ring.nodup
  rw [List.nodup_cons, List.nodup_append, List.nodup_cons] at hnd
  obtain ⟨hb, hn1, ⟨hi2, hn2⟩, hdis⟩ := hnd
  have hnew : Op.list block (.remove i) (l1 ++ i :: l2) = l1 ++ l2 := filter_split hi1 hi2
  rw [hnew]
  obtain ⟨A, p, x, B, hA, hB⟩ := gap block l1 l2
  have eL : block :: (l1 ++ i :: l2 ++ [block]) = A ++ p :: i :: x :: B := by
    rw [List.append_assoc, List.cons_append, hB, ← List.cons_append, hA, List.append_assoc]; rfl
  have hc := h.ring.chain
  rw [eL] at hc
  have q1 := chain_pair hc
  have q2 : s.next i = some x ∧ s.prev x = some i := by
    have : A ++ p :: i :: x :: B = (A ++ [p]) ++ i :: x :: B := by simp
    rw [this] at hc
    exact chain_pair hc
  have hnd' : (block :: (l1 ++ l2)).Nodup := by
    rw [List.nodup_cons, List.nodup_append]
    exact ⟨fun hm => hb (by rcases List.mem_append.1 hm with hm | hm <;> simp [hm]), hn1, hn2, fun a ha b hb' => hdis a ha b (by simp [hb'])⟩
  have hiL : i ∉ block :: (l1 ++ l2) := by simp [hib, hi1, hi2]
  have hiL' : i ∉ A ++ p :: x :: B := by
    rw [← ring_gap hA hB]
    simp [hib, hi1, hi2]
  have hip : i ≠ p := fun e => hiL' (by rw [e]; simp)
  have hix : i ≠ x := fun e => hiL' (by rw [e]; simp)
  obtain ⟨n1, n2⟩ := ring_nodup hnd'
  rw [ring_gap hA hB] at n1 n2
  unfold remove
  rw [q1.2, q2.1]
  simp only
  have hsub : ∀ y ∈ l1 ++ l2, y ∈ l1 ++ i :: l2 := fun y hy => by
    rcases List.mem_append.1 hy with hm | hm <;> simp [hm]
  refine ⟨_, rfl, ⟨⟨?_, hnd', ?_⟩, ⟨h.sorted.1, ?_⟩, ?_, fun y hy => h.bound y (hsub y hy), fun y hy => h.lim y (hsub y hy)⟩⟩
  · rw [ring_gap hA hB]
    refine chain_remove hc n1 n2 hiL' (fun y a b => ?_) (fun y a b => ?_) ?_ ?_
    · show upd (upd s.next p (some x)) i none y = _
      rw [upd_ne a, upd_ne b]
    · show upd (upd s.prev x (some p)) i none y = _
      rw [upd_ne a, upd_ne b]
    · show upd (upd s.next p (some x)) i none p = _
      rw [upd_ne (Ne.symm hip), upd_self]
    · show upd (upd s.prev x (some p)) i none x = _
      rw [upd_ne (Ne.symm hix), upd_self]
  · intro y hy
    show upd (upd s.next p (some x)) i none y = none
    by_cases e : y = i
    · rw [e, upd_self]
    · rw [upd_ne e]
      have hyp : y ≠ p := by
        rintro rfl
        apply hy
        have : y ∈ block :: l1 := by rw [hA]; simp
        rcases List.mem_cons.1 this with e | hm
        · simp [e]
        · simp [hm]
      rw [upd_ne hyp]
      refine h.ring.out y fun hm => hy ?_
      rcases List.mem_cons.1 hm with e' | hm
      · simp [e']
      · rcases List.mem_append.1 hm with hm | hm
        · simp [hm]
        · rcases List.mem_cons.1 hm with e' | hm
          · exact absurd e' e
          · simp [hm]
  · refine h.sorted.2.sublist (List.Sublist.cons_cons _ ?_)
    exact List.Sublist.append (List.Sublist.refl _) (List.sublist_cons_self _ _)
  · have := h.len
    simp at this ⊢
    omega

theorem map_split {o i : Nat} {l1 l2 : List Nat} (h1 : o ∉ l1) (h2 : o ∉ l2) :
    (l1 ++ o :: l2).map (fun x => if x = o then i else x) = l1 ++ i :: l2 := by
  have e : ∀ l : List Nat, o ∉ l → l.map (fun x => if x = o then i else x) = l := fun l hl => by
    refine (List.map_congr_left (g := id) fun a ha => if_neg (fun (e : a = o) => hl (e ▸ ha))).trans (List.map_id l)
  rw [List.map_append, List.map_cons, e l1 h1, e l2 h2]
  simp

theorem good_replace {s : Sched} {block k o i : Nat} {l : List Nat} (h : Good s block k l) (hok : Op.Ok block (.replace o i) l) :
    ∃ s', replace o i s = some s' ∧ Good s' block k (Op.list block (.replace o i) l) := by
  obtain ⟨ho, hob, hi⟩ := hok
  obtain ⟨l1, l2, rfl, ho1⟩ := mem_split ho
  have hnd := h.ring.nodup
  rw [List.nodup_cons, List.nodup_append, List.nodup_cons] at hnd
  obtain ⟨hb, hn1, ⟨ho2, hn2⟩, hdis⟩ := hnd
  have hnew : Op.list block (.replace o i) (l1 ++ o :: l2) = l1 ++ i :: l2 := map_split ho1 ho2
  rw [hnew]
  simp only [List.mem_cons, List.mem_append, not_or] at hi
  obtain ⟨hib, hi1, hio, hi2⟩ := hi
  obtain ⟨A, p, x, B, hA, hB⟩ := gap block l1 l2
  have eL : ∀ z, block :: (l1 ++ z :: l2 ++ [block]) = A ++ p :: z :: x :: B := fun z => by
    rw [List.append_assoc, List.cons_append, hB, ← List.cons_append, hA, List.append_assoc]; rfl
  have hc := h.ring.chain
  rw [eL] at hc
  have q1 := chain_pair hc
  have q2 : s.next o = some x ∧ s.prev x = some o := by
    have : A ++ p :: o :: x :: B = (A ++ [p]) ++ o :: x :: B := by simp
    rw [this] at hc
    exact chain_pair hc
  have hnd' : (block :: (l1 ++ l2)).Nodup := by
    rw [List.nodup_cons, List.nodup_append]
    exact ⟨fun hm => hb (by rcases List.mem_append.1 hm with hm | hm <;> simp [hm]), hn1, hn2, fun a ha b hb' => hdis a ha b (by simp [hb'])⟩
  have hiL : i ∉ A ++ p :: x :: B := by
    rw [← ring_gap hA hB]; simp [hib, hi1, hi2]
  have hoL : o ∉ A ++ p :: x :: B := by
    rw [← ring_gap hA hB]; simp [hob, ho1, ho2]
  have hip : p ≠ i := fun e => hiL (by rw [← e]; simp)
  have hix : x ≠ i := fun e => hiL (by rw [← e]; simp)
  have hop : p ≠ o := fun e => hoL (by rw [← e]; simp)
  have hox : x ≠ o := fun e => hoL (by rw [← e]; simp)
  obtain ⟨n1, n2⟩ := ring_nodup hnd'
  rw [ring_gap hA hB] at n1 n2
  have hin : s.next i = none := h.ring.out i (by simp [hib, hi1, hi2, hio])
  unfold replace
  rw [if_neg (by simp [hin]), q1.2, q2.1]
  simp only
  have u1 : ∀ y ∈ block :: l1, y ≠ i := by
    intro y hy
    rcases List.mem_cons.1 hy with e | hm
    · rw [e]; exact Ne.symm hib
    · exact fun e => hi1 (e ▸ hm)
  have u2 : ∀ y ∈ l2, y ≠ i := fun y hy e => hi2 (e ▸ hy)
  have hts : ∀ y ∈ l1 ++ i :: l2, ∃ z ∈ l1 ++ o :: l2, upd s.ts i (s.ts o) y = s.ts z := by
    intro y hy
    by_cases e : y = i
    · exact ⟨o, by simp, by rw [e, upd_self]⟩
    · refine ⟨y, ?_, upd_ne e⟩
      rcases List.mem_append.1 hy with hm | hm
      · simp [hm]
      · rcases List.mem_cons.1 hm with e' | hm
        · exact absurd e' e
        · simp [hm]
  refine ⟨_, rfl, ⟨⟨?_, ?_, ?_⟩, ⟨?_, ?_⟩, ?_, fun y hy => ?_, fun y hy => ?_⟩⟩
  · rw [eL]
    refine chain_replace hc n1 n2 hiL hoL (fun y a b c => ?_) (fun y a b c => ?_) ?_ ?_ ?_ ?_
    · show upd (upd (upd s.next i (some x)) o none) p (some i) y = _
      rw [upd_ne b, upd_ne c, upd_ne a]
    · show upd (upd (upd s.prev i (some p)) o none) x (some i) y = _
      rw [upd_ne b, upd_ne c, upd_ne a]
    · show upd (upd (upd s.next i (some x)) o none) p (some i) p = _
      rw [upd_self]
    · show upd (upd (upd s.prev i (some p)) o none) x (some i) i = _
      rw [upd_ne (Ne.symm hix), upd_ne hio, upd_self]
    · show upd (upd (upd s.next i (some x)) o none) p (some i) i = _
      rw [upd_ne (Ne.symm hip), upd_ne hio, upd_self]
    · show upd (upd (upd s.prev i (some p)) o none) x (some i) x = _
      rw [upd_self]
  · rw [List.nodup_cons, List.nodup_append, List.nodup_cons]
    refine ⟨?_, hn1, ⟨hi2, hn2⟩, fun a ha b hb' => ?_⟩
    · simp only [List.mem_append, List.mem_cons, not_or]
      refine ⟨fun hm => hb (by simp [hm]), Ne.symm hib, fun hm => hb (by simp [hm])⟩
    · rcases List.mem_cons.1 hb' with e | hm
      · rw [e]; exact fun e' => hi1 (e' ▸ ha)
      · exact hdis a ha b (by simp [hm])
  · intro y hy
    show upd (upd (upd s.next i (some x)) o none) p (some i) y = none
    have hyi : y ≠ i := fun e => hy (by simp [e])
    have hyp : y ≠ p := by
      rintro rfl
      apply hy
      have : y ∈ block :: l1 := by rw [hA]; simp
      rcases List.mem_cons.1 this with e | hm
      · simp [e]
      · simp [hm]
    rw [upd_ne hyp]
    by_cases e : y = o
    · rw [e, upd_self]
    · rw [upd_ne e, upd_ne hyi]
      refine h.ring.out y fun hm => hy ?_
      rcases List.mem_cons.1 hm with e' | hm
      · simp [e']
      · rcases List.mem_append.1 hm with hm | hm
        · simp [hm]
        · rcases List.mem_cons.1 hm with e' | hm
          · exact absurd e' e
          · simp [hm]
  · show upd s.ts i (s.ts o) block = 0
    rw [upd_ne (Ne.symm hib)]; exact h.sorted.1
  · show (block :: (l1 ++ i :: l2)).Pairwise fun a b => upd s.ts i (s.ts o) a < upd s.ts i (s.ts o) b
    have hpw := h.sorted.2
    rw [← List.cons_append, List.pairwise_append] at hpw ⊢
    obtain ⟨w1, w23, w4⟩ := hpw
    obtain ⟨w2, w3⟩ := List.pairwise_cons.1 w23
    refine ⟨w1.imp_of_mem fun {a b} ha hb' hab => ?_, List.pairwise_cons.2 ⟨fun b hb' => ?_, w3.imp_of_mem fun {a b} ha hb' hab => ?_⟩, fun a ha b hb' => ?_⟩
    · rw [upd_ne (u1 a ha), upd_ne (u1 b hb')]; exact hab
    · rw [upd_self, upd_ne (u2 b hb')]; exact w2 b hb'
    · rw [upd_ne (u2 a ha), upd_ne (u2 b hb')]; exact hab
    · rw [upd_ne (u1 a ha)]
      rcases List.mem_cons.1 hb' with e | hm
      · rw [e, upd_self]; exact w4 a ha o (by simp)
      · rw [upd_ne (u2 b hm)]; exact w4 a ha b (by simp [hm])
  · have := h.len
    simp at this ⊢
    omega
  · obtain ⟨z, hz, e⟩ := hts y hy
    show upd s.ts i (s.ts o) y ≤ _
    rw [e]; exact h.bound z hz
  · obtain ⟨z, hz, e⟩ := hts y hy
    show upd s.ts i (s.ts o) y < _
    rw [e]; exact h.lim z hz

end Verif.Lemmas.Sched
