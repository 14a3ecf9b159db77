import Verif.Model.EorEquality
/-!
# Helper lemmas: replacing equal or complementary operands
-/
namespace Verif.Lemmas.EorEquality

open Verif.Spec.BitTree Verif.Model.EorEquality

/-- the operands are the two, in one order or the other -/
def Same (s s' : St) : Prop := (s'.a = s.a ∧ s'.b = s.b) ∨ (s'.a = s.b ∧ s'.b = s.a)

/-- the result says whether the operands were exchanged; while replacing they never are -/
structure Track (s s' : St) : Prop where
  mono : s.replace = true → s'.replace = true ∧ s'.a = s.a ∧ s'.b = s.b
  late : s.replace = false → match s'.ret with
    | .notFound => s'.replace = false ∧ s'.a = s.a ∧ s'.b = s.b
    | .first => s'.replace = true ∧ s'.a = s.a ∧ s'.b = s.b
    | .second => s'.replace = true ∧ s'.a = s.b ∧ s'.b = s.a

theorem Track.trans {s s' s'' : St} (h1 : Track s s') (h2 : Track s' s'') (hk : s'.replace = true → s''.ret = s'.ret) : Track s s'' := by
  refine ⟨?_, ?_⟩
  · intro h
    obtain ⟨a1, a2, a3⟩ := h1.mono h
    obtain ⟨b1, b2, b3⟩ := h2.mono a1
    exact ⟨b1, b2.trans a2, b3.trans a3⟩
  · intro h
    have h1' := h1.late h
    cases hr : s'.ret with
    | notFound =>
      rw [hr] at h1'
      have h2' := h2.late h1'.1
      rw [h1'.2.1, h1'.2.2] at h2'
      exact h2'
    | first =>
      rw [hr] at h1'
      rw [hk h1'.1, hr]
      obtain ⟨b1, b2, b3⟩ := h2.mono h1'.1
      exact ⟨b1, b2.trans h1'.2.1, b3.trans h1'.2.2⟩
    | second =>
      rw [hr] at h1'
      rw [hk h1'.1, hr]
      obtain ⟨b1, b2, b3⟩ := h2.mono h1'.1
      exact ⟨b1, b2.trans h1'.2.1, b3.trans h1'.2.2⟩

/-- a call leaves the loop variables as its loop left them -/
theorem after_track (s q : St) (h0 : s.replace = false → s.ret = .notFound)
    (h : Track { s with ret := Res.ofBool s.replace } q) (hkeep : s.replace = true → q.ret = .first) :
    (s.after q.ret).a = q.a ∧ (s.after q.ret).b = q.b ∧ (s.after q.ret).replace = q.replace ∧ Track s (s.after q.ret) ∧
      (s.replace = true → (s.after q.ret).ret = s.ret) ∧ (s.replace = false → (s.after q.ret).ret = q.ret) := by
  cases hr : s.replace with
  | true =>
    have e := hkeep hr
    obtain ⟨m1, m2, m3⟩ := h.mono hr
    rw [e]
    simp only [St.after, hr, if_true]
    refine ⟨m2.symm, m3.symm, m1.symm, ⟨fun _ => ⟨rfl, rfl, rfl⟩, fun h => ?_⟩, fun _ => trivial, fun h => Bool.noConfusion h⟩
    rw [hr] at h; exact Bool.noConfusion h
  | false =>
    have l := h.late hr
    cases hq : q.ret with
    | notFound =>
      rw [hq] at l
      simp only [St.after]
      refine ⟨l.2.1.symm, l.2.2.symm, by rw [hr, l.1], ⟨fun h => ?_, fun _ => ?_⟩, fun h => Bool.noConfusion h, fun _ => h0 hr⟩
      · rw [hr] at h; exact Bool.noConfusion h
      · rw [h0 hr]; exact ⟨hr, rfl, rfl⟩
    | first =>
      rw [hq] at l
      simp only [St.after, hr]
      refine ⟨l.2.1.symm, l.2.2.symm, l.1.symm, ⟨fun h => ?_, fun _ => ?_⟩, fun h => Bool.noConfusion h, fun _ => rfl⟩
      · rw [hr] at h; exact Bool.noConfusion h
      · exact ⟨rfl, rfl, rfl⟩
    | second =>
      rw [hq] at l
      simp only [St.after, hr]
      refine ⟨l.2.1.symm, l.2.2.symm, l.1.symm, ⟨fun h => ?_, fun _ => ?_⟩, fun h => Bool.noConfusion h, fun _ => rfl⟩
      · rw [hr] at h; exact Bool.noConfusion h
      · exact ⟨rfl, rfl, rfl⟩

/-- a state of the loop: while nothing is found the result says so -/
def Fine (s : St) : Prop := s.replace = false → s.ret = .notFound

theorem child_track (β : Nat → Nat) (nn : Bool) (t : Tree) : ∀ s, Fine s →
    Track s (child β nn t s).2 ∧ Fine (child β nn t s).2 ∧ (s.replace = true → (child β nn t s).2.ret = s.ret) := by
  induction t with
  | atom i =>
    intro s h0
    rw [child]
    by_cases ha : i = s.a
    · rw [if_pos ha]
      cases hr : s.replace with
      | true => rw [if_pos rfl]; exact ⟨⟨fun _ => ⟨hr, rfl, rfl⟩, fun h => by rw [hr] at h; cases h⟩, h0, fun _ => rfl⟩
      | false =>
        rw [if_neg Bool.false_ne_true]
        exact ⟨⟨(fun h => by rw [hr] at h; cases h), fun _ => ⟨rfl, rfl, rfl⟩⟩, (fun h => by cases h), (fun h => by cases h)⟩
    · rw [if_neg ha]
      by_cases hb : i = s.b
      · rw [if_pos hb]
        cases hr : s.replace with
        | true => simp only [if_true]; exact ⟨⟨fun _ => ⟨hr, rfl, rfl⟩, fun h => by rw [hr] at h; cases h⟩, h0, fun _ => trivial⟩
        | false =>
          simp only [Bool.false_eq_true, if_false]
          exact ⟨⟨(fun h => by rw [hr] at h; cases h), fun _ => ⟨rfl, rfl, rfl⟩⟩, (fun h => by cases h), (fun h => by cases h)⟩
      · rw [if_neg hb]
        cases hr : s.replace with
        | true =>
          simp only [Res.ofBool, St.after, hr, if_true]
          exact ⟨⟨fun _ => ⟨rfl, rfl, rfl⟩, fun h => by rw [hr] at h; cases h⟩, (fun h => by cases h), fun _ => trivial⟩
        | false =>
          simp only [Res.ofBool, St.after]
          exact ⟨⟨(fun h => by rw [hr] at h; cases h), fun _ => by rw [h0 hr]; exact ⟨hr, rfl, rfl⟩⟩, h0, (fun h => by cases h)⟩
  | bin k blk l r ihl ihr =>
    intro s h0
    rw [child]
    have f0 : Fine { s with ret := Res.ofBool s.replace } := fun h => by
      have h : s.replace = false := h
      show Res.ofBool s.replace = _
      rw [h]; rfl
    obtain ⟨t1, f1, k1⟩ := ihl _ f0
    obtain ⟨t2, f2, k2⟩ := ihr _ f1
    have ht := t1.trans t2 k2
    have hkeep : s.replace = true → (child β nn r (child β nn l { s with ret := Res.ofBool s.replace }).2).2.ret = .first := by
      intro h
      rw [k2 (t1.mono h).1, k1 h]
      show Res.ofBool s.replace = _
      rw [h]; rfl
    obtain ⟨_, _, e3, t, e4, e5⟩ := after_track s _ h0 ht hkeep
    refine ⟨t, ?_, e4⟩
    intro h
    rcases Bool.eq_false_or_eq_true s.replace with hr | hr
    · exact absurd ((t.mono hr).1.symm.trans h) (by decide)
    · exact (e5 hr).trans (f2 (e3.symm.trans h))
  | not blk x ih =>
    intro s h0
    rw [child]
    have f0 : Fine { s with ret := Res.ofBool s.replace } := fun h => by
      have h : s.replace = false := h
      show Res.ofBool s.replace = _
      rw [h]; rfl
    obtain ⟨t1, f1, k1⟩ := ih _ f0
    have hkeep : s.replace = true → (child β nn x { s with ret := Res.ofBool s.replace }).2.ret = .first := by
      intro h
      rw [k1 h]
      show Res.ofBool s.replace = _
      rw [h]; rfl
    obtain ⟨_, _, e3, t, e4, e5⟩ := after_track s _ h0 t1 hkeep
    refine ⟨t, ?_, e4⟩
    intro h
    rcases Bool.eq_false_or_eq_true s.replace with hr | hr
    · exact absurd ((t.mono hr).1.symm.trans h) (by decide)
    · exact (e5 hr).trans (f1 (e3.symm.trans h))

/-- the loop of a node: its operands one after the other, and the variables are those of the last operand -/
theorem child_bin (β : Nat → Nat) (nn : Bool) (k : Kind) (blk : Nat) (l r : Tree) (s : St) (h0 : Fine s) :
    ∃ s1 s2, s1 = (child β nn l { s with ret := Res.ofBool s.replace }).2 ∧ s2 = (child β nn r s1).2 ∧ Fine { s with ret := Res.ofBool s.replace } ∧ Fine s1 ∧
      (child β nn (.bin k blk l r) s).1 = .bin k blk (child β nn l { s with ret := Res.ofBool s.replace }).1 (child β nn r s1).1 ∧
      (child β nn (.bin k blk l r) s).2.a = s2.a ∧ (child β nn (.bin k blk l r) s).2.b = s2.b ∧ (child β nn (.bin k blk l r) s).2.replace = s2.replace := by
  have f0 : Fine { s with ret := Res.ofBool s.replace } := fun h => by
    have h : s.replace = false := h
    show Res.ofBool s.replace = _
    rw [h]; rfl
  obtain ⟨t1, f1, k1⟩ := child_track β nn l _ f0
  obtain ⟨t2, f2, k2⟩ := child_track β nn r _ f1
  have ht := t1.trans t2 k2
  have hkeep : s.replace = true → (child β nn r (child β nn l { s with ret := Res.ofBool s.replace }).2).2.ret = .first := by
    intro h
    rw [k2 (t1.mono h).1, k1 h]
    show Res.ofBool s.replace = _
    rw [h]; rfl
  obtain ⟨e1, e2, e3, _, _, _⟩ := after_track s _ h0 ht hkeep
  exact ⟨_, _, rfl, rfl, f0, f1, by rw [child], by rw [child]; exact e1, by rw [child]; exact e2, by rw [child]; exact e3⟩

theorem child_not (β : Nat → Nat) (nn : Bool) (blk : Nat) (x : Tree) (s : St) (h0 : Fine s) :
    ∃ s1, s1 = (child β nn x { s with ret := Res.ofBool s.replace }).2 ∧ Fine { s with ret := Res.ofBool s.replace } ∧
      (child β nn (.not blk x) s).1 = .not blk (child β nn x { s with ret := Res.ofBool s.replace }).1 ∧
      (child β nn (.not blk x) s).2.a = s1.a ∧ (child β nn (.not blk x) s).2.b = s1.b ∧ (child β nn (.not blk x) s).2.replace = s1.replace := by
  have f0 : Fine { s with ret := Res.ofBool s.replace } := fun h => by
    have h : s.replace = false := h
    show Res.ofBool s.replace = _
    rw [h]; rfl
  obtain ⟨t1, f1, k1⟩ := child_track β nn x _ f0
  have hkeep : s.replace = true → (child β nn x { s with ret := Res.ofBool s.replace }).2.ret = .first := by
    intro h
    rw [k1 h]
    show Res.ofBool s.replace = _
    rw [h]; rfl
  obtain ⟨e1, e2, e3, _, _, _⟩ := after_track s _ h0 t1 hkeep
  exact ⟨_, rfl, f0, by rw [child], by rw [child]; exact e1, by rw [child]; exact e2, by rw [child]; exact e3⟩

/-- the value is kept if the two are equal, or complementary -/
theorem child_value (β : Nat → Nat) (nn : Bool) (ρ : Nat → Bool) (t : Tree) : ∀ s, Fine s → ρ s.a = (ρ s.b ^^ nn) →
    (child β nn t s).1.eval ρ = t.eval ρ ∧ ρ (child β nn t s).2.a = (ρ (child β nn t s).2.b ^^ nn) := by
  have hsym : ∀ x y, ρ x = (ρ y ^^ nn) → ρ y = (ρ x ^^ nn) := by
    intro x y h; rw [h]; cases ρ y <;> cases nn <;> rfl
  induction t with
  | atom i =>
    intro s _ h
    rw [child]
    by_cases ha : i = s.a
    · rw [if_pos ha]
      cases hr : s.replace with
      | true =>
        rw [if_pos rfl]
        refine ⟨?_, h⟩
        cases nn with
        | true => simp only [if_true, Tree.eval]; rw [ha, h]; cases ρ s.b <;> rfl
        | false => simp only [Bool.false_eq_true, if_false, Tree.eval]; rw [ha, h]; cases ρ s.b <;> rfl
      | false => rw [if_neg Bool.false_ne_true]; exact ⟨rfl, hsym _ _ h⟩
    · rw [if_neg ha]
      by_cases hb : i = s.b
      · rw [if_pos hb]
        refine ⟨rfl, ?_⟩
        by_cases hr : s.replace = true
        · simp only [if_pos hr]; exact h
        · simp only [if_neg hr]; exact h
      · rw [if_neg hb]
        refine ⟨rfl, ?_⟩
        cases s.replace <;> exact h
  | bin k blk l r ihl ihr =>
    intro s h0 h
    obtain ⟨s1, s2, e1, e2, f0, f1, e, ea, eb, _⟩ := child_bin β nn k blk l r s h0
    obtain ⟨v1, r1⟩ := ihl _ f0 h
    rw [← e1] at r1
    obtain ⟨v2, r2⟩ := ihr s1 f1 r1
    rw [← e2] at r2
    rw [e, ea, eb]
    exact ⟨by simp only [Tree.eval, v1, v2], r2⟩
  | not blk x ih =>
    intro s h0 h
    obtain ⟨s1, e1, f0, e, ea, eb, _⟩ := child_not β nn blk x s h0
    obtain ⟨v1, r1⟩ := ih _ f0 h
    rw [← e1] at r1
    rw [e, ea, eb]
    exact ⟨by simp only [Tree.eval, v1], r1⟩

/-- the root keeps its block if it is not an atom, and an atom stays or becomes one of the same block -/
theorem child_placed (β : Nat → Nat) (nn : Bool) (t : Tree) : ∀ s, Fine s → (s.replace = true ∧ β s.b ≤ β s.a ∨ β s.a = β s.b) → t.Placed β →
    (child β nn t s).1.Placed β ∧ (child β nn t s).1.blk β ≤ t.blk β ∧
      ((child β nn t s).2.replace = true ∧ β (child β nn t s).2.b ≤ β (child β nn t s).2.a ∨ β (child β nn t s).2.a = β (child β nn t s).2.b) := by
  induction t with
  | atom i =>
    intro s _ h _
    rw [child]
    by_cases ha : i = s.a
    · rw [if_pos ha]
      cases hr : s.replace with
      | true =>
        rw [if_pos rfl]
        have hle : β s.b ≤ β i := by
          rw [ha]
          rcases h with h | h
          · exact h.2
          · rw [h]; exact Nat.le_refl _
        cases nn with
        | true => exact ⟨⟨Nat.le_refl _, trivial⟩, hle, h⟩
        | false => exact ⟨trivial, hle, h⟩
      | false =>
        rw [if_neg Bool.false_ne_true]
        refine ⟨trivial, Nat.le_refl _, Or.inr ?_⟩
        rcases h with h | h
        · rw [hr] at h; cases h.1
        · exact h.symm
    · rw [if_neg ha]
      by_cases hb : i = s.b
      · rw [if_pos hb]
        refine ⟨trivial, Nat.le_refl _, ?_⟩
        by_cases hr : s.replace = true
        · simp only [if_pos hr]; exact h
        · simp only [if_neg hr]
          rcases h with h | h
          · exact absurd h.1 hr
          · exact Or.inr h
      · rw [if_neg hb]
        refine ⟨trivial, Nat.le_refl _, ?_⟩
        cases hr : s.replace with
        | true =>
          rcases h with h | h
          · exact Or.inl ⟨rfl, h.2⟩
          · exact Or.inr h
        | false =>
          rcases h with h | h
          · rw [hr] at h; cases h.1
          · exact Or.inr h
  | bin k blk l r ihl ihr =>
    intro s h0 h hp
    obtain ⟨s1, s2, e1, e2, f0, f1, e, ea, eb, er⟩ := child_bin β nn k blk l r s h0
    obtain ⟨p1, b1, r1⟩ := ihl _ f0 h hp.2.2.1
    rw [← e1] at r1
    obtain ⟨p2, b2, r2⟩ := ihr s1 f1 r1 hp.2.2.2
    rw [← e2] at r2
    rw [e, ea, eb, er]
    exact ⟨⟨Nat.le_trans b1 hp.1, Nat.le_trans b2 hp.2.1, p1, p2⟩, Nat.le_refl _, r2⟩
  | not blk x ih =>
    intro s h0 h hp
    obtain ⟨s1, e1, f0, e, ea, eb, er⟩ := child_not β nn blk x s h0
    obtain ⟨p1, b1, r1⟩ := ih _ f0 h hp.2
    rw [← e1] at r1
    rw [e, ea, eb, er]
    exact ⟨⟨Nat.le_trans b1 hp.1, p1⟩, Nat.le_refl _, r1⟩

/-- what has been visited: nothing of the two as long as nothing is found, then only one of them -/
theorem child_has (β : Nat → Nat) (nn : Bool) (t : Tree) : ∀ s, Fine s → s.a ≠ s.b →
    (child β nn t s).1.has (child β nn t s).2.a = false ∧
      ((child β nn t s).2.replace = false → (child β nn t s).1.has (child β nn t s).2.b = false) := by
  induction t with
  | atom i =>
    intro s _ hne
    rw [child]
    by_cases ha : i = s.a
    · rw [if_pos ha]
      cases hr : s.replace with
      | true =>
        rw [if_pos rfl]
        refine ⟨?_, fun h => by rw [hr] at h; cases h⟩
        cases nn <;> simp [Tree.has, hne]
      | false =>
        rw [if_neg Bool.false_ne_true]
        refine ⟨?_, fun h => by cases h⟩
        simp only [Tree.has, ha]
        simpa using fun h => hne h.symm
    · rw [if_neg ha]
      by_cases hb : i = s.b
      · rw [if_pos hb]
        by_cases hr : s.replace = true
        · simp only [if_pos hr]
          exact ⟨by simpa [Tree.has, hb] using hne, fun h => by rw [hr] at h; cases h⟩
        · simp only [if_neg hr]
          exact ⟨by simpa [Tree.has, hb] using hne, fun h => by cases h⟩
      · rw [if_neg hb]
        cases hr : s.replace with
        | true =>
          refine ⟨?_, fun h => by cases h⟩
          simpa [Tree.has, Res.ofBool, St.after] using fun h => ha h.symm
        | false =>
          refine ⟨?_, fun _ => ?_⟩
          · simpa [Tree.has, Res.ofBool, St.after] using fun h => ha h.symm
          · simpa [Tree.has, Res.ofBool, St.after] using fun h => hb h.symm
  | bin k blk l r ihl ihr =>
    intro s h0 hne
    obtain ⟨s1, s2, e1, e2, f0, f1, e, ea, eb, er⟩ := child_bin β nn k blk l r s h0
    obtain ⟨a1, b1⟩ := ihl _ f0 hne
    obtain ⟨t1, _, _⟩ := child_track β nn l _ f0
    rw [← e1] at a1 b1 t1
    have hne1 : s1.a ≠ s1.b := by
      cases hr : s.replace with
      | true => obtain ⟨_, x, y⟩ := t1.mono hr; rw [x, y]; exact hne
      | false =>
        have := t1.late hr
        cases hq : s1.ret <;> rw [hq] at this
        · rw [this.2.1, this.2.2]; exact hne
        · rw [this.2.1, this.2.2]; exact hne
        · rw [this.2.1, this.2.2]; exact hne.symm
    obtain ⟨a2, b2⟩ := ihr s1 f1 hne1
    obtain ⟨t2, _, _⟩ := child_track β nn r s1 f1
    rw [← e2] at a2 b2 t2
    rw [e, ea, eb, er]
    have hl : (child β nn l { s with ret := Res.ofBool s.replace }).1.has s2.a = false := by
      cases hr : s1.replace with
      | true => obtain ⟨_, x, _⟩ := t2.mono hr; rw [x]; exact a1
      | false =>
        have := t2.late hr
        cases hq : s2.ret <;> rw [hq] at this
        · rw [this.2.1]; exact a1
        · rw [this.2.1]; exact a1
        · rw [this.2.1]; exact b1 hr
    refine ⟨by simp only [Tree.has, hl, a2, Bool.or_false], fun h => ?_⟩
    have hr1 : s1.replace = false := by
      cases hr : s1.replace with
      | false => rfl
      | true => rw [(t2.mono hr).1] at h; cases h
    have hl' : (child β nn l { s with ret := Res.ofBool s.replace }).1.has s2.b = false := by
      have := t2.late hr1
      cases hq : s2.ret <;> rw [hq] at this
      · rw [this.2.2]; exact b1 hr1
      · rw [this.1] at h; cases h
      · rw [this.1] at h; cases h
    simp only [Tree.has, hl', b2 h, Bool.or_false]
  | not blk x ih =>
    intro s h0 hne
    obtain ⟨s1, e1, f0, e, ea, eb, er⟩ := child_not β nn blk x s h0
    obtain ⟨a1, b1⟩ := ih _ f0 hne
    rw [← e1] at a1 b1
    rw [e, ea, eb, er]
    exact ⟨by simp only [Tree.has, a1], fun h => by simp only [Tree.has, b1 h]⟩

end Verif.Lemmas.EorEquality
