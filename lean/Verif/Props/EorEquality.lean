import Verif.Lemmas.EorEquality
/-!
# Equal and complementary operands, chains of bit operations (C120)
-/
namespace Verif.Props.EorEquality

open Verif.Spec.BitTree Verif.Model.EorEquality Verif.Lemmas.EorEquality

/-- what is said about an operand is true: an Eor of two atoms, or the Not of one, has the value of the tree -/
def Arg.Ok (ρ : Nat → Bool) (x : Arg) : Prop :=
  ∀ neg a b, x.eor = some (neg, a, b) → x.tree.eval ρ = ((ρ a ^^ ρ b) ^^ neg)

theorem replaceUntil_value (β : Nat → Nat) (nn : Bool) (ρ : Nat → Bool) (t : Tree) (a b : Nat) (replace : Bool) (h : ρ a = (ρ b ^^ nn)) :
    (replaceUntil β nn t a b replace).eval ρ = t.eval ρ := by
  unfold replaceUntil
  split
  · rfl
  · exact (child_value β nn ρ t ⟨a, b, replace, .notFound⟩ (fun _ => rfl) h).1

theorem equalityOn_value (β : Nat → Nat) (isConst : Nat → Bool) (notOf : Nat → Option Nat) (nn : Bool) (ρ : Nat → Bool)
    (hnot : ∀ i j, notOf i = some j → ρ i = !ρ j) (a b : Nat) (r : Tree) (h : ρ a = (ρ b ^^ nn)) :
    (equalityOn β isConst notOf nn a b r).eval ρ = r.eval ρ := by
  have hsym : ρ b = (ρ a ^^ nn) := by rw [h]; cases ρ b <;> cases nn <;> rfl
  unfold equalityOn
  by_cases he : a = b
  · rw [if_pos he]
  rw [if_neg he]
  by_cases hb : isConst b = true
  · rw [if_pos hb]; exact replaceUntil_value β nn ρ r a b true h
  rw [if_neg hb]
  by_cases ha : isConst a = true
  · rw [if_pos ha]; exact replaceUntil_value β nn ρ r b a true hsym
  rw [if_neg ha]
  apply replaceUntil_value
  cases hna : notOf a with
  | none =>
    cases hnb : notOf b with
    | none => exact h
    | some b' => show ρ a = (ρ b' ^^ !nn); rw [h, hnot b b' hnb]; cases ρ b' <;> cases nn <;> rfl
  | some a' =>
    have e := hnot a a' hna
    rw [h] at e
    cases hnb : notOf b with
    | none => show ρ a' = (ρ b ^^ !nn); revert e; cases ρ b <;> cases nn <;> cases ρ a' <;> decide
    | some b' =>
      show ρ a' = (ρ b' ^^ !!nn)
      rw [hnot b b' hnb] at e
      revert e; cases ρ b' <;> cases nn <;> cases ρ a' <;> decide

/-- **The value of the And or Or stays** when `walk_equality` replaces operands below it, for all values of the operands. -/
theorem walk_equality_right (β : Nat → Nat) (isConst : Nat → Bool) (notOf : Nat → Option Nat) (isAnd : Bool) (l r : Arg) (ρ : Nat → Bool)
    (hnot : ∀ i j, notOf i = some j → ρ i = !ρ j) (hl : Arg.Ok ρ l) (hr : Arg.Ok ρ r) (blk : Nat) :
    (Tree.bin (if isAnd then .and else .or) blk (walkEquality β isConst notOf isAnd l r).1 (walkEquality β isConst notOf isAnd l r).2).eval ρ =
      (Tree.bin (if isAnd then .and else .or) blk l.tree r.tree).eval ρ := by
  -- where the Eor decides nothing, the two are related
  have key : ∀ (neg : Bool) (a b : Nat) (x y : Tree), x.eval ρ = ((ρ a ^^ ρ b) ^^ neg) →
      (x.eval ρ = isAnd → (equalityOn β isConst notOf (isAnd ^^ neg) a b y).eval ρ = y.eval ρ) := by
    intro neg a b x y hx hv
    apply equalityOn_value β isConst notOf _ ρ hnot
    rw [hx] at hv
    rw [← hv]; cases ρ a <;> cases ρ b <;> cases neg <;> rfl
  have fin1 : ∀ x y y' : Tree, (x.eval ρ = isAnd → y'.eval ρ = y.eval ρ) →
      (Tree.bin (if isAnd then .and else .or) blk x y').eval ρ = (Tree.bin (if isAnd then .and else .or) blk x y).eval ρ := by
    intro x y y' h
    cases isAnd with
    | true =>
      simp only [if_true, Tree.eval, Kind.eval]
      cases hx : x.eval ρ with
      | true => rw [h hx]
      | false => rfl
    | false =>
      simp only [Bool.false_eq_true, if_false, Tree.eval, Kind.eval]
      cases hx : x.eval ρ with
      | true => rfl
      | false => rw [h hx]
  have fin2 : ∀ x y y' : Tree, (x.eval ρ = isAnd → y'.eval ρ = y.eval ρ) →
      (Tree.bin (if isAnd then .and else .or) blk y' x).eval ρ = (Tree.bin (if isAnd then .and else .or) blk y x).eval ρ := by
    intro x y y' h
    have := fin1 x y y' h
    cases isAnd with
    | true => simp only [if_true, Tree.eval, Kind.eval] at this ⊢; rw [Bool.and_comm, this, Bool.and_comm]
    | false => simp only [Bool.false_eq_true, if_false, Tree.eval, Kind.eval] at this ⊢; rw [Bool.or_comm, this, Bool.or_comm]
  have ht : ∀ b : Bool, (!b) = (b ^^ true) := by decide
  have hf : ∀ b : Bool, b = (b ^^ false) := by decide
  have L1 : ∀ a b, l.eor = some (true, a, b) → l.tree.eval ρ = isAnd →
      (equalityOn β isConst notOf (!isAnd) a b r.tree).eval ρ = r.tree.eval ρ := by
    intro a b h; rw [ht]; exact key true a b _ _ (hl _ _ _ h)
  have L0 : ∀ a b, l.eor = some (false, a, b) → l.tree.eval ρ = isAnd →
      (equalityOn β isConst notOf isAnd a b r.tree).eval ρ = r.tree.eval ρ := by
    intro a b h
    have := key false a b _ r.tree (hl _ _ _ h)
    rw [← hf] at this
    exact this
  have R1 : ∀ a b, r.eor = some (true, a, b) → r.tree.eval ρ = isAnd →
      (equalityOn β isConst notOf (!isAnd) a b l.tree).eval ρ = l.tree.eval ρ := by
    intro a b h; rw [ht]; exact key true a b _ _ (hr _ _ _ h)
  have R0 : ∀ a b, r.eor = some (false, a, b) → r.tree.eval ρ = isAnd →
      (equalityOn β isConst notOf isAnd a b l.tree).eval ρ = l.tree.eval ρ := by
    intro a b h
    have := key false a b _ l.tree (hr _ _ _ h)
    rw [← hf] at this
    exact this
  rcases hle : l.eor with _ | ⟨n1, a1, b1⟩
  · rcases hre : r.eor with _ | ⟨n2, a2, b2⟩
    · simp only [walkEquality, hle, hre]
    · cases n2
      · simp only [walkEquality, hle, hre]; exact fin2 _ _ _ (R0 _ _ hre)
      · simp only [walkEquality, hle, hre]; exact fin2 _ _ _ (R1 _ _ hre)
  · cases n1
    · rcases hre : r.eor with _ | ⟨n2, a2, b2⟩
      · simp only [walkEquality, hle, hre]; exact fin1 _ _ _ (L0 _ _ hle)
      · cases n2
        · simp only [walkEquality, hle, hre]; exact fin2 _ _ _ (R0 _ _ hre)
        · simp only [walkEquality, hle, hre]; exact fin2 _ _ _ (R1 _ _ hre)
    · simp only [walkEquality, hle]; exact fin1 _ _ _ (L1 _ _ hle)

/-- **One of the two is left.**  If operands are replaced at all, the tree does not mention both afterwards. -/
theorem replace_leaves_one (β : Nat → Nat) (nn : Bool) (t : Tree) (a b : Nat) (hne : a ≠ b) (replace : Bool) (ht : ∀ i, t ≠ .atom i) :
    (replaceUntil β nn t a b replace).has a = false ∨ (replaceUntil β nn t a b replace).has b = false := by
  have e : replaceUntil β nn t a b replace = (child β nn t ⟨a, b, replace, .notFound⟩).1 := by
    unfold replaceUntil
    split
    · rename_i i; exact absurd rfl (ht i)
    · rfl
  have h := (child_has β nn t ⟨a, b, replace, .notFound⟩ (fun _ => rfl) hne).1
  obtain ⟨tr, _, _⟩ := child_track β nn t ⟨a, b, replace, .notFound⟩ (fun _ => rfl)
  rw [e]
  cases hr : replace with
  | true =>
    subst hr
    rw [(tr.mono rfl).2.1] at h
    exact Or.inl h
  | false =>
    subst hr
    have := tr.late rfl
    cases hq : (child β nn t ⟨a, b, false, .notFound⟩).2.ret <;> rw [hq] at this
    · rw [this.2.1] at h; exact Or.inl h
    · rw [this.2.1] at h; exact Or.inl h
    · rw [this.2.1] at h; exact Or.inr h

/-- **Operands stay available** if the two are defined in the same block, or the one put in is a constant or defined before the other.  The full claim, for any two
operands of the Eor, is false (`replace_not_available`). -/
theorem replace_available_partial (β : Nat → Nat) (nn : Bool) (t : Tree) (a b : Nat) (replace : Bool)
    (h : replace = true ∧ β b ≤ β a ∨ β a = β b) (hp : t.Placed β) :
    (replaceUntil β nn t a b replace).Placed β ∧ (replaceUntil β nn t a b replace).blk β ≤ t.blk β := by
  unfold replaceUntil
  split
  · exact ⟨hp, Nat.le_refl _⟩
  · have := child_placed β nn t ⟨a, b, replace, .notFound⟩ (fun _ => rfl) h hp
    exact ⟨this.1, this.2.1⟩

/-- **An operand is used before it is defined.**  `(a ^ b) & ((b & y) | (a & x))` with `a & x` in the block of `a`, and `b` defined later: `b` is found first, and `a & x`
becomes `~b & x` in the earlier block. -/
theorem replace_not_available :
    ∃ (β : Nat → Nat) (l r : Arg), (∀ ρ : Nat → Bool, (ρ 4 = (ρ 0 ^^ ρ 1)) → Arg.Ok ρ l ∧ Arg.Ok ρ r) ∧
      (Tree.bin .and 1 l.tree r.tree).Placed β ∧ β 4 = 1 ∧ β 0 = 0 ∧ β 1 = 1 ∧
      ¬ (Tree.bin .and 1 (walkEquality β (fun _ => false) (fun _ => none) true l r).1
        (walkEquality β (fun _ => false) (fun _ => none) true l r).2).Placed β := by
  -- a 0, b 1, x 2, y 3, a ^ b 4; the tree on the right is an Or so that the Eor is on the left
  refine ⟨fun i => if i = 1 ∨ i = 4 then 1 else 0, ⟨.atom 4, some (false, 0, 1)⟩,
    ⟨.bin .or 1 (.bin .and 1 (.atom 1) (.atom 3)) (.bin .and 0 (.atom 0) (.atom 2)), none⟩, ?_, ?_, rfl, rfl, rfl, ?_⟩
  · intro ρ h
    refine ⟨?_, fun _ _ _ h => by cases h⟩
    intro neg a b e
    cases e
    show ρ 4 = _
    rw [h]; cases ρ 0 <;> cases ρ 1 <;> rfl
  · simp [Tree.Placed, Tree.blk]
  · simp [walkEquality, equalityOn, replaceUntil, child, St.after, Res.ofBool, Tree.Placed, Tree.blk]

theorem walkChains_right (β : Nat → Nat) (bitAtom : Nat → Bool) (t t' : Tree) (h : walkChains β bitAtom t = some t') :
    (∀ ρ, t'.eval ρ = t.eval ρ) ∧ (t.Placed β → t'.Placed β) ∧ t'.blk β = t.blk β := by
  have comm : ∀ (k : Kind) x y z, k.eval (k.eval z y) x = k.eval (k.eval x y) z := by intro k; cases k <;> decide
  have comm2 : ∀ (k : Kind) x y z, k.eval (k.eval x z) y = k.eval (k.eval x y) z := by intro k; cases k <;> decide
  have comm3 : ∀ (k : Kind) x y z, k.eval y (k.eval x z) = k.eval x (k.eval y z) := by intro k; cases k <;> decide
  have comm4 : ∀ (k : Kind) x y z, k.eval z (k.eval y x) = k.eval x (k.eval y z) := by intro k; cases k <;> decide
  unfold walkChains at h
  cases hl : chainLeft β bitAtom t with
  | some t1 =>
    rw [hl] at h
    cases h
    unfold chainLeft at hl
    split at hl
    · rename_i k blk k' blk' l r b
      split at hl
      · rename_i hk
        obtain ⟨hk, _⟩ := hk
        subst hk
        split at hl
        · split at hl
          · rename_i he
            cases hl
            refine ⟨fun ρ => comm _ _ _ _, ?_, rfl⟩
            rintro ⟨h1, h2, ⟨h3, h4, h5, h6⟩, h7⟩
            exact ⟨h1, by rw [he]; exact h2, ⟨by rw [← he]; exact h3, h4, h7, h6⟩, h5⟩
          · cases hl
        · split at hl
          · split at hl
            · rename_i he
              cases hl
              refine ⟨fun ρ => comm2 _ _ _ _, ?_, rfl⟩
              rintro ⟨h1, h2, ⟨h3, h4, h5, h6⟩, h7⟩
              exact ⟨h1, by rw [he]; exact h2, ⟨h3, by rw [← he]; exact h4, h5, h7⟩, h6⟩
            · cases hl
          · cases hl
      · cases hl
    · cases hl
  | none =>
    rw [hl] at h
    dsimp only at h
    unfold chainRight at h
    split at h
    · rename_i k blk a k' blk' l r
      split at h
      · rename_i hk
        obtain ⟨hk, _⟩ := hk
        subst hk
        split at h
        · split at h
          · rename_i he
            cases h
            refine ⟨fun ρ => comm3 _ _ _ _, ?_, rfl⟩
            rintro ⟨h1, h2, h7, ⟨h3, h4, h5, h6⟩⟩
            exact ⟨by rw [he]; exact h1, h2, h5, ⟨by rw [← he]; exact h3, h4, h7, h6⟩⟩
          · cases h
        · split at h
          · split at h
            · rename_i he
              cases h
              refine ⟨fun ρ => comm4 _ _ _ _, ?_, rfl⟩
              rintro ⟨h1, h2, h7, ⟨h3, h4, h5, h6⟩⟩
              exact ⟨by rw [he]; exact h1, h2, h6, ⟨h3, by rw [← he]; exact h4, h5, h7⟩⟩
            · cases h
          · cases h
      · cases h
    · cases h

/-- **Chains** keep the value of the tree and the order of definitions and uses, whatever steps are taken where. -/
theorem chaining_right (β : Nat → Nat) (bitAtom : Nat → Bool) (t t' : Tree) (h : Chained β bitAtom t t') :
    (∀ ρ, t'.eval ρ = t.eval ρ) ∧ (t.Placed β → t'.Placed β) ∧ t'.blk β = t.blk β := by
  induction h with
  | refl t => exact ⟨fun _ => rfl, id, rfl⟩
  | step hs _ ih =>
    have := walkChains_right β bitAtom _ _ hs
    exact ⟨fun ρ => (ih.1 ρ).trans (this.1 ρ), fun hp => ih.2.1 (this.2.1 hp), ih.2.2.trans this.2.2⟩
  | left _ _ ih1 ih2 =>
    refine ⟨fun ρ => (ih2.1 ρ).trans ?_, fun hp => ih2.2.1 ⟨?_, hp.2.1, ih1.2.1 hp.2.2.1, hp.2.2.2⟩, ih2.2.2⟩
    · simp only [Tree.eval, ih1.1 ρ]
    · rw [ih1.2.2]; exact hp.1
  | right _ _ ih1 ih2 =>
    refine ⟨fun ρ => (ih2.1 ρ).trans ?_, fun hp => ih2.2.1 ⟨hp.1, ?_, hp.2.2.1, ih1.2.1 hp.2.2.2⟩, ih2.2.2⟩
    · simp only [Tree.eval, ih1.1 ρ]
    · rw [ih1.2.2]; exact hp.2.1
  | under _ _ ih1 ih2 =>
    refine ⟨fun ρ => (ih2.1 ρ).trans ?_, fun hp => ih2.2.1 ⟨?_, ih1.2.1 hp.2⟩, ih2.2.2⟩
    · simp only [Tree.eval, ih1.1 ρ]
    · rw [ih1.2.2]; exact hp.1

/-- **A step is taken where it should be**: an operand that is no bit operation moves up past one that is, if both are in the same block. -/
theorem chain_moves (β : Nat → Nat) (bitAtom : Nat → Bool) (k : Kind) (blk blk' : Nat) (l r b : Tree) (hb : isBitop bitAtom b = true)
    (hl : isBitop bitAtom l = false) (he : l.blk β = b.blk β) :
    walkChains β bitAtom (.bin k blk (.bin k blk' l r) b) = some (.bin k blk (.bin k blk' b r) l) := by
  have : chainLeft β bitAtom (.bin k blk (.bin k blk' l r) b) = some (.bin k blk (.bin k blk' b r) l) := by
    rw [chainLeft, if_pos ⟨rfl, hb⟩, if_pos (by rw [hl]; rfl), if_pos he]
  rw [walkChains, this]

/-! Cases -/

/-- `(a ^ b) & ((a | x) & (b ^ y))` becomes `(a ^ b) & ((a | x) & (~a ^ y))` -/
example : walkEquality (fun _ => 0) (fun _ => false) (fun _ => none) true ⟨.atom 9, some (false, 0, 1)⟩
      ⟨.bin .and 0 (.bin .or 0 (.atom 0) (.atom 2)) (.bin .eor 0 (.atom 1) (.atom 3)), none⟩ =
    (.atom 9, .bin .and 0 (.bin .or 0 (.atom 0) (.atom 2)) (.bin .eor 0 (.not 0 (.atom 0)) (.atom 3))) := by decide

/-- `~(a ^ 5) | (a & x)` becomes `~(a ^ 5) | (~5 & x)` -/
example : walkEquality (fun _ => 0) (fun i => i == 1) (fun _ => none) false ⟨.atom 9, some (true, 0, 1)⟩
      ⟨.bin .and 0 (.atom 0) (.atom 2), none⟩ = (.atom 9, .bin .and 0 (.not 0 (.atom 1)) (.atom 2)) := by decide

/-- only one of the two: nothing is replaced -/
example : replaceUntil (fun _ => 0) true (.bin .or 0 (.atom 0) (.bin .and 0 (.atom 0) (.atom 2))) 0 1 false =
    .bin .or 0 (.atom 0) (.bin .and 0 (.atom 0) (.atom 2)) := by decide

example : Arg.Ok (fun i => i == 0 || i == 9) ⟨.atom 9, some (false, 0, 1)⟩ := by
  intro neg a b e; cases e; decide

/-- `(x ^ n) ^ (p & q)`: x moves to the top -/
example : walkChains (fun _ => 0) (fun _ => false) (.bin .eor 0 (.bin .eor 0 (.atom 0) (.atom 1)) (.bin .and 0 (.atom 2) (.atom 3))) =
    some (.bin .eor 0 (.bin .eor 0 (.bin .and 0 (.atom 2) (.atom 3)) (.atom 1)) (.atom 0)) := by decide

end Verif.Props.EorEquality
